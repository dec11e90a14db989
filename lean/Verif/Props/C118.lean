import Verif.Lemmas.TreeDisplay
/-! # C118: a printed tree shows all of an array and its shares -/
namespace Vx.Own
open Vx

theorem shown_total {C : Compute} {size : Enc → List Nat → Nat} (hs : ∀ e, size e [] = 0) (a : Arr) (h : Built C a) :
    ((nodes a).map (shownBytes size)).sum = totalBytes size a := by
  rw [totalBytes]
  congr 1
  refine List.map_congr_left (fun x hx => ?_)
  unfold shownBytes
  split
  · rfl
  · rename_i hb
    obtain ⟨e, d, l, b, cs⟩ := x
    obtain ⟨c, _, _, _, hr⟩ := built_nodes a h _ hx
    have : b = [] := run_shows hr (by simpa [Arr.enc] using hb)
    subst this
    exact (hs e).symm

/-- **C118.** Printing an array that was built and hides no bitmap succeeds. There is one line for every array in the tree, in the order of the
traversal, indented by its depth, with its encoding, type and length, what `nbytes` says of it, and what `nbytes` says of the array it is a share
of: the root, or the chunk it is in. The bytes of the buffer lines are those of all buffers in the tree (an empty one has none). -/
theorem C118_lines_partial {C : Compute} (hC : C.Lawful) (size : Enc → List Nat → Nat) (hs : ∀ e, size e [] = 0) (a : Arr) (h : Built C a)
    (hw : Whole a) : ∃ (ls : List Line) (f : Arr → Nat), treeDisplay C size a = .ok ls ∧ (∀ x, Built C x → nbytes C size x = .ok (f x)) ∧
      ls.filterMap arrayLine = (placed 0 none a).map (fun p => (p.1, p.2.1.enc, p.2.1.dtype, p.2.1.len, f p.2.1, f p.2.2)) ∧
      (placed 0 none a).map (·.2.1) = nodes a ∧
      (ls.map bufferBytes).sum = totalBytes size a := by
  obtain ⟨ls, h1, h2, h3⟩ := display_built hC size a 0 none h hw
  refine ⟨ls, counted size, ?_, fun x hx => nbytes_built hC size x hx, h2, placed_nodes 0 none a, h3.trans (shown_total hs a h)⟩
  simp only [Option.map_none] at h1
  simp [treeDisplay, h1]

/-- **C118, shares.** If no bitmap is left out, every line tells the size of its array, and its share is of an array in the tree that is at least as
large: no share is over 100%. -/
theorem C118_shares_partial {C : Compute} (hC : C.Lawful) (size : Enc → List Nat → Nat) (a : Arr) (h : Built C a) (hc : Counted a) :
    ∃ ls, treeDisplay C size a = .ok ls ∧
      ls.filterMap arrayLine =
        (placed 0 none a).map (fun p => (p.1, p.2.1.enc, p.2.1.dtype, p.2.1.len, bytesOf size p.2.1, bytesOf size p.2.2)) ∧
      ∀ i e d l n t, Line.array i e d l n t ∈ ls → n ≤ t := by
  obtain ⟨ls, h1, h2, h3⟩ := display_built hC size a 0 none h (whole_of_counted hc)
  have hl : ls.filterMap arrayLine =
      (placed 0 none a).map (fun p => (p.1, p.2.1.enc, p.2.1.dtype, p.2.1.len, bytesOf size p.2.1, bytesOf size p.2.2)) := by
    rw [h2]
    refine List.map_congr_left (fun p hp => ?_)
    have m1 : p.2.1 ∈ nodes a := by rw [← placed_nodes 0 none a]; exact List.mem_map_of_mem hp
    have m2 : p.2.2 ∈ nodes a := by
      rcases placed_mem a 0 none p hp with hm | hm
      · exact hm
      · cases hm
    simp only [says, counted_of_mem size hc m1, counted_of_mem size hc m2]
  refine ⟨ls, ?_, hl, ?_⟩
  · simp only [Option.map_none] at h1
    simp [treeDisplay, h1]
  · intro i e d l n t hm
    have : (i, e, d, l, n, t) ∈ ls.filterMap arrayLine := List.mem_filterMap.mpr ⟨_, hm, rfl⟩
    rw [hl] at this
    obtain ⟨p, hp, he⟩ := List.mem_map.mp this
    have := placed_le size a 0 none (Nat.le_refl _) p hp
    simp only [Prod.mk.injEq] at he
    omega

/-- **C118, adding up.** If besides nothing is bit-packed, the buffers printed add up to the size printed for the root. -/
theorem C118_buffers_partial {C : Compute} (hC : C.Lawful) (size : Enc → List Nat → Nat) (hs : ∀ e, size e [] = 0)
    (a : Arr) (h : Built C a) (hw : Whole a) (hu : Unpacked a) :
    ∃ ls, treeDisplay C size a = .ok ls ∧ nbytes C size a = .ok (ls.map bufferBytes).sum := by
  obtain ⟨ls, _, h1, _, _, _, h3⟩ := C118_lines_partial hC size hs a h hw
  exact ⟨ls, h1, by rw [h3, C114_nbytes_partial hC size a h hw hu]⟩

/-- The chunks of a chunked array, and its offsets, are wholes of their own: the share of each is 100%. -/
theorem C118_chunks (n : Nat) (d : DType) (l : Nat) (b : List Nat) (cs : List Arr) (c : Arr) (hc : c ∈ cs) :
    (1, c, c) ∈ placed 0 none (.mk (.chunked n) d l b cs) := by
  rw [placed]
  refine List.mem_cons_of_mem _ ?_
  simp only [startsAnew, if_true]
  clear d l b
  induction cs with
  | nil => cases hc
  | cons x xs ih =>
    rw [placedAll]
    rcases List.mem_cons.mp hc with rfl | hm
    · obtain ⟨e, d, l, b, cc⟩ := c
      rw [placed]
      exact List.mem_append_left _ (List.mem_cons_self ..)
    · exact List.mem_append_right _ (ih hm)

/-- Within anything else, the share of a child is that of its parent's whole. -/
theorem C118_children (k : Nat) (w : Option Arr) (e : Enc) (he : ∀ n, e ≠ .chunked n) (d : DType) (l : Nat) (b : List Nat) (cs : List Arr) (c : Arr) (hc : c ∈ cs) :
    (k + 1, c, w.getD (.mk e d l b cs)) ∈ placed k w (.mk e d l b cs) := by
  have hs : startsAnew e = false := by cases e <;> first | rfl | exact absurd rfl (he _)
  rw [placed, hs]
  refine List.mem_cons_of_mem _ ?_
  simp only [Bool.false_eq_true, if_false]
  generalize w.getD (Arr.mk e d l b cs) = r
  clear hs he d l b
  induction cs with
  | nil => cases hc
  | cons x xs ih =>
    rw [placedAll]
    rcases List.mem_cons.mp hc with rfl | hm
    · obtain ⟨e', d', l', b', cc⟩ := c
      rw [placed]
      exact List.mem_append_left _ (List.mem_cons_self ..)
    · exact List.mem_append_right _ (ih hm)

/-! ## Cases -/

/-- Every value four bytes, ... -/
def four (_ : Enc) (b : List Nat) : Nat := 4 * b.length

/-- The run-end array of C114: four arrays, three of them a share of the root. -/
example : ∃ ls, treeDisplay plain four exRunEnd = .ok ls ∧
    ls.filterMap arrayLine = [(0, exRunEnd.enc, exRunEnd.dtype, 5, 20, 20), (1, (primArr .u16 [2, 5]).enc, .prim .u16 false, 2, 8, 20),
      (1, exValues.enc, exValues.dtype, 2, 8, 20), (1, exValidity.enc, .bool false, 5, 4, 20)] := ⟨_, rfl, rfl⟩

example : ∃ ls, treeDisplay plain four exRunEnd = .ok ls ∧ nbytes plain four exRunEnd = .ok (ls.map bufferBytes).sum :=
  C118_buffers_partial plain_lawful four (fun _ => rfl) _ built_exRunEnd whole_exRunEnd unpacked_exRunEnd

/-- Five bit-packed values of one bit, with a byte for each in the mask. -/
def exByteMask : Arr := .mk (.byteBool .nonNullable) (.bool false) 5 [1, 0, 1, 0, 1] []
def exOver : Arr := .mk (.bitPacked .array 1 0 false) (.prim .u8 true) 5 (List.replicate 128 0) [exByteMask]

set_option maxRecDepth 4000 in
theorem built_exOver : Built plain exOver := by
  have hb : Built plain exByteMask := .mk (.byteBool [1, 0, 1, 0, 1] .nonNullable) _ (by simp [Call.args, Valid.intoArray]) trivial rfl
  exact .mk (.bitPacked (List.replicate 128 0) .u8 (.array exByteMask) none 1 5 0) _
    (by simp only [Call.args, Valid.intoArray, optList, List.nil_append, List.mem_cons, List.not_mem_nil, or_false]
        rintro x rfl; exact hb) ⟨nofun, rfl⟩ rfl

set_option maxRecDepth 4000 in
/-- **C118 fails for nullable bit-packed arrays**: the bitmap is shown, but not counted in its parent; here its share is 500%. -/
theorem C118_over_100 : ∃ ls, treeDisplay plain (fun _ b => b.length) exOver = .ok ls ∧
    ls.filterMap arrayLine = [(0, exOver.enc, exOver.dtype, 5, 1, 1), (1, exByteMask.enc, .bool false, 5, 5, 1)] := ⟨_, rfl, rfl⟩

/-- An array without bytes is zero of zero: the line says `NaN%`. -/
theorem C118_nothing (size : Enc → List Nat → Nat) (hs : size .null [] = 0) (n : Nat) :
    treeDisplay plain size (.mk .null .null n [] []) = .ok [.array 0 .null .null n 0 0, .metadata 1 .null] := by
  simp [treeDisplay, display, displayAll, nbytes, nbytesAll, visits, ownBytes, sizeSlots, ownLines, showsBuffer, hs]

end Vx.Own
