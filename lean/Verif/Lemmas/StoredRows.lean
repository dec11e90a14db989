import Verif.Lemmas.StoredTree
import Verif.Spec.StoredRows
import Verif.Lemmas.WriteColumns
import Verif.Props.C91
/-! # The rows of stored arrays -/
namespace Vx.Store
open Own
open Layout (Rows Row)
open Vx.Tree (TVal Kind Codec WF WFs WFV LeafLaws)

variable {L : Type} {sc : Scalars} {S : Leaves L} {env : Tree.Env L} {leafRows : L → List SV} {ok : L → Prop} {C : Compute}

theorem storedEach_eq : ∀ cs : List Own.Arr, storedEach sc S env leafRows cs = cs.map (storedRows sc S env leafRows)
  | [] => rfl
  | c :: cs => by simp [storedEach, storedEach_eq cs]

theorem plainRows_length (a : Own.Arr) : (plainRows sc S env leafRows a).length = a.len := by
  unfold plainRows
  split
  · split <;> simp_all
  · simp

theorem stored_mk (a : Own.Arr) : storedRows sc S env leafRows a = nodeRows sc S env leafRows a (a.children.map (storedRows sc S env leafRows)) := by
  obtain ⟨e, d, l, b, cs⟩ := a
  simp only [storedRows, storedEach_eq, Arr.children]

theorem nodeRows_length (a : Own.Arr) (kids : List (Rows SV)) (h : ∀ n, a.enc ≠ .chunked n) : (nodeRows sc S env leafRows a kids).length = a.len := by
  unfold nodeRows
  split
  · rename_i he; exact absurd he (h _)
  · simp
  · simp
  · exact plainRows_length a

mutual
theorem stored_length : ∀ a : Own.Arr, Built C a → (storedRows sc S env leafRows a).length = a.len
  | .mk e d l b cs, h => by
    have ih := stored_lengths cs (built_children h)
    by_cases hx : ∃ n, e = .chunked n
    · obtain ⟨n, rfl⟩ := hx
      obtain ⟨os, chunks, h1, _, h3, h4, h5⟩ := built_chunked h rfl
      rw [stored_mk, h5, h1]
      simp only [children_mk] at h1
      simp only [nodeRows, Arr.enc, List.map_cons, List.tail_cons, List.length_flatten, List.map_map]
      congr 1
      apply List.map_congr_left
      intro c hc
      exact ih c (by rw [h1]; exact List.mem_cons_of_mem _ hc)
    · rw [stored_mk]
      exact nodeRows_length _ _ (fun n hn => hx ⟨n, hn⟩)
theorem stored_lengths : ∀ cs : List Own.Arr, (∀ x ∈ cs, Built C x) → ∀ x ∈ cs, (storedRows sc S env leafRows x).length = x.len
  | [], _ => by simp
  | c :: cs, h => by
    intro x hx
    rcases List.mem_cons.mp hx with he | hx
    · rw [he]; exact stored_length c (h c (List.mem_cons_self ..))
    · exact stored_lengths cs (fun y hy => h y (List.mem_cons_of_mem _ hy)) x hx
end

theorem stored_meaning : Meaning C (storedRows sc S env leafRows) where
  length := stored_length
  chunked := by
    intro a _
    obtain ⟨e, d, l, b, cs⟩ := a
    by_cases hx : ∃ n, e = .chunked n
    · obtain ⟨n, rfl⟩ := hx
      rw [stored_mk]
      simp only [Spec.parts, enc_mk, children_mk, nodeRows, List.flatMap, List.map_tail]
    · have : Spec.parts (.mk e d l b cs) = [.mk e d l b cs] := by
        unfold Spec.parts
        cases e <;> first | rfl | exact absurd ⟨_, rfl⟩ hx
      rw [this]; simp
  struct := by
    intro a v names ds nl _ he hv hd
    rw [stored_mk]
    rcases hv with rfl | rfl <;> simp only [nodeRows, he, hd]

/-! ## The rows of a tree's stored form -/

theorem toSVs_eq (fs : List (Str × Row SV)) : toSVs fs = fs.map fun f => toSV f.2 := by
  induction fs with
  | nil => rfl
  | cons f fs ih => obtain ⟨n, r⟩ := f; simp [toSVs, toSVp, ih]

theorem map_leaf (xs : List SV) : (xs.map Row.leaf).map toSV = xs := by
  rw [List.map_map]
  exact (List.map_congr_left (g := id) (fun x _ => by simp [toSV])).trans (List.map_id _)

theorem structRow_toSV : ∀ (names : List Str) (cols : List (Rows SV)) (i : Nat), names.length = cols.length → (∀ c ∈ cols, i < c.length) →
    toSV (Layout.structRow (names.zip cols) i) = Tree.structRow (cols.map (·.map toSV)) i := by
  intro names cols i hlen hi
  simp only [Layout.structRow, toSV, toSVs_eq, Tree.structRow, SV.list.injEq]
  induction cols generalizing names with
  | nil => cases names <;> simp
  | cons c cols ih =>
    cases names with
    | nil => simp at hlen
    | cons n names =>
      have h1 := hi c (List.mem_cons_self ..)
      have := ih names (by simpa using hlen) (fun c hc => hi c (List.mem_cons_of_mem _ hc))
      simp only [List.zip_cons_cons, List.filterMap_cons, List.getElem?_eq_getElem h1, Option.map_some, List.map_cons, this, List.getElem?_map, Option.getD_some]

section
variable (hl : ∀ l, ok l → env.len l = (leafRows l).length) (hS : StoreLaws C S env ok)

include hl hS in
theorem plainRows_phys (t : Tree.Arr L) (h : WF env leafRows ok t) (hf : Fits sc env t) :
    (plainRows sc S env leafRows (phys sc S env t)).map toSV = Tree.rows env leafRows t := by
  unfold plainRows
  rw [view_phys hS t h hf]
  simp only [phys_len hS t h, Tree.len_of hl t h, if_true]
  exact map_leaf _

set_option linter.unusedSectionVars false
include hl hS in
mutual
theorem stored_phys : ∀ t : Tree.Arr L, WF env leafRows ok t → Fits sc env t → (storedRows sc S env leafRows (phys sc S env t)).map toSV = Tree.rows env leafRows t
  | .chunked dt cs, h, hf => by
    simp only [WF] at h
    simp only [Fits] at hf
    have ih := storeds_phys cs h.1 hf.1
    rw [stored_mk]
    simp only [phys, nodeRows, Arr.enc, Arr.children, List.map_cons, List.tail_cons, Tree.rows, ← ih, List.map_flatten, List.map_map, Function.comp_def]
  | .struct names fs n v, h, hf => by
    have hp := plainRows_phys hl hS (.struct names fs n v) h hf
    simp only [WF] at h
    simp only [Fits] at hf
    have ih := storeds_phys fs h.2.1 hf.1
    have key : ∀ m : List Bool, m = List.replicate n true → ((List.range n).map (Layout.structRow (names.zip ((physs sc S env fs).map (storedRows sc S env leafRows))))).map toSV =
        Tree.structRows n (Tree.rowsEach env leafRows fs) m := by
      rintro m rfl
      simp only [Tree.structRows, List.map_map]
      apply List.map_congr_left
      intro i hi
      have hi' := List.mem_range.mp hi
      have hlt : ∀ c ∈ (physs sc S env fs).map (storedRows sc S env leafRows), i < c.length := by
        intro c hc
        have : (c.map toSV).length = n := h.2.2.1 _ (by rw [← ih]; exact List.mem_map.mpr ⟨c, hc, rfl⟩)
        rw [List.length_map] at this; omega
      simp only [Function.comp, List.getElem?_replicate, hi', if_true, Option.getD_some]
      rw [structRow_toSV names _ i (by rw [List.length_map, physs_length, h.1]) hlt, ih]
    rw [stored_mk]
    cases v with
    | nonNullable =>
      simp only [phys, vmeta, nodeRows, Arr.enc, Arr.dtype, Arr.len, Arr.children, Tree.rows, physV, List.append_nil]
      exact key _ rfl
    | allValid =>
      simp only [phys, vmeta, nodeRows, Arr.enc, Arr.dtype, Arr.len, Arr.children, Tree.rows, physV, List.append_nil]
      exact key _ rfl
    | allInvalid => exact hp
    | array a => exact hp
  | .leaf l, h, hf => by
    rw [stored_mk]
    have hp := plainRows_phys hl hS (.leaf l) h hf
    have he := hS.enc l h
    have : nodeRows sc S env leafRows (phys sc S env (.leaf l)) ((phys sc S env (.leaf l)).children.map (storedRows sc S env leafRows)) = plainRows sc S env leafRows (phys sc S env (.leaf l)) := by
      simp only [phys]
      unfold nodeRows
      split
      · rename_i h1; rw [h1] at he; simp [spelled] at he
      · rename_i h1 _; rw [h1] at he; simp [spelled] at he
      · rename_i h1 _; rw [h1] at he; simp [spelled] at he
      · rfl
    rw [this]; exact hp
  | .flat k vals v, h, hf => by
    rw [stored_mk]
    have hp := plainRows_phys hl hS (.flat k vals v) h hf
    cases k <;> exact hp
  | .null n, h, hf => by rw [stored_mk]; exact plainRows_phys hl hS (.null n) h hf
  | .const dt x n, h, hf => by rw [stored_mk]; exact plainRows_phys hl hS (.const dt x n) h hf
  | .ext id m s, h, hf => by rw [stored_mk]; exact plainRows_phys hl hS (.ext id m s) h hf
  | .sparse is values n off fill, h, hf => by rw [stored_mk]; exact plainRows_phys hl hS (.sparse is values n off fill) h hf
  | .dict codes values, h, hf => by rw [stored_mk]; exact plainRows_phys hl hS (.dict codes values) h hf
  | .runEnd ends values v off n, h, hf => by rw [stored_mk]; exact plainRows_phys hl hS (.runEnd ends values v off n) h hf
  | .mapped c enc, h, hf => by
    rw [stored_mk]
    have hp := plainRows_phys hl hS (.mapped c enc) h hf
    cases c <;> exact hp
  | .alpP e f enc patches, h, hf => by rw [stored_mk]; exact plainRows_phys hl hS (.alpP e f enc patches) h hf
theorem storeds_phys : ∀ cs : List (Tree.Arr L), WFs env leafRows ok cs → Fitss sc env cs →
    ((physs sc S env cs).map (storedRows sc S env leafRows)).map (·.map toSV) = Tree.rowsEach env leafRows cs
  | [], _, _ => rfl
  | c :: cs, h, hf => by
    simp only [WFs] at h
    simp only [Fitss] at hf
    have h1 := stored_phys c h.1 hf.1
    have h2 := storeds_phys cs h.2 hf.2
    simp only [physs, List.map_cons, Tree.rowsEach, h1, h2]
end
end
end Vx.Store
