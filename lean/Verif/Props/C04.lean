import Verif.Props.C03
/-!
# C04: slicing commutes with decoding

`slice(array, s, e)` on a tree of encoded arrays of any depth yields exactly rows `s..e`, and so do repeated slices.
-/
namespace Vx.Tree
open Vx.Spec (InBounds)

variable {L : Type} {env : Env L} {leafRows : L → List SV} {ok : L → Prop} {st : Bool}

/-- **C04.** For every tree of arrays, however deep, and all bounds `s ≤ e ≤ len`: `slice` succeeds, keeps the type, and the rows of the
result are exactly rows `s..e`. The result is again a well-formed tree of the same regularity, so slices can be repeated
(`C04_sequence_partial`) and read (`C04_scalar_at_partial`).

Missing from the full statement: an empty slice at the very end of a tree with a run-end array (`C04_runEnd_end`), chunked arrays with no
chunks (`C04_no_chunks`), sparse arrays with run-end values (`C04_sparse_runEnd`). -/
theorem C04_slice_partial (hl : LeafLaws env leafRows ok) (a : Arr L) (hw : WF env leafRows ok a) (hr : Regular env leafRows st a) (s e : Nat)
    (hb : InBounds (rows env leafRows a).length s e) (hs : s < (rows env leafRows a).length ∨ runFree a = true) :
    ∃ b, a.slice env s e = .ok b ∧ rows env leafRows b = Spec.slice (rows env leafRows a) s e ∧ dtype env b = dtype env a ∧
      len env b = e - s ∧ WF env leafRows ok b ∧ Regular env leafRows st b ∧ (runFree a = true → runFree b = true) := by
  obtain ⟨b, h1, h2, h3, h4, h5⟩ := (laws hl (depth a)).slice st a s e hw hr (Nat.le_refl _) hb hs
  exact ⟨b, h1, h5, h4.dtype, by rw [len_eq hl b h2, h5, Spec.slice_length' hb], h2, h3, h4.runFree⟩

/-- **C04 (out of bounds).** Any other bounds are an error, on every well-formed tree. -/
theorem C04_out_of_bounds (hl : LeafLaws env leafRows ok) (a : Arr L) (hw : WF env leafRows ok a) (s e : Nat)
    (hb : ¬ InBounds (rows env leafRows a).length s e) : a.slice env s e = .err := by
  have hd := depth_pos a
  obtain ⟨d, hd'⟩ : ∃ d, depth a = d + 1 := ⟨depth a - 1, by omega⟩
  have hlen := len_eq hl a hw
  simp only [InBounds] at hb
  simp only [Arr.slice, hd', ops, step, slice, hlen]
  by_cases h1 : s > (rows env leafRows a).length
  · rw [if_pos h1]
  · by_cases h2 : e > (rows env leafRows a).length
    · rw [if_neg h1, if_pos h2]
    · rw [if_neg h1, if_neg h2, if_pos (by omega)]

/-- Slice repeatedly. -/
def sliceAll (env : Env L) (a : Arr L) : List (Nat × Nat) → Res (Arr L)
  | [] => .ok a
  | (s, e) :: l => do
    let b ← a.slice env s e
    sliceAll env b l

/-- Bounds that fit one after the other, for an array of `n` rows; `empty` says whether a slice may start at the very end. -/
def Fits (empty : Bool) : Nat → List (Nat × Nat) → Prop
  | _, [] => True
  | n, (s, e) :: l => InBounds n s e ∧ (s < n ∨ empty = true) ∧ Fits empty (e - s) l

/-- **C04 (slices of slices).** Any sequence of slices, each within the bounds of what the previous one left, yields exactly the rows
obtained by slicing the list of rows the same way. -/
theorem C04_sequence_partial (hl : LeafLaws env leafRows ok) : ∀ (l : List (Nat × Nat)) (a : Arr L), WF env leafRows ok a → Regular env leafRows st a →
    Fits (runFree a) (rows env leafRows a).length l →
    ∃ b, sliceAll env a l = .ok b ∧ WF env leafRows ok b ∧ Regular env leafRows st b ∧
      rows env leafRows b = l.foldl (fun r p => Spec.slice r p.1 p.2) (rows env leafRows a)
  | [], a, hw, hr, _ => ⟨a, rfl, hw, hr, rfl⟩
  | (s, e) :: l, a, hw, hr, ⟨h1, h2, h3⟩ => by
    obtain ⟨b, b1, b2, _, _, b5, b6, b7⟩ := C04_slice_partial hl a hw hr s e h1 h2
    have hfit : Fits (runFree b) (rows env leafRows b).length l := by
      rw [b2, Spec.slice_length' h1]
      cases hf : runFree a with
      | true => rw [b7 hf]; rw [hf] at h3; exact h3
      | false =>
        rw [hf] at h3
        cases runFree b with
        | false => exact h3
        | true =>
          clear h1 h2 b2 b7
          revert h3
          generalize e - s = n
          induction l generalizing n with
          | nil => intro _; trivial
          | cons p l ih =>
            obtain ⟨s', e'⟩ := p
            exact fun ⟨g1, g2, g3⟩ => ⟨g1, g2.imp_right (fun h => by cases h), ih (e' - s') g3⟩
    obtain ⟨c, c1, c2, c3, c4⟩ := C04_sequence_partial hl l b b5 b6 hfit
    exact ⟨c, by simp [sliceAll, b1, c1], c2, c3, by rw [c4, b2]; rfl⟩

/-- **C04 (reading a slice).** Row `i` of a slice is row `s + i` of the array, and reading past the slice is an error. -/
theorem C04_scalar_at_partial (hl : LeafLaws env leafRows ok) (a : Arr L) (hw : WF env leafRows ok a) (hr : Regular env leafRows true a) (s e : Nat)
    (hb : InBounds (rows env leafRows a).length s e) (hs : s < (rows env leafRows a).length ∨ runFree a = true) :
    ∃ b, a.slice env s e = .ok b ∧ ∀ i, b.scalarAt env i = if s + i < e then a.scalarAt env (s + i) else .err := by
  obtain ⟨b, b1, b2, _, _, b5, b6, _⟩ := C04_slice_partial hl a hw hr s e hb hs
  refine ⟨b, b1, fun i => ?_⟩
  rw [C03_scalar_at_partial hl b b5 b6, b2, Spec.slice_getElem?]
  by_cases h : s + i < e
  · rw [if_pos h, if_pos h, C03_scalar_at_partial hl a hw hr]
  · rw [if_neg h, if_neg h]

/-- The theorem applies to the concrete tree: a slice across the chunk boundary. -/
example : ∃ b, exTree.slice noLeaves 1 4 = .ok b ∧ rows noLeaves noRows b = [.list [.null, i32 (-3)], .null, .null] := by
  obtain ⟨b, h1, h2, _⟩ := C04_slice_partial noLeaves_ok exTree exTree_WF exTree_Regular 1 4 ⟨by omega, by rw [exTree_rows]; decide⟩
    (.inl (by rw [exTree_rows]; decide))
  exact ⟨b, h1, by rw [h2, exTree_rows]; rfl⟩

example : ∃ b, sliceAll noLeaves exTree [(1, 5), (0, 3), (1, 2)] = .ok b ∧ rows noLeaves noRows b = [.null] := by
  obtain ⟨b, h1, _, _, h2⟩ := C04_sequence_partial noLeaves_ok [(1, 5), (0, 3), (1, 2)] exTree exTree_WF exTree_Regular
    (by rw [exTree_rows]; exact ⟨⟨by omega, by decide⟩, .inl (by decide), ⟨by omega, by omega⟩, .inl (by omega), ⟨by omega, by omega⟩, .inl (by omega), trivial⟩)
  exact ⟨b, h1, by rw [h2, exTree_rows]; rfl⟩

/-! ### What is missing -/

/-- Two equal rows, run-end encoded. -/
def twoRows : Arr Empty := .runEnd [2] (.flat (.prim .u8) [u8v 1] .nonNullable) .nonNullable 0 2

theorem physical_end : physical [2] 2 = .ok 0 := by decide +kernel

/-- An empty slice at the end of a run-end array is an error. -/
theorem C04_runEnd_end : WF noLeaves noRows (fun _ => True) twoRows ∧ Regular noLeaves noRows true twoRows ∧
    rows noLeaves noRows twoRows = [u8v 1, u8v 1] ∧ twoRows.slice noLeaves 2 2 = .err := by
  have hv : ∀ x ∈ [u8v 1], (Kind.prim .u8).has x = true := by intro x hx; simp at hx; subst hx; rfl
  refine ⟨⟨⟨hv, trivial⟩, trivial, rfl, by simp, rfl, .inl rfl, by simp, ?_⟩, ⟨trivial, trivial⟩, rfl, ?_⟩
  · have : rows noLeaves noRows (.flat (.prim .u8) [u8v 1] .nonNullable) = [u8v 1] := by rfl
    rw [this]; intro r hr; simp at hr; subst hr; rfl
  · simp [Arr.slice, twoRows, ops, step, slice, sliceFn, len, depth, depthV, physical_end, sliceList, sliceV, mkRunEnd, RunEnd.checkFirst,
      Res.guard, dtype, Kind.dtype, DType.isNullable, TVal.nullable]

/-- A sparse array without patches in the sliced part, whose values are run-end encoded. -/
def sparseRuns : Arr Empty := .sparse [0, 1] twoRows 4 0 (u8v 0)

theorem search_sparse : searchSlice compare [0, 1] 2 .left = .ok (.notFound 2) := by decide +kernel

/-- So is an inner slice of it, although it is not empty. -/
theorem C04_sparse_runEnd : WF noLeaves noRows (fun _ => True) sparseRuns ∧
    rows noLeaves noRows sparseRuns = [u8v 1, u8v 1, u8v 0, u8v 0] ∧ sparseRuns.slice noLeaves 2 3 = .err := by
  refine ⟨⟨C04_runEnd_end.1, rfl, rfl, by simp, by simp⟩, rfl, ?_⟩
  have h3 : searchSlice compare [0, 1] 3 .left = .ok (.notFound 2) := by decide +kernel
  have hsub : (ops noLeaves 2).slice twoRows 2 2 = .err := C04_runEnd_end.2.2.2
  show (ops noLeaves 3).slice sparseRuns 2 3 = .err
  show slice noLeaves (ops noLeaves 2) sparseRuns 2 3 = .err
  simp [sparseRuns, slice, sliceFn, len, search_sparse, h3, sliceList, SearchResult.toIndex, hsub]

/-- A chunked array without chunks cannot even be sliced to nothing. -/
theorem C04_no_chunks (dt : DType) : WF noLeaves noRows (fun _ => True) (.chunked dt []) ∧ rows noLeaves noRows (.chunked dt []) = [] ∧
    (Arr.chunked dt []).slice noLeaves 0 0 = .err := by
  refine ⟨⟨trivial, by simp [dtypes]⟩, rfl, ?_⟩
  simp only [Arr.slice, depth, depths, ops, step, slice, sliceFn, len, lens, Nat.lt_irrefl, gt_iff_lt, if_false]
  rw [Chunked.C22_slice_no_chunks]
  rfl

end Vx.Tree
