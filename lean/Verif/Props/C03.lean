import Verif.Lemmas.TreeSlice
/-!
# C03: checked element access

`scalar_at(array, i)` on a tree of encoded arrays of any depth: an error when `i` is out of bounds, otherwise the `i`-th logical row.
-/
namespace Vx.Tree
open Vx.Spec (InBounds)

variable {L : Type} {env : Env L} {leafRows : L → List SV} {ok : L → Prop}

/-- **C03.** For every tree of arrays, however deep, and every index: `scalar_at` returns exactly the row at that index (null exactly
where the row is null), and an error - not a panic - when there is none.

Missing from the full statement: sparse and dictionary arrays whose *values* are struct or list arrays, for which the claim is false
(`C03_composite_values`); chunked arrays without chunks are excluded too (`Regular`). The encodings not spelled out in the tree enter
through `LeafLaws` (an assumption on the encodings not spelled out here). -/
theorem C03_scalar_at_partial (hl : LeafLaws env leafRows ok) (a : Arr L) (hw : WF env leafRows ok a) (hr : Regular env leafRows true a) (i : Nat) :
    a.scalarAt env i = match (rows env leafRows a)[i]? with
      | some r => .ok r
      | none => .err := by
  have H := laws hl (depth a)
  cases h : (rows env leafRows a)[i]? with
  | some r => exact H.scalarAt a i r hw hr (Nat.le_refl _) h
  | none =>
    have hd := depth_pos a
    obtain ⟨d, hd'⟩ : ∃ d, depth a = d + 1 := ⟨depth a - 1, by omega⟩
    have hlen := len_eq hl a hw
    have : i ≥ len env a := by rw [hlen]; exact List.getElem?_eq_none_iff.mp h
    simp [Arr.scalarAt, hd', ops, step, scalarAt, this]

/-- **C03 (out of bounds).** Needs no shape condition: an index past the end is an error on every well-formed tree. -/
theorem C03_out_of_bounds (hl : LeafLaws env leafRows ok) (a : Arr L) (hw : WF env leafRows ok a) (i : Nat)
    (h : (rows env leafRows a).length ≤ i) : a.scalarAt env i = .err := by
  have hd := depth_pos a
  obtain ⟨d, hd'⟩ : ∃ d, depth a = d + 1 := ⟨depth a - 1, by omega⟩
  have hlen := len_eq hl a hw
  have : i ≥ len env a := by omega
  simp [Arr.scalarAt, hd', ops, step, scalarAt, this]

/-- **C03 (validity).** `is_valid` is false exactly at the null rows. -/
theorem C03_is_valid (hl : LeafLaws env leafRows ok) (a : Arr L) (hw : WF env leafRows ok a) (hr : Regular env leafRows true a) (i : Nat) (r : SV)
    (h : (rows env leafRows a)[i]? = some r) : a.isValid env i = .ok (!r.isNull) :=
  (laws hl (depth a)).isValid a i r hw hr (Nat.le_refl _) h

/-- **C03 (length).** The recorded length is the number of rows. -/
theorem C03_len (hl : LeafLaws env leafRows ok) (a : Arr L) (hw : WF env leafRows ok a) : len env a = (rows env leafRows a).length := len_eq hl a hw

/-! ### A concrete tree -/

/-- No further leaf encodings. -/
def noLeaves : Env Empty := ⟨nofun, nofun, nofun, nofun, nofun, nofun, fun _ _ q => if q.pt = .i64 then ⟨.f64, 0⟩ else ⟨.f32, 0⟩⟩

def noRows : Empty → List SV := nofun

theorem noLeaves_ok : LeafLaws noLeaves noRows (fun _ => True) := ⟨nofun, nofun, nofun, nofun, nofun⟩

def i32 (n : Int) : SV := .prim ⟨.i32, BitVec.ofInt 32 n⟩
def u8v (n : Nat) : SV := .prim ⟨.u8, BitVec.ofNat 8 n⟩
def u32v (n : Nat) : SV := .prim ⟨.u32, BitVec.ofNat 32 n⟩
def bools (bs : List Bool) : Arr Empty := .flat .bool (bs.map .bool) .nonNullable

/-- A dictionary of nullable values, coded by a sparse array. -/
def exDict : Arr Empty := .dict (.sparse [3] (.flat (.prim .u8) [u8v 1] .nonNullable) 3 2 (u8v 0))
  (.flat (.prim .i32) [i32 7, i32 9] (.array (bools [true, false])))

/-- Run ends over a frame-of-reference array of zigzagged values. -/
def exRuns : Arr Empty := .runEnd [2, 6] (.mapped .zigzag (.mapped (.for .u32 5 1) (.flat (.prim .u32) [u32v 1, u32v 0] .nonNullable)))
  .nonNullable 1 3

/-- A chunked array of structs of them. -/
def exTree : Arr Empty := .chunked (.struct [['a'], ['b']] [.prim .i32 true, .prim .i32 false] true)
  [.struct [['a'], ['b']] [exDict, exRuns] 3 (.array (bools [true, true, false])),
   .const (.struct [['a'], ['b']] [.prim .i32 true, .prim .i32 false] true) .null 2]

theorem exTree_rows : rows noLeaves noRows exTree =
    [.list [i32 7, i32 (-4)], .list [.null, i32 (-3)], .null, .null, .null] := by rfl


theorem bools_WF (bs : List Bool) : WFV noLeaves noRows (fun _ => True) (.array (bools bs)) bs.length := by
  have hr : rows noLeaves noRows (bools bs) = bs.map .bool := by
    simp only [bools, rows, masked, maskOf]
    apply List.ext_getElem?
    intro i
    by_cases hi : i < bs.length
    · simp [hi]
    · simp [hi]
  refine ⟨?_, rfl, by rw [hr]; simp, ?_⟩
  · simp only [bools, WF]
    exact ⟨by intro x hx; obtain ⟨b, _, rfl⟩ := List.mem_map.mp hx; rfl, trivial⟩
  · rw [hr]
    intro r hr'
    obtain ⟨b, _, rfl⟩ := List.mem_map.mp hr'
    exact ⟨b, rfl⟩

theorem exDict_rows : rows noLeaves noRows exDict = [i32 7, .null, i32 7] := by rfl
theorem exRuns_rows : rows noLeaves noRows exRuns = [i32 (-4), i32 (-3), i32 (-3)] := by rfl

theorem exDict_WF : WF noLeaves noRows (fun _ => True) exDict := by
  refine ⟨⟨⟨?_, trivial⟩, rfl, rfl, by simp, by simp⟩, ⟨?_, bools_WF [true, false]⟩, ⟨.u8, rfl, rfl⟩, ?_⟩
  · intro x hx; simp at hx; subst hx; rfl
  · intro x hx; simp at hx; rcases hx with rfl | rfl <;> rfl
  · have : rows noLeaves noRows (.sparse [3] (.flat (.prim .u8) [u8v 1] .nonNullable) 3 2 (u8v 0)) = [u8v 0, u8v 1, u8v 0] := by rfl
    rw [this]
    intro r hr; simp at hr
    rcases hr with rfl | rfl | rfl
    · exact ⟨0, rfl, by decide⟩
    · exact ⟨1, rfl, by decide⟩
    · exact ⟨0, rfl, by decide⟩

theorem exRuns_WF : WF noLeaves noRows (fun _ => True) exRuns := by
  refine ⟨⟨⟨⟨?_, trivial⟩, rfl, ?_⟩, rfl, ?_⟩, trivial, rfl, by simp, rfl, .inr (by simp), by simp, ?_⟩
  · intro x hx; simp at hx; rcases hx with rfl | rfl <;> rfl
  · have : rows noLeaves noRows (.flat (.prim .u32) [u32v 1, u32v 0] .nonNullable) = [u32v 1, u32v 0] := by rfl
    rw [this]
    intro r hr; simp at hr
    rcases hr with rfl | rfl <;> exact .inr ⟨_, rfl⟩
  · have : rows noLeaves noRows (.mapped (.for .u32 5 1) (.flat (.prim .u32) [u32v 1, u32v 0] .nonNullable)) = [u32v 7, u32v 5] := by rfl
    rw [this]
    intro r hr; simp at hr
    rcases hr with rfl | rfl <;> exact .inr ⟨_, rfl⟩
  · have : rows noLeaves noRows (.mapped .zigzag (.mapped (.for .u32 5 1) (.flat (.prim .u32) [u32v 1, u32v 0] .nonNullable))) =
        [i32 (-4), i32 (-3)] := by rfl
    rw [this]
    intro r hr; simp at hr
    rcases hr with rfl | rfl <;> rfl

theorem exTree_WF : WF noLeaves noRows (fun _ => True) exTree := by
  refine ⟨⟨⟨rfl, ⟨exDict_WF, exRuns_WF, trivial⟩, ?_, bools_WF [true, true, false]⟩, rfl, trivial⟩, ?_⟩
  · simp [rowsEach, exDict_rows, exRuns_rows]
  · intro d hd
    have : dtypes noLeaves [.struct [['a'], ['b']] [exDict, exRuns] 3 (.array (bools [true, true, false])),
        .const (.struct [['a'], ['b']] [.prim .i32 true, .prim .i32 false] true) .null 2] =
        [.struct [['a'], ['b']] [.prim .i32 true, .prim .i32 false] true, .struct [['a'], ['b']] [.prim .i32 true, .prim .i32 false] true] := by rfl
    rw [this] at hd
    simpa using hd

theorem exTree_Regular : Regular noLeaves noRows true exTree := by
  refine ⟨by simp, ⟨⟨⟨⟨⟨trivial, rfl, ?_⟩, trivial, ?_⟩, ⟨trivial, trivial⟩, trivial⟩, trivial⟩, trivial, trivial⟩⟩
  · have : rows noLeaves noRows (.flat (.prim .u8) [u8v 1] .nonNullable) = [u8v 1] := by rfl
    rw [this]; intro _ r hr; simp at hr; subst hr; exact .inr rfl
  · have : rows noLeaves noRows (.flat (.prim .i32) [i32 7, i32 9] (.array (bools [true, false]))) = [i32 7, .null] := by rfl
    rw [this]; intro _ r hr; simp at hr; rcases hr with rfl | rfl
    · exact .inr rfl
    · exact .inl rfl

/-- The theorem applies to this tree: row 1 is a struct whose first field is null. -/
example : exTree.scalarAt noLeaves 1 = .ok (.list [.null, i32 (-3)]) := by
  rw [C03_scalar_at_partial noLeaves_ok exTree exTree_WF exTree_Regular, exTree_rows]; rfl
example : exTree.scalarAt noLeaves 2 = .ok .null := by
  rw [C03_scalar_at_partial noLeaves_ok exTree exTree_WF exTree_Regular, exTree_rows]; rfl
example : exTree.scalarAt noLeaves 5 = .err := by
  rw [C03_scalar_at_partial noLeaves_ok exTree exTree_WF exTree_Regular, exTree_rows]; rfl

/-! ### What is missing -/

/-- A dictionary whose single value is the struct `{a: null}`. -/
def dictOfStruct : Arr Empty := .dict (.flat (.prim .u8) [u8v 0] .nonNullable)
  (.struct [['a']] [.flat (.prim .i32) [i32 5] .allInvalid] 1 .nonNullable)

/-- With struct values the claim is false of the code: the values are read without looking at the fields' nulls, so a null field comes
back as whatever its buffer holds. -/
theorem C03_composite_values : WF noLeaves noRows (fun _ => True) dictOfStruct ∧
    rows noLeaves noRows dictOfStruct = [.list [.null]] ∧ dictOfStruct.scalarAt noLeaves 0 = .ok (.list [i32 5]) := by
  refine ⟨⟨⟨?_, trivial⟩, ⟨rfl, ⟨⟨?_, trivial⟩, trivial⟩, ?_, trivial⟩, ⟨.u8, rfl, rfl⟩, ?_⟩, rfl, rfl⟩
  · intro x hx; simp at hx; subst hx; rfl
  · intro x hx; simp at hx; subst hx; rfl
  · intro c hc; simp [rowsEach] at hc; subst hc; rfl
  · intro r hr
    have : rows noLeaves noRows (.flat (.prim .u8) [u8v 0] .nonNullable) = [u8v 0] := by rfl
    rw [this] at hr; simp at hr; subst hr
    exact ⟨0, rfl, by decide⟩

/-- The same for the patches of a sparse array. -/
def sparseOfStruct : Arr Empty := .sparse [0] (.struct [['a']] [.flat (.prim .i32) [i32 5] .allInvalid] 1 .nonNullable) 1 0 (.list [i32 1])

theorem C03_composite_patches : WF noLeaves noRows (fun _ => True) sparseOfStruct ∧
    rows noLeaves noRows sparseOfStruct = [.list [.null]] ∧ sparseOfStruct.scalarAt noLeaves 0 = .ok (.list [i32 5]) := by
  refine ⟨⟨⟨rfl, ⟨⟨?_, trivial⟩, trivial⟩, ?_, trivial⟩, rfl, rfl, by simp, by simp⟩, rfl, ?_⟩
  · intro x hx; simp at hx; subst hx; rfl
  · intro c hc; simp [rowsEach] at hc; subst hc; rfl
  · have hf : sparseFind [0] 0 0 = .ok (some 0) := by decide +kernel
    simp [Arr.scalarAt, sparseOfStruct, ops, step, scalarAt, scalarFn, scalarFnU, isValid, isValidV, len, depth, depths, depthV, hf, Res.mapM, idx]

end Vx.Tree
