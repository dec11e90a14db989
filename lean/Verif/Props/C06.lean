import Verif.Props.C05
/-!
# C06: filter commutes with decoding

`filter(array, mask)` on a tree of encoded arrays of any depth.
-/
namespace Vx.Tree
open Vx.Spec (InBounds)

variable {L : Type} {env : BEnv L} {leafRows : L → List SV} {ok : L → Prop}

/-- **C06.** For every tree of arrays, however deep, and every mask of its length, `filter` succeeds, keeps the type, and its rows are exactly the
rows whose mask bit is set, in order; their number is the number of set bits. The result is again such a tree.

Missing from the full statement: extension arrays that are not temporal (`C06_extension`) or whose metadata does not survive arrow
(`C06_time_zone`), and run-end arrays, zigzag arrays and validities that do not decode (see `Props/C03Canon.lean`). -/
theorem C06_filter_partial (hl : LeafLaws env.toEnv leafRows ok) (lb : LeafBulk env leafRows ok) (a : Arr L) (hw : WF env.toEnv leafRows ok a)
    (hb : Bulk env.toEnv leafRows env.temporal true a) (m : List Bool) (hm : m.length = (rows env.toEnv leafRows a).length) :
    ∃ b, a.filter env m = .ok b ∧ len env.toEnv b = m.count true ∧ dtype env.toEnv b = dtype env.toEnv a ∧
      rows env.toEnv leafRows b = Spec.filter (rows env.toEnv leafRows a) m ∧
      WF env.toEnv leafRows ok b ∧ Bulk env.toEnv leafRows env.temporal true b ∧ (chunkFree a = true → chunkFree b = true) := by
  obtain ⟨b, h1, h2, h3, h4, _, h5⟩ := (blaws hl lb (depth a)).filter a m hw hb (Nat.le_refl _) hm
  exact ⟨b, h1, by rw [len_eq hl b h2, h5, Spec.filter_length hm.symm], h4.dtype, h5, h2, h3, h4.chunkFree⟩

/-- **C06 (length mismatch).** A mask of another length is an error, on every well-formed tree. -/
theorem C06_length_mismatch (hl : LeafLaws env.toEnv leafRows ok) (a : Arr L) (hw : WF env.toEnv leafRows ok a) (m : List Bool)
    (hm : m.length ≠ (rows env.toEnv leafRows a).length) : a.filter env m = .err := by
  obtain ⟨d, hd'⟩ : ∃ d, depth a = d + 1 := ⟨depth a - 1, by have := depth_pos a; omega⟩
  have hlen := len_eq hl a hw
  simp only [Arr.filter, hd', bulks, bstep, filterChecked]
  rw [if_pos (by omega)]

/-- A step of a pipeline of takes and filters. -/
inductive Sel where
  | take (is : List Nat)
  | filter (m : List Bool)

/-- Run a pipeline on an array. -/
def selAll (env : BEnv L) (a : Arr L) : List Sel → Res (Arr L)
  | [] => .ok a
  | .take is :: l => do
    let b ← a.take env is
    selAll env b l
  | .filter m :: l => do
    let b ← a.filter env m
    selAll env b l

/-- Run a pipeline on rows. -/
def selRows (r : List SV) : List Sel → List SV
  | [] => r
  | .take is :: l => selRows (Spec.take r is) l
  | .filter m :: l => selRows (Spec.filter r m) l

/-- Steps that fit one after the other, for `n` rows; `empty` says whether nothing may be taken. -/
def SelFits (empty : Bool) : Nat → List Sel → Prop
  | _, [] => True
  | n, .take is :: l => (is ≠ [] ∨ empty = true) ∧ (∀ i ∈ is, i < n) ∧ SelFits empty is.length l
  | n, .filter m :: l => m.length = n ∧ SelFits empty (m.count true) l

/-- **C05/C06 (pipelines).** Any sequence of takes and filters, each fitting what the previous one left, yields the rows obtained by doing the
same to the list of rows. -/
theorem C06_pipeline_partial (hl : LeafLaws env.toEnv leafRows ok) (lb : LeafBulk env leafRows ok) : ∀ (l : List Sel) (a : Arr L) (empty : Bool),
    WF env.toEnv leafRows ok a → Bulk env.toEnv leafRows env.temporal true a → (empty = true → chunkFree a = true) →
    SelFits empty (rows env.toEnv leafRows a).length l →
    ∃ b, selAll env a l = .ok b ∧ rows env.toEnv leafRows b = selRows (rows env.toEnv leafRows a) l
  | [], a, _, _, _, _, _ => ⟨a, rfl, rfl⟩
  | .take is :: l, a, empty, hw, hb, hc, ⟨h1, h2, h3⟩ => by
    obtain ⟨b, b1, b2, b3, b4, _, b5⟩ := (blaws hl lb (depth a)).take true a is hw hb (Nat.le_refl _) h2 (h1.imp_right hc)
    have hlen : (rows env.toEnv leafRows b).length = is.length := by rw [b5, Spec.take_length h2]
    obtain ⟨c, c1, c2⟩ := C06_pipeline_partial hl lb l b empty b2 b3 (fun h => b4.chunkFree (hc h)) (by rw [hlen]; exact h3)
    have hb1 : a.take env is = .ok b := b1
    exact ⟨c, by simp only [selAll, hb1, Res.ok_bind, c1], by rw [c2, b5]; rfl⟩
  | .filter m :: l, a, empty, hw, hb, hc, ⟨h1, h3⟩ => by
    obtain ⟨b, b1, b2, _, b4, b5, b6, b7⟩ := C06_filter_partial hl lb a hw hb m h1
    have hlen : (rows env.toEnv leafRows b).length = m.count true := by rw [b4, Spec.filter_length h1.symm]
    obtain ⟨c, c1, c2⟩ := C06_pipeline_partial hl lb l b empty b5 b6 (fun h => b7 (hc h)) (by rw [hlen]; exact h3)
    exact ⟨c, by simp only [selAll, b1, Res.ok_bind, c1], by rw [c2, b4]; rfl⟩

/-! ### Temporal extension types -/

/-- Dates and times survive the round trip through arrow, and so do timestamps without a time zone. -/
theorem C06_temporal_kept (unit : UInt8) :
    (unit = 4 → temporalArrow dateId (some [unit]) = some (.i32, some [unit])) ∧
    (unit = 2 → temporalArrow dateId (some [unit]) = some (.i64, some [unit])) ∧
    (unit = 3 ∨ unit = 2 → temporalArrow timeId (some [unit]) = some (.i32, some [unit])) ∧
    (unit = 1 ∨ unit = 0 → temporalArrow timeId (some [unit]) = some (.i64, some [unit])) ∧
    (unit ≤ 3 → temporalArrow timestampId (some [unit, 0, 0]) = some (.i64, some [unit, 0, 0])) := by
  refine ⟨?_, ?_, ?_, ?_, ?_⟩
  · rintro rfl; rfl
  · rintro rfl; rfl
  · rintro (rfl | rfl) <;> rfl
  · rintro (rfl | rfl) <;> rfl
  · intro h
    have h1 : timestampId ≠ dateId := by decide
    have h2 : timestampId ≠ timeId := by decide
    simp [temporalArrow, h, h1, h2]

/-! ### A concrete tree -/

example : ∃ b, exTree.filter noLeavesB [true, true, false, false, true] = .ok b ∧
    rows noLeaves noRows b = [.list [i32 7, i32 (-4)], .list [.null, i32 (-3)], .null] := by
  obtain ⟨b, h1, _, _, h2, _⟩ := C06_filter_partial noLeavesB_laws noLeavesB_ok exTree exTree_WF (exTree_Bulk true) [true, true, false, false, true]
    (by show _ = (rows noLeaves noRows exTree).length; rw [exTree_rows]; rfl)
  exact ⟨b, h1, by
    have : rows noLeavesB.toEnv noRows b = Spec.filter (rows noLeaves noRows exTree) [true, true, false, false, true] := h2
    exact this.trans (by rw [exTree_rows]; rfl)⟩

/-- Filter, take from the result, filter again. -/
example : ∃ b, selAll noLeavesB exTree [.filter [true, true, true, false, false], .take [2, 1, 1, 0], .filter [false, true, false, true]] = .ok b ∧
    rows noLeaves noRows b = [.list [.null, i32 (-3)], .list [i32 7, i32 (-4)]] := by
  obtain ⟨b, h1, h2⟩ := C06_pipeline_partial noLeavesB_laws noLeavesB_ok [.filter [true, true, true, false, false], .take [2, 1, 1, 0], .filter [false, true, false, true]]
    exTree false exTree_WF (exTree_Bulk true) (by simp) (by
      show SelFits false (rows noLeaves noRows exTree).length _
      rw [exTree_rows]
      refine ⟨rfl, ⟨.inl (by simp), by decide, rfl, trivial⟩⟩)
  exact ⟨b, h1, by
    have : rows noLeavesB.toEnv noRows b = selRows (rows noLeaves noRows exTree)
      [.filter [true, true, true, false, false], .take [2, 1, 1, 0], .filter [false, true, false, true]] := h2
    exact this.trans (by rw [exTree_rows]; rfl)⟩

/-- A date column meets the hypotheses. -/
example : Bulk noLeaves noRows noLeavesB.temporal true (.ext dateId (some [4]) (.flat (.prim .i32) [i32 1, i32 2] .nonNullable)) :=
  ⟨trivial, fun _ => ⟨trivial, .i32, false, rfl, rfl⟩⟩

/-! ### What is missing -/

/-- Filtering an extension array that is not temporal is an error, even when nothing would be dropped. -/
theorem C06_extension :
    let a : Arr Empty := .ext "uuid".toList none (.flat (.prim .i32) [i32 7] .nonNullable)
    rows noLeaves noRows a = [i32 7] ∧ a.filter noLeavesB [true] = .err := ⟨rfl, rfl⟩

/-- Filtering a timestamp column drops its time zone: the type of the result is another one. -/
theorem C06_time_zone :
    let a : Arr Empty := .ext timestampId (some [2, 3, 0, 85, 84, 67]) (.flat (.prim .i64) [.prim ⟨.i64, 5⟩] .nonNullable)
    a.filter noLeavesB [true] = .ok (.ext timestampId (some [2, 0, 0]) (.flat (.prim .i64) [.prim ⟨.i64, 5⟩] .nonNullable)) := rfl

end Vx.Tree
