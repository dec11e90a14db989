import Verif.Props.C03
import Verif.Lemmas.TreeFilter
/-!
# C03 / C23: the canonical form and the logical validity of a tree of encoded arrays
-/
namespace Vx.Tree
open Vx.Spec (InBounds)

variable {L : Type} {env : BEnv L} {leafRows : L → List SV} {ok : L → Prop}

/-- **C03 (canonical form).** For every tree that decodes (`Nice`), however deep, `into_canonical` yields one plain array of the same type
with exactly the tree's rows. -/
theorem C03_canonical_partial (hl : LeafLaws env.toEnv leafRows ok) (lb : LeafBulk env leafRows ok) (a : Arr L)
    (hw : WF env.toEnv leafRows ok a) (hn : Nice env.toEnv leafRows a) :
    ∃ k vals v, a.canon env = .ok (.flat k vals v) ∧ rows env.toEnv leafRows (.flat k vals v) = rows env.toEnv leafRows a ∧
      k.dtype v.nullable = dtype env.toEnv a ∧ vals.length = len env.toEnv a := by
  obtain ⟨k, vals, v, h1, h2, h3, h4⟩ := (blaws hl lb (depth a)).canon a hw hn (Nat.le_refl _)
  exact ⟨k, vals, v, h1, h4, by simpa only [dtype] using h3.dtype, by rw [len_eq hl a hw, ← h4, flat_rows_len h2]⟩

/-- **C03 (elements of the canonical form).** `scalar_at(array, i)` is the `i`-th element of the canonical form - the stored value where the
canonical validity says valid, null elsewhere - and an error exactly outside it. -/
theorem C03_scalar_of_canonical_partial (hl : LeafLaws env.toEnv leafRows ok) (lb : LeafBulk env leafRows ok) (a : Arr L)
    (hw : WF env.toEnv leafRows ok a) (hn : Nice env.toEnv leafRows a) (hr : Regular env.toEnv leafRows true a) :
    ∃ k vals v, a.canon env = .ok (.flat k vals v) ∧ ∀ i, a.scalarAt env.toEnv i =
      match vals[i]?, (maskOf env.toEnv leafRows v vals.length)[i]? with
      | some x, some true => .ok x
      | some _, some false => .ok .null
      | _, _ => .err := by
  obtain ⟨k, vals, v, h1, h2, h3, h4⟩ := (blaws hl lb (depth a)).canon a hw hn (Nat.le_refl _)
  refine ⟨k, vals, v, h1, fun i => ?_⟩
  have hlen := flat_len h2
  rw [C03_scalar_at_partial hl a hw hr, ← h4]
  simp only [rows]
  by_cases hi : i < vals.length
  · have hm : (maskOf env.toEnv leafRows v vals.length)[i]? = some (maskOf env.toEnv leafRows v vals.length)[i] :=
      List.getElem?_eq_getElem (by omega)
    rw [masked_getElem? _ _ _ _ _ (List.getElem?_eq_getElem hi) hm, hm, List.getElem?_eq_getElem hi]
    cases (maskOf env.toEnv leafRows v vals.length)[i] <;> rfl
  · rw [List.getElem?_eq_none (by rw [masked_length]; omega), List.getElem?_eq_none (by omega)]

/-- **C23 (any encoding).** For every nullable tree that decodes, the logical validity is, row for row, the "not null" mask. -/
theorem C23_tree_logical_validity_partial (hl : LeafLaws env.toEnv leafRows ok) (lb : LeafBulk env leafRows ok) (a : Arr L)
    (hw : WF env.toEnv leafRows ok a) (hn : Nice env.toEnv leafRows a) (ht : (dtype env.toEnv a).isNullable = true) :
    ∃ lv, a.valid env = .ok lv ∧ lv.intoBools = nonNulls (rows env.toEnv leafRows a) :=
  (blaws hl lb (depth a)).valid a hw hn (Nat.le_refl _) ht

/-! ### A concrete tree -/

/-- Entry points for trees without further leaf encodings. -/
def noLeavesB : BEnv Empty := { noLeaves with take := nofun, filter := nofun, canon := nofun, valid := nofun, manySet := fun n k => n < 2 * k, temporal := temporalArrow }

theorem noLeavesB_ok : LeafBulk noLeavesB noRows (fun _ => True) := by
  refine ⟨?_, ?_, nofun, nofun, nofun, nofun⟩
  · intro e f q h; simp [noLeavesB, noLeaves, h]
  · intro e f q h; simp [noLeavesB, noLeaves, h]

theorem noLeavesB_laws : LeafLaws noLeavesB.toEnv noRows (fun _ => True) := noLeaves_ok

/-- Chunks of run-ends over zigzag over frame-of-reference and of a constant. -/
def exChunks : Arr Empty := .chunked (.prim .i32 false) [exRuns, .const (.prim .i32 false) (i32 5) 2]

theorem exChunks_rows : rows noLeaves noRows exChunks = [i32 (-4), i32 (-3), i32 (-3), i32 5, i32 5] := by rfl

theorem exRuns_Nice : Nice noLeaves noRows exRuns := ⟨trivial, trivial, rfl, .i32, false, rfl⟩

theorem exChunks_WF : WF noLeaves noRows (fun _ => True) exChunks := by
  refine ⟨⟨exRuns_WF, rfl, trivial⟩, ?_⟩
  intro d hd
  have : dtypes noLeaves [exRuns, .const (.prim .i32 false) (i32 5) 2] = [.prim .i32 false, .prim .i32 false] := by rfl
  rw [this] at hd
  simpa using hd

theorem exChunks_Nice : Nice noLeaves noRows exChunks := ⟨rfl, exRuns_Nice, rfl, trivial⟩

example : ∃ k vals v, exChunks.canon noLeavesB = .ok (.flat k vals v) ∧
    rows noLeaves noRows (.flat k vals v) = [i32 (-4), i32 (-3), i32 (-3), i32 5, i32 5] := by
  obtain ⟨k, vals, v, h1, h2, _⟩ := C03_canonical_partial noLeavesB_laws noLeavesB_ok exChunks exChunks_WF exChunks_Nice
  exact ⟨k, vals, v, h1, h2.trans exChunks_rows⟩

/-- A sparse array with null fill. -/
def exSparse : Arr Empty := .sparse [1, 3] (.flat (.prim .i32) [i32 7, i32 9] .allValid) 5 0 .null

theorem exSparse_rows : rows noLeaves noRows exSparse = [.null, i32 7, .null, i32 9, .null] := by rfl

theorem exSparse_values : rows noLeaves noRows (.flat (.prim .i32) [i32 7, i32 9] .allValid) = [i32 7, i32 9] := by rfl

theorem exSparse_WF : WF noLeaves noRows (fun _ => True) exSparse := by
  refine ⟨⟨?_, trivial⟩, rfl, rfl, by simp, by simp⟩
  intro x hx; simp at hx; rcases hx with rfl | rfl <;> rfl

theorem exSparse_Nice : Nice noLeaves noRows exSparse := by
  refine ⟨trivial, rfl, .inl ⟨.i32, true, rfl, fun _ => rfl⟩, ?_⟩
  rw [exSparse_values]
  intro r hr; simp at hr; rcases hr with rfl | rfl <;> rfl

example : ∃ lv, exSparse.valid noLeavesB = .ok lv ∧ lv.intoBools = [false, true, false, true, false] := by
  obtain ⟨lv, h1, h2⟩ := C23_tree_logical_validity_partial noLeavesB_laws noLeavesB_ok exSparse exSparse_WF exSparse_Nice rfl
  exact ⟨lv, h1, by rw [h2]; rfl⟩

/-! ### What is missing: trees that do not decode to their rows -/

/-- A sparse boolean array with a non-null fill value: after decoding, the filled rows are null. -/
theorem C03_canonical_sparse_bool :
    let a : Arr Empty := .sparse [1] (.flat .bool [.bool true] .nonNullable) 2 0 (.bool true)
    rows noLeaves noRows a = [.bool true, .bool true] ∧
      ∃ v, a.canon noLeavesB = .ok (.flat .bool [.bool true, .bool true] v) ∧
        rows noLeaves noRows (.flat .bool [.bool true, .bool true] v) = [.null, .bool true] :=
  ⟨rfl, _, rfl, rfl⟩

/-- A sparse array with a null among its values: after decoding, that row holds the value stored under the null. -/
theorem C03_canonical_sparse_null :
    let a : Arr Empty := .sparse [1] (.flat (.prim .i32) [i32 7] .allInvalid) 2 0 .null
    rows noLeaves noRows a = [.null, .null] ∧
      ∃ v, a.canon noLeavesB = .ok (.flat (.prim .i32) [i32 0, i32 7] v) ∧
        rows noLeaves noRows (.flat (.prim .i32) [i32 0, i32 7] v) = [.null, i32 7] :=
  ⟨rfl, _, rfl, rfl⟩

/-- A nullable dictionary whose first value is not null: its logical validity says null where there is a value. -/
theorem C23_tree_dict :
    let a : Arr Empty := .dict (.flat (.prim .u8) [u8v 0, u8v 1] .nonNullable) (.flat (.prim .i32) [i32 7, i32 9] .allValid)
    rows noLeaves noRows a = [i32 7, i32 9] ∧ ∃ lv, a.valid noLeavesB = .ok lv ∧ lv.intoBools = [false, true] :=
  ⟨rfl, _, rfl, rfl⟩

end Vx.Tree
