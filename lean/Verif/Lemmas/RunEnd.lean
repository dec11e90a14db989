import Verif.Model.RunEnd
import Verif.Spec.RunEnd
import Verif.Lemmas.Sparse
/-! # Lemmas on run ends -/

namespace Vx
open Spec

theorem countP_le_eq_lt (xs : List Nat) (v : Nat) :
    xs.countP (fun x => decide (x ≤ v)) = xs.countP (fun x => decide (x < v + 1)) := by
  congr 1; funext x; simp [Nat.lt_succ_iff]

theorem countP_le_split {xs : List Nat} (hs : xs.Pairwise (· < ·)) (v : Nat) :
    ∀ i (h : i < xs.length), i < xs.countP (fun x => decide (x ≤ v)) ↔ xs[i] ≤ v := by
  intro i h
  rw [countP_le_eq_lt, countP_lt_split hs (v + 1) i h]
  omega

theorem search_right (xs : List Nat) (hs : xs.Pairwise (· < ·)) (v : Nat) :
    searchSlice compare xs v .right = .ok (if v ∈ xs then .found (xs.countP (fun x => decide (x ≤ v)))
      else .notFound (xs.countP (fun x => decide (x ≤ v)))) := by
  rw [C01_search_sorted_slice xs v .right (strict_le hs)]
  rfl

theorem search_right_index (xs : List Nat) (hs : xs.Pairwise (· < ·)) (v : Nat) :
    ∃ r, searchSlice compare xs v .right = .ok r ∧ r.toIndex = xs.countP (fun x => decide (x ≤ v)) := by
  refine ⟨_, search_right xs hs v, ?_⟩
  split <;> rfl

/-- The value at a position: the first run whose end lies beyond it. -/
theorem expandFrom_getElem? (start : Nat) (ends : List Nat) (vals : List α) (hs : ends.Pairwise (· < ·))
    (hlo : ∀ e ∈ ends, start ≤ e) (hl : ends.length = vals.length) (i : Nat) :
    (expandFrom start ends vals)[i]? = vals[ends.countP (fun e => decide (e ≤ start + i))]? := by
  induction ends generalizing start vals i with
  | nil => cases vals <;> simp_all [expandFrom]
  | cons e es ih =>
    cases vals with
    | nil => simp at hl
    | cons v vs =>
      have hp := List.pairwise_cons.mp hs
      have h0 := hlo e (by simp)
      rw [expandFrom]
      by_cases hi : i < e - start
      · rw [List.getElem?_append_left (by simpa using hi)]
        have : (e :: es).countP (fun e => decide (e ≤ start + i)) = 0 := by
          rw [List.countP_eq_zero]
          intro x hx
          rcases List.mem_cons.mp hx with rfl | hx
          · simp; omega
          · have := hp.1 x hx; simp; omega
        simp [this, hi]
      · rw [List.getElem?_append_right (by simpa using hi), ih e vs hp.2 (fun x hx => Nat.le_of_lt (hp.1 x hx)) (by simpa using hl)]
        have : e + (i - (List.replicate (e - start) v).length) = start + i := by simp; omega
        rw [this, List.countP_cons_of_pos (by simp; omega)]
        simp

theorem expandFrom_length (start : Nat) (ends : List Nat) (vals : List α) (hs : ends.Pairwise (· < ·))
    (hlo : ∀ e ∈ ends, start ≤ e) (hl : ends.length = vals.length) :
    (expandFrom start ends vals).length = ends.getLast?.getD start - start := by
  induction ends generalizing start vals with
  | nil => cases vals <;> simp_all [expandFrom]
  | cons e es ih =>
    cases vals with
    | nil => simp at hl
    | cons v vs =>
      have hp := List.pairwise_cons.mp hs
      have h0 := hlo e (by simp)
      rw [expandFrom, List.length_append, ih e vs hp.2 (fun x hx => Nat.le_of_lt (hp.1 x hx)) (by simpa using hl), List.getLast?_cons]
      simp only [List.length_replicate, Option.getD_some]
      cases hg : es.getLast? with
      | none => simp
      | some l =>
        have := hp.1 l (List.mem_of_getLast? hg)
        simp; omega

theorem expand_getElem? {ends : List Nat} {vals : List α} (hs : ends.Pairwise (· < ·)) (hl : ends.length = vals.length) (i : Nat) :
    (expand ends vals)[i]? = vals[ends.countP (fun e => decide (e ≤ i))]? := by
  rw [expand, expandFrom_getElem? 0 ends vals hs (by simp) hl, Nat.zero_add]

theorem expand_length {ends : List Nat} {vals : List α} (hs : ends.Pairwise (· < ·)) (hl : ends.length = vals.length) :
    (expand ends vals).length = ends.getLast?.getD 0 := by
  rw [expand, expandFrom_length 0 ends vals hs (by simp) hl, Nat.sub_zero]

namespace RunEnd

/-- What every run-end array built by the library satisfies. -/
structure WF (a : RunEnd α) : Prop where
  strict : a.ends.Pairwise (· < ·)
  lens : a.ends.length = a.values.len
  values : a.values.validity = if a.validity.nullable then .allValid else .nonNullable
  first : a.offset = 0 ∨ ∀ e ∈ a.ends.head?, a.offset < e
  last : a.offset + a.length ≤ a.ends.getLast?.getD 0
  fits : FitsLen a.validity a.length

/-- The values of the window. -/
def window (a : RunEnd α) : List α := Spec.slice (expand a.ends a.values.vals) a.offset (a.offset + a.length)

/-- The rows the array stands for. -/
def rows (a : RunEnd α) : List (Option α) := Spec.rows a.window (mask a.length a.validity)

theorem window_length {a : RunEnd α} (hw : a.WF) : a.window.length = a.length := by
  rw [window, slice_length, expand_length hw.strict hw.lens]
  have := hw.last; omega

theorem rows_length {a : RunEnd α} (hw : a.WF) : a.rows.length = a.length := by
  rw [rows, Vx.rows_length _ _ (by rw [window_length hw]; exact hw.fits.symm), window_length hw]

/-- The run a position falls into. -/
def runOf (a : RunEnd α) (v : Nat) : Nat := a.ends.countP (fun e => decide (e ≤ v))

theorem window_getElem? {a : RunEnd α} (hw : a.WF) {i : Nat} (hi : i < a.length) :
    a.window[i]? = a.values.vals[a.runOf (a.offset + i)]? := by
  rw [window, slice_getElem?, if_pos (by omega), expand_getElem? hw.strict hw.lens, runOf]

theorem last_eq {a : RunEnd α} (h : 0 < a.ends.length) : a.ends.getLast?.getD 0 = a.ends[a.ends.length - 1] := by
  rw [List.getLast?_eq_getElem?, List.getElem?_eq_getElem (by omega)]; rfl

theorem runOf_lt {a : RunEnd α} (hw : a.WF) {v : Nat} (hv : v < a.ends.getLast?.getD 0) : a.runOf v < a.ends.length := by
  have hn : 0 < a.ends.length := by
    cases h : a.ends with
    | nil => simp [h] at hv
    | cons => simp
  rw [last_eq hn] at hv
  have hle : a.runOf v ≤ a.ends.length := List.countP_le_length
  have := (countP_le_split hw.strict v (a.ends.length - 1) (by omega))
  unfold runOf at *
  omega

theorem physical_ok {a : RunEnd α} (hw : a.WF) (hn : 0 < a.ends.length) (v : Nat) :
    a.physical v = .ok (if a.runOf v = a.ends.length then a.ends.length - 1 else a.runOf v) := by
  obtain ⟨r, h1, h2⟩ := search_right_index a.ends hw.strict v
  simp only [physical, h1, Res.ok_bind, SearchResult.toEndsIndex, h2]
  unfold runOf
  split
  · rename_i h; rw [h, Res.sub_of_le (by omega)]
  · rfl

theorem physical_lt {a : RunEnd α} (hw : a.WF) {v : Nat} (hv : v < a.ends.getLast?.getD 0) : a.physical v = .ok (a.runOf v) := by
  have := runOf_lt hw hv
  rw [physical_ok hw (by omega), if_neg (by omega)]

theorem strictSorted_iff {l : List Nat} : strictSorted l = true ↔ l.Pairwise (· < ·) := by
  induction l with
  | nil => simp [strictSorted]
  | cons a l ih =>
    cases l with
    | nil => simp [strictSorted]
    | cons b l =>
      rw [strictSorted, Bool.and_eq_true, ih]
      constructor
      · rintro ⟨h1, h2⟩
        rw [List.pairwise_cons]
        refine ⟨?_, h2⟩
        have hab := of_decide_eq_true h1
        intro x hx
        rcases List.mem_cons.mp hx with rfl | hx
        · exact hab
        · exact Nat.lt_trans hab ((List.pairwise_cons.mp h2).1 x hx)
      · intro h
        have := List.pairwise_cons.mp h
        exact ⟨decide_eq_true (this.1 b (by simp)), this.2⟩

theorem withOffset_ok {ends : List Nat} {values : PArr α} {validity : Validity} {offset length : Nat}
    (hn : values.validity.nullable = validity.nullable) (hf : offset = 0 ∨ ∀ e ∈ ends.head?, offset < e)
    (hs : ends.Pairwise (· < ·)) (hv : FitsLen validity length) :
    withOffsetAndLength ends values validity offset length = .ok ⟨ends, values, validity, offset, length⟩ := by
  have h1 : checkFirst ends offset = .ok () := by
    unfold checkFirst
    split
    · rename_i h0
      cases hh : ends.head? with
      | none => rfl
      | some e =>
        rcases hf with h | h
        · exact absurd h h0
        · have := h e (by rw [hh]; rfl)
          simp only []
          rw [if_neg (by omega)]
    · rfl
  have h2 : validity.checkLen length = .ok () := by
    cases validity with
    | array b =>
      have : b.length = length := by simpa [FitsLen, mask] using hv
      simp [Validity.checkLen, this]
    | _ => rfl
  simp [withOffsetAndLength, h1, h2, hn, strictSorted_iff.mpr hs, Res.guard]

theorem values_wf {a : RunEnd α} (hw : a.WF) : a.values.WF := by
  have := hw.values
  unfold PArr.WF
  rw [this]
  split <;> simp [FitsLen, mask]

theorem values_rows {a : RunEnd α} (hw : a.WF) : a.values.rows = a.values.vals.map some := by
  have := hw.values
  unfold PArr.rows
  have hm : mask a.values.vals.length a.values.validity = List.replicate a.values.vals.length true := by
    rw [this]; split <;> rfl
  rw [hm]
  generalize a.values.vals = l
  induction l with
  | nil => rfl
  | cons x l ih => simpa [Spec.rows, List.replicate_succ] using ih

end RunEnd
end Vx
