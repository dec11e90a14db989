import Verif.Props.C01
import Verif.Model.Sparse
import Verif.Spec.Sparse
import Verif.Lemmas.Primitive
import Mathlib.Data.Nat.Basic
/-! # Lemmas on strictly increasing index lists and on sparse arrays -/

namespace Vx
open Spec

theorem strict_le {xs : List Nat} (hs : xs.Pairwise (· < ·)) : xs.Pairwise (· ≤ ·) := hs.imp Nat.le_of_lt

theorem strict_getElem_lt {xs : List Nat} (hs : xs.Pairwise (· < ·)) {i j : Nat} (hi : i < xs.length) (hj : j < xs.length)
    (h : i < j) : xs[i] < xs[j] := List.pairwise_iff_getElem.mp hs i j hi hj h

theorem strict_inj {xs : List Nat} (hs : xs.Pairwise (· < ·)) {i j : Nat} (hi : i < xs.length) (hj : j < xs.length)
    (h : xs[i] = xs[j]) : i = j := by
  rcases Nat.lt_trichotomy i j with h1 | h1 | h1
  · have := strict_getElem_lt hs hi hj h1; omega
  · exact h1
  · have := strict_getElem_lt hs hj hi h1; omega

/-- The first position holding a value that is not smaller than `v`. -/
theorem countP_lt_split {xs : List Nat} (hs : xs.Pairwise (· < ·)) (v : Nat) :
    (∀ i (h : i < xs.length), i < xs.countP (fun x => decide (x < v)) ↔ xs[i] < v) := by
  induction xs with
  | nil => intro i h; simp at h
  | cons x xs ih =>
    have hp := List.pairwise_cons.mp hs
    intro i h
    rw [List.countP_cons]
    by_cases hx : x < v
    · simp only [hx, decide_true, if_true]
      cases i with
      | zero => simp [hx]
      | succ i =>
        have := ih hp.2 i (by simpa using h)
        simp only [List.getElem_cons_succ]
        omega
    · have : xs.countP (fun x => decide (x < v)) = 0 := by
        rw [List.countP_eq_zero]
        intro y hy
        have := hp.1 y hy
        simp; omega
      simp only [hx, this]
      cases i with
      | zero => simp [hx]
      | succ i =>
        have := hp.1 (xs[i]'(by simpa using h)) (List.getElem_mem _)
        simp; omega

theorem countP_lt_getElem {xs : List Nat} (hs : xs.Pairwise (· < ·)) {k : Nat} (hk : k < xs.length) :
    xs.countP (fun x => decide (x < xs[k])) = k := by
  apply countP_eq_of_split _ _ _ (by omega)
  · intro i h hi; simpa using strict_getElem_lt hs h hk hi
  · intro i h hi
    have : xs[k] ≤ xs[i] := by
      rcases Nat.lt_or_eq_of_le hi with h1 | rfl
      · exact Nat.le_of_lt (strict_getElem_lt hs hk h h1)
      · exact Nat.le_refl _
    simpa using this

theorem search_left (xs : List Nat) (hs : xs.Pairwise (· < ·)) (v : Nat) :
    searchSlice compare xs v .left = .ok (if v ∈ xs then .found (xs.countP (fun x => decide (x < v)))
      else .notFound (xs.countP (fun x => decide (x < v)))) := by
  rw [C01_search_sorted_slice xs v .left (strict_le hs)]
  rfl

theorem search_left_found {xs : List Nat} (hs : xs.Pairwise (· < ·)) {k v : Nat} (hk : xs[k]? = some v) :
    searchSlice compare xs v .left = .ok (.found k) := by
  obtain ⟨h, rfl⟩ := List.getElem?_eq_some_iff.mp hk
  rw [search_left xs hs, if_pos (List.getElem_mem h), countP_lt_getElem hs h]

/-! ### patches -/

theorem find_none_of_not_mem {is : List Nat} {vs : List α} {j : Nat} (h : j ∉ is) :
    (is.zip vs).find? (fun p => p.1 == j) = none := by
  rw [List.find?_eq_none]
  intro p hp
  have := (List.of_mem_zip (a := p.1) (b := p.2) hp).1
  simp
  rintro rfl
  exact h this

theorem find_zip {is : List Nat} {vs : List α} (hs : is.Pairwise (· < ·)) {k j : Nat} {r : α} (hk : is[k]? = some j) (hr : vs[k]? = some r) :
    (is.zip vs).find? (fun p => p.1 == j) = some (j, r) := by
  induction is generalizing vs k with
  | nil => simp at hk
  | cons i is ih =>
    cases vs with
    | nil => simp at hr
    | cons v vs =>
      have hp := List.pairwise_cons.mp hs
      cases k with
      | zero => simp at hk hr; subst hk hr; simp
      | succ k =>
        simp at hk hr
        have hne : i ≠ j := by
          have := hp.1 j (List.mem_iff_getElem?.mpr ⟨k, hk⟩)
          omega
        rw [List.zip_cons_cons, List.find?_cons_of_neg (by simpa using hne)]
        exact ih hp.2 hk hr

theorem patchOr_found {is : List Nat} {vs : List α} (hs : is.Pairwise (· < ·)) (fill : α) {k j : Nat} {r : α} (hk : is[k]? = some j)
    (hr : vs[k]? = some r) : patchOr fill (is.zip vs) j = r := by simp [patchOr, find_zip hs hk hr]

theorem patchOr_none {is : List Nat} {vs : List α} (fill : α) {j : Nat} (h : j ∉ is) : patchOr fill (is.zip vs) j = fill := by
  simp [patchOr, find_none_of_not_mem h]

namespace Sparse

/-- What every sparse array built by the library satisfies: indices strictly increasing and inside the window the array exposes. -/
structure WF (a : Sparse α) : Prop where
  strict : a.indices.Pairwise (· < ·)
  lens : a.indices.length = a.values.len
  values : a.values.WF
  lower : ∀ i ∈ a.indices, a.offset ≤ i
  upper : ∀ i ∈ a.indices, i < a.offset + a.len
  nullable : a.fill = none → a.values.validity.nullable = true

/-- The rows the array stands for. -/
def rows (a : Sparse α) : List (Option α) := patched a.len a.offset a.fill (a.indices.zip a.values.rows)

theorem rows_length (a : Sparse α) : a.rows.length = a.len := by simp [rows, patched]

theorem rows_getElem? (a : Sparse α) (i : Nat) (hi : i < a.len) :
    a.rows[i]? = some (patchOr a.fill (a.indices.zip a.values.rows) (a.offset + i)) := by
  simp [rows, patched, hi]

theorem guard_true : Res.guard true = .ok () := rfl

theorem tryNew_ok {is : List Nat} {vs : PArr α} {len off : Nat} {fill : Option α} (hl : is.length = vs.len)
    (hlo : ∀ i ∈ is, off ≤ i) (hup : ∀ i ∈ is, i < off + len) (hn : fill = none → vs.validity.nullable = true) :
    tryNewWithOffset is vs len off fill = .ok ⟨is, vs, len, off, fill⟩ := by
  have h1 : (fill.isSome || vs.validity.nullable) = true := by
    cases fill with
    | none => simpa using hn rfl
    | some _ => rfl
  unfold tryNewWithOffset
  rw [h1, hl]
  simp only [guard_true, beq_self_eq_true, Res.ok_bind]
  cases hgl : is.getLast? with
  | none => rfl
  | some last =>
    have hm := List.mem_of_getLast? hgl
    have a1 := hlo last hm
    have a2 := hup last hm
    simp only [Res.sub_of_le a1, Res.ok_bind, ge_iff_le]
    rw [if_neg (by omega)]

theorem searchIndex_found {a : Sparse α} (hw : a.WF) {i k : Nat} (h : a.indices[k]? = some (a.offset + i)) :
    a.searchIndex i = .ok (.found k) := search_left_found hw.strict h

theorem searchIndex_notFound {a : Sparse α} (hw : a.WF) {i : Nat} (h : a.offset + i ∉ a.indices) :
    ∃ p, a.searchIndex i = .ok (.notFound p) := ⟨_, by rw [searchIndex, search_left _ hw.strict, if_neg h]⟩

theorem searchIndex_toIndex {a : Sparse α} (hw : a.WF) (i : Nat) :
    ∃ r, a.searchIndex i = .ok r ∧ r.toIndex = a.indices.countP (fun x => decide (x < a.offset + i)) := by
  refine ⟨_, search_left _ hw.strict _, ?_⟩
  split <;> rfl

theorem values_rows_len {a : Sparse α} (hw : a.WF) : a.values.rows.length = a.indices.length := by
  rw [PArr.rows_len hw.values, hw.lens]

theorem resolved {a : Sparse α} (hw : a.WF) : a.resolvedIndices = .ok (a.indices.map (fun i => i - a.offset)) :=
  Res.mapM_ok (fun i hi => Res.sub_of_le (hw.lower i hi))

end Sparse
end Vx
