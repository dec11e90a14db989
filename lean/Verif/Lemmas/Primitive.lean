import Verif.Model.Primitive
import Verif.Lemmas.Validity
/-! Lemmas about primitive arrays. -/

namespace Vx
open Spec

namespace PArr

theorem rows_map (f : α → β) (a : PArr α) : (a.map f).rows = a.rows.map (Option.map f) := by
  simp only [rows, map, Spec.rows, List.length_map, List.zipWith_map_left, List.map_zipWith]
  congr 1
  funext x b
  cases b <;> rfl

theorem WF_map (f : α → β) (a : PArr α) : (a.map f).WF ↔ a.WF := by simp [WF, map]

theorem rows_len {a : PArr α} (h : a.WF) : a.rows.length = a.len := by
  simp only [WF, FitsLen] at h
  simp [rows, Spec.rows, h, len]

theorem isValid_mask {v : Validity} {n i : Nat} (hf : FitsLen v n) (hi : i < n) :
    ∃ b, v.isValid i = .ok b ∧ (mask n v)[i]? = some b := by
  cases v with
  | nonNullable => exact ⟨true, rfl, by simp [mask, hi]⟩
  | allValid => exact ⟨true, rfl, by simp [mask, hi]⟩
  | allInvalid => exact ⟨false, rfl, by simp [mask, hi]⟩
  | array a =>
    simp [FitsLen, mask] at hf
    subst hf
    exact ⟨a[i], by simp [Validity.isValid, idx_lt hi], by simp [mask, List.getElem?_eq_getElem hi]⟩

theorem scalarAt_err {a : PArr α} {i : Nat} (h : a.len ≤ i) : a.scalarAt i = .err := by simp [scalarAt, h]

theorem scalarAt_ok {a : PArr α} {i : Nat} (hw : a.WF) (h : i < a.len) :
    ∃ r, a.scalarAt i = .ok r ∧ a.rows[i]? = some r := by
  obtain ⟨b, hb, hm⟩ := isValid_mask hw h
  have hlt : i < a.vals.length := h
  have hr := rows_getElem? a.vals (mask a.vals.length a.validity) i
  rw [hm, List.getElem?_eq_getElem hlt] at hr
  cases b with
  | true => exact ⟨some a.vals[i], by simp [scalarAt, Nat.not_le.mpr h, hb, idx_lt hlt], hr⟩
  | false => exact ⟨none, by simp [scalarAt, Nat.not_le.mpr h, hb], hr⟩

theorem slice_ok {a : PArr α} {s e : Nat} (hw : a.WF) (h : InBounds a.len s e) :
    ∃ b, a.slice s e = .ok b ∧ b.rows = Spec.slice a.rows s e ∧ b.WF ∧ b.len = e - s := by
  obtain ⟨w, h1, h2, h3, h4⟩ := mask_slice hw h
  have hl : (Spec.slice a.vals s e).length = e - s := slice_length' h
  refine ⟨⟨Spec.slice a.vals s e, w⟩, ?_, ?_, ?_, hl⟩
  · simp [slice, sliceList_ok h, h1]
  · simp only [rows, hl, h2, slice_rows]
  · simp [WF, hl, h3]

theorem slice_err {a : PArr α} {s e : Nat} (h : ¬ InBounds a.len s e) : a.slice s e = .err := by
  simp [slice, sliceList_err h]

theorem take_ok {a : PArr α} {is : List Nat} (hw : a.WF) (h : ∀ i ∈ is, i < a.len) :
    ∃ b, a.take is = .ok b ∧ b.rows = Spec.take a.rows is ∧ b.WF ∧ b.len = is.length := by
  obtain ⟨w, h1, h2, h3, h4⟩ := mask_take hw h
  have hl : (Spec.take a.vals is).length = is.length := take_length h
  refine ⟨⟨Spec.take a.vals is, w⟩, ?_, ?_, ?_, hl⟩
  · simp [take, takeList_ok h, h1]
  · simp only [rows, hl, h2]
    rw [Vx.take_rows _ _ _ (by rw [show (mask a.vals.length a.validity).length = _ from hw]) h]
  · simp [WF, hl, h3]

theorem filter_ok {a : PArr α} {m : List Bool} (hw : a.WF) (h : m.length = a.len) :
    ∃ b, a.filter m = .ok b ∧ b.rows = Spec.filter a.rows m ∧ b.WF ∧ b.len = m.count true := by
  obtain ⟨w, h1, h2, h3, h4⟩ := mask_filter hw h
  have hl : (Spec.filter a.vals m).length = m.count true := filter_length h.symm
  refine ⟨⟨Spec.filter a.vals m, w⟩, ?_, ?_, ?_, hl⟩
  · simp [filter, filterList_ok h, h1]
  · simp only [rows, hl, h2]
    rw [Vx.filter_rows _ _ _ (by rw [show (mask a.vals.length a.validity).length = _ from hw])]
  · simp [WF, hl, h3]

end PArr
end Vx
