import Verif.Spec.Validity
import Verif.Lemmas.Rows
/-! # Helper lemmas about validity -/

namespace Vx
open Spec

theorem sliceList_ok {xs : List α} {s e : Nat} (h : InBounds xs.length s e) : sliceList xs s e = .ok (slice xs s e) := by
  obtain ⟨h1, h2⟩ := h
  simp [sliceList, show ¬ (s > xs.length) by omega, show ¬ (e > xs.length) by omega, show ¬ (s > e) by omega, slice_eq_drop_take]

theorem sliceList_err {xs : List α} {s e : Nat} (h : ¬ InBounds xs.length s e) : sliceList xs s e = .err := by
  simp only [InBounds] at h
  unfold sliceList
  split
  · rfl
  · split
    · rfl
    · split
      · rfl
      · omega

theorem takeList_ok {xs : List α} {is : List Nat} (h : ∀ i ∈ is, i < xs.length) : takeList xs is = .ok (take xs is) :=
  res_mapM_idx h

theorem zip_filter_eq (xs : List α) (bs : List Bool) :
    ((xs.zip bs).filter (fun p => p.2)).map (fun p => p.1) = filter xs bs := by
  induction xs generalizing bs with
  | nil => simp
  | cons x xs ih =>
    cases bs with
    | nil => simp
    | cons b bs => cases b <;> simp [ih]

theorem filterList_ok {xs : List α} {bs : List Bool} (h : bs.length = xs.length) : filterList xs bs = .ok (filter xs bs) := by
  simp [filterList, h, zip_filter_eq]

theorem count_true_eq_length {a : List Bool} : a.count true = a.length ↔ a = List.replicate a.length true := by
  rw [List.count_eq_length]
  constructor
  · intro h; exact List.eq_replicate_iff.mpr ⟨rfl, fun b hb => (h b hb).symm⟩
  · intro h b hb; exact ((List.eq_replicate_iff.mp h).2 b hb).symm

theorem count_true_eq_zero {a : List Bool} : a.count true = 0 ↔ a = List.replicate a.length false := by
  rw [List.count_eq_zero]
  constructor
  · intro h; exact List.eq_replicate_iff.mpr ⟨rfl, fun b hb => by cases b; rfl; exact absurd hb h⟩
  · intro h hb; exact absurd ((List.eq_replicate_iff.mp h).2 true hb) (by simp)

theorem mask_ofBooleanBuffer (a : List Bool) : mask a.length (Validity.ofBooleanBuffer a) = a := by
  unfold Validity.ofBooleanBuffer
  split
  · rename_i h; exact (count_true_eq_length.mp h).symm
  · split
    · rename_i h; exact (count_true_eq_zero.mp h).symm
    · rfl

theorem all_eq_replicate {a : List Bool} (h : a.all (fun b => b) = true) : a = List.replicate a.length true := by
  simp at h
  exact List.eq_replicate_iff.mpr ⟨rfl, fun b hb => by cases b; exact absurd hb h; rfl⟩

theorem not_any_eq_replicate {a : List Bool} (h : (!a.any (fun b => b)) = true) : a = List.replicate a.length false := by
  simp at h
  exact List.eq_replicate_iff.mpr ⟨rfl, fun b hb => by cases b; rfl; exact absurd hb h⟩

theorem mask_ofVec (a : List Bool) : mask a.length (Validity.ofVec a) = a := by
  unfold Validity.ofVec
  split
  · rename_i h; exact (all_eq_replicate h).symm
  · split
    · rename_i h; exact (not_any_eq_replicate h).symm
    · rfl

theorem rows_length (vals : List α) (m : List Bool) (h : vals.length = m.length) : (rows vals m).length = vals.length := by
  simp [rows, h]

theorem rows_getElem? (vals : List α) (m : List Bool) (i : Nat) :
    (rows vals m)[i]? = match vals[i]?, m[i]? with
      | some x, some true => some (some x)
      | some _, some false => some none
      | _, _ => none := by
  simp only [rows, List.getElem?_zipWith]
  cases vals[i]? <;> cases m[i]? with
  | none => simp
  | some b => cases b <;> simp

theorem slice_rows (vals : List α) (m : List Bool) (s e : Nat) :
    slice (rows vals m) s e = rows (slice vals s e) (slice m s e) := slice_zipWith _ _ _ _ _

theorem filter_rows (vals : List α) (m : List Bool) (bs : List Bool) (h : vals.length = m.length) :
    filter (rows vals m) bs = rows (filter vals bs) (filter m bs) := filter_zipWith _ _ _ _ h

theorem take_rows (vals : List α) (m : List Bool) (is : List Nat) (h : vals.length = m.length)
    (hi : ∀ i ∈ is, i < vals.length) : take (rows vals m) is = rows (take vals is) (take m is) := by
  have hm : ∀ i ∈ is, i < m.length := fun i hh => h ▸ hi i hh
  induction is with
  | nil => rfl
  | cons i is ih =>
    have hi0 := hi i (by simp)
    have hm0 := hm i (by simp)
    rw [take_cons hi0, take_cons hm0, take_cons (by rw [rows_length _ _ h]; exact hi0),
      ih (fun j hj => hi j (by simp [hj])) (fun j hj => hm j (by simp [hj]))]
    simp [rows]

theorem mask_slice {v : Validity} {n s e : Nat} (hf : FitsLen v n) (h : InBounds n s e) :
    ∃ w, v.slice s e = .ok w ∧ mask (e - s) w = slice (mask n v) s e ∧ FitsLen w (e - s) ∧ w.nullable = v.nullable := by
  have hmin : min e n - s = e - s := by rw [Nat.min_eq_left h.2]
  cases v with
  | nonNullable => exact ⟨_, rfl, by simp [mask, slice_replicate, hmin], by simp [FitsLen, mask], rfl⟩
  | allValid => exact ⟨_, rfl, by simp [mask, slice_replicate, hmin], by simp [FitsLen, mask], rfl⟩
  | allInvalid => exact ⟨_, rfl, by simp [mask, slice_replicate, hmin], by simp [FitsLen, mask], rfl⟩
  | array a =>
    simp [FitsLen, mask] at hf
    subst hf
    refine ⟨.array (slice a s e), by simp [Validity.slice, sliceList_ok h], rfl, ?_, rfl⟩
    simp [FitsLen, mask, slice_length' h]

theorem mask_take {v : Validity} {n : Nat} {is : List Nat} (hf : FitsLen v n) (h : ∀ i ∈ is, i < n) :
    ∃ w, v.take is = .ok w ∧ mask is.length w = take (mask n v) is ∧ FitsLen w is.length ∧ w.nullable = v.nullable := by
  have hrep : ∀ b : Bool, take (List.replicate n b) is = List.replicate is.length b := by
    intro b
    rw [List.eq_replicate_iff]
    refine ⟨take_length (by simpa using h), ?_⟩
    intro c hc
    simp only [take, List.mem_filterMap] at hc
    obtain ⟨i, hi, hc⟩ := hc
    rw [List.getElem?_replicate] at hc
    split at hc <;> simp_all
  cases v with
  | nonNullable => exact ⟨_, rfl, by simp [mask, hrep], by simp [FitsLen, mask], rfl⟩
  | allValid => exact ⟨_, rfl, by simp [mask, hrep], by simp [FitsLen, mask], rfl⟩
  | allInvalid => exact ⟨_, rfl, by simp [mask, hrep], by simp [FitsLen, mask], rfl⟩
  | array a =>
    simp [FitsLen, mask] at hf
    subst hf
    refine ⟨.array (take a is), by simp [Validity.take, takeList_ok h], rfl, ?_, rfl⟩
    simp [FitsLen, mask, take_length h]

theorem mask_filter {v : Validity} {n : Nat} {m : List Bool} (hf : FitsLen v n) (h : m.length = n) :
    ∃ w, v.filter m = .ok w ∧ mask (m.count true) w = filter (mask n v) m ∧ FitsLen w (m.count true)
      ∧ w.nullable = v.nullable := by
  cases v with
  | nonNullable => exact ⟨_, rfl, by simp [mask, filter_replicate _ _ _ h], by simp [FitsLen, mask], rfl⟩
  | allValid => exact ⟨_, rfl, by simp [mask, filter_replicate _ _ _ h], by simp [FitsLen, mask], rfl⟩
  | allInvalid => exact ⟨_, rfl, by simp [mask, filter_replicate _ _ _ h], by simp [FitsLen, mask], rfl⟩
  | array a =>
    simp [FitsLen, mask] at hf
    subst hf
    refine ⟨.array (filter a m), by simp [Validity.filter, filterList_ok h], rfl, ?_, rfl⟩
    simp [FitsLen, mask, filter_length h.symm]

end Vx
