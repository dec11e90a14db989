import Verif.Lemmas.Validity
/-! # C23: validity operations act pointwise on the mask they denote -/

namespace Vx
open Spec

/-- `is_valid(i)` reads the mask, for every in-range row; it cannot panic on a validity that fits the array. -/
theorem C23_is_valid (v : Validity) (n i : Nat) (hf : FitsLen v n) (hi : i < n) :
    ∃ b, v.isValid i = .ok b ∧ (mask n v)[i]? = some b := by
  cases v with
  | nonNullable => exact ⟨true, rfl, by simp [mask, hi]⟩
  | allValid => exact ⟨true, rfl, by simp [mask, hi]⟩
  | allInvalid => exact ⟨false, rfl, by simp [mask, hi]⟩
  | array a =>
    simp [FitsLen, mask] at hf
    subst hf
    exact ⟨a[i], by simp [Validity.isValid, idx_lt hi], by simp [mask, List.getElem?_eq_getElem hi]⟩

/-- Slicing a validity slices its mask and keeps the nullability of the type. -/
theorem C23_slice (v : Validity) (n s e : Nat) (hf : FitsLen v n) (h : InBounds n s e) :
    ∃ w, v.slice s e = .ok w ∧ mask (e - s) w = slice (mask n v) s e ∧ FitsLen w (e - s) ∧ w.nullable = v.nullable :=
  mask_slice hf h

/-- Taking from a validity takes from its mask. -/
theorem C23_take (v : Validity) (n : Nat) (is : List Nat) (hf : FitsLen v n) (h : ∀ i ∈ is, i < n) :
    ∃ w, v.take is = .ok w ∧ mask is.length w = take (mask n v) is ∧ FitsLen w is.length ∧ w.nullable = v.nullable :=
  mask_take hf h

/-- Filtering a validity filters its mask. -/
theorem C23_filter (v : Validity) (n : Nat) (m : List Bool) (hf : FitsLen v n) (h : m.length = n) :
    ∃ w, v.filter m = .ok w ∧ mask (m.count true) w = filter (mask n v) m ∧ FitsLen w (m.count true)
      ∧ w.nullable = v.nullable :=
  mask_filter hf h

/-- `and` is the pointwise conjunction of masks (for `BoolArray`-encoded validity children) and is non-nullable exactly when
both sides are. -/
theorem C23_and (l r : Validity) (n : Nat) (hl : FitsLen l n) (hr : FitsLen r n) :
    ∃ w, Validity.and true l r = .ok w ∧ mask n w = List.zipWith (fun x y => x && y) (mask n l) (mask n r) ∧
      FitsLen w n ∧ w.nullable = (l.nullable || r.nullable) := by
  have hz1 : ∀ a : List Bool, a.length = n → List.zipWith (fun x y => x && y) a (List.replicate n true) = a := by
    intro a ha; subst ha
    apply List.ext_getElem <;> simp
  have hz2 : ∀ a : List Bool, a.length = n → List.zipWith (fun x y => x && y) (List.replicate n true) a = a := by
    intro a ha; subst ha
    apply List.ext_getElem <;> simp
  have hz3 : ∀ a : List Bool, a.length = n →
      List.zipWith (fun x y => x && y) a (List.replicate n false) = List.replicate n false := by
    intro a ha; subst ha
    apply List.ext_getElem <;> simp
  have hz4 : ∀ a : List Bool, a.length = n →
      List.zipWith (fun x y => x && y) (List.replicate n false) a = List.replicate n false := by
    intro a ha; subst ha
    apply List.ext_getElem <;> simp
  cases l <;> cases r <;> simp only [FitsLen, mask] at hl hr
  case array.array a b =>
    refine ⟨Validity.ofBooleanBuffer (List.zipWith (fun x y => x && y) a b), ?_, ?_, ?_, ?_⟩
    · simp [Validity.and, hl, hr]
    · have := mask_ofBooleanBuffer (List.zipWith (fun x y => x && y) a b)
      rw [List.length_zipWith, hl, hr, Nat.min_self] at this
      exact this
    · have := mask_ofBooleanBuffer (List.zipWith (fun x y => x && y) a b)
      rw [List.length_zipWith, hl, hr, Nat.min_self] at this
      simp [FitsLen, this, hl, hr]
    · unfold Validity.ofBooleanBuffer; split
      · rfl
      · split <;> rfl
  all_goals
    first
      | exact ⟨_, rfl, by simp [mask, hz1, hz2, hz3, hz4, hl, hr], by simp [FitsLen, mask, hl, hr], rfl⟩

/-- `to_logical` denotes the same mask as the validity. -/
theorem C23_to_logical (v : Validity) (n : Nat) (hf : FitsLen v n) :
    (v.toLogical n).intoBools = mask n v ∧ mask n (v.toLogical n).intoValidity = mask n v ∧ (v.toLogical n).len = n := by
  cases v with
  | nonNullable => exact ⟨rfl, rfl, rfl⟩
  | allValid => exact ⟨rfl, rfl, rfl⟩
  | allInvalid => exact ⟨rfl, rfl, rfl⟩
  | array a =>
    simp [FitsLen, mask] at hf
    subst hf
    simp only [Validity.toLogical]
    split
    · rename_i h
      by_cases he : a = []
      · subst he; simp [Validity.boolMin] at h
      · simp [Validity.boolMin, he] at h
        have := count_true_eq_length.mp h
        exact ⟨this.symm, this.symm, rfl⟩
    · split
      · rename_i h
        by_cases he : a = []
        · subst he; simp [Validity.boolMax] at h
        · simp only [Validity.boolMax, List.isEmpty_iff, he, if_false, Option.map_some, Option.getD_some,
            Bool.not_eq_true', decide_eq_false_iff_not, Nat.not_lt, Nat.le_zero] at h
          have := count_true_eq_zero.mp h
          exact ⟨this.symm, this.symm, rfl⟩
      · exact ⟨rfl, rfl, rfl⟩

/-- Building a validity from booleans (`Vec<bool>`, `BooleanBuffer`, `try_new_from_array`) denotes exactly those booleans. -/
theorem C23_from_bools (a : List Bool) :
    mask a.length (Validity.ofVec a) = a ∧ mask a.length (Validity.ofBooleanBuffer a) = a ∧
      (LogicalValidity.ofBools a).intoBools = a := by
  refine ⟨mask_ofVec a, mask_ofBooleanBuffer a, ?_⟩
  unfold LogicalValidity.ofBools
  split
  · rename_i h; exact (count_true_eq_length.mp h).symm
  · split
    · rename_i h; exact (count_true_eq_zero.mp h).symm
    · rfl

/-- Concatenating logical validities (used when chunks are merged) concatenates their masks. -/
theorem C23_collect (vs : List LogicalValidity) :
    mask (vs.map LogicalValidity.len).sum (LogicalValidity.collect vs) = vs.flatMap LogicalValidity.intoBools := by
  unfold LogicalValidity.collect
  split
  · rename_i h
    simp only [mask]
    induction vs with
    | nil => rfl
    | cons v vs ih =>
      simp only [List.all_cons, Bool.and_eq_true] at h
      cases v with
      | allValid n =>
        simp [LogicalValidity.len, LogicalValidity.intoBools, List.flatMap_cons, ← ih h.2, List.replicate_append_replicate]
      | _ => simp [LogicalValidity.isAllValid] at h
  · split
    · rename_i hna h
      clear hna
      simp only [mask]
      induction vs with
      | nil => rfl
      | cons v vs ih =>
        simp only [List.all_cons, Bool.and_eq_true] at h
        cases v with
        | allInvalid n =>
          simp [LogicalValidity.len, LogicalValidity.intoBools, List.flatMap_cons, ← ih h.2, List.replicate_append_replicate]
        | _ => simp [LogicalValidity.isAllInvalid] at h
    · rfl

/-- Chunks that are all without nulls, or all null, are merged into the one-word form, without a bitmap. -/
theorem C23_collect_compact (ns : List Nat) :
    LogicalValidity.collect (ns.map .allValid) = .allValid ∧ (ns ≠ [] → LogicalValidity.collect (ns.map .allInvalid) = .allInvalid) := by
  constructor
  · unfold LogicalValidity.collect
    rw [if_pos (by simp [LogicalValidity.isAllValid])]
  · intro h
    unfold LogicalValidity.collect
    cases ns with
    | nil => exact absurd rfl h
    | cons n ns => rw [if_neg (by simp [LogicalValidity.isAllValid]), if_pos (by simp [LogicalValidity.isAllInvalid])]

example : LogicalValidity.collect [.allInvalid 2, .allInvalid 3] = .allInvalid := (C23_collect_compact [2, 3]).2 (by simp)

/-- The code's `and` fails when a validity child is compressed (not a plain `BoolArray`): the mask exists, the call errors.
This is an observable limitation of `Validity::and` (validity.rs:201-202), so C23 is claimed for plain children only. -/
theorem C23_and_compressed_child_fails : ∃ l r : Validity, FitsLen l 2 ∧ FitsLen r 2 ∧ Validity.and false l r = .err :=
  ⟨.array [true, false], .array [true, true], by decide, by decide, by decide⟩

example : FitsLen (.array [true, false, true]) 3 ∧ InBounds 3 1 3 ∧ (∀ i ∈ [2, 0, 2], i < 3) := by decide
example : Validity.and true (.array [true, false, true]) (.array [false, false, true]) = .ok (.array [false, false, true]) := by
  decide

end Vx
