import Verif.Lemmas.SearchSorted
import Verif.Spec.SearchSorted
/-! # C01: sorted search returns the partition point -/

namespace Vx

variable {α : Type} [LinearOrder α]

theorem monoCmp_of_sorted (xs : List α) (v : α) (hs : xs.Pairwise (· ≤ ·)) (c : Nat → Ordering)
    (hcx : ∀ i (h : i < xs.length), c i = compare xs[i] v) : MonoCmp c 0 xs.length := by
  have hle : ∀ i j (hi : i < xs.length) (hj : j < xs.length), i ≤ j → xs[i] ≤ xs[j] := by
    intro i j hi hj hij
    rcases Nat.lt_or_eq_of_le hij with h | rfl
    · exact List.pairwise_iff_getElem.mp hs i j hi hj h
    · exact le_refl _
  constructor
  · intro i j _ hij hj hlt
    rw [hcx j hj, compare_lt_iff_lt] at hlt
    rw [hcx i (by omega), compare_lt_iff_lt]
    exact lt_of_le_of_lt (hle i j (by omega) hj hij) hlt
  · intro i j _ hij hj hgt
    rw [hcx i (by omega), compare_gt_iff_gt] at hgt
    rw [hcx j hj, compare_gt_iff_gt]
    exact lt_of_lt_of_le hgt (hle i j (by omega) hj hij)

/-- **C01.** On every sorted slice, for every probe and side, `search_sorted` succeeds (no panic, no out-of-bounds read) and
returns the specified insertion point and tag. -/
theorem C01_search_sorted_slice (xs : List α) (v : α) (side : Side) (hs : xs.Pairwise (· ≤ ·)) :
    searchSlice compare xs v side = .ok (Spec.searchSorted xs v side) := by
  let c : Nat → Ordering := fun i => if h : i < xs.length then compare xs[i] v else .gt
  have hcx : ∀ i (h : i < xs.length), c i = compare xs[i] v := by intro i h; simp [c, h]
  have hf : ∀ i, i < xs.length → sliceIndexCmp compare xs v i = .ok (some (c i)) := by
    intro i hi; simp [sliceIndexCmp, idx_lt hi, hcx i hi]
  obtain ⟨p, hp, hspl, hres⟩ := searchSorted_spec hf (monoCmp_of_sorted xs v hs c hcx) side
  have hmem : (∃ i, i < xs.length ∧ c i = .eq) ↔ v ∈ xs := by
    constructor
    · rintro ⟨i, hi, he⟩
      rw [hcx i hi, compare_eq_iff_eq] at he
      exact he ▸ List.getElem_mem hi
    · intro hv
      obtain ⟨i, hi, rfl⟩ := List.mem_iff_getElem.mp hv
      exact ⟨i, hi, by rw [hcx i hi, compare_eq_iff_eq]⟩
  have hpt : Spec.insertionPoint xs v side = p := by
    cases side with
    | left =>
      apply countP_eq_of_split _ _ _ hp
      · intro i h hi
        have := hspl.1 i hi
        rw [hcx i h, compare_lt_iff_lt] at this
        simpa using this
      · intro i h hi
        have := hspl.2 i hi h
        rw [hcx i h, Ne, compare_lt_iff_lt] at this
        simpa using this
    | right =>
      apply countP_eq_of_split _ _ _ hp
      · intro i h hi
        have := hspl.1 i hi
        rw [hcx i h, Ne, compare_gt_iff_gt] at this
        simpa using this
      · intro i h hi
        have := hspl.2 i hi h
        rw [hcx i h, compare_gt_iff_gt] at this
        simpa using this
  simp only [searchSlice, hres, Spec.searchSorted, hmem, hpt]

/-- **C01**, nullable arrays: nulls sort last; the probe is not null; the answer is that of the non-null prefix. -/
theorem C01_search_sorted_nulls_last (ys : List α) (k : Nat) (v : α) (side : Side) (hs : ys.Pairwise (· ≤ ·)) :
    searchNullsLast compare (ys.map some ++ List.replicate k none) v side = .ok (Spec.searchSorted ys v side) := by
  let xs : List (Option α) := ys.map some ++ List.replicate k none
  let c : Nat → Ordering := fun i => if h : i < ys.length then compare ys[i] v else .gt
  have hlen : xs.length = ys.length + k := by simp [xs]
  have hcx : ∀ i (h : i < ys.length), c i = compare ys[i] v := by intro i h; simp [c, h]
  have hcg : ∀ i, ys.length ≤ i → c i = .gt := by intro i h; simp [c, Nat.not_lt.mpr h]
  have hf : ∀ i, i < xs.length → nullsLastIndexCmp compare xs v i = .ok (some (c i)) := by
    intro i hi
    simp only [nullsLastIndexCmp, idx_lt hi, Res.ok_bind]
    by_cases h : i < ys.length
    · have : xs[i] = some ys[i] := by simp [xs, List.getElem_append, h]
      rw [this]; simp [hcx i h]
    · have : xs[i] = none := by simp [xs, List.getElem_append, h]
      rw [this]; simp [hcg i (by omega)]
  have hm := monoCmp_of_sorted ys v hs c hcx
  have hm' : MonoCmp c 0 xs.length := by
    constructor
    · intro i j h1 h2 h3 h4
      by_cases hj : j < ys.length
      · exact hm.lt_left i j h1 h2 hj h4
      · rw [hcg j (by omega)] at h4; cases h4
    · intro i j h1 h2 h3 h4
      by_cases hj : j < ys.length
      · exact hm.gt_right i j h1 h2 hj h4
      · exact hcg j (by omega)
  obtain ⟨p, hp, hspl, hres⟩ := searchSorted_spec hf hm' side
  have hmem : (∃ i, i < xs.length ∧ c i = .eq) ↔ v ∈ ys := by
    constructor
    · rintro ⟨i, hi, he⟩
      by_cases h : i < ys.length
      · rw [hcx i h, compare_eq_iff_eq] at he
        exact he ▸ List.getElem_mem h
      · rw [hcg i (by omega)] at he; cases he
    · intro hv
      obtain ⟨i, hi, rfl⟩ := List.mem_iff_getElem.mp hv
      exact ⟨i, by omega, by rw [hcx i hi, compare_eq_iff_eq]⟩
  have hpy : p ≤ ys.length := by
    by_contra hlt
    cases side with
    | left =>
      have := hspl.1 ys.length (by omega); rw [hcg _ (Nat.le_refl _)] at this; cases this
    | right => exact hspl.1 ys.length (by omega) (hcg _ (Nat.le_refl _))
  have hpt : Spec.insertionPoint ys v side = p := by
    cases side with
    | left =>
      apply countP_eq_of_split _ _ _ hpy
      · intro i h hi
        have := hspl.1 i hi
        rw [hcx i h, compare_lt_iff_lt] at this
        simpa using this
      · intro i h hi
        have := hspl.2 i hi (by omega)
        rw [hcx i h, Ne, compare_lt_iff_lt] at this
        simpa using this
    | right =>
      apply countP_eq_of_split _ _ _ hpy
      · intro i h hi
        have := hspl.1 i hi
        rw [hcx i h, Ne, compare_gt_iff_gt] at this
        simpa using this
      · intro i h hi
        have := hspl.2 i hi (by omega)
        rw [hcx i h, compare_gt_iff_gt] at this
        simpa using this
  simp only [searchNullsLast]
  rw [hres]
  simp only [Spec.searchSorted, hmem, hpt]

/-- Non-vacuity: a sorted list with a duplicate run, probe present. -/
example : ([1, 2, 2, 2, 5] : List Nat).Pairwise (· ≤ ·) ∧
    searchSlice compare ([1, 2, 2, 2, 5] : List Nat) 2 .left = .ok (.found 1) ∧
    searchSlice compare ([1, 2, 2, 2, 5] : List Nat) 2 .right = .ok (.found 4) ∧
    searchSlice compare ([1, 2, 2, 2, 5] : List Nat) 3 .right = .ok (.notFound 4) := by decide +kernel

end Vx
