import Verif.Model.SearchSorted
import Mathlib.Order.Defs.LinearOrder
import Mathlib.Order.Compare
/-! # Correctness of the binary search loops -/

namespace Vx

/-- Orderings along positions `[a,b)` are sorted: `lt … lt eq … eq gt … gt`. -/
structure MonoCmp (c : Nat → Ordering) (a b : Nat) : Prop where
  lt_left : ∀ i j, a ≤ i → i ≤ j → j < b → c j = .lt → c i = .lt
  gt_right : ∀ i j, a ≤ i → i ≤ j → j < b → c i = .gt → c j = .gt

theorem MonoCmp.mono {c : Nat → Ordering} {a b a' b'} (h : MonoCmp c a b) (ha : a ≤ a') (hb : b' ≤ b) :
    MonoCmp c a' b' :=
  ⟨fun i j h1 h2 h3 => h.lt_left i j (by omega) h2 (by omega), fun i j h1 h2 h3 => h.gt_right i j (by omega) h2 (by omega)⟩

/-- The loop invariant: everything in the range at or beyond `base+size` is `gt`; everything before `base` is not `gt`. -/
theorem sideLoop_spec {find : Nat → Res Ordering} {c : Nat → Ordering} {a b : Nat}
    (hf : ∀ i, a ≤ i → i < b → find i = .ok (c i)) (hc : MonoCmp c a b) :
    ∀ size base, a ≤ base → base + size ≤ b → 1 ≤ size →
      (∀ i, a ≤ i → i < base → c i ≠ .gt) → (∀ i, base + size ≤ i → i < b → c i = .gt) →
      (base = a ∨ c base ≠ .gt) →
      ∃ r, sideLoop find base size = .ok r ∧ base ≤ r ∧ r < base + size ∧
        (∀ i, a ≤ i → i < r → c i ≠ .gt) ∧ (∀ i, r < i → i < b → c i = .gt) ∧ (r = a ∨ c r ≠ .gt) := by
  intro size
  induction size using Nat.strongRecOn with
  | ind size ih =>
    intro base h1 h2 h3 h4 h5 h6
    unfold sideLoop
    by_cases hs : 1 < size
    · simp only [hs, if_true]
      have hm : find (base + size / 2) = .ok (c (base + size / 2)) := hf _ (by omega) (by omega)
      simp only [hm, Res.ok_bind]
      by_cases hg : c (base + size / 2) = .gt
      · simp only [hg, if_true]
        obtain ⟨r, hr, h7, h8, h9⟩ := ih (size - size / 2) (by omega) base h1 (by omega) (by omega) h4
          (fun i hi hib => hc.gt_right (base + size / 2) i (by omega) (by omega) hib hg) h6
        exact ⟨r, hr, h7, by omega, h9⟩
      · simp only [hg, if_false]
        obtain ⟨r, hr, h7, h8, h9⟩ := ih (size - size / 2) (by omega) (base + size / 2) (by omega) (by omega) (by omega)
          (fun i hi hib hgt => hg (hc.gt_right i _ hi (by omega) (by omega) hgt))
          (fun i hi hib => h5 i (by omega) hib) (Or.inr hg)
        exact ⟨r, hr, by omega, by omega, h9⟩
    · simp only [hs, if_false]
      have : size = 1 := by omega
      subst this
      exact ⟨base, rfl, by omega, by omega, h4, fun i hi hib => h5 i (by omega) hib, h6⟩

/-- `search_sorted_side_idx` finds an equal element or the partition point. -/
theorem sideIdx_spec {find : Nat → Res Ordering} {c : Nat → Ordering} {a b : Nat} (hab : a < b)
    (hf : ∀ i, a ≤ i → i < b → find i = .ok (c i)) (hc : MonoCmp c a b) :
    (∃ k, searchSortedSideIdx find a b = .ok (.found k) ∧ a ≤ k ∧ k < b ∧ c k = .eq) ∨
    (∃ p, searchSortedSideIdx find a b = .ok (.notFound p) ∧ a ≤ p ∧ p ≤ b ∧
      (∀ i, a ≤ i → i < p → c i = .lt) ∧ (∀ i, p ≤ i → i < b → c i = .gt)) := by
  obtain ⟨r, hr, h1, h2, h3, h4, h5⟩ := sideLoop_spec hf hc (b - a) a (Nat.le_refl _) (by omega) (by omega)
    (by intros; omega) (by intros; omega) (Or.inl rfl)
  have hfr := hf r h1 (by omega)
  simp only [searchSortedSideIdx, Res.sub_of_le (Nat.le_of_lt hab), Res.ok_bind, show ¬ (b - a = 0) by omega, if_false, hr, hfr]
  cases hcr : c r with
  | eq => left; exact ⟨r, by simp, h1, by omega, hcr⟩
  | lt =>
    right
    refine ⟨r + 1, by simp, by omega, by omega, ?_, ?_⟩
    · intro i hi hir; exact hc.lt_left i r hi (by omega) (by omega) hcr
    · intro i hi hib; exact h4 i (by omega) hib
  | gt =>
    right
    refine ⟨r, by simp, by omega, by omega, ?_, ?_⟩
    · intro i hi hir
      rcases h5 with rfl | h5
      · omega
      · exact absurd hcr h5
    · intro i hi hib
      exact hc.gt_right r i h1 hi hib hcr

theorem sideIdx_empty (find : Nat → Res Ordering) (a : Nat) : searchSortedSideIdx find a a = .ok (.notFound 0) := by
  simp [searchSortedSideIdx, Res.sub]

/-- Sorted orderings on `[0,n)`: the generic specification of `search_sorted`. -/
theorem searchSorted_spec {ic : Nat → Res (Option Ordering)} {c : Nat → Ordering} {n : Nat}
    (hf : ∀ i, i < n → ic i = .ok (some (c i))) (hc : MonoCmp c 0 n) (side : Side) :
    ∃ p, p ≤ n ∧
      (match side with
       | .left => (∀ i, i < p → c i = .lt) ∧ (∀ i, p ≤ i → i < n → c i ≠ .lt)
       | .right => (∀ i, i < p → c i ≠ .gt) ∧ (∀ i, p ≤ i → i < n → c i = .gt)) ∧
      searchSorted ic n side =
        .ok (if (∃ i, i < n ∧ c i = .eq) then .found p else .notFound p) := by
  have hfind : ∀ i, 0 ≤ i → i < n → (do let c ← ic i; Res.ok (c.getD .lt)) = .ok (c i) := by
    intro i _ hi; simp [hf i hi]
  by_cases hn : n = 0
  · subst hn
    refine ⟨0, by omega, ?_, ?_⟩
    · cases side <;> simp
    · cases side <;> simp [searchSorted, searchSortedBy, sideIdx_empty]
  · rcases sideIdx_spec (by omega) hfind hc with ⟨k, hk, hk0, hkn, hck⟩ | ⟨p, hp, hp0, hpn, hlt, hgt⟩
    · have hex : ∃ i, i < n ∧ c i = .eq := ⟨k, hkn, hck⟩
      simp only [hex, if_true]
      cases side with
      | left =>
        simp only [searchSorted, searchSortedBy, hk, Res.ok_bind]
        by_cases hk0 : k = 0
        · subst hk0
          refine ⟨0, by omega, ⟨by intros; omega, ?_⟩, ?_⟩
          · intro i _ hi hlt
            have := hc.lt_left 0 i (by omega) (by omega) hi hlt
            rw [hck] at this; cases this
          · simp [sideIdx_empty]
        · let c' : Nat → Ordering := fun i => if c i = .lt then .lt else .gt
          have hf' : ∀ i, 0 ≤ i → i < k →
              (do let c ← ic i; Res.ok (if c = some Ordering.lt then Ordering.lt else Ordering.gt)) = .ok (c' i) := by
            intro i _ hi; simp [hf i (by omega), c']
          have hc' : MonoCmp c' 0 k := by
            constructor
            · intro i j h1 h2 h3 h4
              have : c j = .lt := by by_contra h; simp [c', h] at h4
              simp [c', hc.lt_left i j h1 h2 (by omega) this]
            · intro i j h1 h2 h3 h4
              have : c i ≠ .lt := by intro h; simp [c', h] at h4
              have : c j ≠ .lt := fun h => this (hc.lt_left i j h1 h2 (by omega) h)
              simp [c', this]
          rcases sideIdx_spec (by omega) hf' hc' with ⟨q, hq, _, _, hq'⟩ | ⟨q, hq, _, hqk, h7, h8⟩
          · exfalso; simp only [c'] at hq'; split at hq' <;> cases hq'
          · refine ⟨q, by omega, ⟨?_, ?_⟩, ?_⟩
            · intro i hi
              have := h7 i (by omega) hi
              by_contra h; simp [c', h] at this
            · intro i hi hin hlt
              by_cases hik : i < k
              · have := h8 i hi hik; simp [c', hlt] at this
              · have := hc.lt_left k i (by omega) (by omega) hin hlt
                rw [hck] at this; cases this
            · simp [hq]
      | right =>
        simp only [searchSorted, searchSortedBy, hk, Res.ok_bind]
        let c' : Nat → Ordering := fun i => if c i = .gt then .gt else .lt
        have hf' : ∀ i, k ≤ i → i < n →
            (do let c ← ic i; Res.ok (if c = some Ordering.lt ∨ c = some Ordering.eq then Ordering.lt else Ordering.gt)) = .ok (c' i) := by
          intro i _ hi; simp only [hf i hi, Res.ok_bind, c']; cases c i <;> simp
        have hc' : MonoCmp c' k n := by
          constructor
          · intro i j h1 h2 h3 h4
            have : c j ≠ .gt := by intro h; simp [c', h] at h4
            have : c i ≠ .gt := fun h => this (hc.gt_right i j (by omega) h2 h3 h)
            simp [c', this]
          · intro i j h1 h2 h3 h4
            have : c i = .gt := by by_contra h; simp [c', h] at h4
            simp [c', hc.gt_right i j (by omega) h2 h3 this]
        rcases sideIdx_spec (by omega) hf' hc' with ⟨q, hq, _, _, hq'⟩ | ⟨q, hq, hkq, hqn, h7, h8⟩
        · exfalso; simp only [c'] at hq'; split at hq' <;> cases hq'
        · refine ⟨q, by omega, ⟨?_, ?_⟩, ?_⟩
          · intro i hi hg
            by_cases hik : k ≤ i
            · have := h7 i hik hi; simp [c', hg] at this
            · have := hc.gt_right i k (by omega) (by omega) hkn hg
              rw [hck] at this; cases this
          · intro i hi hin
            have := h8 i hi hin
            by_contra h; simp [c', h] at this
          · simp [hq]
    · have hex : ¬ ∃ i, i < n ∧ c i = .eq := by
        rintro ⟨i, hi, he⟩
        by_cases hip : i < p
        · have := hlt i (by omega) hip; rw [he] at this; cases this
        · have := hgt i (by omega) hi; rw [he] at this; cases this
      simp only [hex, if_false]
      refine ⟨p, hpn, ?_, ?_⟩
      · cases side
        · exact ⟨fun i hi => hlt i (by omega) hi, fun i hi hin h => (by rw [hgt i hi hin] at h; cases h)⟩
        · exact ⟨fun i hi h => (by rw [hlt i (by omega) hi] at h; cases h), fun i hi hin => hgt i hi hin⟩
      · cases side <;> simp [searchSorted, searchSortedBy, hp]

/-- A split point determines a count. -/
theorem countP_eq_of_split (q : α → Bool) (xs : List α) (p : Nat) (hp : p ≤ xs.length)
    (h1 : ∀ i (h : i < xs.length), i < p → q xs[i] = true) (h2 : ∀ i (h : i < xs.length), p ≤ i → q xs[i] = false) :
    xs.countP q = p := by
  rw [← List.take_append_drop p xs, List.countP_append]
  have ha : (xs.take p).countP q = p := by
    rw [List.countP_eq_length.mpr]
    · simp [hp]
    · intro a ha
      obtain ⟨i, hi, rfl⟩ := List.mem_iff_getElem.mp ha
      simp at hi
      simpa using h1 i (by omega) (by omega)
  have hb : (xs.drop p).countP q = 0 := by
    rw [List.countP_eq_zero]
    intro a ha
    obtain ⟨i, hi, rfl⟩ := List.mem_iff_getElem.mp ha
    simp at hi
    simpa using h2 (p + i) (by omega) (by omega)
  omega

/-! ### the search looks only at positions below the length -/

theorem sideLoop_congr (f g : Nat → Res Ordering) : ∀ (size base : Nat), (∀ i, base ≤ i → i < base + size → f i = g i) →
    sideLoop f base size = sideLoop g base size := by
  intro size
  induction size using Nat.strongRecOn with
  | ind size ih =>
    intro base h
    conv => lhs; unfold sideLoop
    conv => rhs; unfold sideLoop
    split
    · rename_i hs
      simp only [h (base + size / 2) (by omega) (by omega)]
      cases g (base + size / 2) with
      | ok c =>
        simp only [Res.ok_bind]
        apply ih _ (by omega)
        intro i h1 h2
        apply h
        · split at h1 <;> omega
        · split at h2 <;> omega
      | err => rfl
      | panic => rfl
    · rfl

theorem sideLoop_range (f : Nat → Res Ordering) : ∀ (size base b : Nat), 0 < size → sideLoop f base size = .ok b → base ≤ b ∧ b < base + size := by
  intro size
  induction size using Nat.strongRecOn with
  | ind size ih =>
    intro base b h0 h
    unfold sideLoop at h
    split at h
    · rename_i hs
      cases hf : f (base + size / 2) with
      | ok c =>
        simp only [hf, Res.ok_bind] at h
        have := ih _ (by omega) _ b (by omega) h
        split at this <;> omega
      | err => simp [hf] at h
      | panic => simp [hf] at h
    · obtain rfl := Res.ok.inj h
      omega

theorem sideIdx_congr (f g : Nat → Res Ordering) (start stop : Nat) (h : ∀ i, start ≤ i → i < stop → f i = g i) :
    searchSortedSideIdx f start stop = searchSortedSideIdx g start stop := by
  unfold searchSortedSideIdx
  by_cases hs : start ≤ stop
  · rw [Res.sub_of_le hs]
    simp only [Res.ok_bind]
    split
    · rfl
    · rename_i h0
      rw [sideLoop_congr f g _ _ (fun i h1 h2 => h i h1 (by omega))]
      cases hl : sideLoop g start (stop - start) with
      | ok b =>
        have := sideLoop_range _ _ _ _ (by omega) hl
        simp only [Res.ok_bind]
        rw [h b (by omega) (by omega)]
      | err => rfl
      | panic => rfl
  · have : Res.sub stop start = .panic := by simp [Res.sub]; omega
    rw [this]; rfl

theorem sideIdx_found_lt (f : Nat → Res Ordering) (start stop k : Nat) (h : searchSortedSideIdx f start stop = .ok (.found k)) :
    start ≤ k ∧ k < stop := by
  unfold searchSortedSideIdx at h
  obtain ⟨size, h1, h⟩ := Res.bind_eq_ok.mp h
  have hs : start ≤ stop ∧ size = stop - start := by
    unfold Res.sub at h1
    split at h1
    · exact ⟨by omega, (Res.ok.inj h1).symm⟩
    · cases h1
  split at h
  · cases h
  · obtain ⟨b, h2, h⟩ := Res.bind_eq_ok.mp h
    have hb := sideLoop_range _ _ _ _ (by omega) h2
    obtain ⟨c, h3, h⟩ := Res.bind_eq_ok.mp h
    split at h
    · simp only [Res.ok.injEq, SearchResult.found.injEq] at h
      omega
    · cases h

theorem searchSortedBy_congr {f g f' g' : Nat → Res Ordering} {n : Nat} (side : Side) (h : ∀ i, i < n → f i = g i)
    (h' : ∀ i, i < n → f' i = g' i) : searchSortedBy f f' n side = searchSortedBy g g' n side := by
  unfold searchSortedBy
  rw [sideIdx_congr f g 0 n (fun i _ hi => h i hi)]
  cases hr : searchSortedSideIdx g 0 n with
  | ok r =>
    simp only [Res.ok_bind]
    cases r with
    | found k =>
      have hk := sideIdx_found_lt _ _ _ _ hr
      cases side
      · simp only [sideIdx_congr f' g' 0 k (fun i _ hi => h' i (by omega))]
      · simp only [sideIdx_congr f' g' k n (fun i _ hi => h' i hi)]
    | notFound k => rfl
  | err => rfl
  | panic => rfl

theorem searchSorted_congr {ic ic' : Nat → Res (Option Ordering)} {n : Nat} {side : Side} (h : ∀ i, i < n → ic i = ic' i) :
    searchSorted ic n side = searchSorted ic' n side := by
  unfold searchSorted
  cases side
  · exact searchSortedBy_congr _ (fun i hi => by rw [h i hi]) (fun i hi => by rw [h i hi])
  · exact searchSortedBy_congr _ (fun i hi => by rw [h i hi]) (fun i hi => by rw [h i hi])

end Vx
