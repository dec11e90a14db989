import Verif.Lemmas.Sparse
/-! # C18: sparse arrays decode to fill plus patches -/

namespace Vx
open Spec
namespace Sparse

/-- `is_valid` is right everywhere. -/
theorem C18_is_valid {a : Sparse α} (hw : a.WF) {i : Nat} (hi : i < a.len) :
    ∃ r, a.rows[i]? = some r ∧ a.isValid i = .ok r.isSome := by
  refine ⟨_, rows_getElem? a i hi, ?_⟩
  by_cases hm : a.offset + i ∈ a.indices
  · obtain ⟨k, hk, hke⟩ := List.mem_iff_getElem.mp hm
    have hk' : a.indices[k]? = some (a.offset + i) := by rw [List.getElem?_eq_getElem hk, hke]
    have hkv : k < a.values.len := by rw [← hw.lens]; exact hk
    obtain ⟨r, h1, h2⟩ := PArr.scalarAt_ok hw.values hkv
    obtain ⟨b, hb, hmb⟩ := PArr.isValid_mask hw.values hkv
    rw [patchOr_found hw.strict a.fill hk' h2]
    simp only [isValid, searchIndex_found hw hk', Res.ok_bind, SearchResult.toFound, hb]
    have := Vx.rows_getElem? a.values.vals (mask a.values.vals.length a.values.validity) k
    rw [hmb] at this
    have hv : a.values.vals[k]? = some a.values.vals[k] := List.getElem?_eq_getElem hkv
    rw [hv] at this
    unfold PArr.rows at h2
    rw [h2] at this
    cases b <;> simp at this <;> simp [this]
  · obtain ⟨p, hp⟩ := searchIndex_notFound hw hm
    rw [patchOr_none _ hm]
    simp [isValid, hp, SearchResult.toFound]

/-- **C18, element access**: out of bounds is an error, otherwise the patch or the fill value. -/
theorem C18_scalar_at {a : Sparse α} (hw : a.WF) (i : Nat) :
    a.scalarAt i = if h : i < a.len then .ok (a.rows[i]'(by rw [rows_length]; exact h)) else .err := by
  by_cases h : i < a.len
  · rw [dif_pos h]
    obtain ⟨r, hr, hv⟩ := C18_is_valid hw h
    have hget : a.rows[i]'(by rw [rows_length]; exact h) = r := by
      have := List.getElem?_eq_getElem (l := a.rows) (i := i) (by rw [rows_length]; exact h)
      rw [this] at hr; simpa using hr
    rw [hget]
    unfold scalarAt
    rw [if_neg (by omega), hv]
    cases r with
    | none => rfl
    | some x =>
      simp only [Option.isSome_some, Res.ok_bind, Bool.not_true, Bool.false_eq_true, if_false]
      rw [rows_getElem? a i h] at hr
      by_cases hm : a.offset + i ∈ a.indices
      · obtain ⟨k, hk, hke⟩ := List.mem_iff_getElem.mp hm
        have hk' : a.indices[k]? = some (a.offset + i) := by rw [List.getElem?_eq_getElem hk, hke]
        have hkv : k < a.values.len := by rw [← hw.lens]; exact hk
        obtain ⟨r, h1, h2⟩ := PArr.scalarAt_ok hw.values hkv
        rw [patchOr_found hw.strict a.fill hk' h2] at hr
        simp only [searchIndex_found hw hk', Res.ok_bind, SearchResult.toFound, idx_lt (show k < a.values.vals.length from hkv)]
        have := Vx.rows_getElem? a.values.vals (mask a.values.vals.length a.values.validity) k
        unfold PArr.rows at h2
        rw [h2, List.getElem?_eq_getElem (show k < a.values.vals.length from hkv)] at this
        cases hr
        split at this <;> simp_all
      · obtain ⟨p, hp⟩ := searchIndex_notFound hw hm
        rw [patchOr_none _ hm] at hr
        simp only [hp, Res.ok_bind, SearchResult.toFound]
        simpa using hr
  · rw [dif_neg h]
    simp [scalarAt, Nat.le_of_not_lt h]

theorem find_slice {is : List Nat} {vs : List α} (hs : is.Pairwise (· < ·)) (hl : is.length = vs.length) {lo hi j : Nat}
    (h1 : lo ≤ j) (h2 : j < hi) :
    ((Spec.slice is (is.countP (fun x => decide (x < lo))) (is.countP (fun x => decide (x < hi)))).zip
      (Spec.slice vs (is.countP (fun x => decide (x < lo))) (is.countP (fun x => decide (x < hi))))).find? (fun p => p.1 == j) =
    (is.zip vs).find? (fun p => p.1 == j) := by
  by_cases hm : j ∈ is
  · obtain ⟨k, hk, rfl⟩ := List.mem_iff_getElem.mp hm
    have hkv : k < vs.length := hl ▸ hk
    have a1 := (countP_lt_split hs lo k hk)
    have a2 := (countP_lt_split hs hi k hk)
    have b1 : is.countP (fun x => decide (x < lo)) ≤ k := by
      rcases Nat.lt_or_ge k (is.countP (fun x => decide (x < lo))) with h | h
      · have := a1.mp h; omega
      · exact h
    have b2 := a2.mpr h2
    have hs' : (Spec.slice is (is.countP (fun x => decide (x < lo))) (is.countP (fun x => decide (x < hi)))).Pairwise (· < ·) :=
      (hs.sublist (List.take_sublist _ _)).sublist (List.drop_sublist _ _)
    rw [find_zip hs' (k := k - is.countP (fun x => decide (x < lo))) (r := vs[k]),
      find_zip hs (List.getElem?_eq_getElem hk) (List.getElem?_eq_getElem hkv)]
    · rw [slice_getElem?, if_pos (by omega), Nat.add_sub_cancel' b1, List.getElem?_eq_getElem hk]
    · rw [slice_getElem?, if_pos (by omega), Nat.add_sub_cancel' b1, List.getElem?_eq_getElem hkv]
  · have : j ∉ Spec.slice is (is.countP (fun x => decide (x < lo))) (is.countP (fun x => decide (x < hi))) := by
      intro h
      exact hm (List.mem_of_mem_take (List.mem_of_mem_drop h))
    rw [find_none_of_not_mem this, find_none_of_not_mem hm]

/-- **C18, slicing**: any in-range slice succeeds, keeps the invariant and exposes exactly the corresponding rows (so it can be
sliced again); other bounds are refused. -/
theorem C18_slice {a : Sparse α} (hw : a.WF) (s e : Nat) :
    (InBounds a.len s e → ∃ b, a.slice s e = .ok b ∧ b.WF ∧ b.len = e - s ∧ b.rows = Spec.slice a.rows s e) ∧
    (¬ InBounds a.len s e → a.slice s e = .err) := by
  constructor
  · intro hb
    obtain ⟨rs, hrs, hrsi⟩ := searchIndex_toIndex hw s
    obtain ⟨re, hre, hrei⟩ := searchIndex_toIndex hw e
    let si := a.indices.countP (fun x => decide (x < a.offset + s))
    let ei := a.indices.countP (fun x => decide (x < a.offset + e))
    have hse : si ≤ ei := by
      apply List.countP_mono_left
      intro x _ hx
      have := hb.1
      simp at hx ⊢; omega
    have hei : ei ≤ a.indices.length := List.countP_le_length
    have hib : InBounds a.indices.length si ei := ⟨hse, hei⟩
    obtain ⟨vs, hvs, hvr, hvw, hvl⟩ := PArr.slice_ok hw.values (hw.lens ▸ hib)
    have hvn : vs.validity.nullable = a.values.validity.nullable := by
      obtain ⟨w, h1, _, _, h4⟩ := mask_slice hw.values (hw.lens ▸ hib)
      simp only [PArr.slice, h1] at hvs
      cases hx : sliceList a.values.vals si ei with
      | ok l => rw [hx] at hvs; simp at hvs; rw [← hvs]; exact h4
      | err => rw [hx] at hvs; cases hvs
      | panic => rw [hx] at hvs; cases hvs
    have hin : ∀ i ∈ Spec.slice a.indices si ei, a.offset + s ≤ i ∧ i < a.offset + e := by
      intro i hi
      obtain ⟨k, hk, rfl⟩ := List.mem_iff_getElem.mp hi
      rw [slice_getElem hk]
      have hkl := hk
      rw [slice_length' hib] at hkl
      have c1 := countP_lt_split hw.strict (a.offset + s) (si + k) (by omega)
      have c2 := countP_lt_split hw.strict (a.offset + e) (si + k) (by omega)
      constructor
      · by_contra hcon
        have := c1.mpr (by omega)
        simp only [si] at this; omega
      · exact c2.mp (by simp only [si, ei] at hkl ⊢; omega)
    have hnew : tryNewWithOffset (Spec.slice a.indices si ei) vs (e - s) (a.offset + s) a.fill =
        .ok ⟨Spec.slice a.indices si ei, vs, e - s, a.offset + s, a.fill⟩ := by
      apply tryNew_ok
      · rw [slice_length' hib, hvl]
      · intro i hi; exact (hin i hi).1
      · intro i hi; have := (hin i hi).2; have := hb.1; omega
      · intro h; rw [hvn]; exact hw.nullable h
    refine ⟨⟨Spec.slice a.indices si ei, vs, e - s, a.offset + s, a.fill⟩, ?_, ?_, rfl, ?_⟩
    · unfold slice
      have := hb.1; have := hb.2
      rw [if_neg (by omega), if_neg (by omega), if_neg (by omega), hrs, hre]
      simp only [Res.ok_bind, hrsi, hrei]
      rw [sliceList_ok hib, Res.ok_bind, hvs, Res.ok_bind]
      exact hnew
    · refine ⟨?_, ?_, hvw, fun i hi => (hin i hi).1, fun i hi => ?_, fun h => ?_⟩
      · exact (hw.strict.sublist (List.take_sublist _ _)).sublist (List.drop_sublist _ _)
      · simp only [slice_length' hib, hvl]
      · have := (hin i hi).2; have := hb.1; simp only; omega
      · rw [hvn]; exact hw.nullable h
    · apply List.ext_getElem?
      intro i
      rw [slice_getElem?]
      by_cases hi : s + i < e
      · have hi' : i < e - s := by omega
        have hb2 := hb.2
        rw [if_pos hi, rows_getElem? a _ (by omega), rows_getElem? _ i (by simpa using hi')]
        simp only [hvr, patchOr]
        rw [← Nat.add_assoc, find_slice hw.strict (by rw [values_rows_len hw]) (by omega) (by omega)]
      · rw [if_neg hi]
        simp [rows, patched]
        omega
  · intro hb
    unfold slice
    simp only [InBounds] at hb
    split
    · rfl
    · split
      · rfl
      · split
        · rfl
        · omega

/-! ### take -/

/-- Where a requested row is patched: its position among the patches. -/
def patchPos (a : Sparse α) (i : Nat) : Option Nat := (a.indices.findIdx? (fun x => x == a.offset + i))

theorem patchPos_some {a : Sparse α} (hw : a.WF) {i k : Nat} : a.patchPos i = some k ↔ a.indices[k]? = some (a.offset + i) := by
  constructor
  · intro h
    have := List.findIdx?_eq_some_iff_getElem.mp h
    obtain ⟨hk, h1, _⟩ := this
    rw [List.getElem?_eq_getElem hk]; simpa using h1
  · intro h
    obtain ⟨hk, he⟩ := List.getElem?_eq_some_iff.mp h
    rw [patchPos, List.findIdx?_eq_some_iff_getElem]
    refine ⟨hk, by simpa using he, ?_⟩
    intro j hj
    have := strict_getElem_lt hw.strict (by omega) hk hj
    simp; omega

theorem patchPos_none {a : Sparse α} {i : Nat} : a.patchPos i = none ↔ a.offset + i ∉ a.indices := by
  rw [patchPos, List.findIdx?_eq_none_iff]
  constructor
  · intro h hm; have := h _ hm; simp at this
  · intro h x hx; simp; rintro rfl; exact h hx

theorem searchIndex_pos {a : Sparse α} (hw : a.WF) (i : Nat) :
    ∃ r, a.searchIndex i = .ok r ∧ r.toFound = a.patchPos i := by
  cases h : a.patchPos i with
  | none =>
    obtain ⟨p, hp⟩ := searchIndex_notFound hw (patchPos_none.mp h)
    exact ⟨_, hp, rfl⟩
  | some k => exact ⟨_, searchIndex_found hw ((patchPos_some hw).mp h), rfl⟩

theorem minMax {a : Sparse α} (hw : a.WF) : ∃ mn mx, a.minIndex = .ok mn ∧ a.maxIndex = .ok mx ∧
    ∀ i, a.offset + i ∈ a.indices → mn ≤ i ∧ i ≤ mx := by
  cases hi : a.indices with
  | nil => exact ⟨0, 0, by simp [minIndex, hi], by simp [maxIndex, hi], by simp⟩
  | cons x xs =>
    have hl : a.indices.getLast? = some ((x :: xs).getLast (by simp)) := by rw [hi, List.getLast?_eq_some_getLast]
    refine ⟨x - a.offset, (x :: xs).getLast (by simp) - a.offset, ?_, ?_, ?_⟩
    · simp only [minIndex, hi, List.head?_cons]
      exact Res.sub_of_le (hw.lower _ (by simp [hi]))
    · simp only [maxIndex, hl]
      exact Res.sub_of_le (hw.lower _ (by rw [hi]; exact List.getLast_mem _))
    · intro i hm
      have hp := List.pairwise_cons.mp (hi ▸ hw.strict)
      have hlast : ∀ y ∈ x :: xs, y ≤ (x :: xs).getLast (by simp) := by
        intro y hy
        obtain ⟨k, hk, rfl⟩ := List.mem_iff_getElem.mp hy
        rw [List.getLast_eq_getElem]
        rcases Nat.lt_or_ge k ((x :: xs).length - 1) with h | h
        · exact Nat.le_of_lt (strict_getElem_lt (hi ▸ hw.strict) hk (by simp) h)
        · have : k = (x :: xs).length - 1 := by omega
          subst this; exact Nat.le_refl _
      have h1 := hlast _ hm
      have h0 : x ≤ a.offset + i := by
        rcases List.mem_cons.mp hm with h | h
        · omega
        · have := hp.1 _ h; omega
      omega

/-- Both strategies of `take` compute the same list: for each requested row that is patched, its output position and patch. -/
def takePairs (a : Sparse α) (is : List Nat) : List (Nat × Nat) :=
  is.zipIdx.filterMap (fun p => (a.patchPos p.1).map (fun k => (p.2, k)))

theorem takeSearch_eq {a : Sparse α} (hw : a.WF) (is : List Nat) : a.takeSearch is = .ok (a.takePairs is) := by
  obtain ⟨mn, mx, h1, h2, hmm⟩ := minMax hw
  unfold takeSearch
  simp only [h1, h2, Res.ok_bind]
  rw [Res.mapM_ok (g := fun p => (a.patchPos p.1).map (fun k => (p.2, k)))]
  · simp only [Res.ok_bind, takePairs, Res.ok.injEq, List.filterMap_map]
    generalize is.zipIdx = l
    induction l with
    | nil => rfl
    | cons p l ih =>
      by_cases hc : (mn ≤ p.1 && p.1 ≤ mx) = true
      · rw [List.filter_cons_of_pos (by simpa using hc), List.filterMap_cons, List.filterMap_cons, ih]
        rfl
      · rw [List.filter_cons_of_neg (by simpa using hc), List.filterMap_cons, ih]
        have : a.patchPos p.1 = none := by
          rw [patchPos_none]
          intro hm
          have := hmm _ hm
          simp [this] at hc
        simp [this]
  · intro p _
    obtain ⟨r, hr, hrf⟩ := searchIndex_pos hw p.1
    simp [hr, hrf]

theorem find_reverse_zipIdx {xs : List Nat} (hs : xs.Pairwise (· < ·)) (v : Nat) :
    ((xs.zipIdx.reverse.find? (fun q => q.1 == v)).map (fun q => q.2)) = xs.findIdx? (fun x => x == v) := by
  cases h : xs.findIdx? (fun x => x == v) with
  | none =>
    rw [List.findIdx?_eq_none_iff] at h
    rw [Option.map_eq_none_iff, List.find?_eq_none]
    rintro ⟨x, i⟩ hx
    have := (List.mem_zipIdx_iff_getElem?).mp (List.mem_reverse.mp hx)
    have := h x (List.mem_iff_getElem?.mpr ⟨i, this⟩)
    simpa using this
  | some k =>
    obtain ⟨hk, h1, _⟩ := List.findIdx?_eq_some_iff_getElem.mp h
    have hv : xs[k] = v := by simpa using h1
    have hmem : (v, k) ∈ xs.zipIdx.reverse := by
      rw [List.mem_reverse, List.mem_zipIdx_iff_getElem?]
      simp [List.getElem?_eq_getElem hk, hv]
    cases hf : xs.zipIdx.reverse.find? (fun q => q.1 == v) with
    | none =>
      rw [List.find?_eq_none] at hf
      exact absurd (by simp) (hf _ hmem)
    | some q =>
      have hq := List.mem_of_find?_eq_some hf
      have hqv : q.1 = v := by simpa using List.find?_some hf
      have := (List.mem_zipIdx_iff_getElem?).mp (List.mem_reverse.mp hq)
      obtain ⟨hq2, hqe⟩ := List.getElem?_eq_some_iff.mp this
      have : q.2 = k := strict_inj hs hq2 hk (by rw [hqe, hqv, hv])
      simp [this]

theorem takeMap_eq {a : Sparse α} (hw : a.WF) (is : List Nat) : a.takeMap is = .ok (a.takePairs is) := by
  obtain ⟨mn, mx, h1, h2, hmm⟩ := minMax hw
  unfold takeMap
  simp only [h1, h2, resolved hw, Res.ok_bind, Res.ok.injEq, takePairs]
  have hstr : (a.indices.map (fun i => i - a.offset)).Pairwise (· < ·) := by
    rw [List.pairwise_map]
    refine List.Pairwise.imp_of_mem ?_ hw.strict
    intro x y hx hy hxy
    have := hw.lower x hx
    omega
  congr 1
  funext ⟨i, pos⟩
  have hpp : (a.indices.map (fun i => i - a.offset)).findIdx? (fun x => x == i) = a.patchPos i := by
    rw [List.findIdx?_map, patchPos]
    cases h : a.indices.findIdx? (fun x => x == a.offset + i) with
    | none =>
      rw [List.findIdx?_eq_none_iff] at h ⊢
      intro x hx
      have h3 := h x hx
      have h4 := hw.lower x hx
      simp at h3 ⊢; omega
    | some k =>
      rw [List.findIdx?_eq_some_iff_getElem] at h ⊢
      obtain ⟨hk, e1, e2⟩ := h
      refine ⟨hk, ?_, ?_⟩
      · simp at e1 ⊢; omega
      · intro j hj
        have h3 := e2 j hj
        have h4 := hw.lower a.indices[j] (List.getElem_mem _)
        simp at h3 ⊢; omega
  have hfr := find_reverse_zipIdx hstr i
  rw [hpp] at hfr
  split
  · rw [← hfr, Option.map_map]; rfl
  · rename_i hc
    have : a.patchPos i = none := by
      rw [patchPos_none]
      intro hm
      have := hmm _ hm
      simp [this] at hc
    simp [this]

/-- Positions listed by `takePairs`, starting the enumeration at `n`. -/
theorem takePairs_spec {a : Sparse α} (is : List Nat) (n : Nat) :
    let ps := (is.zipIdx n).filterMap (fun p => (a.patchPos p.1).map (fun k => (p.2, k)))
    (ps.map (·.1)).Pairwise (· < ·) ∧ (∀ p ∈ ps, n ≤ p.1 ∧ ∃ i, is[p.1 - n]? = some i ∧ a.patchPos i = some p.2) ∧
      (∀ j i, is[j]? = some i → ∀ k, a.patchPos i = some k → (n + j, k) ∈ ps) := by
  intro ps
  induction is generalizing n with
  | nil => simp [ps]
  | cons i is ih =>
    obtain ⟨h1, h2, h3⟩ := ih (n + 1)
    have hps : ps = (match a.patchPos i with | none => [] | some k => [(n, k)]) ++
        (is.zipIdx (n + 1)).filterMap (fun p => (a.patchPos p.1).map (fun k => (p.2, k))) := by
      simp only [ps, List.zipIdx_cons, List.filterMap_cons]
      cases a.patchPos i <;> rfl
    have h2' : ∀ p ∈ (is.zipIdx (n + 1)).filterMap (fun p => (a.patchPos p.1).map (fun k => (p.2, k))),
        n ≤ p.1 ∧ ∃ i', (i :: is)[p.1 - n]? = some i' ∧ a.patchPos i' = some p.2 := by
      intro p hp
      obtain ⟨g1, i', g2, g3⟩ := h2 p hp
      refine ⟨by omega, i', ?_, g3⟩
      have : p.1 - n = (p.1 - (n + 1)) + 1 := by omega
      rw [this, List.getElem?_cons_succ]; exact g2
    rw [hps]
    refine ⟨?_, ?_, ?_⟩
    · rw [List.map_append, List.pairwise_append]
      refine ⟨?_, h1, ?_⟩
      · cases a.patchPos i <;> simp
      · intro x hx y hy
        obtain ⟨p, hp, rfl⟩ := List.mem_map.mp hy
        have := (h2 p hp).1
        cases hpp : a.patchPos i with
        | none => simp [hpp] at hx
        | some k => simp [hpp] at hx; omega
    · intro p hp
      rcases List.mem_append.mp hp with h | h
      · cases hpp : a.patchPos i with
        | none => simp [hpp] at h
        | some k =>
          simp [hpp] at h
          subst h
          exact ⟨Nat.le_refl _, i, by simp, hpp⟩
      · exact h2' p h
    · intro j i' hj k hk
      rw [List.mem_append]
      cases j with
      | zero =>
        simp at hj; subst hj
        left; simp [hk]
      | succ j =>
        right
        have := h3 j i' (by simpa using hj) k hk
        rwa [show n + (j + 1) = n + 1 + j from by omega]

/-- A list of (output position, patch number) pairs that says which patch each output row shows determines the resulting array. -/
theorem repatch {a : Sparse α} (hw : a.WF) (ps : List (Nat × Nat)) (n : Nat) (hs : (ps.map (·.1)).Pairwise (· < ·))
    (hb : ∀ p ∈ ps, p.1 < n ∧ p.2 < a.values.len) (vs : PArr α) (hv : a.values.take (ps.map (·.2)) = .ok vs)
    (src : Nat → Nat) (hin : ∀ j, j < n → src j < a.len)
    (h1 : ∀ p ∈ ps, a.indices[p.2]? = some (a.offset + src p.1))
    (h2 : ∀ j, j < n → ∀ k, a.indices[k]? = some (a.offset + src j) → (j, k) ∈ ps) :
    ∃ b, tryNew (ps.map (·.1)) vs n a.fill = .ok b ∧ b.WF ∧ b.len = n ∧
      ∀ j, j < n → b.rows[j]? = a.rows[src j]? := by
  have hvb : ∀ i ∈ ps.map (·.2), i < a.values.len := by
    intro i hi
    obtain ⟨p, hp, rfl⟩ := List.mem_map.mp hi
    exact (hb p hp).2
  obtain ⟨vs', hv', hr, hvw, hvl⟩ := PArr.take_ok hw.values hvb
  obtain rfl : vs' = vs := by rw [hv] at hv'; cases hv'; rfl
  have hvn : vs'.validity.nullable = a.values.validity.nullable := by
    obtain ⟨w, g1, _, _, g4⟩ := mask_take hw.values hvb
    simp only [PArr.take, g1, takeList_ok hvb, Res.ok_bind, Res.ok.injEq] at hv
    rw [← hv]; exact g4
  have hup : ∀ i ∈ ps.map (·.1), i < 0 + n := by
    intro i hi
    obtain ⟨p, hp, rfl⟩ := List.mem_map.mp hi
    have := (hb p hp).1; omega
  refine ⟨⟨ps.map (·.1), vs', n, 0, a.fill⟩, ?_, ?_, rfl, ?_⟩
  · apply tryNew_ok
    · simp [hvl]
    · simp
    · exact hup
    · intro h; rw [hvn]; exact hw.nullable h
  · exact ⟨hs, by simp [hvl], hvw, by simp, hup, fun h => by rw [hvn]; exact hw.nullable h⟩
  · intro j hj
    rw [rows_getElem? _ j hj, rows_getElem? a _ (hin j hj)]
    simp only [Nat.zero_add, Option.some.injEq]
    by_cases hm : a.offset + src j ∈ a.indices
    · obtain ⟨k, hk, hke⟩ := List.mem_iff_getElem.mp hm
      have hk' : a.indices[k]? = some (a.offset + src j) := by rw [List.getElem?_eq_getElem hk, hke]
      have hkr : k < a.values.rows.length := by rw [values_rows_len hw]; exact hk
      rw [patchOr_found hw.strict a.fill hk' (List.getElem?_eq_getElem hkr)]
      obtain ⟨q, hq, hqe⟩ := List.mem_iff_getElem.mp (h2 j hj k hk')
      apply patchOr_found hs (k := q)
      · rw [List.getElem?_map, List.getElem?_eq_getElem hq, hqe]; rfl
      · rw [hr, take_getElem? (by intro i hi; rw [values_rows_len hw, hw.lens]; exact hvb i hi), List.getElem?_map,
          List.getElem?_eq_getElem hq, hqe]
        simp [List.getElem?_eq_getElem hkr]
    · rw [patchOr_none _ hm, patchOr_none]
      intro hcon
      obtain ⟨p, hp, rfl⟩ := List.mem_map.mp hcon
      exact hm (List.mem_iff_getElem?.mpr ⟨_, h1 p hp⟩)

/-- **C18, take**: for in-range indices in any order and with repetitions, whichever of the two strategies is used. -/
theorem C18_take {a : Sparse α} (hw : a.WF) (is : List Nat) (hi : ∀ i ∈ is, i < a.len) :
    ∃ b, a.take is = .ok b ∧ b.WF ∧ b.len = is.length ∧ b.rows = Spec.take a.rows is := by
  obtain ⟨h1, h2, h3⟩ := takePairs_spec (a := a) is 0
  have hpairs : a.takePlan is = .ok (a.takePairs is) := by
    unfold takePlan
    split
    · exact takeMap_eq hw is
    · exact takeSearch_eq hw is
  change (((a.takePairs is).map (·.1)).Pairwise (· < ·)) at h1
  change ∀ p ∈ a.takePairs is, _ at h2
  change ∀ j i, is[j]? = some i → ∀ k, a.patchPos i = some k → (0 + j, k) ∈ a.takePairs is at h3
  have hb : ∀ p ∈ a.takePairs is, p.1 < is.length ∧ p.2 < a.values.len := by
    intro p hp
    obtain ⟨_, i, g1, g2⟩ := h2 p hp
    have g3 := (patchPos_some hw).mp g2
    obtain ⟨g4, _⟩ := List.getElem?_eq_some_iff.mp g3
    obtain ⟨g5, _⟩ := List.getElem?_eq_some_iff.mp g1
    exact ⟨by omega, by rw [← hw.lens]; exact g4⟩
  obtain ⟨vs, hv, _⟩ := PArr.take_ok (is := (a.takePairs is).map (·.2)) hw.values (by
    intro i hi'
    obtain ⟨p, hp, rfl⟩ := List.mem_map.mp hi'
    exact (hb p hp).2)
  obtain ⟨b, hb1, hb2, hb3, hb4⟩ := repatch hw (a.takePairs is) is.length h1 hb vs hv (fun j => is[j]?.getD 0)
    (by
      intro j hj
      simp only [List.getElem?_eq_getElem hj, Option.getD_some]
      exact hi _ (List.getElem_mem hj))
    (by
      intro p hp
      obtain ⟨_, i, g1, g2⟩ := h2 p hp
      rw [(patchPos_some hw).mp g2]
      simp only [Nat.sub_zero] at g1
      simp [g1])
    (by
      intro j hj k hk
      simp only [List.getElem?_eq_getElem hj, Option.getD_some] at hk
      have := h3 j _ (List.getElem?_eq_getElem hj) k ((patchPos_some hw).mpr hk)
      simpa using this)
  refine ⟨b, ?_, hb2, hb3, ?_⟩
  · simp only [take, hpairs, Res.ok_bind, hv]
    exact hb1
  · apply List.ext_getElem?
    intro j
    rw [take_getElem? (by rw [rows_length]; exact hi)]
    by_cases hj : j < is.length
    · rw [hb4 j hj, List.getElem?_eq_getElem hj]
      rfl
    · rw [List.getElem?_eq_none (by rw [rows_length, hb3]; omega), List.getElem?_eq_none (by omega)]
      rfl

/-! ### filter -/

/-- How many mask bits are set before position `c`. -/
def rank (mask : List Bool) (c : Nat) : Nat := (mask.take c).count true

theorem rank_succ {mask : List Bool} {c : Nat} (hc : c < mask.length) :
    rank mask (c + 1) = rank mask c + if mask[c] then 1 else 0 := by
  rw [rank, List.take_succ_eq_append_getElem hc, List.count_append]
  cases mask[c] <;> simp [rank]

theorem rank_mono {mask : List Bool} {c d : Nat} (h : c ≤ d) : rank mask c ≤ rank mask d := by
  apply List.Sublist.count_le
  exact List.take_sublist_take_left h

theorem rank_lt {mask : List Bool} {c d : Nat} (hc : c < mask.length) (hb : mask[c] = true) (h : c < d) :
    rank mask c < rank mask d := by
  have := rank_succ hc
  rw [hb] at this
  have := rank_mono (mask := mask) (show c + 1 ≤ d by omega)
  simp at *; omega

theorem rank_surj {mask : List Bool} {k : Nat} (h : k < mask.count true) :
    ∃ c, ∃ hc : c < mask.length, mask[c] = true ∧ rank mask c = k := by
  induction mask generalizing k with
  | nil => simp at h
  | cons b mask ih =>
    cases b with
    | true =>
      cases k with
      | zero => exact ⟨0, by simp, rfl, rfl⟩
      | succ k =>
        obtain ⟨c, hc, h1, h2⟩ := ih (k := k) (by simpa using h)
        exact ⟨c + 1, by simpa using hc, by simpa using h1, by simp [rank] at h2 ⊢; exact h2⟩
    | false =>
      obtain ⟨c, hc, h1, h2⟩ := ih (k := k) (by simpa using h)
      exact ⟨c + 1, by simpa using hc, by simpa using h1, by simp [rank] at h2 ⊢; exact h2⟩

/-- Filtering puts the row at a set position `c` at output position `rank c`. -/
theorem filter_getElem?_rank (xs : List α) (mask : List Bool) (hl : xs.length = mask.length) {c : Nat} (hc : c < mask.length)
    (hb : mask[c] = true) : (Spec.filter xs mask)[rank mask c]? = xs[c]? := by
  induction mask generalizing xs c with
  | nil => simp at hc
  | cons b mask ih =>
    cases xs with
    | nil => simp at hl
    | cons x xs =>
      cases c with
      | zero => simp at hb; subst hb; simp [rank]
      | succ c =>
        have := ih xs (by simpa using hl) (c := c) (by simpa using hc) (by simpa using hb)
        cases b with
        | true => simpa [rank] using this
        | false => simpa [rank] using this

theorem filterLoop_spec {mask : List Bool} (cs : List Nat) (v last prev : Nat) (hs : cs.Pairwise (· < ·))
    (hc : ∀ c ∈ cs, last ≤ c ∧ c < mask.length) (hp : prev = rank mask last) :
    ∃ ps, filterLoop mask cs v last prev = .ok ps ∧ (ps.map (·.1)).Pairwise (· < ·) ∧ (∀ p ∈ ps, prev ≤ p.1) ∧
      (∀ p ∈ ps, ∃ c, cs[p.2 - v]? = some c ∧ v ≤ p.2 ∧ ∃ h : c < mask.length, mask[c] = true ∧ p.1 = rank mask c) ∧
      (∀ k c, cs[k]? = some c → (h : c < mask.length) → mask[c] = true → (rank mask c, v + k) ∈ ps) := by
  induction cs generalizing v last prev with
  | nil => exact ⟨[], rfl, by simp, by simp, by simp, by simp⟩
  | cons c cs ih =>
    have hpw := List.pairwise_cons.mp hs
    obtain ⟨hlc, hcl⟩ := hc c (by simp)
    cases hb : mask[c] with
    | true =>
      obtain ⟨ps, h1, h2, h2b, h3, h4⟩ := ih (v + 1) c (rank mask c) hpw.2
        (fun d hd => ⟨Nat.le_of_lt (hpw.1 d hd), (hc d (by simp [hd])).2⟩) rfl
      have hco : ((mask.drop last).take (c - last)).count true + prev = rank mask c := by
        rw [hp, rank, rank, Nat.add_comm, ← List.count_append]
        congr 1
        have : c = last + (c - last) := by omega
        conv => rhs; rw [this, List.take_add]
      refine ⟨(rank mask c, v) :: ps, ?_, ?_, ?_, ?_, ?_⟩
      · simp only [filterLoop, idx_lt hcl, hb, Res.ok_bind, if_true, Res.sub_of_le hlc]
        rw [if_pos (by omega), hco, h1]
        rfl
      · rw [List.map_cons, List.pairwise_cons]
        refine ⟨?_, h2⟩
        intro q hq
        obtain ⟨p, hp', rfl⟩ := List.mem_map.mp hq
        obtain ⟨d, g1, _, g2, g3, g4⟩ := h3 p hp'
        rw [g4]
        exact rank_lt hcl hb (hpw.1 d (List.mem_iff_getElem?.mpr ⟨_, g1⟩))
      · intro p hp'
        rcases List.mem_cons.mp hp' with rfl | h
        · rw [hp]; exact rank_mono hlc
        · have := h2b p h
          have := rank_mono (mask := mask) hlc
          omega
      · intro p hp'
        rcases List.mem_cons.mp hp' with rfl | h
        · exact ⟨c, by simp, Nat.le_refl _, hcl, hb, rfl⟩
        · obtain ⟨d, g1, g2, g3⟩ := h3 p h
          refine ⟨d, ?_, by omega, g3⟩
          rw [show p.2 - v = (p.2 - (v + 1)) + 1 by omega, List.getElem?_cons_succ]
          exact g1
      · intro k d hk hd hdb
        cases k with
        | zero => simp at hk; subst hk; simp
        | succ k =>
          have := h4 k d (by simpa using hk) hd hdb
          rw [show v + (k + 1) = v + 1 + k by omega]
          exact List.mem_cons_of_mem _ this
    | false =>
      obtain ⟨ps, h1, h2, h2b, h3, h4⟩ := ih (v + 1) last prev hpw.2
        (fun d hd => ⟨(hc d (by simp [hd])).1, (hc d (by simp [hd])).2⟩) hp
      refine ⟨ps, ?_, h2, h2b, ?_, ?_⟩
      · simp only [filterLoop, idx_lt hcl, hb, Res.ok_bind, Bool.false_eq_true, if_false]
        exact h1
      · intro p h
        obtain ⟨d, g1, g2, g3⟩ := h3 p h
        refine ⟨d, ?_, by omega, g3⟩
        rw [show p.2 - v = (p.2 - (v + 1)) + 1 by omega, List.getElem?_cons_succ]
        exact g1
      · intro k d hk hd hdb
        cases k with
        | zero => simp at hk; subst hk; rw [hb] at hdb; cases hdb
        | succ k =>
          have := h4 k d (by simpa using hk) hd hdb
          rwa [show v + (k + 1) = v + 1 + k by omega]

/-- **C18, filter**: with a mask of the array's length, exactly the selected rows; other masks are refused. -/
theorem C18_filter {a : Sparse α} (hw : a.WF) (mask : List Bool) :
    (mask.length = a.len → ∃ b, a.filter mask = .ok b ∧ b.WF ∧ b.len = mask.count true ∧ b.rows = Spec.filter a.rows mask) ∧
    (mask.length ≠ a.len → a.filter mask = .err) := by
  constructor
  · intro hl
    have hstr : (a.indices.map (fun i => i - a.offset)).Pairwise (· < ·) := by
      rw [List.pairwise_map]
      refine List.Pairwise.imp_of_mem ?_ hw.strict
      intro x y hx hy hxy
      have := hw.lower x hx
      omega
    obtain ⟨ps, h1, h2, _, h3, h4⟩ := filterLoop_spec (mask := mask) (a.indices.map (fun i => i - a.offset)) 0 0 0 hstr (by
      intro c hc
      obtain ⟨i, hi, rfl⟩ := List.mem_map.mp hc
      have := hw.lower i hi
      have := hw.upper i hi
      omega) rfl
    have hrl : ∀ c, (h : c < mask.length) → mask[c] = true → rank mask c < mask.count true := by
      intro c h hb
      have := rank_lt h hb h
      rwa [show rank mask mask.length = mask.count true from by simp [rank]] at this
    have hget : ∀ p ∈ ps, ∃ c, a.indices[p.2]? = some (a.offset + c) ∧ ∃ h : c < mask.length, mask[c] = true ∧ p.1 = rank mask c := by
      intro p hp
      obtain ⟨c, g1, _, g2⟩ := h3 p hp
      refine ⟨c, ?_, g2⟩
      simp only [Nat.sub_zero, List.getElem?_map] at g1
      cases hx : a.indices[p.2]? with
      | none => simp [hx] at g1
      | some i =>
        simp [hx] at g1
        have := hw.lower i (List.mem_iff_getElem?.mpr ⟨_, hx⟩)
        simp; omega
    have hb : ∀ p ∈ ps, p.1 < mask.count true ∧ p.2 < a.values.len := by
      intro p hp
      obtain ⟨c, g1, g2, g3, g4⟩ := hget p hp
      obtain ⟨g5, _⟩ := List.getElem?_eq_some_iff.mp g1
      exact ⟨g4 ▸ hrl c g2 g3, hw.lens ▸ g5⟩
    obtain ⟨vs, hv, _⟩ := PArr.take_ok (is := ps.map (·.2)) hw.values (by
      intro i hi'
      obtain ⟨p, hp, rfl⟩ := List.mem_map.mp hi'
      exact (hb p hp).2)
    let src : Nat → Nat := fun j => if h : j < mask.count true then (rank_surj h).choose else 0
    have hsrc : ∀ j, j < mask.count true → ∃ h : src j < mask.length, mask[src j] = true ∧ rank mask (src j) = j := by
      intro j hj
      simp only [src, dif_pos hj]
      exact (rank_surj hj).choose_spec
    have huniq : ∀ c j, j < mask.count true → (h : c < mask.length) → mask[c] = true → rank mask c = j → c = src j := by
      intro c j hj h hb hr
      obtain ⟨g1, g2, g3⟩ := hsrc j hj
      rcases Nat.lt_trichotomy c (src j) with h' | h' | h'
      · have := rank_lt h hb h'; omega
      · exact h'
      · have := rank_lt g1 g2 h'; omega
    obtain ⟨b, hb1, hb2, hb3, hb4⟩ := repatch hw ps (mask.count true) h2 hb vs hv src
      (by intro j hj; rw [← hl]; exact (hsrc j hj).1)
      (by
        intro p hp
        obtain ⟨c, g1, g2, g3, g4⟩ := hget p hp
        rw [g1, huniq c p.1 (hb p hp).1 g2 g3 g4.symm])
      (by
        intro j hj k hk
        obtain ⟨g1, g2, g3⟩ := hsrc j hj
        have := h4 k (src j) (by rw [List.getElem?_map, hk]; simp) g1 g2
        rwa [g3, Nat.zero_add] at this)
    refine ⟨b, ?_, hb2, hb3, ?_⟩
    · unfold filter
      rw [if_neg (by omega)]
      simp only [resolved hw, Res.ok_bind, h1, hv]
      exact hb1
    · apply List.ext_getElem?
      intro j
      by_cases hj : j < mask.count true
      · rw [hb4 j hj]
        obtain ⟨g1, g2, g3⟩ := hsrc j hj
        have := filter_getElem?_rank a.rows mask (by rw [rows_length, hl]) g1 g2
        rw [g3] at this
        rw [this]
      · rw [List.getElem?_eq_none (by rw [rows_length, hb3]; omega),
          List.getElem?_eq_none (by rw [filter_length (by rw [rows_length, hl])]; omega)]
  · intro hl
    unfold filter
    rw [if_pos hl]

/-! ### canonical form -/

theorem scatter_spec (ps : List (Nat × α)) (hs : (ps.map (·.1)).Pairwise (· < ·)) (vals : List α) (valid : List Bool)
    (hb : ∀ p ∈ ps, p.1 < vals.length ∧ p.1 < valid.length) :
    ∃ v b, scatter vals valid ps = .ok (v, b) ∧ v.length = vals.length ∧ b.length = valid.length ∧
      (∀ p ∈ ps, v[p.1]? = some p.2 ∧ b[p.1]? = some true) ∧
      (∀ j, j ∉ ps.map (·.1) → v[j]? = vals[j]? ∧ b[j]? = valid[j]?) := by
  induction ps generalizing vals valid with
  | nil => exact ⟨vals, valid, rfl, rfl, rfl, by simp, by simp⟩
  | cons p ps ih =>
    obtain ⟨i, x⟩ := p
    have hpw := List.pairwise_cons.mp hs
    obtain ⟨h1, h2⟩ := hb (i, x) (by simp)
    simp only at h1 h2
    obtain ⟨v, b, e1, e2, e3, e4, e5⟩ := ih hpw.2 (vals.set i x) (valid.set i true) (by
      intro q hq
      have := hb q (by simp [hq])
      simpa using this)
    refine ⟨v, b, ?_, by simpa using e2, by simpa using e3, ?_, ?_⟩
    · simp [scatter, setAt, h1, h2, e1]
    · intro q hq
      rcases List.mem_cons.mp hq with rfl | hq
      · have hn : i ∉ ps.map (·.1) := by
          intro hm
          have := hpw.1 i hm
          simp only at this; omega
        obtain ⟨g1, g2⟩ := e5 i hn
        simp only
        rw [g1, g2]
        simp [h1, h2]
      · exact e4 q hq
    · intro j hj
      simp only [List.map_cons, List.mem_cons, not_or] at hj
      obtain ⟨g1, g2⟩ := e5 j hj.2
      rw [g1, g2, List.getElem?_set_ne (by omega), List.getElem?_set_ne (by omega)]
      exact ⟨rfl, rfl⟩

/-- No patch is null. -/
def PatchesValid (a : Sparse α) : Prop := ∀ r ∈ a.values.rows, r.isSome = true

theorem PatchesValid.vals {a : Sparse α} (hv : a.PatchesValid) (hw : a.WF) {k : Nat} (hk : k < a.values.vals.length) :
    a.values.rows[k]? = some (some a.values.vals[k]) := by
  obtain ⟨r, h1, h2⟩ := PArr.scalarAt_ok hw.values (show k < a.values.len from hk)
  have := hv r (List.mem_iff_getElem?.mpr ⟨k, h2⟩)
  rw [h2]
  have h3 := Vx.rows_getElem? a.values.vals (mask a.values.vals.length a.values.validity) k
  unfold PArr.rows at h2
  rw [h2, List.getElem?_eq_getElem hk] at h3
  cases r with
  | none => simp at this
  | some x => split at h3 <;> simp_all

theorem canonical_core {a : Sparse α} (hw : a.WF) (hv : a.PatchesValid) (d : α) :
    ∃ v b, scatter (List.replicate a.len d) (List.replicate a.len false)
        ((a.indices.map (fun i => i - a.offset)).zip a.values.vals) = .ok (v, b) ∧ v.length = a.len ∧ b.length = a.len ∧
      ∀ j, j < a.len → if a.offset + j ∈ a.indices then
          b[j]? = some true ∧ ∃ x, v[j]? = some x ∧ a.rows[j]? = some (some x)
        else b[j]? = some false ∧ v[j]? = some d ∧ a.rows[j]? = some a.fill := by
  have hstr : (a.indices.map (fun i => i - a.offset)).Pairwise (· < ·) := by
    rw [List.pairwise_map]
    refine List.Pairwise.imp_of_mem ?_ hw.strict
    intro x y hx hy hxy
    have := hw.lower x hx
    omega
  have hvl : a.values.vals.length = a.indices.length := hw.lens.symm
  have hmf : ((a.indices.map (fun i => i - a.offset)).zip a.values.vals).map (·.1) = a.indices.map (fun i => i - a.offset) := by
    apply List.map_fst_zip
    simp [hvl]
  obtain ⟨v, b, h1, h2, h3, h4, h5⟩ := scatter_spec ((a.indices.map (fun i => i - a.offset)).zip a.values.vals) (by rw [hmf]; exact hstr)
    (List.replicate a.len d) (List.replicate a.len false) (by
      intro p hp
      have := (List.of_mem_zip (a := p.1) (b := p.2) hp).1
      obtain ⟨i, hi, he⟩ := List.mem_map.mp this
      have := hw.lower i hi
      have := hw.upper i hi
      simp; omega)
  refine ⟨v, b, h1, by simpa using h2, by simpa using h3, ?_⟩
  intro j hj
  split
  · rename_i hm
    obtain ⟨k, hk, hke⟩ := List.mem_iff_getElem.mp hm
    have hkv : k < a.values.vals.length := by omega
    have hmem : (j, a.values.vals[k]) ∈ (a.indices.map (fun i => i - a.offset)).zip a.values.vals := by
      rw [List.mem_iff_getElem]
      refine ⟨k, by simp only [List.length_zip, List.length_map]; omega, ?_⟩
      simp [hke]
    obtain ⟨g1, g2⟩ := h4 _ hmem
    refine ⟨g2, _, g1, ?_⟩
    rw [rows_getElem? a j hj, patchOr_found hw.strict a.fill (k := k) (r := some a.values.vals[k])]
    · rw [List.getElem?_eq_getElem hk, hke]
    · exact hv.vals hw hkv
  · rename_i hm
    have hn : j ∉ ((a.indices.map (fun i => i - a.offset)).zip a.values.vals).map (·.1) := by
      rw [hmf]
      intro hcon
      obtain ⟨i, hi, he⟩ := List.mem_map.mp hcon
      have := hw.lower i hi
      exact hm (by rwa [show a.offset + j = i by omega])
    obtain ⟨g1, g2⟩ := h5 j hn
    rw [g1, g2, rows_getElem? a j hj, patchOr_none _ hm]
    simp [hj]

theorem mask_ofBooleanBuffer' (a : List Bool) : mask a.length (Validity.ofBooleanBuffer a) = a := mask_ofBooleanBuffer a

/-- **C18, canonical form of primitive sparse arrays**, null or non-null fill value, also after slicing. Partial: the patches must be
valid; the code ignores the validity of the values child (`C18_null_patch_lost`). -/
theorem C18_canonical_primitive_partial {a : Sparse α} (hw : a.WF) (hv : a.PatchesValid) (dflt : α) :
    ∃ p, a.canonicalPrim dflt = .ok p ∧ p.WF ∧ p.rows = a.rows := by
  obtain ⟨v, b, h1, h2, h3, h4⟩ := canonical_core hw hv (a.fill.getD dflt)
  have hassert : Res.assert ((a.indices.map (fun i => i - a.offset)).length == a.values.vals.length) = .ok () := by
    have : a.values.vals.length = a.indices.length := hw.lens.symm
    simp [Res.assert, this]
  refine ⟨_, by simp only [canonicalPrim, resolved hw, Res.ok_bind, hassert, h1]; rfl, ?_, ?_⟩
  · split
    · simp [PArr.WF, FitsLen, h2, ← h3, mask_ofBooleanBuffer' b]
    · simp [PArr.WF, FitsLen, mask]
  · apply List.ext_getElem?
    intro j
    by_cases hj : j < a.len
    · have := h4 j hj
      have hvj : ∃ x, v[j]? = some x := ⟨v[j]'(by omega), List.getElem?_eq_getElem (by omega)⟩
      by_cases hm : a.offset + j ∈ a.indices
      · rw [if_pos hm] at this
        obtain ⟨g1, x, g2, g3⟩ := this
        rw [g3]
        split
        · simp only [PArr.rows, h2, ← h3, mask_ofBooleanBuffer', Vx.rows_getElem?, g1, g2]
        · simp only [PArr.rows, Vx.rows_getElem?, mask, g2]
          simp [h2, hj]
      · rw [if_neg hm] at this
        obtain ⟨g1, g2, g3⟩ := this
        rw [g3]
        cases hf : a.fill with
        | none =>
          simp only [Option.isNone_none, if_true, PArr.rows, h2, ← h3, mask_ofBooleanBuffer', Vx.rows_getElem?, g1, g2]
        | some f =>
          simp only [Option.isNone_some, Bool.false_eq_true, if_false, PArr.rows, Vx.rows_getElem?, mask, g2, hf]
          simp [h2, hj]
    · rw [List.getElem?_eq_none (l := a.rows) (by rw [rows_length]; omega)]
      apply List.getElem?_eq_none
      have hle : ∀ (vals : List α) (m : List Bool), (Spec.rows vals m).length ≤ vals.length := by
        intro vals m; simp [Spec.rows]; omega
      split
      · exact Nat.le_trans (hle _ _) (by simp only [h2]; omega)
      · exact Nat.le_trans (hle _ _) (by simp only [h2]; omega)

/-- **C18, canonical form of boolean sparse arrays.** Partial: only for a null fill value (or when every row is patched) and valid
patches. With a non-null fill the code marks every unpatched row as null (`C18_bool_fill_lost`). -/
theorem C18_canonical_bool_partial {a : Sparse Bool} (hw : a.WF) (hv : a.PatchesValid)
    (hf : a.fill = none ∨ ∀ j, j < a.len → a.offset + j ∈ a.indices) :
    ∃ p, a.canonicalBool = .ok p ∧ p.WF ∧ p.rows = a.rows := by
  obtain ⟨v, b, h1, h2, h3, h4⟩ := canonical_core hw hv (a.fill.getD false)
  refine ⟨_, by simp only [canonicalBool, resolved hw, Res.ok_bind, h1]; rfl, ?_, ?_⟩
  · simp [PArr.WF, FitsLen, h2, ← h3, mask_ofBooleanBuffer' b]
  · apply List.ext_getElem?
    intro j
    by_cases hj : j < a.len
    · have := h4 j hj
      simp only [PArr.rows, h2, ← h3, mask_ofBooleanBuffer', Vx.rows_getElem?]
      by_cases hm : a.offset + j ∈ a.indices
      · rw [if_pos hm] at this
        obtain ⟨g1, x, g2, g3⟩ := this
        rw [g3, g1, g2]
      · rw [if_neg hm] at this
        obtain ⟨g1, g2, g3⟩ := this
        rcases hf with hf | hf
        · rw [g3, g1, g2, hf]
        · exact absurd (hf j hj) hm
    · rw [List.getElem?_eq_none (l := a.rows) (by rw [rows_length]; omega)]
      apply List.getElem?_eq_none
      simp [PArr.rows, Spec.rows, h2]; omega

/-- **C18, validity of a sparse array with a null fill value and valid patches**: the boolean sparse array reported as logical validity
has, row by row, the bit saying whether the row is non-null. -/
theorem C18_logical_validity_partial {a : Sparse α} (hw : a.WF) (hv : a.PatchesValid) (hf : a.fill = none) :
    ∃ m, a.logicalValidity = .ok m ∧ m.WF ∧ m.rows = a.rows.map (fun r => some r.isSome) := by
  have hm : Sparse.WF (⟨a.indices, ⟨List.replicate a.indices.length true, .nonNullable⟩, a.len, a.offset, some false⟩ : Sparse Bool) :=
    ⟨hw.strict, by simp [PArr.len], by simp [PArr.WF, FitsLen, mask], hw.lower, hw.upper, by simp⟩
  refine ⟨_, ?_, hm, ?_⟩
  · unfold logicalValidity
    rw [if_pos (by simp [hf])]
    exact tryNew_ok hm.lens hm.lower hm.upper hm.nullable
  · apply List.ext_getElem?
    intro j
    rw [List.getElem?_map]
    by_cases hj : j < a.len
    · rw [rows_getElem? a j hj, rows_getElem? _ j (by exact hj)]
      simp only [Option.map_some, Option.some.injEq]
      by_cases hmm : a.offset + j ∈ a.indices
      · obtain ⟨k, hk, hke⟩ := List.mem_iff_getElem.mp hmm
        have hk' : a.indices[k]? = some (a.offset + j) := by rw [List.getElem?_eq_getElem hk, hke]
        have hkv : k < a.values.vals.length := by have := hw.lens; simp only [PArr.len] at this; omega
        rw [patchOr_found hw.strict a.fill hk' (hv.vals hw hkv)]
        rw [patchOr_found hm.strict (some false) hk' (r := some true)]
        · rfl
        · simp [PArr.rows, Spec.rows, mask, hk]
      · rw [patchOr_none _ hmm, patchOr_none _ hmm, hf]; rfl
    · rw [List.getElem?_eq_none (by rw [rows_length]; exact Nat.le_of_not_lt hj), List.getElem?_eq_none (by rw [rows_length]; omega)]
      rfl

/-- The code loses nulls stored as patches: row 1 is null in the array but 7 in its canonical form. -/
theorem C18_null_patch_lost :
    let a : Sparse Nat := ⟨[1], ⟨[7], .allInvalid⟩, 2, 0, some 5⟩
    a.WF ∧ a.rows = [some 5, none] ∧ ∃ p, a.canonicalPrim 0 = .ok p ∧ p.rows = [some 5, some 7] := by
  refine ⟨⟨by decide, rfl, by decide, by decide, by decide, by decide⟩, by decide, _, rfl, by decide⟩

/-- The code loses non-null fill values of boolean arrays: rows `[false, true]` canonicalise to `[null, true]`. -/
theorem C18_bool_fill_lost :
    let a : Sparse Bool := ⟨[1], ⟨[true], .nonNullable⟩, 2, 0, some false⟩
    a.WF ∧ a.rows = [some false, some true] ∧ ∃ p, a.canonicalBool = .ok p ∧ p.rows = [none, some true] := by
  refine ⟨⟨by decide, rfl, by decide, by decide, by decide, by decide⟩, by decide, _, rfl, by decide⟩

/-- With a non-null fill value the reported logical validity says that unpatched rows are null. -/
theorem C18_validity_of_fill_wrong :
    let a : Sparse Nat := ⟨[1], ⟨[7], .nonNullable⟩, 2, 0, some 5⟩
    a.WF ∧ a.rows = [some 5, some 7] ∧ ∃ m, a.logicalValidity = .ok m ∧ m.rows = [some false, some true] := by
  refine ⟨⟨by decide, rfl, by decide, by decide, by decide, by decide⟩, by decide, _, rfl, by decide⟩

/-- Non-vacuity: a sliced array (offset 3) with null fill, sliced again, taken and filtered. -/
example :
    let a : Sparse Nat := ⟨[4, 5, 9], ⟨[10, 20, 30], .allValid⟩, 7, 3, none⟩
    a.WF ∧ a.PatchesValid ∧ a.rows = [none, some 10, some 20, none, none, none, some 30] ∧
    (∃ b, a.slice 1 3 = .ok b ∧ b.rows = [some 10, some 20]) ∧
    (∃ b, a.take [6, 0, 1, 1] = .ok b ∧ b.rows = [some 30, none, some 10, some 10]) ∧
    (∃ b, a.filter [true, false, true, false, false, false, true] = .ok b ∧ b.rows = [none, some 20, some 30]) ∧
    (∃ p, a.canonicalPrim 0 = .ok p ∧ p.rows = a.rows) := by
  refine ⟨⟨by decide, rfl, by decide, by decide, by decide, by decide⟩, by unfold PatchesValid; decide, by decide,
    ⟨⟨[4, 5], ⟨[10, 20], .allValid⟩, 2, 4, none⟩, by decide +kernel, by decide⟩,
    ⟨⟨[0, 2, 3], ⟨[30, 10, 10], .allValid⟩, 4, 0, none⟩, by decide +kernel, by decide⟩,
    ⟨⟨[1, 2], ⟨[20, 30], .allValid⟩, 3, 0, none⟩, by decide +kernel, by decide⟩, _, rfl, by decide⟩

theorem scatter_panic (ps : List (Nat × α)) (vals : List α) (valid : List Bool) (he : valid.length = vals.length)
    (hb : ∃ p ∈ ps, vals.length ≤ p.1) : scatter vals valid ps = .panic := by
  induction ps generalizing vals valid with
  | nil => simp at hb
  | cons p ps ih =>
    obtain ⟨i, x⟩ := p
    by_cases hi : i < vals.length
    · have h := ih (vals.set i x) (valid.set i true) (by simpa using he) (by
        obtain ⟨q, hq, hl⟩ := hb
        rcases List.mem_cons.mp hq with rfl | hq
        · simp only at hl; omega
        · exact ⟨q, hq, by simpa using hl⟩)
      simp only [scatter, setAt, hi, he, if_true, Res.ok_bind]
      exact h
    · simp only [scatter, setAt, hi, if_false]
      rfl

theorem resolved_ok {a : Sparse α} (h : ∀ i ∈ a.indices, a.offset ≤ i) : a.resolvedIndices = .ok (a.indices.map (· - a.offset)) := by
  obtain ⟨is, vs, n, o, f⟩ := a
  simp only [resolvedIndices] at *
  induction is with
  | nil => rfl
  | cons i is ih =>
    have h1 := h i (by simp)
    have h2 := ih (fun j hj => h j (by simp [hj]))
    simp only [Res.mapM, h2, Res.ok_bind, List.map_cons]
    simp [Res.sub, h1]

/-- The constructor looks only at the last index, so an index elsewhere may lie beyond the array's end. Decoding such an array aborts the
process: it neither returns values nor reports an error. -/
theorem C18_canonical_out_of_range {a : Sparse α} (hl : a.values.vals.length = a.indices.length)
    (ho : ∀ i ∈ a.indices, a.offset ≤ i) (hb : ∃ i ∈ a.indices, a.offset + a.len ≤ i) (dflt : α) :
    a.canonicalPrim dflt = .panic := by
  obtain ⟨i, hi, hge⟩ := hb
  obtain ⟨k, hk, rfl⟩ := List.mem_iff_getElem.mp hi
  have hp := scatter_panic ((a.indices.map (· - a.offset)).zip a.values.vals)
    (List.replicate a.len (a.fill.getD dflt)) (List.replicate a.len false) (by simp)
    ⟨(a.indices[k] - a.offset, a.values.vals[k]'(by omega)), by
      refine List.mem_iff_getElem.mpr ⟨k, by simp; omega, by simp⟩, by simp; omega⟩
  simp only [Sparse.canonicalPrim, resolved_ok ho, Res.ok_bind, List.length_map, hl, beq_self_eq_true, Res.assert, if_true, hp]
  rfl

/-- Such an array is accepted by the constructor: two patches at rows 7 and 1 of a three-row array. -/
example : ∃ a : Sparse Nat, Sparse.tryNew [7, 1] ⟨[10, 20], .nonNullable⟩ 3 (some 0) = .ok a ∧
    a.canonicalPrim 0 = .panic :=
  ⟨⟨[7, 1], ⟨[10, 20], .nonNullable⟩, 3, 0, some 0⟩, by decide +kernel, C18_canonical_out_of_range rfl (by simp) ⟨7, by simp, by simp⟩ 0⟩

end Sparse
end Vx
