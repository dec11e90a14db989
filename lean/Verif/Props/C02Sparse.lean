import Verif.Props.C18
import Verif.Props.C02FoR
/-! # C02, sparse arrays: searching -/

namespace Vx
open Spec FoR

theorem insertionPoint_le (xs : List Int) (v : Int) (side : Side) : insertionPoint xs v side ≤ xs.length := by
  cases side <;> exact List.countP_le_length

/-- A left insertion point of a probe that occurs is a valid position. -/
theorem insertionPoint_left_lt {xs : List Int} {v : Int} (h : v ∈ xs) : insertionPoint xs v .left < xs.length := by
  simp only [insertionPoint]
  apply Nat.lt_of_le_of_ne List.countP_le_length
  intro he
  rw [List.countP_eq_length] at he
  have := he v h
  simp at this

/-- Searching a sparse array whose patches are contiguous from row `m` on is searching the patches, shifted. -/
theorem sparse_search_shift {α : Type} (key : α → Int) (a : Sparse α) (hw : a.WF) (xs : List α) (m : Nat)
    (hx : xs ≠ []) (hidx : a.indices = (List.range xs.length).map (fun i => a.offset + m + i))
    (hrows : a.values.rows = xs.map some) (hsorted : (xs.map key).Pairwise (· ≤ ·)) (v : α) (side : Side) :
    a.searchSorted (primSearch key) v side = .ok (match Spec.searchSorted (xs.map key) (key v) side with
      | .found i => .found (m + i)
      | .notFound i => .notFound (m + i)) := by
  have hk : 0 < xs.length := List.length_pos_iff.mpr hx
  have hil : a.indices.length = xs.length := by simp [hidx]
  have hget : ∀ i, i < xs.length → a.indices[i]? = some (a.offset + m + i) := by
    intro i hi; rw [hidx]; simp [hi]
  unfold Sparse.searchSorted
  rw [primSearch_spec key a.values hw.values xs 0 (by simpa using hrows) hsorted v side]
  simp only [Res.ok_bind]
  have hlen : (xs.map key).length = xs.length := by simp
  by_cases hM : key v ∈ xs.map key
  · simp only [Spec.searchSorted, hM, if_true, SearchResult.toOffsetsIndex, hil]
    have hle := insertionPoint_le (xs.map key) (key v) side
    rw [hlen] at hle
    generalize insertionPoint (xs.map key) (key v) side = p at *
    by_cases hp : p = xs.length
    · subst hp
      have hlt : xs.length - 1 < a.indices.length := by omega
      simp only [if_true, Res.sub_of_le (show 1 ≤ xs.length from hk), Res.ok_bind, hil]
      rw [if_pos (by omega)]
      have := hget (xs.length - 1) (by omega)
      simp only [idx, this, Res.unwrap_some, Res.ok_bind]
      rw [Res.sub_of_le (by omega)]
      simp only [Res.ok_bind, Res.ok.injEq, SearchResult.found.injEq]
      omega
    · have hlt : p < xs.length := by omega
      simp only [hp, if_false, Res.ok_bind]
      rw [if_pos (by omega)]
      simp only [idx, hget p hlt, Res.unwrap_some, Res.ok_bind]
      rw [Res.sub_of_le (by omega)]
      simp only [Res.ok_bind, Res.ok.injEq, SearchResult.found.injEq]
      omega
  · simp only [Spec.searchSorted, hM, if_false, SearchResult.toOffsetsIndex, Res.ok_bind]
    have hle := insertionPoint_le (xs.map key) (key v) side
    rw [hlen] at hle
    generalize insertionPoint (xs.map key) (key v) side = p at *
    rw [if_pos (by omega)]
    simp only [idx, hget (p - 1) (by omega), Res.unwrap_some, Res.ok_bind]
    split
    · rw [Res.sub_of_le (by omega)]
      simp only [Res.ok_bind, Res.ok.injEq, SearchResult.notFound.injEq]
      omega
    · rw [Res.sub_of_le (by omega)]
      simp only [Res.ok_bind, Res.ok.injEq, SearchResult.notFound.injEq]
      omega

/-- **C02, sparse arrays.** Rows are `m` fill values, then the `k` patches, then fill values; the patches are sorted and valid. The
answer is the one for the decoded rows (nulls ignored). Partial, because the code searches the patches only: the probe must be
strictly greater than a leading non-null fill value, strictly smaller than a trailing one (`C02_sparse_search_ignores_fill`), and
there must be at least one patch (`C02_sparse_search_empty_err`). -/
theorem C02_sparse_search_partial {α : Type} (key : α → Int) (a : Sparse α) (hw : a.WF) (xs : List α) (m : Nat)
    (hx : xs ≠ []) (hidx : a.indices = (List.range xs.length).map (fun i => a.offset + m + i))
    (hrows : a.values.rows = xs.map some) (hsorted : (xs.map key).Pairwise (· ≤ ·)) (v : α) (side : Side)
    (hlead : 0 < m → ∃ f, a.fill = some f ∧ key f < key v)
    (htrail : m + xs.length < a.len → ∀ f, a.fill = some f → key v < key f) :
    a.rows = List.replicate m a.fill ++ xs.map some ++ List.replicate (a.len - m - xs.length) a.fill ∧
    a.searchSorted (primSearch key) v side = .ok (Spec.searchSorted (((a.rows.filterMap id).map key)) (key v) side) := by
  have hk : 0 < xs.length := List.length_pos_iff.mpr hx
  have hil : a.indices.length = xs.length := by simp [hidx]
  have hmk : m + xs.length ≤ a.len := by
    have := hw.upper (a.offset + m + (xs.length - 1)) (by rw [hidx]; exact List.mem_map.mpr ⟨_, by simp; omega, rfl⟩)
    omega
  have hget : ∀ i, i < xs.length → a.indices[i]? = some (a.offset + m + i) := by
    intro i hi; rw [hidx]; simp [hi]
  have hr : a.rows = List.replicate m a.fill ++ xs.map some ++ List.replicate (a.len - m - xs.length) a.fill := by
    apply List.ext_getElem?
    intro i
    by_cases hi : i < a.len
    · rw [Sparse.rows_getElem? a i hi]
      by_cases h1 : i < m
      · rw [patchOr_none]
        · rw [List.append_assoc, List.getElem?_append_left (by simpa using h1)]; simp [h1]
        · rw [hidx]; simp; intro x hx; omega
      · by_cases h2 : i < m + xs.length
        · have h3 : i - m < xs.length := by omega
          rw [patchOr_found hw.strict a.fill (k := i - m) (r := some xs[i - m]) (by rw [hget _ h3]; congr 1; omega)
            (by rw [hrows]; simp [h3])]
          rw [List.getElem?_append_left (by simp; omega), List.getElem?_append_right (by simp; omega)]
          simp [h3]
        · rw [patchOr_none]
          · rw [List.getElem?_append_right (by simp only [List.length_append, List.length_replicate, List.length_map]; omega),
              List.getElem?_replicate, if_pos]
            simp only [List.length_append, List.length_replicate, List.length_map]; omega
          · rw [hidx]; simp; intro x hx; omega
    · rw [List.getElem?_eq_none (by rw [Sparse.rows_length]; omega), List.getElem?_eq_none (by simp; omega)]
  refine ⟨hr, ?_⟩
  -- the answer over the rows in terms of the answer over the patches
  have hkeys : (a.rows.filterMap id).map key = List.replicate (if a.fill.isSome then m else 0) (a.fill.elim 0 key) ++ xs.map key ++
      List.replicate (if a.fill.isSome then a.len - m - xs.length else 0) (a.fill.elim 0 key) := by
    rw [hr]
    have hrep : ∀ n, (List.replicate n a.fill).filterMap id =
        (match a.fill with | none => [] | some f => List.replicate n f) := by
      intro n
      cases a.fill with
      | none => simp
      | some f => simp [List.filterMap_replicate_of_some]
    simp only [List.filterMap_append, List.map_append, hrep, List.filterMap_map]
    have : List.filterMap (id ∘ some) xs = xs := by simp
    rw [this]
    cases a.fill <;> simp
  have hm0 : a.fill = none → m = 0 := by
    intro h
    rcases Nat.eq_zero_or_pos m with h0 | h0
    · exact h0
    · obtain ⟨f, hf, _⟩ := hlead h0; rw [h] at hf; cases hf
  have hans : Spec.searchSorted ((a.rows.filterMap id).map key) (key v) side =
      match Spec.searchSorted (xs.map key) (key v) side with
      | .found i => .found (m + i)
      | .notFound i => .notFound (m + i) := by
    have hmem : key v ∈ (a.rows.filterMap id).map key ↔ key v ∈ xs.map key := by
      rw [hkeys, List.mem_append, List.mem_append]
      constructor
      · rintro ((h | h) | h)
        · exfalso
          rw [List.mem_replicate] at h
          cases hf : a.fill with
          | none => simp [hf] at h
          | some f =>
            obtain ⟨f', hf', hlt⟩ := hlead (by simp [hf] at h; omega)
            rw [hf] at hf'; cases hf'
            simp [hf] at h; omega
        · exact h
        · exfalso
          rw [List.mem_replicate] at h
          cases hf : a.fill with
          | none => simp [hf] at h
          | some f =>
            have := htrail (by simp [hf] at h; omega) f hf
            simp [hf] at h; omega
      · intro h; exact .inl (.inr h)
    have hip : insertionPoint ((a.rows.filterMap id).map key) (key v) side = m + insertionPoint (xs.map key) (key v) side := by
      have hcount : ∀ q : Int → Bool, (0 < m → q (a.fill.elim 0 key) = true) →
          (m + xs.length < a.len → a.fill.isSome → q (a.fill.elim 0 key) = false) →
          (List.replicate (if a.fill.isSome then m else 0) (a.fill.elim 0 key) ++ xs.map key ++
            List.replicate (if a.fill.isSome then a.len - m - xs.length else 0) (a.fill.elim 0 key)).countP q =
          m + (xs.map key).countP q := by
        intro q h1 h2
        rw [List.countP_append, List.countP_append, List.countP_replicate, List.countP_replicate]
        cases hf : a.fill with
        | none => simp [hm0 hf]
        | some f =>
          simp only [hf, Option.isSome_some, if_true, Option.elim_some] at h1 h2 ⊢
          have e1 : (if q (key f) = true then m else 0) = m := by
            rcases Nat.eq_zero_or_pos m with h0 | h0
            · simp [h0]
            · simp [h1 h0]
          have e2 : (if q (key f) = true then a.len - m - xs.length else 0) = 0 := by
            by_cases h0 : m + xs.length < a.len
            · simp [h2 h0 trivial]
            · split <;> omega
          rw [e1, e2]; omega
      rw [hkeys]
      have hL : 0 < m → a.fill.elim 0 key < key v := by
        intro h0
        obtain ⟨f, hf, hlt⟩ := hlead h0
        simpa [hf] using hlt
      have hT : m + xs.length < a.len → a.fill.isSome → key v < a.fill.elim 0 key := by
        intro h0 hs
        obtain ⟨f, hf⟩ := Option.isSome_iff_exists.mp hs
        have := htrail h0 f hf
        simpa [hf] using this
      cases side with
      | left =>
        simp only [insertionPoint]
        apply hcount
        · intro h0; simpa using hL h0
        · intro h0 hs; have := hT h0 hs; simp; omega
      | right =>
        simp only [insertionPoint]
        apply hcount
        · intro h0; have := hL h0; simp; omega
        · intro h0 hs; have := hT h0 hs; simpa using this
    simp only [Spec.searchSorted, hmem, hip]
    by_cases hM : key v ∈ xs.map key <;> simp [hM]
  rw [hans]
  exact sparse_search_shift key a hw xs m hx hidx hrows hsorted v side

/-- The fill value is ignored: in the sorted rows `[5, 5, 7]` (fill 5, patch 7) the value 5 is reported as not found at position 2. -/
theorem C02_sparse_search_ignores_fill :
    let a : Sparse (BitVec 8) := ⟨[2], ⟨[7#8], .nonNullable⟩, 3, 0, some 5#8⟩
    a.WF ∧ a.rows = [some 5#8, some 5#8, some 7#8] ∧
    a.searchSorted (primSearch (intKey false)) 5#8 .left = .ok (.notFound 2) ∧
    Spec.searchSorted ((a.rows.filterMap id).map (intKey false)) (intKey false 5#8) .left = .found 0 := by
  refine ⟨⟨by decide, rfl, by decide, by decide, by decide, by decide⟩, by decide, by decide +kernel, by decide +kernel⟩

/-- Searching a sparse array without patches is an error although the rows are trivially sorted. -/
theorem C02_sparse_search_empty_err :
    let a : Sparse (BitVec 8) := ⟨[], ⟨[], .nonNullable⟩, 3, 0, some 5#8⟩
    a.WF ∧ a.searchSorted (primSearch (intKey false)) 4#8 .left = .err := by
  refine ⟨⟨by decide, rfl, by decide, by decide, by decide, by decide⟩, by decide +kernel⟩

/-- Non-vacuity: sliced array, leading fill, probe between two patches. -/
example :
    let a : Sparse (BitVec 8) := ⟨[5, 6], ⟨[7#8, 9#8], .nonNullable⟩, 4, 3, some 5#8⟩
    a.WF ∧ a.indices = (List.range 2).map (fun i => a.offset + 2 + i) ∧
    a.searchSorted (primSearch (intKey false)) 8#8 .right = .ok (.notFound 3) := by
  refine ⟨⟨by decide, rfl, by decide, by decide, by decide, by decide⟩, by decide, by decide +kernel⟩

end Vx
