import Verif.Model.StatsMerge
import Verif.Props.C25
/-! # C26: merging chunk statistics is sound -/

namespace Vx
open Spec

/-- The claims made by a statistics set are true of the rows. -/
def StatsSet.Sound [DecidableEq α] (key : α → Int) (isT : α → Bool) (n : Nat) (s : StatsSet α) (rs : List (Option α)) : Prop :=
  ClaimsTrue key isT n rs s.min s.max s.isConstant s.isSorted s.isStrictSorted s.runCount s.trueCount s.nullCount s.bitWidthFreq s.tzFreq

theorem runs_append_le [DecidableEq α] (xs ys : List α) : runs (xs ++ ys) ≤ runs xs + runs ys := by
  induction xs with
  | nil => simp [runs]
  | cons x xs ih =>
    cases xs with
    | nil =>
      cases ys with
      | nil => simp [runs]
      | cons y ys => simp only [List.cons_append, List.nil_append, runs]; split <;> omega
    | cons x' xs =>
      simp only [List.cons_append, runs] at ih ⊢
      omega

theorem pairwise_append_of_bound {R : α → α → Prop} {xs ys : List α} (h1 : xs.Pairwise R) (h2 : ys.Pairwise R)
    (h : ∀ x ∈ xs, ∀ y ∈ ys, R x y) : (xs ++ ys).Pairwise R := List.pairwise_append.mpr ⟨h1, h2, h⟩

/-- If the merge of two statistics claims that the rows are constant, the parts know their minimum (see
`C26_is_constant_without_min` for why this is needed). -/
def StatsSet.MinKnown (s : StatsSet α) : Prop := s.isConstant = some true → s.min ≠ none

/-- **C26, two parts**: if the claims of two statistics sets are true of the rows of two consecutive parts, merging them succeeds and
every claim of the result is true of the concatenation. Partial: a set that claims "constant" must also know its minimum. -/
theorem C26_merge_sound_partial [DecidableEq α] {key : α → Int} {isT : α → Bool} {n : Nat} {s o : StatsSet α}
    {rs ro : List (Option α)} (hs : s.Sound key isT n rs) (ho : o.Sound key isT n ro) (hk : s.MinKnown ∨ o.MinKnown) :
    ∃ m, StatsSet.merge key s o = .ok m ∧ m.Sound key isT n (rs ++ ro) := by
  have hfreq : ∀ (a b : Option (List Nat)), (∀ h, a = some h → h.length = n) → (∀ h, b = some h → h.length = n) →
      ∃ c, StatsSet.mergeFreq a b = .ok c ∧ ∀ h, c = some h → h.length = n := by
    intro a b ha hb
    cases a with
    | none => exact ⟨none, rfl, by simp⟩
    | some x =>
      cases b with
      | none => exact ⟨none, rfl, by simp⟩
      | some y =>
        have h1 := ha x rfl
        have h2 := hb y rfl
        refine ⟨_, by simp [StatsSet.mergeFreq, h1, h2]; rfl, ?_⟩
        rintro h rfl'
        cases rfl'
        simp [h1, h2]
  obtain ⟨bw, hbw, hbwl⟩ := hfreq s.bitWidthFreq o.bitWidthFreq hs.bw_len ho.bw_len
  obtain ⟨tz, htz, htzl⟩ := hfreq s.tzFreq o.tzFreq hs.tz_len ho.tz_len
  refine ⟨_, by simp only [StatsSet.merge, hbw, htz, Res.ok_bind]; rfl, ?_⟩
  constructor
  · -- min, some
    intro m hm
    simp only [StatsSet.mergeOrdered] at hm
    rw [valid_append]
    cases h1 : s.min with
    | none => simp [h1] at hm
    | some a =>
      cases h2 : o.min with
      | none => simp [h1, h2] at hm
      | some b =>
        simp only [h1, h2] at hm
        cases a with
        | none =>
          have e1 := hs.min_null h1
          cases b with
          | none => simp [statLt] at hm
          | some b =>
            simp only [statLt, if_true, Option.some.injEq] at hm
            subst hm
            rw [e1]; exact ho.min_some _ h2
        | some a =>
          have e1 := hs.min_some _ h1
          cases b with
          | none =>
            simp only [statLt, Bool.false_eq_true, if_false, Option.some.injEq] at hm
            subst hm
            rw [ho.min_null h2, List.append_nil]; exact e1
          | some b =>
            have e2 := ho.min_some _ h2
            simp only [statLt, decide_eq_true_eq] at hm
            split at hm
            · rename_i hlt
              simp only [Option.some.injEq] at hm
              subst hm
              refine ⟨List.mem_append_right _ e2.1, fun x hx => ?_⟩
              rcases List.mem_append.mp hx with h | h
              · have := e1.2 x h; omega
              · exact e2.2 x h
            · rename_i hlt
              simp only [Option.some.injEq] at hm
              subst hm
              refine ⟨List.mem_append_left _ e1.1, fun x hx => ?_⟩
              rcases List.mem_append.mp hx with h | h
              · exact e1.2 x h
              · have := e2.2 x h; omega
  · -- min, null
    intro hm
    simp only [StatsSet.mergeOrdered] at hm
    rw [valid_append]
    cases h1 : s.min with
    | none => simp [h1] at hm
    | some a =>
      cases h2 : o.min with
      | none => simp [h1, h2] at hm
      | some b =>
        simp only [h1, h2] at hm
        cases a with
        | none =>
          cases b with
          | none => rw [hs.min_null h1, ho.min_null h2]; rfl
          | some b => simp [statLt] at hm
        | some a =>
          cases b with
          | none => simp [statLt] at hm
          | some b => by_cases hlt : statLt key (some b) (some a) <;> simp [hlt] at hm
  · -- max, some
    intro m hm
    simp only [StatsSet.mergeOrdered] at hm
    rw [valid_append]
    cases h1 : s.max with
    | none => simp [h1] at hm
    | some a =>
      cases h2 : o.max with
      | none => simp [h1, h2] at hm
      | some b =>
        simp only [h1, h2] at hm
        cases a with
        | none => simp [statLt] at hm
        | some a =>
          have e1 := hs.max_some _ h1
          cases b with
          | none => simp [statLt] at hm
          | some b =>
            have e2 := ho.max_some _ h2
            simp only [statLt, decide_eq_true_eq] at hm
            split at hm
            · rename_i hlt
              simp only [Option.some.injEq] at hm
              subst hm
              refine ⟨List.mem_append_right _ e2.1, fun x hx => ?_⟩
              rcases List.mem_append.mp hx with h | h
              · have := e1.2 x h; omega
              · exact e2.2 x h
            · rename_i hlt
              simp only [Option.some.injEq] at hm
              subst hm
              refine ⟨List.mem_append_left _ e1.1, fun x hx => ?_⟩
              rcases List.mem_append.mp hx with h | h
              · exact e1.2 x h
              · have := e2.2 x h; omega
  · -- max, null
    intro hm
    simp only [StatsSet.mergeOrdered] at hm
    cases h1 : s.max with
    | none => simp [h1] at hm
    | some a =>
      cases h2 : o.max with
      | none => simp [h1, h2] at hm
      | some b =>
        simp only [h1, h2] at hm
        cases a with
        | none => exact List.mem_append_left _ (hs.max_null h1)
        | some a =>
          cases b with
          | none => exact List.mem_append_right _ (ho.max_null h2)
          | some b => by_cases hlt : statLt key (some a) (some b) <;> simp [hlt] at hm
  · -- constant
    intro hc
    simp only [StatsSet.mergeIsConstant] at hc
    cases h1 : s.isConstant with
    | none => simp [h1] at hc
    | some c =>
      cases h2 : o.isConstant with
      | none => simp [h1, h2] at hc
      | some c' =>
        simp only [h1, h2] at hc
        split at hc
        · rename_i hcond
          simp only [Bool.and_eq_true, decide_eq_true_eq] at hcond
          obtain ⟨⟨rfl, rfl⟩, heq⟩ := hcond
          have a1 := hs.constant h1
          have a2 := ho.constant h2
          have hmin : s.min ≠ none := by
            rcases hk with h | h
            · exact h h1
            · rw [heq]; exact h h2
          have same : ∀ (s : StatsSet α) (rs : List (Option α)) (m : Option α), s.Sound key isT n rs → AllSame rs →
              s.min = some m → ∀ x ∈ rs, x = m := by
            intro s rs m hs hall hm x hx
            cases m with
            | none =>
              have := hs.min_null hm
              cases x with
              | none => rfl
              | some y => exact absurd (mem_valid.mpr hx) (by simp [this])
            | some y =>
              have := (hs.min_some _ hm).1
              exact hall _ hx _ (mem_valid.mp this)
          obtain ⟨m, hm⟩ := Option.ne_none_iff_exists'.mp hmin
          have b1 := same s rs m hs a1 hm
          have b2 := same o ro m ho a2 (heq ▸ hm)
          intro x hx y hy
          have : ∀ z ∈ rs ++ ro, z = m := by
            intro z hz
            rcases List.mem_append.mp hz with h | h
            · exact b1 z h
            · exact b2 z h
          rw [this x hx, this y hy]
        · simp at hc
  · -- sorted
    intro hc
    simp only [StatsSet.mergeSorted] at hc
    rw [valid_append]
    split at hc
    · rename_i a b h1 h2
      split at hc
      · rename_i m m' h3 h4
        split at hc
        · rename_i hcond
          simp only [Bool.and_eq_true] at hcond
          obtain ⟨⟨rfl, rfl⟩, hcmp⟩ := hcond
          apply pairwise_append_of_bound (hs.sorted h1) (ho.sorted h2)
          intro x hx y hy
          cases m' with
          | none => rw [ho.min_null h4] at hy; cases hy
          | some m' =>
            cases m with
            | none => simp [statLe] at hcmp
            | some m =>
              simp only [statLe, decide_eq_true_eq] at hcmp
              have := (hs.max_some _ h3).2 x hx
              have := (ho.min_some _ h4).2 y hy
              omega
        · simp at hc
      · simp at hc
    · simp at hc
  · -- strictly sorted
    intro hc
    simp only [StatsSet.mergeSorted] at hc
    rw [valid_append]
    split at hc
    · rename_i a b h1 h2
      split at hc
      · rename_i m m' h3 h4
        split at hc
        · rename_i hcond
          simp only [Bool.and_eq_true] at hcond
          obtain ⟨⟨rfl, rfl⟩, hcmp⟩ := hcond
          apply pairwise_append_of_bound (hs.strict h1) (ho.strict h2)
          intro x hx y hy
          cases m' with
          | none => rw [ho.min_null h4] at hy; cases hy
          | some m' =>
            cases m with
            | none => simp [statLt] at hcmp
            | some m =>
              simp only [statLt, decide_eq_true_eq] at hcmp
              have := (hs.max_some _ h3).2 x hx
              have := (ho.min_some _ h4).2 y hy
              omega
        · simp at hc
      · simp at hc
    · simp at hc
  · intro c hc
    simp only [StatsSet.mergeRunCount] at hc
    rw [valid_append]
    split at hc
    · rename_i a b h1 h2
      simp only [Option.some.injEq] at hc
      have := hs.run_count _ h1
      have := ho.run_count _ h2
      have := runs_append_le (valid rs) (valid ro)
      omega
    · simp at hc
  · intro c hc
    simp only [StatsSet.mergeCount] at hc
    rw [valid_append, List.countP_append]
    split at hc
    · rename_i a b h1 h2
      simp only [Option.some.injEq] at hc
      rw [← hs.true_count _ h1, ← ho.true_count _ h2, hc]
    · simp at hc
  · intro c hc
    simp only [StatsSet.mergeCount] at hc
    rw [List.count_append]
    split at hc
    · rename_i a b h1 h2
      simp only [Option.some.injEq] at hc
      rw [← hs.null_count _ h1, ← ho.null_count _ h2, hc]
    · simp at hc
  · exact hbwl
  · exact htzl

/-- **C26, nothing known is lost**: bounds, counts and run counts known for both parts are known for the whole. -/
theorem C26_merge_keeps [DecidableEq α] {key : α → Int} {s o m : StatsSet α} (h : StatsSet.merge key s o = .ok m) :
    (m.min.isSome = (s.min.isSome && o.min.isSome)) ∧ (m.max.isSome = (s.max.isSome && o.max.isSome)) ∧
    (m.runCount.isSome = (s.runCount.isSome && o.runCount.isSome)) ∧
    (m.trueCount.isSome = (s.trueCount.isSome && o.trueCount.isSome)) ∧
    (m.nullCount.isSome = (s.nullCount.isSome && o.nullCount.isSome)) ∧
    (m.bitWidthFreq.isSome = (s.bitWidthFreq.isSome && o.bitWidthFreq.isSome)) ∧
    (m.tzFreq.isSome = (s.tzFreq.isSome && o.tzFreq.isSome)) := by
  obtain ⟨bw, hb, tz, ht, rfl⟩ : ∃ bw, StatsSet.mergeFreq s.bitWidthFreq o.bitWidthFreq = .ok bw ∧
      ∃ tz, StatsSet.mergeFreq s.tzFreq o.tzFreq = .ok tz ∧ _ = m := by
    simp only [StatsSet.merge, Res.bind_eq_ok] at h
    obtain ⟨bw, hb, tz, ht, h⟩ := h
    exact ⟨bw, hb, tz, ht, by simpa using h⟩
  have hopt : ∀ (f : Option α → Option α → Bool) (a b : Option (Option α)),
      (StatsSet.mergeOrdered f a b).isSome = (a.isSome && b.isSome) := by
    intro f a b
    cases a <;> cases b <;> simp [StatsSet.mergeOrdered]
    split <;> rfl
  have hfr : ∀ (a b c : Option (List Nat)), StatsSet.mergeFreq a b = .ok c → c.isSome = (a.isSome && b.isSome) := by
    intro a b c hc
    cases a with
    | none => simp [StatsSet.mergeFreq] at hc; subst hc; rfl
    | some a =>
      cases b with
      | none => simp [StatsSet.mergeFreq] at hc; subst hc; rfl
      | some b =>
        simp only [StatsSet.mergeFreq] at hc
        split at hc
        · cases hc; rfl
        · cases hc
  refine ⟨hopt _ _ _, hopt _ _ _, ?_, ?_, ?_, hfr _ _ _ hb, hfr _ _ _ ht⟩
  · cases s.runCount <;> cases o.runCount <;> rfl
  · cases s.trueCount <;> cases o.trueCount <;> rfl
  · cases s.nullCount <;> cases o.nullCount <;> rfl

/-- **C26, histograms**: exact histograms of the parts merge to the exact histogram of the whole. -/
theorem C26_merge_histogram {α : Type} (n : Nat) (f : Option α → Nat) (rs ro : List (Option α)) :
    StatsSet.mergeFreq (some (histogram n f rs)) (some (histogram n f ro)) = .ok (some (histogram n f (rs ++ ro))) := by
  simp only [StatsSet.mergeFreq, histogram, List.length_map, if_true, List.zipWith_map, List.zipWith_self, List.countP_append]

theorem minKnown_merge [DecidableEq α] {key : α → Int} {s o m : StatsSet α} (h : StatsSet.merge key s o = .ok m)
    (hk1 : s.MinKnown) (hk2 : o.MinKnown) : m.MinKnown := by
  intro hc
  have hmin := (C26_merge_keeps h).1
  have : m.isConstant = StatsSet.mergeIsConstant (decide (s.min = o.min)) s.isConstant o.isConstant := by
    simp only [StatsSet.merge, Res.bind_eq_ok] at h
    obtain ⟨bw, hb, tz, ht, h⟩ := h
    cases h
    rfl
  rw [this] at hc
  simp only [StatsSet.mergeIsConstant] at hc
  cases h1 : s.isConstant with
  | none => simp [h1] at hc
  | some c =>
    cases h2 : o.isConstant with
    | none => simp [h1, h2] at hc
    | some c' =>
      simp only [h1, h2] at hc
      split at hc
      · rename_i hcond
        simp only [Bool.and_eq_true, decide_eq_true_eq] at hcond
        obtain ⟨⟨rfl, rfl⟩, heq⟩ := hcond
        have a := hk1 h1
        have b := hk2 h2
        intro hn
        rw [hn] at hmin
        rw [← heq] at b
        cases hs : s.min with
        | none => exact a hs
        | some x => simp [hs, ← heq] at hmin
      · simp at hc

/-- **C26, any number of chunks**: the statistics of a chunked array only make claims that are true of the concatenation of its
chunks. Same proviso as `C26_merge_sound_partial`. -/
theorem C26_chunked_partial [DecidableEq α] {key : α → Int} {isT : α → Bool} {n : Nat} :
    (parts : List (StatsSet α × List (Option α))) → (∀ p ∈ parts, p.1.Sound key isT n p.2 ∧ p.1.MinKnown) →
    ∃ m, StatsSet.reduceMerge key (parts.map (·.1)) = .ok m ∧ m.Sound key isT n (parts.map (·.2)).flatten ∧ m.MinKnown
  | [], _ => ⟨{}, rfl, ⟨by simp, by simp, by simp, by simp, by simp, by simp, by simp, by simp, by simp, by simp, by simp, by simp⟩,
      by simp [StatsSet.MinKnown]⟩
  | p :: parts, h => by
    have key' : ∀ (parts : List (StatsSet α × List (Option α))) (s : StatsSet α) (rs : List (Option α)),
        s.Sound key isT n rs → s.MinKnown → (∀ p ∈ parts, p.1.Sound key isT n p.2 ∧ p.1.MinKnown) →
        ∃ m, (parts.map (·.1)).foldlM (StatsSet.merge key) s = .ok m ∧ m.Sound key isT n (rs ++ (parts.map (·.2)).flatten) ∧
          m.MinKnown := by
      intro parts
      induction parts with
      | nil => intro s rs hs hm _; exact ⟨s, rfl, by simpa using hs, hm⟩
      | cons q parts ih =>
        intro s rs hs hm hall
        obtain ⟨hq, hqm⟩ := hall q (by simp)
        obtain ⟨m, hm1, hm2⟩ := C26_merge_sound_partial hs hq (.inl hm)
        obtain ⟨m', h1, h2, h3⟩ := ih m (rs ++ q.2) hm2 (minKnown_merge hm1 hm hqm) (fun p hp => hall p (by simp [hp]))
        refine ⟨m', ?_, by simpa using h2, h3⟩
        simp only [List.map_cons, List.foldlM_cons, hm1, Res.ok_bind, h1]
    obtain ⟨hp, hpm⟩ := h p (by simp)
    obtain ⟨m, h1, h2, h3⟩ := key' parts p.1 p.2 hp hpm (fun q hq => h q (by simp [hq]))
    exact ⟨m, h1, by simpa using h2, h3⟩

/-- The statistics computed for an integer array (C25) are sound in the sense of C26, also when every row is null. (An empty array
marked all-invalid is excluded: its statistics claim a null maximum.) -/
theorem primStats_sound (signed : Bool) (w : Nat) (a : PArr (BitVec w)) (hw : a.WF) (isT : BitVec w → Bool)
    (hai : a.validity = .allInvalid → a.vals ≠ []) :
    (primStats (intElem signed w) a).Sound (intKey signed) isT (w + 1) a.rows ∧ (primStats (intElem signed w) a).MinKnown := by
  by_cases hv : valid a.rows = []
  · by_cases hne : a.vals = []
    · have h : primStats (intElem signed w) a = {} := by
        obtain ⟨vals, v⟩ := a
        simp only at hne
        subst hne
        cases v with
        | array m =>
          simp [PArr.WF, FitsLen, mask] at hw
          subst hw
          simp [primStats, Validity.toLogical, Validity.boolMin, Validity.boolMax, statsNullable]
        | allInvalid => exact absurd rfl (hai rfl)
        | _ => rfl
      rw [h]
      exact ⟨⟨by simp, by simp, by simp, by simp, by simp, by simp, by simp, by simp, by simp, by simp, by simp, by simp⟩,
          by simp [StatsSet.MinKnown]⟩
    · rw [C25_all_null _ a hw hne hv]
      have hc := count_none_eq a.rows
      have hl : a.rows.length = a.len := PArr.rows_len hw
      have hpos : 0 < a.len := List.length_pos_iff.mpr hne
      rw [hv] at hc
      have hall : ∀ x ∈ a.rows, x = none := by
        intro x hx
        cases x with
        | none => rfl
        | some y => exact absurd (mem_valid.mpr hx) (by simp [hv])
      refine ⟨⟨by simp [StatsSet.nullsPrim], fun _ => hv, by simp [StatsSet.nullsPrim], fun _ => ?_, fun _ => ?_, fun _ => ?_,
        fun _ => ?_, ?_, by simp [StatsSet.nullsPrim], ?_, ?_, ?_⟩, by simp [StatsSet.MinKnown, StatsSet.nullsPrim]⟩
      · exact List.count_pos_iff.mp (by simp at hc; omega)
      · intro x hx y hy; rw [hall x hx, hall y hy]
      · rw [hv]; exact List.Pairwise.nil
      · rw [hv]; exact List.Pairwise.nil
      · intro c _; rw [hv]; simp [runs]
      · intro c h; simp [StatsSet.nullsPrim] at h; simp at hc; omega
      · intro h hh; simp [StatsSet.nullsPrim] at hh; subst hh; simp [intElem]
      · intro h hh; simp [StatsSet.nullsPrim] at hh; subst hh; simp [intElem]
  · obtain ⟨h, b, hb, hbs⟩ := C25_integer signed w a hw hv
    obtain ⟨mn, hmn, hmn'⟩ := h.min
    obtain ⟨mx, hmx, hmx'⟩ := h.max
    obtain ⟨so, hso, hso'⟩ := h.sorted
    obtain ⟨st, hst, hst'⟩ := h.strict
    have htc : (primStats (intElem signed w) a).trueCount = none := by
      obtain ⟨acc, _, h2⟩ := PArr.primStats_inv (intElem_lawful signed w) a hw hv
      rw [h2]; rfl
    refine ⟨⟨?_, ?_, ?_, ?_, ?_, ?_, ?_, ?_, ?_, ?_, ?_, ?_⟩, ?_⟩
    · intro m hm; rw [hmn] at hm; cases hm; exact hmn'
    · intro hm; rw [hmn] at hm; cases hm
    · intro m hm; rw [hmx] at hm; cases hm; exact hmx'
    · intro hm; rw [hmx] at hm; cases hm
    · intro hc; rw [hb] at hc; cases hc; exact hbs.mp rfl
    · intro hc; rw [hso] at hc; cases hc; exact hso'.mp rfl
    · intro hc; rw [hst] at hc; cases hc; exact hst'.mp rfl
    · intro c hc; rw [h.runCount] at hc; cases hc; exact Nat.le_refl _
    · intro c hc; rw [htc] at hc; cases hc
    · intro c hc; rw [h.nullCount] at hc; cases hc; rfl
    · intro c hc; rw [h.bitWidthFreq] at hc; cases hc; simp [histogram, intElem]
    · intro c hc; rw [h.tzFreq] at hc; cases hc; simp [histogram, intElem]
    · intro _; rw [hmn]; simp

/-- **C26, chunked integer arrays**: whatever the chunks (empty, all null, mixed), the statistics of the chunked array only claim
what is true of the concatenated rows. No proviso is needed, because primitive arrays always know their minimum. -/
theorem C26_chunked_integer (signed : Bool) (w : Nat) (chunks : List (PArr (BitVec w))) (hw : ∀ c ∈ chunks, c.WF)
    (hai : ∀ c ∈ chunks, c.validity = .allInvalid → c.vals ≠ []) (isT : BitVec w → Bool) :
    ∃ m, StatsSet.reduceMerge (intKey signed) (chunks.map (primStats (intElem signed w))) = .ok m ∧
      m.Sound (intKey signed) isT (w + 1) (chunks.map PArr.rows).flatten := by
  obtain ⟨m, h1, h2, _⟩ := C26_chunked_partial (key := intKey signed) (isT := isT) (n := w + 1)
    (chunks.map (fun c => (primStats (intElem signed w) c, c.rows))) (by
      intro p hp
      obtain ⟨c, hc, rfl⟩ := List.mem_map.mp hp
      exact primStats_sound signed w c (hw c hc) isT (hai c hc))
  refine ⟨m, ?_, ?_⟩
  · rw [← h1, List.map_map]; rfl
  · simpa [List.map_map, Function.comp_def] using h2

/-- Why the proviso: two sets that claim "constant" but do not know a minimum merge to "constant" although the parts differ. -/
theorem C26_is_constant_without_min :
    ∃ (s o m : StatsSet Int) (rs ro : List (Option Int)), s.Sound id (fun _ => false) 0 rs ∧ o.Sound id (fun _ => false) 0 ro ∧
      StatsSet.merge id s o = .ok m ∧ ¬ m.Sound id (fun _ => false) 0 (rs ++ ro) := by
  refine ⟨{ isConstant := some true }, { isConstant := some true }, { isConstant := some true }, [some 1], [some 2], ?_, ?_, rfl, ?_⟩
  · exact ⟨by simp, by simp, by simp, by simp, by simp [AllSame], by simp, by simp, by simp, by simp, by simp, by simp, by simp⟩
  · exact ⟨by simp, by simp, by simp, by simp, by simp [AllSame], by simp, by simp, by simp, by simp, by simp, by simp, by simp⟩
  · intro h
    have := h.constant rfl (some 1) (by simp) (some 2) (by simp)
    simp at this

/-- The maximum of a column with an all-null chunk degenerates to null although other chunks have values: the merged maximum is then
not attained. -/
theorem C26_max_lost_on_null_chunk :
    let c1 : PArr (BitVec 8) := ⟨[1#8, 2#8], .allValid⟩
    let c2 : PArr (BitVec 8) := ⟨[0#8], .allInvalid⟩
    ∃ m, StatsSet.reduceMerge (intKey false) ([c1, c2].map (primStats (intElem false 8))) = .ok m ∧ m.max = some none ∧
      m.min = some (some 1#8) :=
  ⟨_, rfl, by decide +kernel, by decide +kernel⟩

/-- Non-vacuity: three chunks, one with nulls, sorted across chunk borders. -/
example : ∃ m, StatsSet.reduceMerge (intKey true)
      ([⟨[1#8, 2#8], .nonNullable⟩, ⟨[3#8, 9#8, 4#8], .array [true, false, true]⟩, ⟨[4#8], .nonNullable⟩].map
        (primStats (intElem true 8))) = .ok m ∧
    m.min = some (some 1#8) ∧ m.max = some (some 4#8) ∧ m.isSorted = some true ∧ m.isStrictSorted = some false ∧
    m.nullCount = some 1 ∧ m.runCount = some 7 ∧ m.isConstant = some false :=
  ⟨_, rfl, by decide +kernel, by decide +kernel, by decide +kernel, by decide +kernel, by decide +kernel, by decide +kernel,
    by decide +kernel⟩

end Vx
