import Verif.Lemmas.FilterByTree
/-! # Predicates that answer every question: every filter by their rows is a filter by them -/
namespace Vx.Tree
open Pred

namespace Pred

/-- The statistic or the positions are there, and both iterators. -/
structure Answers (known : Known) (p : Pred) : Prop where
  count : ∃ n, p.trueCount known = .ok n
  indices : ∃ is, p.indices = .ok is
  slices : ∃ ss, p.slices = .ok ss

theorem answers_plain (known : Known) (q : BoolPred) : Answers known (.plain q) := by
  refine ⟨?_, ⟨_, rfl⟩, ⟨_, rfl⟩⟩
  unfold trueCount
  cases stat known (.plain q) with
  | some n => exact ⟨n, rfl⟩
  | none => exact ⟨_, rfl⟩

theorem answers_const (known : Known) (b : Bool) (n : Nat) : Answers known (.const b n) := by
  refine ⟨?_, ⟨_, rfl⟩, ⟨_, rfl⟩⟩
  unfold trueCount
  cases stat known (.const b n) with
  | some n => exact ⟨n, rfl⟩
  | none => exact ⟨_, rfl⟩

end Pred

variable {L : Type} {env : BEnv L} {known : Known} {lf : L → Pred → Res (Arr L)}

theorem chunksBy_complete (hk : Honest known) {p : Pred} (hw : p.WF) (he : p.Exact) (ha : p.Answers known) (o : Bulks L) (cs out : List (Arr L))
    (hlen : p.len = (cs.map (len env.toEnv)).sum)
    (h : Chunked.filter (len env.toEnv) o.take o.filter env.manySet cs p.rows = .ok out) : filterChunksBy env known o cs p = .ok out := by
  obtain ⟨n, hn⟩ := ha.count
  obtain ⟨is, his⟩ := ha.indices
  obtain ⟨ss, hss⟩ := ha.slices
  have hc := trueCount_eq hk hw he hn
  have hl : p.rows.length = (cs.map (len env.toEnv)).sum := by rw [← Pred.len_rows p hw, hlen]
  subst hc
  unfold Chunked.filter at h
  rw [if_neg (by omega)] at h
  unfold filterChunksBy
  rw [hn, Res.ok_bind]
  split at h
  · rename_i h0; rw [if_pos h0]; exact h
  · rename_i h0
    rw [if_neg h0]
    split at h
    · rename_i h1; rw [if_pos h1]; exact h
    · rename_i h1
      rw [hl] at h
      rw [if_neg h1]
      split at h
      · rename_i hm
        rw [if_pos hm, hss, Res.ok_bind, slices_eq he hss (by omega)]
        exact h
      · rename_i hm
        rw [if_neg hm, his, Res.ok_bind, indices_eq hw he his]
        exact h

/-- A predicate that answers every question filters like its rows. -/
theorem filterBys_complete (hk : Honest known) {p : Pred} (hw : p.WF) (he : p.Exact) (ha : p.Answers known)
    (hlf : ∀ l b, p.len = env.len l → env.filter l p.rows = .ok b → lf l p = .ok b) :
    ∀ (d : Nat) (a b : Arr L), (columned a = true ∨ (p.stat known).getD 0 = p.rows.count true) → (bulks env d).filter a p.rows = .ok b →
      filterBys env known lf p d a = .ok b
  | 0, _, _, _, h => by cases h
  | d + 1, a, b, hcol, h => by
    have ih := fun a b => filterBys_complete hk hw he ha hlf d a b
    have hlen := Pred.len_rows p hw
    obtain ⟨c, hc1, hc2, hc3⟩ := canon_mask hw he
    have h : filterChecked env (bulks env d) a p.rows = .ok b := h
    unfold filterChecked at h
    split at h
    · cases h
    rename_i hl
    have hl : p.rows.length = len env.toEnv a := Decidable.not_not.mp hl
    unfold filterBys
    rw [if_neg (by omega)]
    have rest : ∀ x : Arr L, (canonFn env (bulks env d) x >>= fun c => filterArrow env (bulks env d) c (dtype env.toEnv x).isNullable p.rows) = .ok b →
        filterRest env (bulks env d) x p = .ok b := by
      intro x hx
      unfold filterRest
      obtain ⟨y, h1, hx⟩ := Res.bind_eq_ok.mp hx
      rw [h1, Res.ok_bind, hc1, Res.ok_bind, hc3]; exact hx
    cases a with
    | leaf l => exact hlf l b (by rw [hlen]; exact hl) h
    | flat k vals v => exact rest _ h
    | null n => exact rest _ h
    | ext id m s => exact rest _ h
    | runEnd ends values v off n => exact rest _ h
    | const dt x n =>
      obtain ⟨k, h1⟩ := ha.count
      simp only [filterByFn, h1, Res.ok_bind]
      rw [trueCount_eq hk hw he h1]
      exact h
    | chunked dt cs =>
      simp only [filterFn] at h
      obtain ⟨out, h1, h⟩ := Res.bind_eq_ok.mp h
      simp only [filterByFn]
      rw [chunksBy_complete hk hw he ha _ cs out (by rw [hlen, hl, len, lens_sum]) h1, Res.ok_bind]
      exact h
    | struct names fs n v =>
      simp only [filterFn] at h
      obtain ⟨gs, h1, h⟩ := Res.bind_eq_ok.mp h
      obtain ⟨w, h2, h⟩ := Res.bind_eq_ok.mp h
      have hcs : ∀ f ∈ fs, columned f = true ∨ (p.stat known).getD 0 = p.rows.count true := by
        intro f hf
        rcases hcol with hcol | hcol
        · left
          simp only [columned, Bool.and_eq_true] at hcol
          exact columneds_mem fs hcol.1.2 f hf
        · exact .inr hcol
      have h1' := mapM_imp (fun f hf y hy => ih f y (hcs f hf) hy) h1
      have h2' : filterVBy (filterBys env known lf p d) v = .ok w := by
        cases v with
        | array x =>
          simp only [filterV] at h2
          obtain ⟨y, g1, g2⟩ := Res.bind_eq_ok.mp h2
          simp only [filterVBy]
          rw [ih x y (by
            rcases hcol with hcol | hcol
            · left; simp only [columned, Bool.and_eq_true] at hcol; exact hcol.2
            · exact .inr hcol) g1, Res.ok_bind]
          exact g2
        | nonNullable => exact h2
        | allValid => exact h2
        | allInvalid => exact h2
      simp only [filterByFn]
      rw [h1', Res.ok_bind, h2', Res.ok_bind, ← h]
      cases gs with
      | cons g gs => rfl
      | nil =>
        rcases hcol with hcol | hcol
        · exfalso
          simp only [columned, Bool.and_eq_true] at hcol
          cases fs with
          | nil => simp at hcol
          | cons f fs =>
            simp only [Res.mapM] at h1
            obtain ⟨_, _, h1⟩ := Res.bind_eq_ok.mp h1
            obtain ⟨_, _, h1⟩ := Res.bind_eq_ok.mp h1
            cases h1
        · simp only [List.head?_nil, Option.map_none, Option.getD_none, hcol]
    | sparse js values n off fill =>
      simp only [filterByFn]
      rw [hc1, Res.ok_bind, hc2]
      exact h
    | dict codes values =>
      simp only [filterFn] at h
      obtain ⟨x, h1, h⟩ := Res.bind_eq_ok.mp h
      simp only [filterByFn]
      rw [ih codes x (by simpa only [columned] using hcol) h1, Res.ok_bind]
      exact h
    | alpP e f enc patches =>
      simp only [filterFn] at h
      obtain ⟨x, h1, h⟩ := Res.bind_eq_ok.mp h
      obtain ⟨q, h2, h⟩ := Res.bind_eq_ok.mp h
      have hcc : ∀ y, y = enc ∨ y = patches → (columned y = true ∨ (p.stat known).getD 0 = p.rows.count true) := by
        intro y hy
        rcases hcol with hcol | hcol
        · simp only [columned, Bool.and_eq_true] at hcol
          rcases hy with rfl | rfl
          · exact .inl hcol.1
          · exact .inl hcol.2
        · exact .inr hcol
      simp only [filterByFn]
      rw [ih enc x (hcc _ (.inl rfl)) h1, Res.ok_bind, ih patches q (hcc _ (.inr rfl)) h2, Res.ok_bind]
      exact h
    | mapped c enc =>
      cases c with
      | zigzag => exact rest _ h
      | «for» q r s =>
        simp only [filterFn] at h
        obtain ⟨x, h1, h⟩ := Res.bind_eq_ok.mp h
        simp only [filterByFn]
        rw [ih enc x (by simpa only [columned] using hcol) h1, Res.ok_bind]
        exact h
      | alp e f =>
        simp only [filterFn] at h
        obtain ⟨x, h1, h⟩ := Res.bind_eq_ok.mp h
        simp only [filterByFn]
        rw [ih enc x (by simpa only [columned] using hcol) h1, Res.ok_bind]
        exact h

/-- Plain and constant predicates always know how many rows a struct without columns keeps. -/
theorem counted_plain (hk : Honest known) {q : BoolPred} (hw : q.WF) : ((Pred.plain q).stat known).getD 0 = (Pred.plain q).rows.count true := by
  cases h : (Pred.plain q).stat known with
  | some n => exact stat_eq hk _ n hw h
  | none =>
    have hwl : q.off + q.len ≤ q.raw.length := hw
    cases hkq : known (.plain q) with
    | some m => simp [stat, hkq] at h
    | none =>
      simp only [stat, hkq] at h
      split at h
      · rename_i h0; simp [Pred.rows, BoolPred.bits, h0]
      · cases h

theorem counted_const (hk : Honest known) (b : Bool) (n : Nat) : ((Pred.const b n).stat known).getD 0 = (Pred.const b n).rows.count true := by
  cases h : (Pred.const b n).stat known with
  | some m => exact stat_eq hk _ m trivial h
  | none =>
    cases hkq : known (.const b n) with
    | some m => simp [stat, hkq] at h
    | none => simp [stat, hkq] at h

/-! ## Byte strings and the leaf encodings -/

theorem varbin_sound {maxO : Nat} (hk : Honest known) {p : Pred} (hw : p.WF) (he : p.Exact) {a b : VarBin.Arr}
    (h : VarBin.filterBy maxO known a p = .ok b) : VarBin.filter maxO a ⟨p.rows, 0, p.rows.length⟩ = .ok b := by
  have hlen := Pred.len_rows p hw
  have hbits : (⟨p.rows, 0, p.len⟩ : BoolPred).bits = p.rows := by simp [BoolPred.bits, hlen]
  have hiter : (⟨p.rows, 0, p.len⟩ : BoolPred).iterBits = p.rows := by simp [BoolPred.iterBits, hlen]
  rw [← hlen]
  unfold VarBin.filterBy at h
  unfold VarBin.filter
  split at h
  · cases h
  rename_i hl
  rw [if_neg hl]
  obtain ⟨n, hn, h⟩ := Res.bind_eq_ok.mp h
  have hn := trueCount_eq hk hw he hn
  subst hn
  simp only [BoolPred.trueCount, hbits]
  split at h
  · rename_i hc
    rw [if_pos hc]
    obtain ⟨runs, h1, h⟩ := Res.bind_eq_ok.mp h
    rw [slices_eq he h1 (by omega)] at h
    simp only [VarBin.filterBySlice, BoolPred.slices, hiter, slicesFrom_eq]
    exact h
  · rename_i hc
    rw [if_neg hc]
    obtain ⟨is, h1, h⟩ := Res.bind_eq_ok.mp h
    have : is = BoolPred.indicesFrom 0 p.rows := by
      rw [indices_eq hw he h1, indicesFrom_eq]
      exact (List.map_id _).symm
    rw [this] at h
    simp only [VarBin.filterByIndex, BoolPred.indices, hiter]
    exact h

theorem varbin_complete {maxO : Nat} (hk : Honest known) {p : Pred} (hw : p.WF) (he : p.Exact) (ha : p.Answers known) {a b : VarBin.Arr}
    (h : VarBin.filter maxO a ⟨p.rows, 0, p.rows.length⟩ = .ok b) : VarBin.filterBy maxO known a p = .ok b := by
  have hlen := Pred.len_rows p hw
  have hbits : (⟨p.rows, 0, p.len⟩ : BoolPred).bits = p.rows := by simp [BoolPred.bits, hlen]
  have hiter : (⟨p.rows, 0, p.len⟩ : BoolPred).iterBits = p.rows := by simp [BoolPred.iterBits, hlen]
  rw [← hlen] at h
  obtain ⟨n, hn⟩ := ha.count
  obtain ⟨is, his⟩ := ha.indices
  obtain ⟨ss, hss⟩ := ha.slices
  unfold VarBin.filter at h
  unfold VarBin.filterBy
  split at h
  · cases h
  rename_i hl
  rw [if_neg hl, hn, Res.ok_bind]
  have hn := trueCount_eq hk hw he hn
  subst hn
  simp only [BoolPred.trueCount, hbits] at h
  split at h
  · rename_i hc
    rw [if_pos hc, hss, Res.ok_bind, slices_eq he hss (by omega)]
    simp only [VarBin.filterBySlice, BoolPred.slices, hiter, slicesFrom_eq] at h
    exact h
  · rename_i hc
    have : is = BoolPred.indicesFrom 0 p.rows := by
      rw [indices_eq hw he his, indicesFrom_eq]
      exact (List.map_id _).symm
    rw [if_neg hc, his, Res.ok_bind, this]
    simp only [VarBin.filterByIndex, BoolPred.indices, hiter] at h
    exact h

/-- The leaf encodings keep the law. -/
theorem leafBy_sound (x : Outside) (hk : Honest known) {p : Pred} (hw : p.WF) (he : p.Exact) (l : RLeaf) (b : Arr RLeaf)
    (h : leafFilterBy x known l p = .ok b) : leafFilter x l p.rows = .ok b := by
  obtain ⟨c, hc1, hc2, hc3⟩ := canon_mask hw he
  have hlen := Pred.len_rows p hw
  have hbits : (⟨p.rows, 0, p.rows.length⟩ : BoolPred).bits = p.rows := by simp [BoolPred.bits]
  cases l with
  | fsst k a =>
    simp only [leafFilterBy, fsstFilterBy] at h
    obtain ⟨y, h1, h⟩ := Res.bind_eq_ok.mp h
    split at h1
    · cases h1
    rename_i hl
    obtain ⟨z, h2, h1⟩ := Res.bind_eq_ok.mp h1
    rw [hc1, Res.ok_bind, hc3] at h1
    simp only [leafFilter, FSST.filter]
    rw [if_neg (by rw [← hlen]; exact hl), varbin_sound hk hw he h2, Res.ok_bind, hbits, h1, Res.ok_bind]
    exact h
  | alpRd q a =>
    simp only [leafFilterBy, hc1, Res.ok_bind, hc2, hc3] at h
    exact h
  | bitPacked q a => simp only [leafFilterBy, hc1, Res.ok_bind, hc3] at h; exact h
  | roaringBool a => simp only [leafFilterBy, hc1, Res.ok_bind, hc3] at h; exact h
  | delta q a => simp only [leafFilterBy, hc1, Res.ok_bind, hc3] at h; exact h
  | roaringInt q a => simp only [leafFilterBy, hc1, Res.ok_bind, hc3] at h; exact h
  | dateTime id m a => simp only [leafFilterBy, hc1, Res.ok_bind, hc3] at h; exact h

theorem leafBy_complete (x : Outside) (hk : Honest known) {p : Pred} (hw : p.WF) (he : p.Exact) (ha : p.Answers known) (l : RLeaf) (b : Arr RLeaf)
    (h : leafFilter x l p.rows = .ok b) : leafFilterBy x known l p = .ok b := by
  obtain ⟨c, hc1, hc2, hc3⟩ := canon_mask hw he
  have hlen := Pred.len_rows p hw
  have hbits : (⟨p.rows, 0, p.rows.length⟩ : BoolPred).bits = p.rows := by simp [BoolPred.bits]
  cases l with
  | fsst k a =>
    simp only [leafFilter, FSST.filter] at h
    obtain ⟨y, h1, h⟩ := Res.bind_eq_ok.mp h
    split at h1
    · cases h1
    rename_i hl
    obtain ⟨z, h2, h1⟩ := Res.bind_eq_ok.mp h1
    rw [hbits] at h1
    simp only [leafFilterBy, fsstFilterBy]
    rw [if_neg (by rw [hlen]; exact hl), varbin_complete hk hw he ha h2, Res.ok_bind, hc1, Res.ok_bind, hc3, h1, Res.ok_bind]
    exact h
  | alpRd q a =>
    simp only [leafFilterBy, hc1, Res.ok_bind, hc2, hc3]
    exact h
  | bitPacked q a => simp only [leafFilterBy, hc1, Res.ok_bind, hc3]; exact h
  | roaringBool a => simp only [leafFilterBy, hc1, Res.ok_bind, hc3]; exact h
  | delta q a => simp only [leafFilterBy, hc1, Res.ok_bind, hc3]; exact h
  | roaringInt q a => simp only [leafFilterBy, hc1, Res.ok_bind, hc3]; exact h
  | dateTime id m a => simp only [leafFilterBy, hc1, Res.ok_bind, hc3]; exact h

end Vx.Tree
