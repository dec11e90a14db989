import Verif.Lemmas.FilterBy
import Verif.Lemmas.Tree
/-! # Filtering a tree by an exact predicate is filtering by its rows -/
namespace Vx.Tree
open Pred

theorem mapM_imp {f g : α → Res β} : ∀ {xs : List α} {ys : List β}, (∀ x ∈ xs, ∀ y, f x = .ok y → g x = .ok y) → Res.mapM f xs = .ok ys →
    Res.mapM g xs = .ok ys
  | [], ys, _, h => h
  | x :: xs, ys, hfg, h => by
    simp only [Res.mapM] at h ⊢
    obtain ⟨y, h1, h⟩ := Res.bind_eq_ok.mp h
    obtain ⟨zs, h2, h⟩ := Res.bind_eq_ok.mp h
    rw [hfg x (by simp) y h1, Res.ok_bind, mapM_imp (fun z hz => hfg z (by simp [hz])) h2, Res.ok_bind]
    exact h

variable {L : Type} {env : BEnv L} {known : Known} {lf : L → Pred → Res (Arr L)}

theorem columneds_mem : ∀ (fs : List (Arr L)), columneds fs = true → ∀ f ∈ fs, columned f = true
  | [], _, _, hf => by cases hf
  | g :: fs, h, f, hf => by
    simp only [columneds, Bool.and_eq_true] at h
    rcases List.mem_cons.mp hf with rfl | hf
    · exact h.1
    · exact columneds_mem fs h.2 f hf

theorem chunksBy_sound (hk : Honest known) {p : Pred} (hw : p.WF) (he : p.Exact) (o : Bulks L) (cs out : List (Arr L))
    (hlen : p.len = (cs.map (len env.toEnv)).sum) (h : filterChunksBy env known o cs p = .ok out) :
    Chunked.filter (len env.toEnv) o.take o.filter env.manySet cs p.rows = .ok out := by
  unfold filterChunksBy at h
  obtain ⟨n, hn, h⟩ := Res.bind_eq_ok.mp h
  have hn := trueCount_eq hk hw he hn
  have hl : p.rows.length = (cs.map (len env.toEnv)).sum := by rw [← Pred.len_rows p hw, hlen]
  subst hn
  unfold Chunked.filter
  rw [if_neg (by omega)]
  split at h
  · rename_i hc; rw [if_pos hc]; exact h
  · rename_i hc
    rw [if_neg hc]
    split at h
    · rename_i h0; rw [if_pos h0]; exact h
    · rename_i h0
      rw [if_neg h0, hl]
      split at h
      · rename_i hm
        rw [if_pos hm]
        obtain ⟨runs, h1, h⟩ := Res.bind_eq_ok.mp h
        rw [slices_eq he h1 (by omega)] at h
        exact h
      · rename_i hm
        rw [if_neg hm]
        obtain ⟨is, h1, h⟩ := Res.bind_eq_ok.mp h
        rw [indices_eq hw he h1] at h
        exact h

/-- Every answer of a filter by an exact predicate is the answer of the filter by its rows. -/
theorem filterBys_sound (hk : Honest known) {p : Pred} (hw : p.WF) (he : p.Exact)
    (hlf : ∀ l b, p.len = env.len l → lf l p = .ok b → env.filter l p.rows = .ok b) :
    ∀ (d : Nat) (a b : Arr L), (columned a = true ∨ (p.stat known).getD 0 = p.rows.count true) → filterBys env known lf p d a = .ok b →
      (bulks env d).filter a p.rows = .ok b
  | 0, _, _, _, h => by cases h
  | d + 1, a, b, hcol, h => by
    have ih := fun a b => filterBys_sound hk hw he hlf d a b
    have hlen := Pred.len_rows p hw
    obtain ⟨c, hc1, hc2, hc3⟩ := canon_mask hw he
    unfold filterBys at h
    split at h
    · cases h
    rename_i hl
    have hl : p.len = len env.toEnv a := Decidable.not_not.mp hl
    change filterChecked env (bulks env d) a p.rows = .ok b
    unfold filterChecked
    rw [if_neg (by omega)]
    have rest : ∀ x : Arr L, filterRest env (bulks env d) x p = .ok b →
        (canonFn env (bulks env d) x >>= fun c => filterArrow env (bulks env d) c (dtype env.toEnv x).isNullable p.rows) = .ok b := by
      intro x hx
      unfold filterRest at hx
      obtain ⟨y, h1, hx⟩ := Res.bind_eq_ok.mp hx
      rw [hc1, Res.ok_bind, hc3] at hx
      rw [h1, Res.ok_bind]; exact hx
    cases a with
    | leaf l => exact hlf l b hl h
    | flat k vals v => exact rest _ h
    | null n => exact rest _ h
    | ext id m s => exact rest _ h
    | runEnd ends values v off n => exact rest _ h
    | const dt x n =>
      simp only [filterByFn] at h
      obtain ⟨k, h1, h⟩ := Res.bind_eq_ok.mp h
      rw [trueCount_eq hk hw he h1] at h
      exact h
    | chunked dt cs =>
      simp only [filterByFn] at h
      obtain ⟨out, h1, h⟩ := Res.bind_eq_ok.mp h
      simp only [filterFn]
      rw [chunksBy_sound hk hw he _ cs out (by rw [hl, len, lens_sum]) h1, Res.ok_bind]
      exact h
    | struct names fs n v =>
      simp only [filterByFn] at h
      obtain ⟨gs, h1, h⟩ := Res.bind_eq_ok.mp h
      obtain ⟨w, h2, h⟩ := Res.bind_eq_ok.mp h
      have hcs : ∀ f ∈ fs, columned f = true ∨ (p.stat known).getD 0 = p.rows.count true := by
        intro f hf
        rcases hcol with hcol | hcol
        · left
          simp only [columned, Bool.and_eq_true] at hcol
          exact columneds_mem fs hcol.1.2 f hf
        · exact .inr hcol
      have h1' := mapM_imp (fun f hf y hy => ih f y (hcs f hf) hy) h1
      have h2' : filterV (bulks env d) v p.rows = .ok w := by
        cases v with
        | array x =>
          simp only [filterVBy] at h2
          obtain ⟨y, g1, g2⟩ := Res.bind_eq_ok.mp h2
          simp only [filterV]
          rw [ih x y (by
            rcases hcol with hcol | hcol
            · left; simp only [columned, Bool.and_eq_true] at hcol; exact hcol.2
            · exact .inr hcol) g1, Res.ok_bind]
          exact g2
        | nonNullable => exact h2
        | allValid => exact h2
        | allInvalid => exact h2
      simp only [filterFn]
      rw [h1', Res.ok_bind, h2', Res.ok_bind, ← h]
      cases gs with
      | cons g gs => rfl
      | nil =>
        rcases hcol with hcol | hcol
        · exfalso
          simp only [columned, Bool.and_eq_true] at hcol
          cases fs with
          | nil => simp at hcol
          | cons f fs =>
            simp only [Res.mapM] at h1
            obtain ⟨_, _, h1⟩ := Res.bind_eq_ok.mp h1
            obtain ⟨_, _, h1⟩ := Res.bind_eq_ok.mp h1
            cases h1
        · simp only [List.head?_nil, Option.map_none, Option.getD_none, hcol]
    | sparse js values n off fill =>
      simp only [filterByFn] at h
      rw [hc1, Res.ok_bind, hc2] at h
      exact h
    | dict codes values =>
      simp only [filterByFn] at h
      obtain ⟨x, h1, h⟩ := Res.bind_eq_ok.mp h
      simp only [filterFn]
      rw [ih codes x (by simpa only [columned] using hcol) h1, Res.ok_bind]
      exact h
    | alpP e f enc patches =>
      simp only [filterByFn] at h
      obtain ⟨x, h1, h⟩ := Res.bind_eq_ok.mp h
      obtain ⟨q, h2, h⟩ := Res.bind_eq_ok.mp h
      have hcc : ∀ y, y = enc ∨ y = patches → (columned y = true ∨ (p.stat known).getD 0 = p.rows.count true) := by
        intro y hy
        rcases hcol with hcol | hcol
        · simp only [columned, Bool.and_eq_true] at hcol
          rcases hy with rfl | rfl
          · exact .inl hcol.1
          · exact .inl hcol.2
        · exact .inr hcol
      simp only [filterFn]
      rw [ih enc x (hcc _ (.inl rfl)) h1, Res.ok_bind, ih patches q (hcc _ (.inr rfl)) h2, Res.ok_bind]
      exact h
    | mapped c enc =>
      cases c with
      | zigzag => exact rest _ h
      | «for» q r s =>
        simp only [filterByFn] at h
        obtain ⟨x, h1, h⟩ := Res.bind_eq_ok.mp h
        simp only [filterFn]
        rw [ih enc x (by simpa only [columned] using hcol) h1, Res.ok_bind]
        exact h
      | alp e f =>
        simp only [filterByFn] at h
        obtain ⟨x, h1, h⟩ := Res.bind_eq_ok.mp h
        simp only [filterFn]
        rw [ih enc x (by simpa only [columned] using hcol) h1, Res.ok_bind]
        exact h

end Vx.Tree
