import Verif.Lemmas.TreeCompareSound
/-! # Comparing trees: when it succeeds -/
namespace Vx.Tree
open Spec

variable {L : Type} {env : CEnv L} {leafRows : L → List SV} {ok : L → Prop} {sty : DType}

/-- A comparison's answer that is not a constant. -/
def Fresh (env : CEnv L) (b : Arr L) : Prop := dtype env.toEnv b = .bool true ∧ isConstArr b = false

theorem fromArrowBools_fresh {rs : List SV} {b : Arr L} (h : fromArrowBools rs = .ok b) : isConstArr b = false := by
  simp only [fromArrowBools, Res.bind_eq_ok] at h
  obtain ⟨_, _, h⟩ := h
  injection h with h; subst h; rfl

theorem mkBool_fresh {bits : List Bool} {v : TVal (Arr L)} {b : Arr L} (h : mkBool env bits v = .ok b) : isConstArr b = false := by
  simp only [mkBool, Res.bind_eq_ok] at h
  obtain ⟨_, _, h⟩ := h
  injection h with h; subst h; rfl

/-- Two plain number arrays, which have a kernel of their own. -/
def bothPrim : Arr L → Arr L → Bool
  | .flat (.prim _) _ _, .flat (.prim _) _ _ => true
  | _, _ => false

theorem own_none (hns : NoStats env) (hleaf : ∀ op l r, isConstArr r = false → env.leafCmp op l r = none)
    {cmp : Op → Arr L → Arr L → Res (Arr L)} {op : Op} {l r : Arr L} (he : isEnd l = true) (hl : isConstArr l = false) (hr : isConstArr r = false)
    (hb : bothPrim l r = false) : own env cmp op l r = none := by
  have hk : known env r = false := by
    cases r <;> first | exact hns _ | simp [isConstArr] at hr
  cases l with
  | leaf l => exact hleaf op l r hr
  | const => simp [isConstArr] at hl
  | chunked => simp [isEnd] at he
  | ext => simp [isEnd] at he
  | flat k vals v =>
    cases k with
    | prim p =>
      cases r with
      | flat k' ws w => cases k' <;> simp [bothPrim] at hb <;> simp [own]
      | const => simp [isConstArr] at hr
      | _ => simp [own]
    | bool => simp [own]
    | utf8 => cases r <;> simp [own]; simp [isConstArr] at hr
    | binary => cases r <;> simp [own]; simp [isConstArr] at hr
  | mapped c enc => cases c <;> simp [own, hk]
  | alpP => simp [own, hk]
  | _ => simp [own]

theorem straight_not_const {a : Arr L} (h : Straight env leafRows sty a) : isConstArr a = false := by
  cases a with
  | const => exact ((Path_end rfl).mp h).2.1
  | _ => rfl

theorem eqIgnore_symm {d e : DType} (h : d.eqIgnoreNullability e = true) : e.eqIgnoreNullability d = true := by
  unfold DType.eqIgnoreNullability at h ⊢
  rw [DType.beq_eq] at h ⊢
  exact h.symm

/-- Something with a decoded form and an extension array are not of the same type. -/
theorem end_not_ext (hl : LeafLaws env.toEnv leafRows ok) (lb : LeafBulk env.toBEnv leafRows ok) {a : Arr L} {id : Str}
    {m : Option (List UInt8)} {s : Arr L} (hw : WF env.toEnv leafRows ok a) (hn : Nice env.toEnv leafRows a)
    (hd : (dtype env.toEnv (.ext id m s)).eqIgnoreNullability (dtype env.toEnv a) = true) : False := by
  have hk := nice_kind_cmp hl lb hw hn
  simp only [dtype] at hd
  obtain ⟨id', m', nl, h⟩ := eqIgnore_ext hd
  rw [h] at hk
  simp [kindOf] at hk

theorem side_wf {a : Arr L} (h : Side env leafRows ok a) (hc : isConstArr a = false) : WF env.toEnv leafRows ok a := by
  cases h with
  | array hw _ _ => exact hw
  | extConst => simp [isConstArr] at hc

theorem compareChunks_total (hl : LeafLaws env.toEnv leafRows ok) {cmp : Arr L → Arr L → Res (Arr L)} {op : Op} {dt : DType} {cs0 : List (Arr L)}
    {r : Arr L} {d : Nat} (hc : Comparable env leafRows ok op (.chunked dt cs0) r) (hst : Straight env leafRows sty (.chunked dt cs0))
    (hsr : Straight env leafRows sty r) (hd : dt.eqIgnoreNullability (dtype env.toEnv r) = true) (hdep : depths cs0 + depth r ≤ d)
    (IH : ∀ l r, Comparable env leafRows ok op l r → Straight env leafRows sty l → Straight env leafRows sty r →
      (rows env.toEnv leafRows l).length = (rows env.toEnv leafRows r).length →
      (dtype env.toEnv l).eqIgnoreNullability (dtype env.toEnv r) = true → depth l + depth r ≤ d →
      ∃ b, cmp l r = .ok b ∧ Fresh env b) :
    ∀ (cs : List (Arr L)) (i : Nat), (∀ c ∈ cs, c ∈ cs0) →
      i + ((rowsEach env.toEnv leafRows cs).flatten).length ≤ (rows env.toEnv leafRows r).length →
      ∃ out, compareChunks env cmp r i cs = .ok out ∧ ∀ c ∈ out, dtype env.toEnv c = .bool true
  | [], i, _, _ => ⟨[], rfl, by simp⟩
  | c :: cs, i, hmem, hlen => by
    have hcm := hmem c List.mem_cons_self
    obtain ⟨hwc, hdc⟩ : WF env.toEnv leafRows ok c ∧ dtype env.toEnv c = dt := by
      cases hc.left with
      | array hw _ _ =>
        simp only [WF] at hw
        exact ⟨(WFs_iff cs0).mp hw.1 c hcm, hw.2 _ (by rw [dtypes_eq]; exact List.mem_map_of_mem hcm)⟩
    have hlc := len_eq hl c hwc
    simp only [rowsEach, List.flatten_cons, List.length_append] at hlen
    have hib : InBounds (rows env.toEnv leafRows r).length i (i + len env.toEnv c) := ⟨by omega, by omega⟩
    have hrun : 0 < len env.toEnv c ∨ runFree r = true := by
      rcases hc.chunks with h | h
      · exact .inr h.2
      · simp only [FullChunks] at h
        have := List.length_pos_iff.mpr ((FullEach_iff cs0).mp h.1 c hcm).1
        exact .inl (by omega)
    obtain ⟨r', h1, h2, h3⟩ := slice_sliced hl hc.right (hrun.imp_left (fun h => by omega)) hib
    have hcmp := hc.chunk hcm h2 (by
      intro x hx
      rw [h3] at hx
      exact mem_slice hx) (fun hne => by
      have := List.length_pos_iff.mpr hne
      rw [h3]
      exact slice_ne_nil (by omega) hib.2)
    simp only [Straight, Path] at hst
    have hdep1 := (depths_le cs0 (depths cs0)).mp (Nat.le_refl _) c hcm
    have hdep2 := h2.depth
    obtain ⟨b, b1, b2⟩ := IH c r' hcmp ((Paths_iff cs0).mp hst c hcm) (h2.straight _ hsr)
      (by rw [h3, slice_length' hib]; omega) (by rw [hdc, h2.dtype]; exact hd) (by omega)
    obtain ⟨out, k1, k2⟩ := compareChunks_total hl hc hst hsr hd hdep IH cs (i + len env.toEnv c) (fun c hc => hmem c (List.mem_cons_of_mem _ hc)) (by omega)
    refine ⟨b :: out, by simp only [compareChunks, h1, b1, k1, Res.ok_bind], ?_⟩
    intro c' hc'
    rcases List.mem_cons.mp hc' with rfl | h
    · exact b2.1
    · exact k2 c' h

theorem compareF_total (hl : LeafLaws env.toEnv leafRows ok) (lb : LeafBulk env.toBEnv leafRows ok) (hns : NoStats env)
    (hleaf : ∀ op l r, isConstArr r = false → env.leafCmp op l r = none) :
    ∀ (n : Nat) (op : Op) (l r : Arr L), Comparable env leafRows ok op l r → Straight env leafRows sty l → Straight env leafRows sty r →
      (rows env.toEnv leafRows l).length = (rows env.toEnv leafRows r).length →
      (dtype env.toEnv l).eqIgnoreNullability (dtype env.toEnv r) = true → depth l + depth r ≤ n →
      ∃ b, compareF env n op l r = .ok b ∧ Fresh env b
  | 0, _, l, _, _, _, _, _, _, hd => by have := depth_pos l; omega
  | n + 1, op, l, r, hc, hsl, hsr, hlen, hd, hdep => by
    have IH := compareF_total hl lb hns hleaf n
    have hll := hc.left.len hl
    have hlr := hc.right.len hl
    have cl := straight_not_const hsl
    have cr := straight_not_const hsr
    have hn1 : ¬ (len env.toEnv l ≠ len env.toEnv r) := by omega
    -- the comparison of a chunked array is its own
    have chunk : ∀ (op : Op) (l r : Arr L) dt cs, l = .chunked dt cs → Comparable env leafRows ok op l r → Straight env leafRows sty l →
        Straight env leafRows sty r → (rows env.toEnv leafRows l).length = (rows env.toEnv leafRows r).length →
        (dtype env.toEnv l).eqIgnoreNullability (dtype env.toEnv r) = true → depth l + depth r ≤ n + 1 →
        ∃ b, own env (compareF env n) op l r = some (.ok b) ∧ Fresh env b := by
      intro op l r dt cs e hc hsl hsr hlen hd hdep
      subst e
      simp only [rows] at hlen
      simp only [depth] at hdep
      obtain ⟨out, k1, k2⟩ := compareChunks_total (cmp := compareF env n op) (d := n) hl hc hsl hsr (by simpa only [dtype] using hd) (by omega)
        (fun l r => IH op l r) cs 0 (fun _ h => h) (by omega)
      refine ⟨.chunked (.bool true) out, ?_, rfl, rfl⟩
      have hall : out.all (fun c => decide (dtype env.toEnv c = .bool true)) = true := by
        rw [List.all_eq_true]; intro c hc; simpa using k2 c hc
      simp only [own, k1, Res.ok_bind, mkChunked, Res.guard, hall, if_true]
    simp only [compareF, hn1, if_false, hd, Bool.not_true, Bool.false_eq_true, cl, Bool.false_and]
    -- two arrays that are neither
    have ends : ∀ {l r : Arr L}, Comparable env leafRows ok op l r → Straight env leafRows sty l → Straight env leafRows sty r →
        (rows env.toEnv leafRows l).length = (rows env.toEnv leafRows r).length →
        (dtype env.toEnv l).eqIgnoreNullability (dtype env.toEnv r) = true → isConstArr l = false → isConstArr r = false →
        (¬ ∃ dt cs, r = .chunked dt cs) → isEnd l = true →
        ∃ b, (match own env (compareF env n) op l r with
          | some res => res
          | none => match own env (compareF env n) op.swap r l with
            | some res => res
            | none => viaArrow env op l r) = .ok b ∧ Fresh env b := by
      intro l r hc hsl hsr hlen hd cl cr hcr hel
      have nl := ((Path_end hel).mp hsl)
      have wl := side_wf hc.left cl
      have wr := side_wf hc.right cr
      have her : isEnd r = true := by
        cases r with
        | chunked dt cs => exact absurd ⟨dt, cs, rfl⟩ hcr
        | ext id m s => exact (end_not_ext hl lb wl nl.1 (eqIgnore_symm hd)).elim
        | _ => rfl
      have nr := ((Path_end her).mp hsr)
      by_cases hb : bothPrim l r = true
      · cases l with
        | flat k vals v =>
          cases k with
          | prim p =>
            cases r with
            | flat k' ws w =>
              cases k' with
              | prim p' =>
                simp only [dtype] at hd
                have hk := eqIgnore_flat hd
                injection hk with hk
                subst hk
                obtain ⟨u, hu⟩ := andV_total (v := v) (w := w) ⟨nl.2.2, nr.2.2⟩
                rw [flat_rows_len (env := env.toBEnv) wl, flat_rows_len (env := env.toBEnv) wr] at hlen
                obtain ⟨b, b1, b2⟩ := primPrim_ok (op := op) hl wl wr (by simpa only [Nice] using nl.1) (by simpa only [Nice] using nr.1) hlen
                  hc.ordinaryL hc.ordinaryR hu
                have hfr : isConstArr b = false := by
                  have h := b1
                  simp only [primPrim, Res.bind_eq_ok] at h
                  obtain ⟨_, _, _, _, h⟩ := h
                  exact mkBool_fresh h
                refine ⟨b, by simp only [own, b1], ?_, hfr⟩
                rcases b2.dtype with h | ⟨dt, m, h⟩
                · exact h
                · subst h
                  simp only [primPrim, Res.bind_eq_ok, mkBool] at b1
                  obtain ⟨_, _, _, _, _, _, h⟩ := b1
                  cases h
              | _ => simp [bothPrim] at hb
            | _ => simp [bothPrim] at hb
          | _ => simp [bothPrim] at hb
        | _ => simp [bothPrim] at hb
      · have hb' : bothPrim l r = false := by simpa using hb
        have hbs : bothPrim r l = false := by
          cases l with
          | flat k _ _ =>
            cases r with
            | flat k' _ _ => cases k <;> cases k' <;> simp [bothPrim] at hb' <;> rfl
            | _ => rfl
          | _ => cases r <;> first | rfl | (rename_i k _ _; cases k <;> rfl)
        rw [own_none hns hleaf hel cl cr hb', own_none hns hleaf her cr cl hbs]
        obtain ⟨b, b1, _, _, _, b5⟩ := fromArrowBools_ok (env := env) (leafRows := leafRows) (ok := ok) _ (zip_opRow_bool op
          (rows env.toEnv leafRows l) (rows env.toEnv leafRows r))
        refine ⟨b, ?_, b5, fromArrowBools_fresh b1⟩
        have hrow : (arrowRow op : SV → SV → SV) = opRow op := by funext x y; exact arrowRow_eq op x y
        simp only [viaArrow, arrowRows_nice hl lb wl nl.1, arrowRows_nice hl lb wr nr.1, Res.ok_bind, hrow, b1]
    -- a chunked left side, or a chunked right side
    by_cases hcl : ∃ dt cs, l = .chunked dt cs
    · obtain ⟨dt, cs, e⟩ := hcl
      obtain ⟨b, b1, b2⟩ := chunk op l r dt cs e hc hsl hsr hlen hd hdep
      exact ⟨b, by rw [b1], b2⟩
    by_cases hcr : ∃ dt cs, r = .chunked dt cs
    · obtain ⟨dt, cs, e⟩ := hcr
      obtain ⟨b, b1, b2⟩ := chunk op.swap r l dt cs e hc.swap hsr hsl hlen.symm (eqIgnore_symm hd) (by omega)
      refine ⟨b, ?_, b2⟩
      have : own env (compareF env n) op l r = none := by
        subst e
        by_cases hel : isEnd l = true
        · exact own_none hns hleaf hel cl rfl (by cases l <;> first | rfl | (rename_i k _ _; cases k <;> rfl))
        · cases l with
          | ext id m s => simp [own]
          | chunked dt cs => exact absurd ⟨dt, cs, rfl⟩ hcl
          | _ => simp [isEnd] at hel
      rw [this, b1]
    -- extension arrays
    cases l with
    | chunked dt cs => exact absurd ⟨dt, cs, rfl⟩ hcl
    | ext id m s =>
      cases r with
      | ext id' m' t =>
        have hsl' := hsl
        have hsr' := hsr
        simp only [Straight, Path] at hsl' hsr'
        have hst : (dtype env.toEnv s).eqIgnoreNullability (dtype env.toEnv t) = true := by
          have h1 := hsl'.1.2
          have h2 := hsr'.1.2
          unfold DType.eqIgnoreNullability at h1 h2 ⊢
          rw [DType.beq_eq] at h1 h2 ⊢
          rw [h1, h2]
        simp only [depth] at hdep
        obtain ⟨b, b1, b2⟩ := IH op s t hc.extExt hsl'.2 hsr'.2 (by simpa only [rows] using hlen) hst (by omega)
        exact ⟨b, by simp only [own, b1], b2⟩
      | chunked dt cs => exact absurd ⟨dt, cs, rfl⟩ hcr
      | _ =>
        exfalso
        have hw := side_wf hc.right cr
        exact end_not_ext hl lb hw ((Path_end rfl).mp hsr).1 hd
    | _ => exact ends hc hsl hsr hlen hd cl cr hcr rfl

end Vx.Tree
