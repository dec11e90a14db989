import Verif.Lemmas.TreeSlice
import Verif.Lemmas.TreeBulk
/-! # Slices of arrays that decode do decode -/
namespace Vx.Tree
open Spec

variable {L : Type} {env : BEnv L} {leafRows : L → List SV} {ok : L → Prop} {st : Bool}

/-- What else a slice keeps. -/
structure SKeep (env : BEnv L) (leafRows : L → List SV) (b a : Arr L) : Prop where
  nice : Nice env.toEnv leafRows a → Nice env.toEnv leafRows b
  chunkFree : chunkFree a = true → chunkFree b = true
  patches : isPatches a = true → isPatches b = true

/-- The checked entry point has tested the bounds. -/
theorem slice_bounds {o : Ops L} {a b : Arr L} {s e : Nat} (h : slice env.toEnv o a s e = .ok b) :
    s ≤ e ∧ e ≤ len env.toEnv a ∧ sliceFn env.toEnv o a s e = .ok b := by
  unfold slice at h
  split at h
  · cases h
  split at h
  · cases h
  split at h
  · cases h
  exact ⟨by omega, by omega, h⟩

theorem sliceV_keep {d : Nat} (hl : LeafLaws env.toEnv leafRows ok)
    (IH : ∀ a s e b, (ops env.toEnv d).slice a s e = .ok b → WF env.toEnv leafRows ok a → Regular env.toEnv leafRows st a → depth a ≤ d →
      (s < (rows env.toEnv leafRows a).length ∨ runFree a = true) → SKeep env leafRows b a)
    {v w : TVal (Arr L)} {n s e : Nat} (h : sliceV (ops env.toEnv d) v s e = .ok w) (hw : WFV env.toEnv leafRows ok v n)
    (hr : RegularV env.toEnv leafRows st v) (hd : depthV v ≤ d) (hs : s < n ∨ runFreeV v = true) :
    (NiceV env.toEnv leafRows v → NiceV env.toEnv leafRows w) ∧ (chunkFreeV v = true → chunkFreeV w = true) := by
  cases v with
  | array a =>
    simp only [sliceV, Res.bind_eq_ok] at h
    obtain ⟨b, hb, h⟩ := h
    injection h with h
    subst h
    simp only [WFV, RegularV, depthV, runFreeV] at hw hr hd hs
    have := IH a s e b hb hw.1 hr hd (by rw [hw.2.2.1]; exact hs)
    exact ⟨this.nice, this.chunkFree⟩
  | nonNullable => simp only [sliceV] at h; injection h with h; subst h; exact ⟨fun h => h, fun h => h⟩
  | allValid => simp only [sliceV] at h; injection h with h; subst h; exact ⟨fun h => h, fun h => h⟩
  | allInvalid => simp only [sliceV] at h; injection h with h; subst h; exact ⟨fun h => h, fun h => h⟩

theorem slice_stays (hl : LeafLaws env.toEnv leafRows ok) : ∀ (d : Nat) (a : Arr L) (s e : Nat) (b : Arr L),
    (ops env.toEnv d).slice a s e = .ok b → WF env.toEnv leafRows ok a → Regular env.toEnv leafRows st a → depth a ≤ d →
    (s < (rows env.toEnv leafRows a).length ∨ runFree a = true) → SKeep env leafRows b a
  | 0, a, s, e, b, h, _, _, hd, _ => by have := depth_pos a; omega
  | d + 1, a, s, e, b, h, hw, hr, hd, hs => by
    have IH := slice_stays hl d
    have H := laws hl d
    obtain ⟨hse, hel, h⟩ := slice_bounds (o := ops env.toEnv d) (a := a) h
    have hlen := len_eq hl a hw
    cases a with
    | leaf l =>
      obtain ⟨l', h1, _⟩ := hl.slice l s e hw ⟨hse, by rw [hlen] at hel; exact hel⟩
      simp only [sliceFn] at h
      rw [h1] at h; injection h with h; subst h
      exact ⟨fun h => h, fun h => h, fun h => h⟩
    | flat k vals v =>
      simp only [sliceFn, Res.bind_eq_ok] at h
      obtain ⟨w, hv, h⟩ := h
      injection h with h; subst h
      have hn : (rows env.toEnv leafRows (.flat k vals v)).length = vals.length := by rw [← hlen]; rfl
      rw [hn] at hs
      simp only [WF, Regular, depth, runFree] at hw hr hd hs
      have := sliceV_keep hl IH hv hw.2 hr (by omega) hs
      exact ⟨this.1, this.2, fun h => h⟩
    | null n => simp only [sliceFn] at h; injection h with h; subst h; exact ⟨fun h => h, fun h => h, fun h => h⟩
    | const dt x n => simp only [sliceFn] at h; injection h with h; subst h; exact ⟨fun h => h, fun h => h, fun h => h⟩
    | chunked dt cs =>
      have hb : InBounds (rows env.toEnv leafRows (.chunked dt cs)).length s e := ⟨hse, by rw [hlen] at hel; exact hel⟩
      simp only [WF, Regular, depth, rows, runFree] at hw hr hd hb hs
      let Good : Arr L → Prop := fun c => WF env.toEnv leafRows ok c ∧ Regular env.toEnv leafRows st c ∧ depth c ≤ depths cs ∧
        (runFrees cs = true → runFree c = true) ∧ (Nices env.toEnv leafRows cs → Nice env.toEnv leafRows c)
      have hg : ∀ c ∈ cs, Good c := fun c hc =>
        ⟨(WFs_iff cs).mp hw.1 c hc, (Regulars_iff cs).mp hr.2 c hc, (depths_le cs _).mp (Nat.le_refl _) c hc,
          fun h => (runFrees_iff cs).mp h c hc, fun h => (Nices_iff cs).mp h c hc⟩
      have hflat : (rowsEach env.toEnv leafRows cs).flatten = Chunked.rows (rows env.toEnv leafRows) cs := by
        rw [rowsEach_eq, Chunked.rows_eq_flatten]
      rw [hflat] at hb hs
      obtain ⟨out, h1, h2, h3, h4⟩ := Chunked.slice_okP (Good := Good) (rowsOf := rows env.toEnv leafRows) (len := len env.toEnv)
        (sl := (ops env.toEnv d).slice) (runFrees cs = true) (fun c hc => len_eq hl c hc.1)
        (fun c s' e' hc hb' hs' => by
          have hs'' := hs'.imp_right (fun h => hc.2.2.2.1 h)
          obtain ⟨b, b1, b2, b3, b4, b5⟩ := H.slice st c s' e' hc.1 hc.2.1 (by have := hc.2.2.1; omega) hb' hs''
          have k := IH c s' e' b b1 hc.1 hc.2.1 (by have := hc.2.2.1; omega) hs''
          exact ⟨b, b1, ⟨b2, b3, Nat.le_trans b4.depth hc.2.2.1, fun h => b4.runFree (hc.2.2.2.1 h), fun h => k.nice (hc.2.2.2.2 h)⟩, b5⟩)
        cs hr.1 hg s e hb hs
      simp only [sliceFn, h1, Res.ok_bind, mkChunked, Res.bind_eq_ok] at h
      obtain ⟨_, _, h⟩ := h
      injection h with h; subst h
      refine ⟨?_, fun h => h, fun h => h⟩
      simp only [Nice]
      exact fun hn => ⟨hn.1, (Nices_iff out).mpr (fun c hc => (h3 c hc).2.2.2.2 hn.2)⟩
    | struct names fs n v =>
      simp only [sliceFn, Res.bind_eq_ok] at h
      obtain ⟨gs, hg, w, hv, h⟩ := h
      have hn : (rows env.toEnv leafRows (.struct names fs n v)).length = n := by rw [← hlen]; rfl
      rw [hn] at hs
      simp only [WF, Regular, depth, runFree, Bool.and_eq_true] at hw hr hd hs
      have kv := sliceV_keep hl IH hv hw.2.2.2 hr.2 (by omega) (hs.imp_right And.right)
      have kg : ∀ (fs gs : List (Arr L)), Res.mapM (fun f => (ops env.toEnv d).slice f s e) fs = .ok gs → WFs env.toEnv leafRows ok fs →
          Regulars env.toEnv leafRows st fs → depths fs ≤ d → (∀ c ∈ rowsEach env.toEnv leafRows fs, c.length = n) → (s < n ∨ runFrees fs = true) →
          chunkFrees fs = true → chunkFrees gs = true := by
        intro fs
        induction fs with
        | nil => intro gs h _ _ _ _ _ _; simp [Res.mapM] at h; subst h; rfl
        | cons f fs ih =>
          intro gs h hw hr hd hn hs hc
          simp only [Res.mapM, Res.bind_eq_ok] at h
          obtain ⟨g, hg, gs', hgs, h⟩ := h
          injection h with h; subst h
          simp only [WFs, Regulars, depths, rowsEach, List.mem_cons, forall_eq_or_imp, runFrees, chunkFrees, Bool.and_eq_true] at hw hr hd hn hs hc ⊢
          exact ⟨(IH f s e g hg hw.1 hr.1 (by omega) (by rw [hn.1]; exact hs.imp_right And.left)).chunkFree hc.1,
            ih gs' hgs hw.2 hr.2 (by omega) hn.2 (hs.imp_right And.right) hc.2⟩
      have kf := kg fs gs hg hw.2.1 hr.1 (by omega) hw.2.2.1 (hs.imp_right And.left)
      simp only [mkStruct, Res.bind_eq_ok] at h
      obtain ⟨_, _, _, _, _, _, h⟩ := h
      injection h with h; subst h
      refine ⟨fun h => h, ?_, fun h => h⟩
      simp only [chunkFree, Bool.and_eq_true]
      exact fun h => ⟨kf h.1, kv.2 h.2⟩
    | ext id m sg =>
      simp only [sliceFn, Res.bind_eq_ok] at h
      obtain ⟨t, ht, h⟩ := h
      injection h with h; subst h
      simp only [WF, Regular, depth, rows, runFree] at hw hr hd hs
      have := IH sg s e t ht hw hr (by omega) hs
      exact ⟨fun h => h, this.chunkFree, fun h => h⟩
    | sparse is values n off fill =>
      simp only [sliceFn, Res.bind_eq_ok] at h
      obtain ⟨rs, _, re, _, js, _, vs, hv, h⟩ := h
      simp only [WF, Regular, depth] at hw hr hd
      have k := IH values _ _ vs hv hw.1 hr.1 (by omega) (.inr hr.2.1)
      obtain ⟨b0, b1, b2⟩ : rs.toIndex ≤ re.toIndex ∧ re.toIndex ≤ len env.toEnv values ∧ True := by
        obtain ⟨d', rfl⟩ : ∃ d', d = d' + 1 := ⟨d - 1, by have := depth_pos values; omega⟩
        have := slice_bounds (o := ops env.toEnv d') (a := values) hv
        exact ⟨this.1, this.2.1, trivial⟩
      obtain ⟨vs', v1, v2, v3, v4, v5⟩ := H.slice st values rs.toIndex re.toIndex hw.1 hr.1 (by omega)
        ⟨b0, by rw [← len_eq hl values hw.1]; exact b1⟩ (.inr hr.2.1)
      rw [hv] at v1; injection v1 with v1; subst v1
      simp only [mkSparse, Res.bind_eq_ok] at h
      obtain ⟨_, _, _, _, _, _, h⟩ := h
      injection h with h; subst h
      refine ⟨?_, k.chunkFree, fun h => h⟩
      simp only [Nice]
      exact fun ⟨n1, n2, n3, n4⟩ => ⟨k.nice n1, k.chunkFree n2, by rw [v4.dtype]; exact n3, fun r hr' => n4 r (by rw [v5] at hr'; exact mem_slice hr')⟩
    | dict codes values =>
      simp only [sliceFn, Res.bind_eq_ok] at h
      obtain ⟨c, hc, h⟩ := h
      have hin : InBounds (rows env.toEnv leafRows codes).length s e := ⟨hse, by rw [hlen] at hel; simpa [rows] using hel⟩
      simp only [WF, Regular, depth, rows, runFree, List.length_map, Bool.and_eq_true] at hw hr hd hs
      have k := IH codes s e c hc hw.1 hr.1 (by omega) (hs.imp_right And.left)
      obtain ⟨c', v1, v2, v3, v4, v5⟩ := H.slice st codes s e hw.1 hr.1 (by omega) hin (hs.imp_right And.left)
      rw [hc] at v1; injection v1 with v1; subst v1
      have : b = .dict c values := by
        unfold mkDict at h
        split at h
        · split at h
          · injection h with h; exact h.symm
          · cases h
        · cases h
      subst this
      refine ⟨?_, ?_, fun h => h⟩
      · simp only [Nice]
        exact fun ⟨n1, n2, n3, n4⟩ => ⟨k.nice n1, n2, n3, fun hn r hr' => n4 hn r (by rw [v5] at hr'; exact mem_slice hr')⟩
      · simp only [chunkFree, Bool.and_eq_true]
        exact fun h => ⟨k.chunkFree h.1, h.2⟩
    | runEnd ends values v off n =>
      simp only [sliceFn, Res.bind_eq_ok] at h
      obtain ⟨p, hp, t, ht, es, hes, vs, hv, w, hw', h⟩ := h
      have hn : (rows env.toEnv leafRows (.runEnd ends values v off n)).length = n := by rw [← hlen]; rfl
      rw [hn] at hs
      have hs : s < n := by simpa [runFree] using hs
      simp only [WF, Regular, depth] at hw hr hd
      obtain ⟨p', t', r1, r2, r3, r4, _⟩ := run_window hw.2.2.2.1 hw.2.2.2.2.1 hw.2.2.2.2.2.2.1 hw.2.2.2.2.2.1 (s := s) (e := e)
        ⟨hse, by rw [hlen, hn] at hel; exact hel⟩ hs
      rw [hp] at r1; injection r1 with r1; subst r1
      have hpl : p < (rows env.toEnv leafRows values).length := by rw [← hw.2.2.2.2.1]; exact r4
      have k := IH values _ _ vs hv hw.1 hr.1 (by omega) (.inl hpl)
      have kv := sliceV_keep hl IH hw' hw.2.1 hr.2 (by omega) (.inl hs)
      rw [ht] at r2; injection r2 with r2; subst r2
      obtain ⟨vs', v1, v2, v3, v4, v5⟩ := H.slice st values p (t + 1) hw.1 hr.1 (by omega) (by rw [← hw.2.2.2.2.1]; exact r3) (.inl hpl)
      rw [hv] at v1; injection v1 with v1; subst v1
      simp only [mkRunEnd, Res.bind_eq_ok] at h
      obtain ⟨_, _, _, _, _, _, _, _, h⟩ := h
      injection h with h; subst h
      refine ⟨?_, ?_, fun h => h⟩
      · simp only [Nice]
        exact fun ⟨n1, n2, n3, n4⟩ => ⟨k.nice n1, kv.1 n2, k.chunkFree n3, by rw [v4.dtype]; exact n4⟩
      · simp only [chunkFree, Bool.and_eq_true]
        exact fun h => ⟨k.chunkFree h.1, kv.2 h.2⟩
    | mapped c enc =>
      simp only [sliceFn, Res.bind_eq_ok] at h
      obtain ⟨x, hx, h⟩ := h
      simp only [WF, Regular, depth, rows, runFree, List.length_map] at hw hr hd hs
      have k := IH enc s e x hx hw.1 hr (by omega) hs
      have : b = .mapped c x := by
        unfold mkMapped at h
        split at h
        · injection h with h; exact h.symm
        · cases h
      subst this
      exact ⟨k.nice, k.chunkFree, fun h => h⟩
    | alpP x f enc patches =>
      simp only [sliceFn, Res.bind_eq_ok] at h
      obtain ⟨x', hx, q, hq, h⟩ := h
      simp only [WF, Regular, depth, rows, runFree, Bool.and_eq_true, List.length_zipWith] at hw hr hd hs
      rw [hw.2.2.1, Nat.min_self] at hs
      have k := IH enc s e x' hx hw.1 hr.1 (by omega) (hs.imp_right And.left)
      have k2 := IH patches s e q hq hw.2.1 hr.2 (by omega) (by rw [hw.2.2.1]; exact hs.imp_right And.right)
      have : b = .alpP x f x' q := by
        unfold mkAlpP at h
        split at h
        · cases h
        · split at h
          · cases h
          · split at h
            · cases h
            · injection h with h; exact h.symm
      subst this
      refine ⟨?_, ?_, fun h => h⟩
      · simp only [Nice]
        exact fun ⟨n1, n2, n3⟩ => ⟨k.nice n1, k2.nice n2, k2.patches n3⟩
      · simp only [chunkFree, Bool.and_eq_true]
        exact fun h => ⟨k.chunkFree h.1, k2.chunkFree h.2⟩

end Vx.Tree
