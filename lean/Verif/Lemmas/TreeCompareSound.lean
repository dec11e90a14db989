import Verif.Lemmas.TreeCompareParts
/-! # Comparing trees: soundness -/
namespace Vx.Tree
open Spec

variable {L : Type} {env : CEnv L} {leafRows : L → List SV} {ok : L → Prop}

theorem nice_kind_cmp (hl : LeafLaws env.toEnv leafRows ok) (lb : LeafBulk env.toBEnv leafRows ok) {a : Arr L}
    (hw : WF env.toEnv leafRows ok a) (hn : Nice env.toEnv leafRows a) : (kindOf (dtype env.toEnv a)).isSome = true := by
  obtain ⟨k, vals, v, h1, h2, h3, h4⟩ := (blaws hl lb (depth a)).canon a hw hn (Nat.le_refl _)
  have := h3.dtype
  simp only [dtype] at this
  rw [(kind_of_dtype this).1]
  rfl

/-- A constant that decodes is not of an extension type. -/
theorem shape_not_ext {id : Str} {m : Option (List UInt8)} {nl : Bool} {x : SV} {n : Nat}
    (h : Shape env leafRows (.const (.ext id m nl) x n)) : False := by
  have := (Path_end rfl).mp h
  simp [isNullOrStruct, Nice, kindOf] at this

theorem fits_of_shape {a b : Arr L} (h : Shape env leafRows a) : FitsStorage env a b := by
  intro id m nl x n e
  subst e
  exact (shape_not_ext h).elim

theorem Side.len (hl : LeafLaws env.toEnv leafRows ok) {a : Arr L} (h : Side env leafRows ok a) :
    len env.toEnv a = (rows env.toEnv leafRows a).length := by
  cases h with
  | array hw _ _ => exact len_eq hl a hw
  | extConst id m nl x n => simp [Tree.len, rows]

/-! ### Slices -/

/-- What a slice keeps. -/
structure CutOf (env : CEnv L) (leafRows : L → List SV) (ok : L → Prop) (b a : Arr L) : Prop where
  side : Side env leafRows ok b
  dtype : dtype env.toEnv b = dtype env.toEnv a
  depth : depth b ≤ depth a
  runFree : runFree a = true → runFree b = true
  full : rows env.toEnv leafRows b ≠ [] → FullChunks env leafRows a → FullChunks env leafRows b
  alpFree : AlpFree a → AlpFree b
  constFree : ConstFree a → ConstFree b
  straight : ∀ sty, Straight env leafRows sty a → Straight env leafRows sty b
  fitsL : ∀ c, FitsStorage env a c → FitsStorage env b c
  fitsR : ∀ c, FitsStorage env c a → FitsStorage env c b

theorem slice_sliced (hl : LeafLaws env.toEnv leafRows ok) {a : Arr L} {s e : Nat} (h : Side env leafRows ok a)
    (hr : s < (rows env.toEnv leafRows a).length ∨ runFree a = true) (hb : InBounds (rows env.toEnv leafRows a).length s e) :
    ∃ b, Arr.slice env.toEnv a s e = .ok b ∧ CutOf env leafRows ok b a ∧ rows env.toEnv leafRows b = Spec.slice (rows env.toEnv leafRows a) s e := by
  cases h with
  | extConst id m nl x n =>
    simp only [rows, List.length_replicate] at hb
    refine ⟨.const (.ext id m nl) x (e - s), ?_, ⟨.extConst id m nl x (e - s), rfl, Nat.le_refl _, fun _ => rfl, fun _ _ => trivial, fun h => ?_, fun h => ?_, fun _ h => ?_, ?_, ?_⟩, ?_⟩
    · have h1 : ¬ s > n := by have := hb.1; have := hb.2; omega
      have h2 : ¬ e > n := by have := hb.2; omega
      have h3 : ¬ s > e := by have := hb.1; omega
      simp [Arr.slice, Tree.depth, ops, step, slice, sliceFn, Tree.len, h1, h2, h3]
    · exact (Path_end rfl).mpr rfl
    · have := (Path_end rfl).mp h
      simp [isConstArr] at this
    · have := (Path_end rfl).mp h
      simp [isConstArr] at this
    · intro c hc id' m' nl' x' n' e'
      injection e' with e1 e2 e3
      subst e2
      exact hc id m nl x n rfl
    · intro c hc id' m' nl' x' n' e'
      exact (Path_end rfl).mpr trivial
    · simp only [rows, Spec.slice_replicate]
      rw [Nat.min_eq_left hb.2]
  | array hw hg hs =>
    obtain ⟨b, b1, b2, b3, b4, b5⟩ := (laws hl (Tree.depth a)).slice true a s e hw hg (Nat.le_refl _) hb hr
    have path : ∀ {E T : Arr L → Prop}
        (hE : ∀ s t, Tree.dtype env.toEnv t = Tree.dtype env.toEnv s → (Nice env.toEnv leafRows s → Nice env.toEnv leafRows t) → E s → E t)
        (hT : ∀ a b : Arr L, isAlp b = isAlp a → isNullOrStruct b = isNullOrStruct a → isConstArr b = isConstArr a →
          (plainArr a = true → plainArr b = true) → (Nice env.toEnv leafRows a → Nice env.toEnv leafRows b) → T a → T b), Path E T a → Path E T b := fun hE hT hp =>
      slice_path (env := env.toBEnv) hl hE hT (Tree.depth a) a s e b b1 hw hg (Nat.le_refl _) hr hp
    have hshape : Shape env leafRows b := path (fun _ _ _ h => h) (fun a b _ h2 _ _ h4 h => by
      rw [h2]
      exact h.imp_right h4) hs
    refine ⟨b, b1, ⟨.array b2 b3 hshape, b4.dtype, b4.depth, b4.runFree, fun hne hf => ?_, path (fun _ _ _ _ h => h) (fun a b h1 _ _ _ _ h => by rw [h1]; exact h),
      path (fun _ _ _ _ h => h) (fun a b _ _ h3 _ _ h => by rw [h3]; exact h),
      fun _ => path (fun s t ht h hh => ⟨h hh.1, by rw [ht]; exact hh.2⟩) (fun a b _ _ h3 h5 h4 h => ⟨h4 h.1, by rw [h3]; exact h.2.1, h5 h.2.2⟩), fun _ _ => fits_of_shape hshape, ?_⟩, b5⟩
    · have hlt : s < e := by
        rcases Nat.lt_or_ge s e with h | h
        · exact h
        · exact absurd (by rw [b5, Spec.slice, List.drop_eq_nil_iff, List.length_take]; omega) hne
      exact slice_full hl (Tree.depth a) a s e b b1 hw hg (Nat.le_refl _) hlt hf
    intro c hc id m nl x n e
    exact path (fun s t ht _ h => by rw [ht]; exact h) (fun _ _ _ _ _ _ _ h => h) (hc id m nl x n e)

/-! ### Pairs -/

theorem Comparable.swap {op : Op} {l r : Arr L} (h : Comparable env leafRows ok op l r) : Comparable env leafRows ok op.swap r l where
  left := h.right
  right := h.left
  ordinaryL := h.ordinaryR
  ordinaryR := h.ordinaryL
  fitsL := h.fitsR
  fitsR := h.fitsL
  alp := h.alp.imp (fun h => ⟨h.2, h.1⟩) (fun h => ⟨h.1, h.2.2, h.2.1⟩)
  nullability := by
    rcases h.nullability with h | h | h
    · exact .inl (by cases op <;> simp_all [Op.swap])
    · exact .inr (.inl h.symm)
    · exact .inr (.inr ⟨h.1, h.2.symm⟩)
  chunks := h.chunks.imp (fun h => ⟨h.2, h.1⟩) (fun h => ⟨h.2, h.1⟩)

theorem Answer.swap {op : Op} {l r b : Arr L} (h : Answer env leafRows ok op.swap r l b) : Answer env leafRows ok op l r b where
  rows := by rw [h.rows, zipWith_opRow_swap]
  wf := h.wf
  nice := h.nice
  dtype := h.dtype

theorem chunk_rows_mem {cs : List (Arr L)} {c : Arr L} (hc : c ∈ cs) {x : SV} (hx : x ∈ rows env.toEnv leafRows c) :
    x ∈ (rowsEach env.toEnv leafRows cs).flatten := by
  rw [rowsEach_eq, List.mem_flatten]
  exact ⟨_, List.mem_map_of_mem hc, hx⟩

theorem Comparable.chunk {op : Op} {dt : DType} {cs : List (Arr L)} {c r r' : Arr L} (h : Comparable env leafRows ok op (.chunked dt cs) r)
    (hc : c ∈ cs) (hs : CutOf env leafRows ok r' r) (hrows : ∀ x ∈ rows env.toEnv leafRows r', x ∈ rows env.toEnv leafRows r)
    (hne : rows env.toEnv leafRows c ≠ [] → rows env.toEnv leafRows r' ≠ []) : Comparable env leafRows ok op c r' := by
  obtain ⟨hl, hr, ol, or, fl, fr, alp, nul, chk⟩ := h
  cases hl with
  | array hw hg hsh =>
    simp only [WF] at hw
    simp only [Regular] at hg
    simp only [Shape, Path] at hsh
    have hshc : Shape env leafRows c := (Paths_iff cs).mp hsh c hc
    have hdt : dtype env.toEnv c = dt := hw.2 _ (by rw [dtypes_eq]; exact List.mem_map_of_mem hc)
    refine ⟨.array ((WFs_iff cs).mp hw.1 c hc) ((Regulars_iff cs).mp hg.2 c hc) hshc, hs.side, ?_, fun x hx => or x (hrows x hx),
      fits_of_shape hshc, ?_, ?_, ?_, ?_⟩
    · intro x hx
      exact ol x (by simp only [rows]; exact chunk_rows_mem hc hx)
    · intro id m nl x n e
      have := hs.fitsL _ fr id m nl x n e
      simp only [Path] at this
      exact (Paths_iff cs).mp this c hc
    · refine alp.imp (fun h => ⟨?_, hs.alpFree h.2⟩) (fun h => ⟨h.1, ?_, hs.constFree h.2.2⟩)
      · have := h.1; simp only [AlpFree, Path] at this; exact (Paths_iff cs).mp this c hc
      · have := h.2.1; simp only [ConstFree, Path] at this; exact (Paths_iff cs).mp this c hc
    · rcases nul with h | h | h
      · exact .inl h
      · right; left
        rw [hdt, hs.dtype]
        simpa only [dtype] using h
      · right; right
        refine ⟨h.1, h.2.imp (fun h => ?_) (fun h => hs.constFree h)⟩
        simp only [ConstFree, Path] at h; exact (Paths_iff cs).mp h c hc
    · rcases chk with h | h
      · simp only [runFree] at h
        exact .inl ⟨(runFrees_iff cs).mp h.1 c hc, hs.runFree h.2⟩
      · simp only [FullChunks] at h
        have hfc := (FullEach_iff cs).mp h.1 c hc
        exact .inr ⟨hfc.2, hs.full (hne hfc.1) h.2⟩

theorem Comparable.extExt {op : Op} {id id' : Str} {m m' : Option (List UInt8)} {s t : Arr L}
    (h : Comparable env leafRows ok op (.ext id m s) (.ext id' m' t)) : Comparable env leafRows ok op s t := by
  obtain ⟨hl, hr, ol, or, fl, fr, alp, nul, chk⟩ := h
  cases hl with
  | array hw hg hsh =>
    cases hr with
    | array hw' hg' hsh' =>
      simp only [WF] at hw hw'
      simp only [Regular] at hg hg'
      simp only [Shape, Path] at hsh hsh'
      simp only [rows] at ol or
      refine ⟨.array hw hg hsh.2, .array hw' hg' hsh'.2, ol, or, fits_of_shape hsh.2, fits_of_shape hsh'.2, ?_, ?_, ?_⟩
      · simpa only [AlpFree, ConstFree, Path, true_and] using alp
      · simpa only [ConstFree, Path, true_and, dtype, DType.isNullable] using nul
      · simpa only [runFree, FullChunks] using chk

theorem Comparable.extConst (hl : LeafLaws env.toEnv leafRows ok) (lb : LeafBulk env.toBEnv leafRows ok) {op : Op} {id : Str}
    {m : Option (List UInt8)} {s : Arr L} {dt : DType} {x : SV} {n : Nat}
    (h : Comparable env leafRows ok op (.ext id m s) (.const dt x n)) (hd : ∃ id' m' nl, dt = .ext id' m' nl) :
    Comparable env leafRows ok op s (.const (dtype env.toEnv s) x n) := by
  obtain ⟨hle, hr, ol, or, fl, fr, alp, nul, chk⟩ := h
  obtain ⟨id', m', nl', rfl⟩ := hd
  cases hle with
  | array hw hg hsh =>
    simp only [WF] at hw
    simp only [Regular] at hg
    simp only [Shape, Path] at hsh
    simp only [rows] at ol or
    have hfit := fr id' m' nl' x n rfl
    simp only [Path] at hfit
    have hk := nice_kind_cmp hl lb hw hsh.1
    have hshc : Shape env leafRows (.const (dtype env.toEnv s) x n) := (Path_end rfl).mpr (.inr (by simpa only [Nice] using hk))
    refine ⟨.array hw hg hsh.2, .array hfit.1 trivial hshc, ol, by simpa only [rows] using or, fits_of_shape hsh.2, fits_of_shape hshc, ?_, ?_, ?_⟩
    · left
      refine alp.elim (fun h => ?_) (fun h => ?_)
      · have := h.1
        simp only [AlpFree, Path, true_and] at this
        exact ⟨this, (Path_end rfl).mpr rfl⟩
      · have := (Path_end rfl).mp h.2.2
        simp [isConstArr] at this
    · exact .inr (.inl rfl)
    · simpa only [runFree, FullChunks] using chk

/-! ### Constants -/

theorem known_rows (lc : LeafCompare env leafRows ok) {r : Arr L} (hk : known env r = true) :
    ∀ x ∈ rows env.toEnv leafRows r, ∀ y ∈ rows env.toEnv leafRows r, x = y := by
  cases r with
  | const dt x n =>
    simp only [rows]
    intro a ha b hb
    rw [List.eq_of_mem_replicate ha, List.eq_of_mem_replicate hb]
  | _ => exact lc.honest _ hk

theorem first_ok (hl : LeafLaws env.toEnv leafRows ok) {r : Arr L} {y : SV} (h : Side env leafRows ok r)
    (hy : orPanic (Arr.scalarAt env.toEnv r 0) = .ok y) : (rows env.toEnv leafRows r)[0]? = some y := by
  have hs : Arr.scalarAt env.toEnv r 0 = .ok y := by
    cases h : Arr.scalarAt env.toEnv r 0 <;> rw [h] at hy <;> simp_all [orPanic]
  have hlen := h.len hl
  have hpos : 0 < len env.toEnv r := by
    rcases Nat.eq_zero_or_pos (len env.toEnv r) with h0 | h0
    · simp only [Arr.scalarAt] at hs
      have := depth_pos r
      obtain ⟨d, hd⟩ : ∃ d, depth r = d + 1 := ⟨depth r - 1, by omega⟩
      rw [hd] at hs
      simp only [ops, step, scalarAt, h0, ge_iff_le, Nat.le_refl, if_true] at hs
      cases hs
    · exact h0
  cases h with
  | extConst id m nl x n =>
    simp only [Tree.len] at hpos
    have h1 : ¬ 0 ≥ n := by omega
    simp only [Arr.scalarAt, depth, ops, step, scalarAt, Tree.len, h1, if_false, isValid, Res.ok_bind, scalarFn] at hs
    have : y = x := by
      cases x <;> simp_all [SV.isNull]
    rw [this]
    simp only [rows]
    simp [hpos]
  | array hw hg hsh =>
    obtain ⟨z, hz⟩ : ∃ z, (rows env.toEnv leafRows r)[0]? = some z := by
      rw [hlen] at hpos
      exact ⟨_, List.getElem?_eq_getElem hpos⟩
    have := (laws hl (depth r)).scalarAt r 0 z hw hg (Nat.le_refl _) hz
    simp only [Arr.scalarAt, this] at hs
    injection hs with hs
    rw [hz, hs]

theorem constKnown_sound (hl : LeafLaws env.toEnv leafRows ok) (lc : LeafCompare env leafRows ok) {op : Op} {dt : DType} {x : SV} {n : Nat}
    {r b : Arr L} (hc : Comparable env leafRows ok op (.const dt x n) r) (hk : known env r = true)
    (hlen : n = (rows env.toEnv leafRows r).length) (hd : dt.eqIgnoreNullability (dtype env.toEnv r) = true)
    (h : constKnown env op dt x n r = .ok b) : Answer env leafRows ok op (.const dt x n) r b := by
  simp only [constKnown, Res.bind_eq_ok] at h
  obtain ⟨y, hy, h⟩ := h
  injection h with h; subst h
  have hfirst := first_ok hl hc.right hy
  have hymem : y ∈ rows env.toEnv leafRows r := List.mem_of_getElem? hfirst
  have hrows : rows env.toEnv leafRows r = List.replicate n y := by
    rw [List.eq_replicate_iff]
    exact ⟨hlen.symm, fun z hz => known_rows lc hk z hz y hymem⟩
  have hn : 0 < n := by rw [hlen]; exact List.length_pos_of_mem hymem
  have hs : scalarCmp op dt x (dtype env.toEnv r) y = opRow op x y := by
    apply scalarCmp_eq hd (hc.ordinaryL x (by simp only [rows]; rw [List.mem_replicate]; exact ⟨by omega, rfl⟩)) (hc.ordinaryR y hymem)
    rcases hc.nullability with h | h | h
    · exact .inl h
    · exact .inr (by simpa only [dtype] using h)
    · exfalso
      rcases h.2 with h' | h'
      · have := (Path_end rfl).mp h'
        simp [isConstArr] at this
      · cases r with
        | const => have := (Path_end rfl).mp h'; simp [isConstArr] at this
        | _ => simp [known, h.1 _] at hk
  rw [hs]
  refine ⟨?_, ?_, ?_, .inl rfl⟩
  · simp only [rows] at hrows ⊢
    rw [hrows]
    simp
  · simp only [WF]
    rcases opRow_bool op x y with h | ⟨b, h⟩ <;> rw [h] <;> rfl
  · simp [Nice, kindOf]

/-! ### Chunks -/

theorem compareChunks_sound (hl : LeafLaws env.toEnv leafRows ok) {cmp : Arr L → Arr L → Res (Arr L)} {op : Op} {dt : DType} {cs0 : List (Arr L)}
    {r : Arr L} (hc : Comparable env leafRows ok op (.chunked dt cs0) r)
    (IH : ∀ l r b, cmp l r = .ok b → Comparable env leafRows ok op l r → Answer env leafRows ok op l r b) :
    ∀ (cs : List (Arr L)) (i : Nat) (out : List (Arr L)), (∀ c ∈ cs, c ∈ cs0) →
      i + ((rowsEach env.toEnv leafRows cs).flatten).length ≤ (rows env.toEnv leafRows r).length →
      compareChunks env cmp r i cs = .ok out →
      (rowsEach env.toEnv leafRows out).flatten = List.zipWith (opRow op) (rowsEach env.toEnv leafRows cs).flatten ((rows env.toEnv leafRows r).drop i) ∧
        WFs env.toEnv leafRows ok out ∧ Nices env.toEnv leafRows out
  | [], i, out, _, _, h => by
    simp only [compareChunks] at h
    injection h with h; subst h
    exact ⟨by simp [rowsEach], trivial, trivial⟩
  | c :: cs, i, out, hmem, hlen, h => by
    simp only [compareChunks, Res.bind_eq_ok] at h
    obtain ⟨r', hr', b, hb, bs, hbs, h⟩ := h
    injection h with h; subst h
    have hcm := hmem c List.mem_cons_self
    have hwc : WF env.toEnv leafRows ok c := by
      cases hc.left with
      | array hw _ _ =>
        simp only [WF] at hw
        exact (WFs_iff cs0).mp hw.1 c hcm
    have hlc := len_eq hl c hwc
    simp only [rowsEach, List.flatten_cons, List.length_append] at hlen ⊢
    have hib : InBounds (rows env.toEnv leafRows r).length i (i + len env.toEnv c) := ⟨by omega, by omega⟩
    have hrun : 0 < len env.toEnv c ∨ runFree r = true := by
      rcases hc.chunks with h | h
      · exact .inr h.2
      · simp only [FullChunks] at h
        have := List.length_pos_iff.mpr ((FullEach_iff cs0).mp h.1 c hcm).1
        exact .inl (by omega)
    obtain ⟨r1, h1, h2, h3⟩ := slice_sliced hl hc.right (hrun.imp_left (fun h => by omega)) hib
    rw [hr'] at h1; injection h1 with h1; subst h1
    have hcmp := hc.chunk hcm h2 (by
      intro x hx
      rw [h3] at hx
      exact mem_slice hx) (fun hne => by
      have := List.length_pos_iff.mpr hne
      rw [h3]
      exact slice_ne_nil (by omega) hib.2)
    have ans := IH c r' b hb hcmp
    obtain ⟨k1, k2, k3⟩ := compareChunks_sound hl hc IH cs (i + len env.toEnv c) bs (fun c hc => hmem c (List.mem_cons_of_mem _ hc)) (by omega) hbs
    refine ⟨?_, ⟨ans.wf, k2⟩, ⟨ans.nice, k3⟩⟩
    rw [CArr.zipWith_slice_append _ _ _ _ _ (by omega), ans.rows, h3, k1, hlc]

theorem chunked_sound (hl : LeafLaws env.toEnv leafRows ok) {cmp : Arr L → Arr L → Res (Arr L)} {op : Op} {dt : DType} {cs : List (Arr L)}
    {r b : Arr L} (hc : Comparable env leafRows ok op (.chunked dt cs) r)
    (hlen : (rows env.toEnv leafRows (.chunked dt cs)).length = (rows env.toEnv leafRows r).length)
    (IH : ∀ l r b, cmp l r = .ok b → Comparable env leafRows ok op l r → Answer env leafRows ok op l r b)
    (h : (do let out ← compareChunks env cmp r 0 cs; mkChunked env.toEnv (.bool true) out) = .ok b) :
    Answer env leafRows ok op (.chunked dt cs) r b := by
  simp only [Res.bind_eq_ok, mkChunked] at h
  obtain ⟨out, h1, u, h2, h⟩ := h
  injection h with h; subst h
  simp only [rows] at hlen
  obtain ⟨k1, k2, k3⟩ := compareChunks_sound hl hc IH cs 0 out (fun _ h => h) (by omega) h1
  refine ⟨?_, ?_, ?_, .inl rfl⟩
  · simp only [rows, k1, List.drop_zero]
  · simp only [WF]
    refine ⟨k2, ?_⟩
    rw [dtypes_eq]
    intro d hd
    obtain ⟨c, hc, rfl⟩ := List.mem_map.mp hd
    have : out.all (fun c => decide (dtype env.toEnv c = .bool true)) = true := by
      unfold Res.guard at h2
      split at h2
      · assumption
      · cases h2
    rw [List.all_eq_true] at this
    simpa using this c hc
  · simp only [Nice]
    exact ⟨rfl, k3⟩

/-! ### Everything -/

theorem eqIgnore_flat {k k' : Kind} {n n' : Bool} (h : (k.dtype n).eqIgnoreNullability (k'.dtype n') = true) : k = k' := by
  unfold DType.eqIgnoreNullability at h
  rw [DType.beq_eq] at h
  cases k <;> cases k' <;> simp_all [Kind.dtype, DType.withNullability]

theorem eqIgnore_ext {id : Str} {m : Option (List UInt8)} {n : Bool} {d : DType} (h : DType.eqIgnoreNullability (.ext id m n) d = true) :
    ∃ id' m' nl, d = .ext id' m' nl := by
  unfold DType.eqIgnoreNullability at h
  rw [DType.beq_eq] at h
  cases d <;> simp [DType.withNullability] at h
  exact ⟨_, _, _, rfl⟩

theorem inst_prim {q : PValue} {dt : DType} (h : inst (.prim q) dt = true) : ∃ n, dt = .prim q.pt n := by
  cases dt <;> simp [inst] at h
  subst h
  exact ⟨_, rfl⟩

theorem prim_const_type {k : Kind} {nl : Bool} {q : PValue} {dt : DType} {n : Nat} (h : Side env leafRows ok (.const dt (.prim q) n))
    (hd : (k.dtype nl).eqIgnoreNullability dt = true) : k = .prim q.pt := by
  cases h with
  | array hw _ _ =>
    simp only [WF] at hw
    obtain ⟨n, rfl⟩ := inst_prim hw
    exact eqIgnore_flat (k' := .prim q.pt) (n' := n) hd
  | extConst id m nl' =>
    unfold DType.eqIgnoreNullability at hd
    rw [DType.beq_eq] at hd
    cases k <;> simp [Kind.dtype, DType.withNullability] at hd

theorem flat_shape_cmp {k : Kind} {vals : List SV} {v : TVal (Arr L)} (h : Side env leafRows ok (.flat k vals v)) :
    WF env.toEnv leafRows ok (.flat k vals v) ∧ NiceV env.toEnv leafRows v := by
  cases h with
  | array hw _ hs =>
    have := (Path_end rfl).mp hs
    exact ⟨hw, by simpa [isNullOrStruct, Nice] using this⟩

theorem bytes_sound (hl : LeafLaws env.toEnv leafRows ok) (lb : LeafBulk env.toBEnv leafRows ok) {op : Op} {k : Kind} {vals : List SV}
    {v : TVal (Arr L)} {dt : DType} {x : SV} {n : Nat} (hw : WF env.toEnv leafRows ok (.flat k vals v)) (hn : NiceV env.toEnv leafRows v)
    (hlen : n = vals.length) :
    ∃ b, bytesConst env (bulks env.toBEnv (depth (.flat k vals v))) op (.flat k vals v) x = .ok b ∧
      Answer env leafRows ok op (.flat k vals v) (.const dt x n) b ∧ dtype env.toEnv b = .bool true := by
  have h1 := arrowRows_nice hl lb hw (by simpa only [Nice] using hn)
  have hrl := flat_rows_len (env := env.toBEnv) hw
  have hz : (rows env.toEnv leafRows (.flat k vals v)).map (fun r => arrowRow op r x) =
      List.zipWith (opRow op) (rows env.toEnv leafRows (.flat k vals v)) (rows env.toEnv leafRows (.const dt x n : Arr L)) := by
    rw [map_zip_replicate, hrl, hlen]
    rw [show (arrowRow op : SV → SV → SV) = opRow op from by funext x y; exact arrowRow_eq op x y]
    rw [show rows env.toEnv leafRows (.const dt x vals.length : Arr L) = List.replicate vals.length x from by simp only [rows]]
  obtain ⟨b, b1, b2, b3, b4, b5⟩ := fromArrowBools_ok (env := env) (leafRows := leafRows) (ok := ok) _ (zip_opRow_bool op
    (rows env.toEnv leafRows (.flat k vals v)) (rows env.toEnv leafRows (.const dt x n : Arr L)))
  refine ⟨b, ?_, ⟨b2, b3, b4, .inl b5⟩, b5⟩
  simp only [bytesConst, h1, Res.ok_bind, hz, b1]

theorem own_sound (hl : LeafLaws env.toEnv leafRows ok) (lb : LeafBulk env.toBEnv leafRows ok) (lc : LeafCompare env leafRows ok)
    {cmp : Op → Arr L → Arr L → Res (Arr L)} {op : Op}
    (IH : ∀ l r b, cmp op l r = .ok b → Comparable env leafRows ok op l r → Answer env leafRows ok op l r b)
    {l r b : Arr L} (hc : Comparable env leafRows ok op l r)
    (hlen : (rows env.toEnv leafRows l).length = (rows env.toEnv leafRows r).length)
    (hd : (dtype env.toEnv l).eqIgnoreNullability (dtype env.toEnv r) = true) (h : own env cmp op l r = some (.ok b)) :
    Answer env leafRows ok op l r b := by
  cases l with
  | leaf l => exact lc.cmp op l r b h hc hlen hd
  | const dt x n =>
    simp only [own] at h
    split at h
    · rename_i hk
      injection h with h
      exact constKnown_sound hl lc hc hk (by simpa only [rows, List.length_replicate] using hlen) (by simpa only [dtype] using hd) h
    · cases h
  | flat k vals v =>
    obtain ⟨hw, hn⟩ := flat_shape_cmp hc.left
    have hrl := flat_rows_len (env := env.toBEnv) hw
    cases r with
    | const dt x n =>
      have hn' : vals.length = n := by
        rw [hrl] at hlen
        simpa only [rows, List.length_replicate] using hlen
      simp only [dtype] at hd
      cases k with
      | prim p =>
        simp only [own] at h
        injection h with h
        cases x with
        | prim q =>
          have := prim_const_type hc.right hd
          injection this with hp
          subst hn'
          obtain ⟨b', b1, b2⟩ := primConst_ok (op := op) (dt := dt) hl hw hp.symm hn hc.ordinaryL hc.ordinaryR
          rw [h] at b1; injection b1 with b1; subst b1
          exact b2
        | _ => simp [primConst] at h
      | bool => simp [own] at h
      | utf8 =>
        simp only [own] at h
        injection h with h
        obtain ⟨b', b1, b2, _⟩ := bytes_sound (op := op) (dt := dt) (x := x) hl lb hw hn hn'.symm
        rw [h] at b1; injection b1 with b1; subst b1
        exact b2
      | binary =>
        simp only [own] at h
        injection h with h
        obtain ⟨b', b1, b2, _⟩ := bytes_sound (op := op) (dt := dt) (x := x) hl lb hw hn hn'.symm
        rw [h] at b1; injection b1 with b1; subst b1
        exact b2
    | flat k' ws w =>
      obtain ⟨hw', hn'⟩ := flat_shape_cmp hc.right
      have hrl' := flat_rows_len (env := env.toBEnv) hw'
      simp only [dtype] at hd
      have := eqIgnore_flat hd
      subst this
      cases k with
      | prim p =>
        simp only [own] at h
        injection h with h
        have h' := h
        simp only [primPrim, Res.bind_eq_ok] at h'
        obtain ⟨_, _, u, hu, _⟩ := h'
        obtain ⟨b', b1, b2⟩ := primPrim_ok (op := op) hl hw hw' hn hn' (by omega) hc.ordinaryL hc.ordinaryR hu
        rw [h] at b1; injection b1 with b1; subst b1
        exact b2
      | _ => simp [own] at h
    | _ => cases k <;> simp [own] at h
  | chunked dt cs =>
    simp only [own] at h
    injection h with h
    exact chunked_sound hl hc hlen IH h
  | ext id m s =>
    cases r with
    | const dt x n =>
      simp only [own] at h
      injection h with h
      simp only [dtype] at hd
      have ans := IH s _ b h (hc.extConst hl lb (eqIgnore_ext hd))
      refine ⟨?_, ans.wf, ans.nice, ans.dtype⟩
      have := ans.rows
      simpa only [rows] using this
    | ext id' m' t =>
      simp only [own] at h
      injection h with h
      have ans := IH s t b h hc.extExt
      refine ⟨?_, ans.wf, ans.nice, ans.dtype⟩
      have := ans.rows
      simpa only [rows] using this
    | _ => simp [own] at h
  | mapped c enc =>
    cases c with
    | alp e f =>
      simp only [own] at h
      split at h
      · rename_i hk
        exfalso
        rcases hc.alp with ha | ha
        · have := (Path_end rfl).mp ha.1
          simp [isAlp] at this
        · cases r with
          | const => have := (Path_end rfl).mp ha.2.2; simp [isConstArr] at this
          | _ => simp [known, ha.1 _] at hk
      · cases h
    | _ => simp [own] at h
  | alpP e f enc patches =>
    simp only [own] at h
    split at h
    · rename_i hk
      exfalso
      rcases hc.alp with ha | ha
      · have := (Path_end rfl).mp ha.1
        simp [isAlp] at this
      · cases r with
        | const => have := (Path_end rfl).mp ha.2.2; simp [isConstArr] at this
        | _ => simp [known, ha.1 _] at hk
    · cases h
  | _ => simp [own] at h

/-- An array with no chunks, or one whose comparison is its own. -/
theorem own_chunked {cmp : Op → Arr L → Arr L → Res (Arr L)} {op : Op} {dt : DType} {cs : List (Arr L)} {r : Arr L}
    (h : own env cmp op (.chunked dt cs) r = none) : False := by simp [own] at h

theorem arrow_side (hl : LeafLaws env.toEnv leafRows ok) (lb : LeafBulk env.toBEnv leafRows ok) {a : Arr L} {xs : List SV}
    (hs : Side env leafRows ok a) (hnc : ∀ dt cs, a ≠ .chunked dt cs)
    (h : arrowRows env (bulks env.toBEnv (depth a)) a = .ok xs) : xs = rows env.toEnv leafRows a := by
  cases hs with
  | extConst id m nl x n => simp [arrowRows, depth, bulks, bstep, canonFn, kindOf] at h
  | array hw _ hs =>
    refine arrowRows_sound hl lb hw hs ?_ h
    exact hnc

theorem compareF_sound (hl : LeafLaws env.toEnv leafRows ok) (lb : LeafBulk env.toBEnv leafRows ok) (lc : LeafCompare env leafRows ok) :
    ∀ (n : Nat) (op : Op) (l r b : Arr L), compareF env n op l r = .ok b → Comparable env leafRows ok op l r → Answer env leafRows ok op l r b
  | 0, _, _, _, _, h, _ => by cases h
  | n + 1, op, l, r, b, h, hc => by
    have IH := compareF_sound hl lb lc n
    have hll := hc.left.len hl
    have hlr := hc.right.len hl
    simp only [compareF] at h
    split at h
    · cases h
    rename_i hlen
    split at h
    · cases h
    rename_i hd
    simp only [ne_eq, Decidable.not_not] at hlen
    simp only [Bool.not_eq_true', Bool.not_eq_false] at hd
    have hlen' : (rows env.toEnv leafRows l).length = (rows env.toEnv leafRows r).length := by omega
    split at h
    · exact (IH _ _ _ _ h hc.swap).swap
    split at h
    · rename_i res hown
      subst h
      exact own_sound hl lb lc (fun l r b => IH op l r b) hc hlen' hd hown
    · rename_i hno
      split at h
      · rename_i res hown
        subst h
        refine (own_sound hl lb lc (fun l r b => IH op.swap l r b) hc.swap hlen'.symm ?_ hown).swap
        unfold DType.eqIgnoreNullability at hd ⊢
        rw [DType.beq_eq] at hd ⊢
        exact hd.symm
      · rename_i hno'
        simp only [viaArrow, Res.bind_eq_ok] at h
        obtain ⟨xs, hx, ys, hy, h⟩ := h
        have ex := arrow_side hl lb hc.left (by rintro dt cs rfl; exact own_chunked hno) hx
        have ey := arrow_side hl lb hc.right (by rintro dt cs rfl; exact own_chunked hno') hy
        subst ex ey
        have hrow : (arrowRow op : SV → SV → SV) = opRow op := by funext x y; exact arrowRow_eq op x y
        rw [hrow] at h
        obtain ⟨b', b1, b2, b3, b4, b5⟩ := fromArrowBools_ok (env := env) (leafRows := leafRows) (ok := ok) _ (zip_opRow_bool op
          (rows env.toEnv leafRows l) (rows env.toEnv leafRows r))
        rw [h] at b1; injection b1 with b1; subst b1
        exact ⟨b2, b3, b4, .inl b5⟩

end Vx.Tree
