import Verif.Lemmas.Compress
/-! # Lemmas for C41: chunks and the driver -/
namespace Vx.Tree
open Vx.Spec (patched FitsLen)

variable {L : Type} {env : BEnv L} {leafRows : L → List SV} {okIn ok : L → Prop} {ch : Choice L}

theorem nice_kind (hl : LeafLaws env.toEnv leafRows okIn) (lb : LeafBulk env leafRows okIn) {a : Arr L} (hw : WF env.toEnv leafRows okIn a)
    (hn : Nice env.toEnv leafRows a) : (kindOf (dtype env.toEnv a)).isSome = true := by
  obtain ⟨k, vals, v, _, _, h3, _⟩ := (blaws hl lb (depth a)).canon a hw hn (Nat.le_refl _)
  rw [← h3.dtype]
  cases k <;> rfl

/-! ### Struct chunks -/

theorem structRows_add (n k : Nat) (js : List Nat) (A B : Nat → List SV) (ma mb : List Bool) (hA : ∀ j ∈ js, (A j).length = n) (hm : ma.length = n) :
    structRows (n + k) (js.map (fun j => A j ++ B j)) (ma ++ mb) = structRows n (js.map A) ma ++ structRows k (js.map B) mb := by
  unfold structRows
  rw [List.range_add, List.map_append, List.map_map]
  congr 1
  · apply List.map_congr_left
    intro i hi
    have hi' : i < n := List.mem_range.mp hi
    rw [List.getElem?_append_left (by omega)]
    have : structRow (js.map (fun j => A j ++ B j)) i = structRow (js.map A) i := by
      simp only [structRow, List.map_map, SV.list.injEq]
      apply List.map_congr_left
      intro j hj
      simp only [Function.comp]
      rw [List.getElem?_append_left (by rw [hA j hj]; exact hi')]
    rw [this]
  · apply List.map_congr_left
    intro i _
    simp only [Function.comp]
    rw [List.getElem?_append_right (by omega), hm, Nat.add_sub_cancel_left]
    have : structRow (js.map (fun j => A j ++ B j)) (n + i) = structRow (js.map B) i := by
      simp only [structRow, List.map_map, SV.list.injEq]
      apply List.map_congr_left
      intro j hj
      simp only [Function.comp]
      rw [List.getElem?_append_right (by rw [hA j hj]; omega), hA j hj, Nat.add_sub_cancel_left]
    rw [this]

/-- The parts of a struct chunk. -/
abbrev Part (L : Type) := List (Arr L) × Nat × TVal (Arr L)

def mkPart (names : List Str) (p : Part L) : Arr L := .struct names p.1 p.2.1 p.2.2

/-- Field `j` of a part. -/
def partField (j : Nat) (p : Part L) : Arr L := (p.1[j]?).getD (.null 0)

theorem parts_rows (names : List Str) (w : Nat) : ∀ (ps : List (Part L)),
    (∀ p ∈ ps, p.1.length = w ∧ WF env.toEnv leafRows okIn (mkPart names p)) →
    ((ps.map (mkPart names)).map (rows env.toEnv leafRows)).flatten =
      structRows ((ps.map (fun p => p.2.1)).sum) ((List.range w).map (fun j => ((ps.map (partField j)).map (rows env.toEnv leafRows)).flatten))
        ((ps.map (fun p => maskOf env.toEnv leafRows p.2.2 p.2.1)).flatten)
  | [], _ => by simp [structRows]
  | p :: ps, h => by
    obtain ⟨hw, _, hwf, hlen, hv⟩ := h p (by simp)
    have ih := parts_rows names w ps (fun q hq => h q (by simp [hq]))
    have hcols : (List.range w).map (fun j => rows env.toEnv leafRows (partField j p)) = rowsEach env.toEnv leafRows p.1 := by
      rw [rowsEach_eq]
      apply List.ext_getElem?
      intro j
      by_cases hj : j < w
      · have hj' : j < p.1.length := by omega
        simp [hj, partField, List.getElem?_eq_getElem hj']
      · rw [List.getElem?_eq_none (by simp; omega), List.getElem?_eq_none (by simp; omega)]
    simp only [List.map_cons, List.flatten_cons, List.sum_cons]
    rw [structRows_add _ _ _ _ _ _ _ ?_ (maskOf_length hv), hcols, ← ih]
    · simp only [mkPart, rows]
    · intro j hj
      have hj' : j < p.1.length := by rw [hw]; exact List.mem_range.mp hj
      have := hlen (rows env.toEnv leafRows (partField j p)) (by
        rw [← hcols]; exact List.mem_map.mpr ⟨j, hj, rfl⟩)
      exact this

theorem swizzleFields_ok (names : List Str) (w : Nat) (ps : List (Part L)) (hp : ∀ p ∈ ps, p.1.length = w) :
    ∀ (ds : List DType) (i : Nat) (gs : List (Arr L)), swizzleFields env (ps.map (mkPart names)) i ds = .ok gs → i + ds.length = w →
      gs.length = ds.length ∧ ∀ (j : Nat) (g : Arr L), gs[j]? = some g → ∃ d, ds[j]? = some d ∧ g = .chunked d (ps.map (partField (i + j))) ∧
        ∀ c ∈ ps.map (partField (i + j)), dtype env.toEnv c = d
  | [], i, gs, h, _ => by
    simp only [swizzleFields, Res.ok.injEq] at h
    subst h
    exact ⟨rfl, by simp⟩
  | d :: ds, i, gs, h, hi => by
    simp only [List.length_cons] at hi
    simp only [swizzleFields, Res.bind_eq_ok] at h
    obtain ⟨g, h1, gs', h2, h3⟩ := h
    simp only [Res.ok.injEq] at h3
    subst h3
    obtain ⟨h4, h5⟩ := swizzleFields_ok names w ps hp ds (i + 1) gs' h2 (by omega)
    refine ⟨by simp [h4], ?_⟩
    intro j x hx
    cases j with
    | succ j =>
      obtain ⟨d', e1, e2, e3⟩ := h5 j x (by simpa using hx)
      have : i + 1 + j = i + (j + 1) := by omega
      rw [this] at e2 e3
      exact ⟨d', by simpa using e1, e2, e3⟩
    | zero =>
      simp only [List.getElem?_cons_zero, Option.some.injEq] at hx
      subst hx
      simp only [swizzleField, Res.bind_eq_ok] at h1
      obtain ⟨fs, e1, e2⟩ := h1
      have e3 : Res.mapM (fun c => do let f ← field env.toEnv i c; Res.ofOption f) (ps.map (mkPart names)) = .ok (ps.map (partField i)) := by
        clear e1 h2 h5
        induction ps with
        | nil => rfl
        | cons p ps ih =>
          have hlt : i < p.1.length := by rw [hp p (by simp)]; omega
          rw [List.map_cons, Res.mapM_cons, ih (fun q hq => hp q (by simp [hq]))]
          simp [mkPart, field, partField, List.getElem?_eq_getElem hlt]
      have e4 := e1.symm.trans e3
      simp only [Res.ok.injEq] at e4
      subst e4
      simp only [mkChunked, Res.bind_eq_ok] at e2
      obtain ⟨_, e5, e6⟩ := e2
      simp only [Res.ok.injEq] at e6
      have e7 := guard_ok e5
      refine ⟨d, rfl, e6.symm, ?_⟩
      intro c hc
      simpa using List.all_eq_true.mp e7 c hc

theorem collect_masks (lvs : List LogicalValidity) (N : Nat) (hN : N = (lvs.map LogicalValidity.len).sum) :
    Spec.mask N ((LogicalValidity.collect lvs).toLogical N).intoValidity = lvs.flatMap LogicalValidity.intoBools ∧
    FitsLen ((LogicalValidity.collect lvs).toLogical N).intoValidity N := by
  subst hN
  have hc := C23_collect lvs
  have hf : FitsLen (LogicalValidity.collect lvs) (lvs.map LogicalValidity.len).sum := by
    simp only [FitsLen, hc, List.length_flatMap]
    congr 1
    apply List.map_congr_left
    intro lv _
    exact intoBools_length lv
  obtain ⟨_, g2, _⟩ := C23_to_logical _ _ hf
  have := g2.trans hc
  exact ⟨this, by rw [FitsLen, this, ← hc]; exact hf⟩

theorem struct_valid (hl : LeafLaws env.toEnv leafRows okIn) (lb : LeafBulk env leafRows okIn) {names : List Str} {p : Part L}
    (hw : WF env.toEnv leafRows okIn (mkPart names p)) (hn : NiceV env.toEnv leafRows p.2.2) :
    ∃ lv, (mkPart names p).valid env = .ok lv ∧ lv.intoBools = maskOf env.toEnv leafRows p.2.2 p.2.1 := by
  obtain ⟨_, _, _, hv⟩ := hw
  have hd := depth_pos (mkPart names p)
  obtain ⟨d, hd'⟩ : ∃ d, depth (mkPart names p) = d + 1 := ⟨depth (mkPart names p) - 1, by omega⟩
  have hdv : depthV p.2.2 ≤ d := by
    simp only [mkPart, depth] at hd'
    omega
  obtain ⟨lv, h1, h2⟩ := logicalV_ok (blaws hl lb d) hv hn hdv
  refine ⟨lv, ?_, h2⟩
  simp only [Arr.valid, hd', bulks, bstep]
  simp only [mkPart, validFn, h1]

theorem intoValidity_nullable (lv : LogicalValidity) : lv.intoValidity.nullable = true := by cases lv <;> rfl

theorem swizzleV_ok (hl : LeafLaws env.toEnv leafRows okIn) (lb : LeafBulk env leafRows okIn) {names : List Str} {nl : Bool} {ps : List (Part L)} {v : TVal (Arr L)}
    (h : swizzleV env nl (ps.map (mkPart names)) = .ok v) (hw : ∀ p ∈ ps, WF env.toEnv leafRows okIn (mkPart names p))
    (hn : ∀ p ∈ ps, NiceV env.toEnv leafRows p.2.2) (hnl : ∀ p ∈ ps, p.2.2.nullable = nl) :
    maskOf env.toEnv leafRows v ((ps.map (fun p => p.2.1)).sum) = (ps.map (fun p => maskOf env.toEnv leafRows p.2.2 p.2.1)).flatten ∧
    WFV env.toEnv leafRows okIn v ((ps.map (fun p => p.2.1)).sum) ∧ v.nullable = nl ∧ NiceV env.toEnv leafRows v ∧
    CompV env.toEnv leafRows v ∧ RegularV env.toEnv leafRows true v := by
  cases nl with
  | false =>
    simp only [swizzleV, Bool.false_eq_true, if_false, Res.ok.injEq] at h
    subst h
    refine ⟨?_, trivial, rfl, trivial, trivial, trivial⟩
    clear hw hn
    induction ps with
    | nil => simp [maskOf]
    | cons p ps ih =>
      have hp := hnl p (by simp)
      have : p.2.2 = .nonNullable := by
        cases hv : p.2.2 <;> rw [hv] at hp <;> simp [TVal.nullable] at hp
      simp only [maskOf] at ih
      simp only [List.map_cons, List.sum_cons, List.flatten_cons, maskOf, this]
      rw [List.replicate_add, ih (fun q hq => hnl q (by simp [hq]))]
  | true =>
    simp only [swizzleV, if_true, Res.bind_eq_ok] at h
    obtain ⟨lvs, h1, h2⟩ := h
    simp only [Res.ok.injEq] at h2
    have hb : lvs.flatMap LogicalValidity.intoBools = (ps.map (fun p => maskOf env.toEnv leafRows p.2.2 p.2.1)).flatten ∧
        (lvs.map LogicalValidity.len).sum = (ps.map (fun p => p.2.1)).sum := by
      clear h2 hnl
      induction ps generalizing lvs with
      | nil => simp only [List.map_nil, Res.mapM_nil, Res.ok.injEq] at h1; subst h1; simp
      | cons p ps ih2 =>
        obtain ⟨lv, e1, e2⟩ := struct_valid hl lb (hw p (by simp)) (hn p (by simp))
        rw [List.map_cons, Res.mapM_cons, e1] at h1
        simp only [Res.ok_bind, Res.bind_eq_ok] at h1
        obtain ⟨lvs', e3, e4⟩ := h1
        simp only [Res.pure_eq, Res.ok.injEq] at e4
        subst e4
        obtain ⟨e5, e6⟩ := ih2 (fun q hq => hw q (by simp [hq])) (fun q hq => hn q (by simp [hq])) lvs' e3
        have hlen : lv.len = p.2.1 := by rw [← intoBools_length, e2]; exact maskOf_length (hw p (by simp)).2.2.2
        constructor
        · simp only [List.flatMap_cons, List.map_cons, List.flatten_cons, e2, e5]
        · simp only [List.map_cons, List.sum_cons, hlen, e6]
    have hlens : lens env.toEnv (ps.map (mkPart names)) = (ps.map (fun p => p.2.1)).sum := by
      rw [lens_sum, List.map_map]
      congr 1
    rw [hlens] at h2
    obtain ⟨c1, c2⟩ := collect_masks lvs _ hb.2.symm
    obtain ⟨q1, q2, q3, _, _, q6⟩ := maskOf_ofValidity (env := env) (leafRows := leafRows) (ok := okIn) _ _ c2
    subst h2
    refine ⟨?_, q2, ?_, q3, (comp_ofValidity _).1, (comp_ofValidity _).2⟩
    · rw [q1, c1, hb.1]
    · rw [q6, intoValidity_nullable]

theorem struct_parts {names : List Str} : ∀ (cs : List (Arr L)), (∀ c ∈ cs, ∃ fs n v, c = .struct names fs n v) → ∃ ps : List (Part L), cs = ps.map (mkPart names)
  | [], _ => ⟨[], rfl⟩
  | c :: cs, h => by
    obtain ⟨fs, n, v, rfl⟩ := h c (by simp)
    obtain ⟨ps, rfl⟩ := struct_parts cs (fun c hc => h c (by simp [hc]))
    exact ⟨(fs, n, v) :: ps, rfl⟩

theorem ext_parts {id : Str} {m : Option (List UInt8)} : ∀ (cs : List (Arr L)), (∀ c ∈ cs, ∃ s, c = .ext id m s) → ∃ ss : List (Arr L), cs = ss.map (Arr.ext id m)
  | [], _ => ⟨[], rfl⟩
  | c :: cs, h => by
    obtain ⟨s, rfl⟩ := h c (by simp)
    obtain ⟨ss, rfl⟩ := ext_parts cs (fun c hc => h c (by simp [hc]))
    exact ⟨s :: ss, rfl⟩

theorem combine_struct (hl : LeafLaws env.toEnv leafRows okIn) (lb : LeafBulk env leafRows okIn) {names : List Str} {ds : List DType} {nl : Bool}
    {ps : List (Part L)} {v b : Arr L} {w : TVal (Arr L)} {gs : List (Arr L)} (hne : ps ≠ [])
    (hv : swizzleV env nl (ps.map (mkPart names)) = .ok w) (hf : swizzleFields env (ps.map (mkPart names)) 0 ds = .ok gs)
    (hb : mkStruct env.toEnv names gs (lens env.toEnv (ps.map (mkPart names))) w = .ok b)
    (hd : ∀ p ∈ ps, dtype env.toEnv (mkPart names p) = .struct names ds nl)
    (hg : ∀ p ∈ ps, Good env.toEnv leafRows okIn (mkPart names p)) (hk : ∀ p ∈ ps, Chk env.toEnv leafRows (mkPart names p)) :
    Good env.toEnv leafRows okIn b ∧ dtype env.toEnv b = .struct names ds nl ∧
      rows env.toEnv leafRows b = ((ps.map (mkPart names)).map (rows env.toEnv leafRows)).flatten := by
  have hd' : ∀ p ∈ ps, dtypes env.toEnv p.1 = ds ∧ p.2.2.nullable = nl := by
    intro p hp
    have := hd p hp
    simp only [mkPart, dtype, DType.struct.injEq] at this
    exact ⟨this.2.1, this.2.2⟩
  have hlen : ∀ p ∈ ps, p.1.length = ds.length := by
    intro p hp
    rw [← (hd' p hp).1, dtypes_eq, List.length_map]
  obtain ⟨v1, v2, v3, v4, v5, v6⟩ := swizzleV_ok hl lb hv (fun p hp => (hg p hp).wf) (fun p hp => (hk p hp).1) (fun p hp => (hd' p hp).2)
  obtain ⟨f1, f2⟩ := swizzleFields_ok names ds.length ps hlen ds 0 gs hf (by omega)
  simp only [Nat.zero_add] at f2
  have hlens : lens env.toEnv (ps.map (mkPart names)) = (ps.map (fun p => p.2.1)).sum := by
    rw [lens_sum, List.map_map]
    congr 1
  have hb' : b = .struct names gs ((ps.map (fun p => p.2.1)).sum) w := by
    simp only [mkStruct, Res.bind_eq_ok] at hb
    obtain ⟨_, _, _, _, _, _, hb⟩ := hb
    rw [hlens] at hb
    simpa using hb.symm
  subst hb'
  have hgs : gs = (List.range ds.length).map (fun j => Arr.chunked (ds[j]?.getD .null) (ps.map (partField j))) := by
    apply List.ext_getElem?
    intro j
    by_cases hj : j < ds.length
    · have hj' : j < gs.length := by omega
      obtain ⟨d, e1, e2, _⟩ := f2 j gs[j] (List.getElem?_eq_getElem hj')
      simp [hj, List.getElem?_eq_getElem hj', e2, e1, Option.getD_some]
      have := List.getElem?_eq_some_iff.mp e1
      exact this.2.symm
    · rw [List.getElem?_eq_none (by omega), List.getElem?_eq_none (by simp; omega)]
  have hpf : ∀ j, j < ds.length → ∀ p ∈ ps, partField j p ∈ p.1 := by
    intro j hj p hp
    have : j < p.1.length := by rw [hlen p hp]; exact hj
    simp only [partField, List.getElem?_eq_getElem this, Option.getD_some]
    exact List.getElem_mem _
  have hdts : dtypes env.toEnv gs = ds := by
    rw [dtypes_eq, hgs, List.map_map]
    apply List.ext_getElem?
    intro j
    by_cases hj : j < ds.length
    · simp [hj, dtype]
    · rw [List.getElem?_eq_none (by simp; omega), List.getElem?_eq_none (by omega)]
  have hrows : rowsEach env.toEnv leafRows gs = (List.range ds.length).map (fun j => ((ps.map (partField j)).map (rows env.toEnv leafRows)).flatten) := by
    rw [rowsEach_eq, hgs, List.map_map]
    apply List.map_congr_left
    intro j _
    simp only [Function.comp, rows, rowsEach_eq]
  have hnames : names.length = gs.length := by
    obtain ⟨p, hp⟩ := List.exists_mem_of_ne_nil ps hne
    have h1 := (hg p hp).wf.1
    rw [h1, hlen p hp, f1]
  have hcomp : ∀ g ∈ gs, Good env.toEnv leafRows okIn g ∧ (rows env.toEnv leafRows g).length = (ps.map (fun p => p.2.1)).sum := by
    intro g hgm
    obtain ⟨j, hj, rfl⟩ := List.mem_iff_getElem.mp hgm
    obtain ⟨d, e1, e2, e3⟩ := f2 j gs[j] (List.getElem?_eq_getElem hj)
    have hjd : j < ds.length := by omega
    rw [e2]
    have hpg : ∀ p ∈ ps, Good env.toEnv leafRows okIn (partField j p) ∧ Chk env.toEnv leafRows (partField j p) ∧
        (rows env.toEnv leafRows (partField j p)).length = p.2.1 := by
      intro p hp
      have hm := hpf j hjd p hp
      obtain ⟨_, w2, w3, _⟩ := (hg p hp).wf
      refine ⟨⟨(WFs_iff _).mp w2 _ hm, (Regulars_iff _).mp (hg p hp).regular.1 _ hm, (Comps_iff _).mp (hg p hp).comp.1 _ hm⟩,
        (Chks_iff _).mp (hk p hp).2 _ hm, w3 _ ?_⟩
      rw [rowsEach_eq]; exact List.mem_map_of_mem hm
    refine ⟨⟨⟨?_, ?_⟩, ⟨by simpa using hne, ?_⟩, ?_, ?_⟩, ?_⟩
    · rw [WFs_iff]; intro c hc; obtain ⟨p, hp, rfl⟩ := List.mem_map.mp hc; exact (hpg p hp).1.wf
    · rw [dtypes_eq]; intro x hx; obtain ⟨c, hc, rfl⟩ := List.mem_map.mp hx; exact e3 c hc
    · rw [Regulars_iff]; intro c hc; obtain ⟨p, hp, rfl⟩ := List.mem_map.mp hc; exact (hpg p hp).1.regular
    · rw [Comps_iff]; intro c hc; obtain ⟨p, hp, rfl⟩ := List.mem_map.mp hc; exact (hpg p hp).1.comp
    · rw [Chks_iff]; intro c hc; obtain ⟨p, hp, rfl⟩ := List.mem_map.mp hc; exact (hpg p hp).2.1
    · simp only [rows, rowsEach_eq, List.length_flatten, List.map_map]
      congr 1
      apply List.map_congr_left
      intro p hp
      exact (hpg p hp).2.2
  refine ⟨⟨⟨hnames, ?_, ?_, v2⟩, ⟨?_, v6⟩, ?_, v5⟩, ?_, ?_⟩
  · rw [WFs_iff]; intro g hgm; exact (hcomp g hgm).1.wf
  · rw [rowsEach_eq]; intro c hc; obtain ⟨g, hgm, rfl⟩ := List.mem_map.mp hc; exact (hcomp g hgm).2
  · rw [Regulars_iff]; intro g hgm; exact (hcomp g hgm).1.regular
  · rw [Comps_iff]; intro g hgm; exact (hcomp g hgm).1.comp
  · simp only [dtype, hdts, v3]
  · rw [parts_rows names ds.length ps (fun p hp => ⟨hlen p hp, (hg p hp).wf⟩)]
    simp only [rows, hrows, v1]

theorem combine_ext {id : Str} {m : Option (List UInt8)} {ss : List (Arr L)} {b : Arr L} {dt : DType} (hne : ss ≠ [])
    (hb : combineExt env id m (ss.map (Arr.ext id m)) = .ok b) (hd : ∀ s ∈ ss, dtype env.toEnv (.ext id m s) = dt)
    (hg : ∀ s ∈ ss, Good env.toEnv leafRows okIn (.ext id m s)) :
    Good env.toEnv leafRows okIn b ∧ dtype env.toEnv b = dt ∧ rows env.toEnv leafRows b = ((ss.map (Arr.ext id m)).map (rows env.toEnv leafRows)).flatten := by
  simp only [combineExt, Res.bind_eq_ok] at hb
  obtain ⟨ss', h1, s, h2, a, h3, h4⟩ := hb
  simp only [Res.ok.injEq] at h4
  subst h4
  have e1 : Res.mapM (storageOf env) (ss.map (Arr.ext id m)) = .ok ss := by
    clear h1 hne hd hg
    induction ss with
    | nil => rfl
    | cons s ss ih =>
      rw [List.map_cons, Res.mapM_cons, ih]
      have : storageOf env (.ext id m s) = .ok s := by
        simp only [storageOf, Arr.canon, depth]
        rw [Nat.add_comm]
        simp [bulks, bstep, canonFn]
      simp [this]
  have := h1.symm.trans e1
  simp only [Res.ok.injEq] at this
  subst this
  simp only [mkChunked, Res.bind_eq_ok] at h3
  obtain ⟨_, h5, h6⟩ := h3
  simp only [Res.ok.injEq] at h6
  subst h6
  have h7 := guard_ok h5
  have hs : s ∈ ss' := by
    cases ss' with
    | nil => simp at hne
    | cons x xs => simp at h2; simp [h2]
  refine ⟨⟨⟨?_, ?_⟩, ⟨hne, ?_⟩, trivial⟩, ?_, ?_⟩
  · rw [WFs_iff]; intro c hc; exact (hg c hc).wf
  · rw [dtypes_eq]; intro x hx; obtain ⟨c, hc, rfl⟩ := List.mem_map.mp hx; simpa using List.all_eq_true.mp h7 c hc
  · rw [Regulars_iff]; intro c hc; exact (hg c hc).regular
  · rw [← hd s hs]; simp only [dtype]
  · simp only [rows, rowsEach_eq, List.map_map]
    congr 1

theorem canon_shape {dt : DType} {k : Kind} {cs : List (Arr L)} {b : Arr L} (hk : kindOf dt = some k)
    (h : (Arr.chunked dt cs).canon env = .ok b) : ∃ xs w, b = .flat k xs w ∧ (w = .nonNullable ∨ ∃ V, w = ofValidity V) := by
  have hd := depth_pos (Arr.chunked dt cs)
  obtain ⟨d, hd'⟩ : ∃ d, depth (Arr.chunked dt cs) = d + 1 := ⟨depth (Arr.chunked dt cs) - 1, by omega⟩
  simp only [Arr.canon, hd', bulks, bstep, canonFn, hk, Res.bind_eq_ok] at h
  obtain ⟨fs, _, h⟩ := h
  split at h
  · simp only [Res.bind_eq_ok] at h
    obtain ⟨lvs, _, h⟩ := h
    simp only [Res.ok.injEq] at h
    exact ⟨_, _, h.symm, .inr ⟨_, rfl⟩⟩
  · simp only [Res.ok.injEq] at h
    exact ⟨_, _, h.symm, .inl rfl⟩

theorem combine_ok (hl : LeafLaws env.toEnv leafRows okIn) (lb : LeafBulk env leafRows okIn) {dt : DType} {cs : List (Arr L)} {b : Arr L}
    (h : combine env dt cs = .ok b) (hne : cs ≠ []) (hg : ∀ c ∈ cs, Good env.toEnv leafRows okIn c) (hk : ∀ c ∈ cs, Chk env.toEnv leafRows c) :
    Good env.toEnv leafRows okIn b ∧ dtype env.toEnv b = dt ∧ rows env.toEnv leafRows b = (cs.map (rows env.toEnv leafRows)).flatten := by
  simp only [combine, Res.bind_eq_ok] at h
  obtain ⟨a, h1, h2⟩ := h
  simp only [mkChunked, Res.bind_eq_ok] at h1
  obtain ⟨_, h3, h4⟩ := h1
  simp only [Res.ok.injEq] at h4
  subst h4
  have hdt : ∀ c ∈ cs, dtype env.toEnv c = dt := fun c hc => by simpa using List.all_eq_true.mp (guard_ok h3) c hc
  have hnk : ∀ c ∈ cs, Nice env.toEnv leafRows c → (kindOf dt).isSome = true := fun c hc hn => by
    rw [← hdt c hc]; exact nice_kind hl lb (hg c hc).wf hn
  split at h2
  · -- structs
    rename_i names ds nl
    have hp : ∀ c ∈ cs, ∃ fs n v, c = .struct names fs n v := by
      intro c hc
      have hd := hdt c hc
      have hkc := hk c hc
      cases c with
      | struct ns fs n v => simp only [dtype, DType.struct.injEq] at hd; exact ⟨fs, n, v, by rw [hd.1]⟩
      | ext id m s => simp [dtype] at hd
      | null n => simp [dtype] at hd
      | _ => have := hnk _ hc hkc; simp [kindOf] at this
    obtain ⟨ps, rfl⟩ := struct_parts cs hp
    simp only [Res.bind_eq_ok] at h2
    obtain ⟨v, g1, fs, g2, g3⟩ := h2
    have hps : ps ≠ [] := by rintro rfl; simp at hne
    exact combine_struct hl lb (v := .null 0) hps g1 g2 g3 (fun p hp => hdt _ (List.mem_map_of_mem hp)) (fun p hp => hg _ (List.mem_map_of_mem hp))
      (fun p hp => hk _ (List.mem_map_of_mem hp))
  · -- extensions
    rename_i id m nl
    have hp : ∀ c ∈ cs, ∃ s, c = .ext id m s := by
      intro c hc
      have hd := hdt c hc
      have hkc := hk c hc
      cases c with
      | struct ns fs n v => simp [dtype] at hd
      | ext id m s => simp only [dtype, DType.ext.injEq] at hd; exact ⟨s, by rw [hd.1, hd.2.1]⟩
      | null n => simp [dtype] at hd
      | _ => have := hnk _ hc hkc; simp [kindOf] at this
    obtain ⟨ss, rfl⟩ := ext_parts cs hp
    have hss : ss ≠ [] := by rintro rfl; simp at hne
    exact combine_ext hss h2 (fun s hs => hdt _ (List.mem_map_of_mem hs)) (fun s hs => hg _ (List.mem_map_of_mem hs))
  · -- other types
    rename_i hns hne'
    have hwf : WF env.toEnv leafRows okIn (.chunked dt cs) :=
      ⟨(WFs_iff cs).mpr (fun c hc => (hg c hc).wf), by rw [dtypes_eq]; intro d hd; obtain ⟨c, hc, rfl⟩ := List.mem_map.mp hd; exact hdt c hc⟩
    cases hkd : kindOf dt with
    | some k =>
      have hnice : Nice env.toEnv leafRows (.chunked dt cs) := by
        refine ⟨by rw [hkd]; rfl, (Nices_iff cs).mpr ?_⟩
        intro c hc
        have hd := hdt c hc
        have hkc := hk c hc
        cases c with
        | struct ns fs n v => simp only [dtype] at hd; rw [← hd] at hkd; simp [kindOf] at hkd
        | ext id m s => simp only [dtype] at hd; rw [← hd] at hkd; simp [kindOf] at hkd
        | null n => simp only [dtype] at hd; rw [← hd] at hkd; simp [kindOf] at hkd
        | _ => exact hkc
      obtain ⟨k', vals, v, e1, e2, e3, e4⟩ := (blaws hl lb (depth (Arr.chunked dt cs))).canon _ hwf hnice (Nat.le_refl _)
      have e1' : (Arr.chunked dt cs).canon env = .ok (.flat k' vals v) := e1
      rw [h2] at e1'
      simp only [Res.ok.injEq] at e1'
      subst e1'
      obtain ⟨xs, w, e5, e6⟩ := canon_shape hkd h2
      simp only [Arr.flat.injEq] at e5
      obtain ⟨_, _, rfl⟩ := e5
      have hrc : RegularV env.toEnv leafRows true v ∧ CompV env.toEnv leafRows v := by
        rcases e6 with rfl | ⟨V, rfl⟩
        · exact ⟨trivial, trivial⟩
        · exact ⟨(comp_ofValidity V).2, (comp_ofValidity V).1⟩
      refine ⟨⟨e2, hrc.1, e3.nice hnice, hrc.2⟩, e3.dtype, ?_⟩
      rw [e4]
      simp only [rows, rowsEach_eq]
    | none =>
      have hcn : (Arr.chunked dt cs).canon env = if dt = .null then .ok (.null (lens env.toEnv cs)) else .err := by
        have hd := depth_pos (Arr.chunked dt cs)
        obtain ⟨d, hd'⟩ : ∃ d, depth (Arr.chunked dt cs) = d + 1 := ⟨depth (Arr.chunked dt cs) - 1, by omega⟩
        simp only [Arr.canon, hd', bulks, bstep, canonFn, hkd]
      rw [hcn] at h2
      split at h2
      · rename_i hnull
        simp only [Res.ok.injEq] at h2
        subst h2
        refine ⟨⟨trivial, trivial, trivial⟩, by simp [dtype, hnull], ?_⟩
        have hall : ∀ c ∈ cs, ∃ n, c = .null n := by
          intro c hc
          have hd := hdt c hc
          have hkc := hk c hc
          cases c with
          | struct ns fs n v => simp [dtype, hnull] at hd
          | ext id m s => simp [dtype, hnull] at hd
          | null n => exact ⟨n, rfl⟩
          | _ => have := hnk _ hc hkc; rw [hkd] at this; cases this
        clear h3 hwf hcn hne hg hk hdt hnk
        simp only [rows, lens_sum]
        induction cs with
        | nil => rfl
        | cons c cs ih =>
          obtain ⟨n, rfl⟩ := hall c (by simp)
          simp only [List.map_cons, List.sum_cons, List.flatten_cons]
          rw [← ih (fun c hc => hall c (by simp [hc]))]
          simp only [len, rows]
          rw [List.replicate_add]
      · cases h2

/-! ### Rechunking and the loop over chunks -/

theorem rechunk_sound {C R : Type} {nbytes len : C → Nat} {combine : List C → Res C} {P Q : C → Prop} {rowsOf : C → List R} {tb tr : Nat}
    (hPQ : ∀ c, P c → Q c)
    (hcomb : ∀ cs b, combine cs = .ok b → cs ≠ [] → (∀ c ∈ cs, P c) → Q b ∧ rowsOf b = (cs.map rowsOf).flatten) :
    ∀ (cs pend : List C) (pb pr : Nat) (out : List C), Chunked.rechunkLoop nbytes len combine tb tr pend pb pr cs = .ok out →
      (∀ c ∈ pend, P c) → (∀ c ∈ cs, P c) → (∀ c ∈ out, Q c) ∧ (out.map rowsOf).flatten = ((pend ++ cs).map rowsOf).flatten := by
  intro cs
  induction cs with
  | nil =>
    intro pend pb pr out h hp _
    simp only [Chunked.rechunkLoop] at h
    split at h
    · rename_i he
      simp only [List.isEmpty_iff] at he
      subst he
      simp only [Res.ok.injEq] at h
      subst h
      simp
    · rename_i he
      simp only [Res.bind_eq_ok] at h
      obtain ⟨c, h1, h2⟩ := h
      simp only [Res.ok.injEq] at h2
      subst h2
      have := hcomb pend c h1 (by simpa using he) hp
      refine ⟨by simpa using this.1, by simpa using this.2⟩
  | cons c cs ih =>
    intro pend pb pr out h hp hcs
    have pc := hcs c (by simp)
    have pcs : ∀ x ∈ cs, P x := fun x hx => hcs x (by simp [hx])
    simp only [Chunked.rechunkLoop] at h
    split at h
    · rename_i he
      have hne : pend ≠ [] := by rintro rfl; simp at he
      simp only [Res.bind_eq_ok] at h
      obtain ⟨o, h1, h2⟩ := h
      obtain ⟨q1, q2⟩ := hcomb pend o h1 hne hp
      split at h2
      · simp only [Res.bind_eq_ok, Res.ok.injEq] at h2
        obtain ⟨rest, h3, rfl⟩ := h2
        obtain ⟨i1, i2⟩ := ih _ _ _ _ h3 (by simp) pcs
        refine ⟨?_, ?_⟩
        · intro x hx
          simp only [List.mem_cons] at hx
          rcases hx with rfl | rfl | hx
          · exact q1
          · exact hPQ _ pc
          · exact i1 x hx
        · simp only [List.nil_append] at i2
          simp [q2, i2]
      · simp only [Res.bind_eq_ok, Res.ok.injEq] at h2
        obtain ⟨rest, h3, rfl⟩ := h2
        obtain ⟨i1, i2⟩ := ih _ _ _ _ h3 (by simpa using pc) pcs
        refine ⟨?_, ?_⟩
        · intro x hx
          simp only [List.mem_cons] at hx
          rcases hx with rfl | hx
          · exact q1
          · exact i1 x hx
        · simp only [List.singleton_append, List.map_cons, List.flatten_cons] at i2
          simp [q2, i2]
    · rename_i he
      split at h
      · rename_i hbig
        have hpe : pend = [] := by
          by_contra hne
          apply he
          simp only [Bool.or_eq_true, decide_eq_true_eq] at hbig
          simp only [Bool.and_eq_true, Bool.or_eq_true, decide_eq_true_eq, Bool.not_eq_true', List.isEmpty_eq_false_iff]
          exact ⟨by omega, hne⟩
        subst hpe
        simp only [Res.bind_eq_ok, Res.ok.injEq] at h
        obtain ⟨rest, h3, rfl⟩ := h
        obtain ⟨i1, i2⟩ := ih _ _ _ _ h3 (by simp) pcs
        refine ⟨?_, by simpa using i2⟩
        intro x hx
        simp only [List.mem_cons] at hx
        rcases hx with rfl | hx
        · exact hPQ _ pc
        · exact i1 x hx
      · obtain ⟨i1, i2⟩ := ih _ _ _ _ h (by
          intro x hx
          simp only [List.mem_append, List.mem_singleton] at hx
          rcases hx with hx | rfl
          · exact hp x hx
          · exact pc) pcs
        exact ⟨i1, by simpa using i2⟩

theorem chunkLoop_ok {rec : Ctx → Arr L → Option CTree → Res (Out L)} (hr : Sound env leafRows okIn ok rec) {again : Ctx → Arr L → Res (Out L)}
    (ha : ∀ ctx a b t, again ctx a = .ok (b, t) → Good env.toEnv leafRows okIn a → SameData env.toEnv leafRows ok a b) (ctx : Ctx) :
    ∀ (cs : List (Arr L)) (previous : Option CTree) (out : List (Arr L)) (t : Option CTree),
      chunkLoop ch rec again ctx previous cs = .ok (out, t) → (∀ c ∈ cs, Good env.toEnv leafRows okIn c) →
      List.Forall₂ (SameData env.toEnv leafRows ok) cs out := by
  intro cs
  induction cs with
  | nil =>
    intro previous out t h _
    simp only [chunkLoop, Res.ok.injEq, Prod.mk.injEq] at h
    rw [← h.1]
    exact .nil
  | cons c cs ih =>
    intro previous out t h hg
    simp only [chunkLoop, Res.bind_eq_ok] at h
    obtain ⟨r, h1, h2⟩ := h
    split at h2
    · simp only [Res.bind_eq_ok, Res.ok.injEq, Prod.mk.injEq] at h2
      obtain ⟨r', h3, rest, h4, rfl, _⟩ := h2
      exact .cons (ha ctx c r'.1 r'.2 h3 (hg c (by simp))) (ih _ _ _ h4 (fun x hx => hg x (by simp [hx])))
    · simp only [Res.bind_eq_ok, Res.ok.injEq, Prod.mk.injEq] at h2
      obtain ⟨rest, h4, rfl, _⟩ := h2
      exact .cons (hr ctx c previous r.1 r.2 h1 (hg c (by simp))) (ih _ _ _ h4 (fun x hx => hg x (by simp [hx])))

theorem run_chunked (hsub : ∀ l, okIn l → ok l) (hl : LeafLaws env.toEnv leafRows okIn) (lb : LeafBulk env leafRows okIn) {rec : Ctx → Arr L → Option CTree → Res (Out L)}
    (hr : Sound env leafRows okIn ok rec) {again : Ctx → Arr L → Res (Out L)}
    (ha : ∀ ctx a b t, again ctx a = .ok (b, t) → Good env.toEnv leafRows okIn a → SameData env.toEnv leafRows ok a b)
    (ctx : Ctx) (a : Arr L) (like : Option CTree) (b : Arr L) (t : Option CTree)
    (h : runChunked env ch rec again ctx a like = .ok (b, t)) (hg : Good env.toEnv leafRows okIn a) : SameData env.toEnv leafRows ok a b := by
  unfold runChunked at h
  split at h
  · rename_i dt cs
    simp only [Res.bind_eq_ok, Res.ok.injEq, Prod.mk.injEq] at h
    obtain ⟨prev, _, less, h2, r, h3, x, h4, rfl, _⟩ := h
    obtain ⟨w1, w2⟩ := hg.wf
    obtain ⟨_, g2⟩ := hg.regular
    obtain ⟨c1, c2⟩ := hg.comp
    rw [WFs_iff] at w1
    rw [dtypes_eq] at w2
    rw [Regulars_iff] at g2
    rw [Comps_iff] at c1
    rw [Chks_iff] at c2
    have hP : ∀ c ∈ cs, (Good env.toEnv leafRows okIn c ∧ Chk env.toEnv leafRows c ∧ dtype env.toEnv c = dt) := fun c hc =>
      ⟨⟨w1 c hc, g2 c hc, c1 c hc⟩, c2 c hc, w2 _ (List.mem_map_of_mem hc)⟩
    obtain ⟨q, hrows⟩ := rechunk_sound (P := fun c => Good env.toEnv leafRows okIn c ∧ Chk env.toEnv leafRows c ∧ dtype env.toEnv c = dt)
      (Q := fun c => Good env.toEnv leafRows okIn c ∧ dtype env.toEnv c = dt) (rowsOf := rows env.toEnv leafRows)
      (fun c hc => ⟨hc.1, hc.2.2⟩)
      (fun cs b hb hne hc => by
        have := combine_ok hl lb hb hne (fun c h => (hc c h).1) (fun c h => (hc c h).2.1)
        exact ⟨⟨this.1, this.2.1⟩, this.2.2⟩) cs [] 0 0 less h2 (by simp) hP
    have hf := chunkLoop_ok hr ha ctx less prev r.1 r.2 h3 (fun c hc => (q c hc).1)
    simp only [mkChunked, Res.bind_eq_ok, Res.ok.injEq] at h4
    obtain ⟨_, h5, rfl⟩ := h4
    have h6 := guard_ok h5
    refine ⟨⟨?_, ?_⟩, by simp only [dtype], ?_⟩
    · rw [WFs_iff]
      intro c hc
      clear h3 h5 h6 hrows q h2
      generalize r.1 = out at hf hc
      induction hf with
      | nil => simp at hc
      | cons h1 _ ih =>
        simp only [List.mem_cons] at hc
        rcases hc with rfl | hc
        · exact h1.wf
        · exact ih hc
    · rw [dtypes_eq]; intro d hd; obtain ⟨c, hc, rfl⟩ := List.mem_map.mp hd; simpa using List.all_eq_true.mp h6 c hc
    · simp only [rows, rowsEach_eq]
      simp only [List.nil_append] at hrows
      rw [← hrows]
      clear h3 h5 h6 hrows q h2
      generalize r.1 = out at hf
      induction hf with
      | nil => rfl
      | cons h1 _ ih =>
        simp only [List.map_cons, List.flatten_cons, List.map_append, h1.rows, ih]
  · simp at h

/-! ### The driver -/

/-- What one compressor does, given that it accepts the array. -/
def RunSound (env : BEnv L) (leafRows : L → List SV) (okIn ok : L → Prop) (ch : Choice L) (runC : CId → Ctx → Arr L → Option CTree → Res (Out L)) : Prop :=
  ∀ i ctx a like b t, runC i ctx a like = .ok (b, t) → Good env.toEnv leafRows okIn a → canRun ch i a = true → SameData env.toEnv leafRows ok a b

/-- A compressor names itself in the tree it returns. -/
def RunRoot (runC : CId → Ctx → Arr L → Option CTree → Res (Out L)) : Prop :=
  ∀ i ctx a like b t, runC i ctx a like = .ok (b, some t) → t.id = i

theorem run_root (chunk : Ctx → Arr L → Option CTree → Res (Out L)) (hch : ∀ ctx a like b t, chunk ctx a like = .ok (b, some t) → t.id = .chunked)
    (rec : Ctx → Arr L → Option CTree → Res (Out L)) : RunRoot (run env ch rec chunk) := by
  intro i ctx a like b t h
  have leaf : ∀ i, runLeaf ch i a like = .ok (b, some t) → t.id = i := by
    intro i h
    simp only [runLeaf, Res.bind_eq_ok] at h
    obtain ⟨r, _, h⟩ := h
    cases r with
    | some l => simp only [Res.ok.injEq, Prod.mk.injEq, Option.some.injEq] at h; rw [← h.2]; rfl
    | none => simp at h
  cases i with
  | zigzag =>
    simp only [run, runZigzag] at h
    split at h
    · simp only [Res.bind_eq_ok, Res.ok.injEq, Prod.mk.injEq, Option.some.injEq] at h
      obtain ⟨_, _, _, _, _, _, _, _, _, h⟩ := h
      rw [← h]; rfl
    · simp at h
  | «for» =>
    simp only [run, runFor] at h
    split at h
    · simp only [Res.bind_eq_ok] at h
      obtain ⟨_, _, _, _, _, _, e, _, h⟩ := h
      simp only [finishFor] at h
      split at h
      · simp only [Res.bind_eq_ok, Res.ok.injEq, Prod.mk.injEq, Option.some.injEq] at h
        obtain ⟨_, _, _, _, _, _, _, h⟩ := h
        rw [← h]; rfl
      · simp only [Res.bind_eq_ok, Res.ok.injEq, Prod.mk.injEq, Option.some.injEq] at h
        obtain ⟨_, _, _, h⟩ := h
        rw [← h]; rfl
    · simp at h
  | dict =>
    simp only [run, runDict] at h
    split at h
    · simp only [Res.bind_eq_ok, Res.ok.injEq, Prod.mk.injEq, Option.some.injEq] at h
      obtain ⟨_, _, _, _, _, _, _, _, _, _, _, _, _, _, _, _, _, h⟩ := h
      rw [← h]; rfl
    · simp at h
  | runEnd =>
    simp only [run, runRunEnd] at h
    split at h
    · simp only [Res.bind_eq_ok, Res.ok.injEq, Prod.mk.injEq, Option.some.injEq] at h
      obtain ⟨_, _, _, _, _, _, _, _, _, _, _, h⟩ := h
      rw [← h]; rfl
    · simp at h
  | constant =>
    simp only [run, runConstant, Res.bind_eq_ok, Res.ok.injEq, Prod.mk.injEq, Option.some.injEq] at h
    obtain ⟨_, _, _, h⟩ := h
    rw [← h]; rfl
  | alp =>
    simp only [run, runAlp] at h
    split at h
    · simp only [Res.bind_eq_ok] at h
      obtain ⟨_, _, _, _, _, _, _, _, p, _, h⟩ := h
      split at h
      · simp only [Res.bind_eq_ok, Res.ok.injEq, Prod.mk.injEq, Option.some.injEq] at h
        obtain ⟨_, _, _, h⟩ := h
        rw [← h]; rfl
      · simp only [Res.bind_eq_ok, Res.ok.injEq, Prod.mk.injEq, Option.some.injEq] at h
        obtain ⟨_, _, _, h⟩ := h
        rw [← h]; rfl
    · simp at h
  | sparse =>
    simp only [run, runSparse] at h
    split at h
    · simp only [Res.bind_eq_ok, Res.ok.injEq, Prod.mk.injEq, Option.some.injEq] at h
      obtain ⟨_, _, _, _, _, _, _, h⟩ := h
      rw [← h]; rfl
    · simp at h
  | struct =>
    simp only [run, runStruct] at h
    split at h
    · simp only [Res.bind_eq_ok, Res.ok.injEq, Prod.mk.injEq, Option.some.injEq] at h
      obtain ⟨_, _, _, _, _, _, _, h⟩ := h
      rw [← h]; rfl
    · simp at h
  | chunked => exact hch _ _ _ _ _ h
  | alpRd => exact leaf _ h
  | bitPacked => exact leaf _ h
  | bitPackedNoPatches => exact leaf _ h
  | dateTimeParts => exact leaf _ h
  | delta => exact leaf _ h
  | fsst => exact leaf _ h
  | roaringBool => exact leaf _ h
  | roaringInt => exact leaf _ h

theorem run_sound (hsub : ∀ l, okIn l → ok l) (hl : LeafLaws env.toEnv leafRows okIn) (lb : LeafBulk env leafRows okIn) (hc : ChoiceLaws env.toEnv leafRows okIn ok ch)
    {rec : Ctx → Arr L → Option CTree → Res (Out L)} (hr : Sound env leafRows okIn ok rec) {chunk : Ctx → Arr L → Option CTree → Res (Out L)}
    (hch : Sound env leafRows okIn ok chunk) : RunSound env leafRows okIn ok ch (run env ch rec chunk) := by
  intro i ctx a like b t h hg hcan
  cases i with
  | zigzag => exact run_zigzag hr ctx a like b t h hg
  | «for» => exact run_for hsub hl lb hr ctx a like b t h hg
  | dict => exact run_dict hl lb hr ctx a like b t h hg
  | runEnd => exact run_runEnd hr ctx a like b t h hg
  | constant => exact run_constant hl hc a b t h hg (by simpa [canRun] using hcan)
  | alp => exact run_alp hc hr ctx a like b t h hg
  | sparse => exact run_sparse hr ctx a like b t h hg
  | struct => exact run_struct hl hr ctx a like b t h hg
  | chunked => exact hch ctx a like b t h hg
  | alpRd => exact run_leaf hsub hc .alpRd a like b t h hg (by simpa [canRun] using hcan)
  | bitPacked => exact run_leaf hsub hc .bitPacked a like b t h hg (by simpa [canRun] using hcan)
  | bitPackedNoPatches => exact run_leaf hsub hc .bitPackedNoPatches a like b t h hg (by simpa [canRun] using hcan)
  | dateTimeParts => exact run_leaf hsub hc .dateTimeParts a like b t h hg (by simpa [canRun] using hcan)
  | delta => exact run_leaf hsub hc .delta a like b t h hg (by simpa [canRun] using hcan)
  | fsst => exact run_leaf hsub hc .fsst a like b t h hg (by simpa [canRun] using hcan)
  | roaringBool => exact run_leaf hsub hc .roaringBool a like b t h hg (by simpa [canRun] using hcan)
  | roaringInt => exact run_leaf hsub hc .roaringInt a like b t h hg (by simpa [canRun] using hcan)

/-- What the search returns: the best so far, nothing, or what a candidate made of the sample. -/
theorem findBest_ok {runC : CId → Ctx → Arr L → Option CTree → Res (Out L)} {ctx : Ctx} {sample : Arr L} (is : List CId) :
    ∀ (best : Option (Out L)) (r : Out L), findBest ch runC ctx sample best is = .ok r →
      r = best.getD (sample, none) ∨ ∃ i ∈ is, canRun ch i sample = true ∧ runC i (ctx.forCompressor ch i) sample none = .ok r := by
  induction is with
  | nil =>
    intro best r h
    simp only [findBest, Res.ok.injEq] at h
    exact .inl h.symm
  | cons i is ih =>
    intro best r h
    have lift : ∀ {r}, (∃ j ∈ is, canRun ch j sample = true ∧ runC j (ctx.forCompressor ch j) sample none = .ok r) →
        ∃ j ∈ i :: is, canRun ch j sample = true ∧ runC j (ctx.forCompressor ch j) sample none = .ok r := by
      rintro r ⟨j, hj, hh⟩; exact ⟨j, by simp [hj], hh⟩
    simp only [findBest] at h
    split at h
    · rename_i hcan
      simp only [Res.bind_eq_ok] at h
      obtain ⟨x, h1, h2⟩ := h
      split at h2
      · rcases ih _ _ h2 with h3 | h3
        · simp only [Option.getD_some] at h3
          subst h3
          exact .inr ⟨i, by simp, hcan, h1⟩
        · exact .inr (lift h3)
      · rcases ih _ _ h2 with h3 | h3
        · exact .inl h3
        · exact .inr (lift h3)
    · rcases ih _ _ h with h3 | h3
      · exact .inl h3
      · exact .inr (lift h3)

theorem candidates_can {ctx : Ctx} {a : Arr L} {i : CId} (h : i ∈ candidates ch ctx a) : canRun ch i a = true := by
  simp only [candidates] at h
  have : i ∈ ctx.compressors.filter (fun i => !ctx.disabled.contains i && canRun ch i a && decide (ctx.depth + ch.cost i ≤ ch.maxCost)) := by
    split at h
    · exact (List.mem_filter.mp h).1
    · exact h
  have := (List.mem_filter.mp this).2
  simp only [Bool.and_eq_true] at this
  exact this.1.2

theorem compressPlain_ok (hsub : ∀ l, okIn l → ok l) {runC : CId → Ctx → Arr L → Option CTree → Res (Out L)} (hs : RunSound env leafRows okIn ok ch runC) (hroot : RunRoot runC)
    {ctx : Ctx} {a b : Arr L} {t : Option CTree} (h : compressPlain ch runC ctx a = .ok (b, t)) (hg : Good env.toEnv leafRows okIn a) :
    SameData env.toEnv leafRows ok a b := by
  simp only [compressPlain] at h
  split at h
  · simp only [Res.ok.injEq, Prod.mk.injEq] at h
    rw [← h.1]; exact .refl (WF_mono hsub _ hg.wf)
  · split at h
    · rcases findBest_ok _ _ _ h with h1 | ⟨i, _, hcan, h1⟩
      · simp only [Option.getD_none, Prod.mk.injEq] at h1
        rw [h1.1]; exact .refl (WF_mono hsub _ hg.wf)
      · exact hs _ _ _ _ _ _ h1 hg hcan
    · simp only [Res.bind_eq_ok] at h
      obtain ⟨s, _, r, h2, h3⟩ := h
      split at h3
      · rename_i t' ht
        rcases findBest_ok _ _ _ h2 with h1 | ⟨i, hi, hcan, h1⟩
        · rw [h1] at ht; simp at ht
        · have e : t'.id = i := hroot i _ s none r.1 t' (by rw [h1, ← ht])
          subst e
          exact hs _ _ _ _ _ _ h3 hg (candidates_can hi)
      · simp only [Res.ok.injEq, Prod.mk.injEq] at h3
        rw [← h3.1]; exact .refl (WF_mono hsub _ hg.wf)

theorem compressArray_ok (hsub : ∀ l, okIn l → ok l) {runC : CId → Ctx → Arr L → Option CTree → Res (Out L)} (hs : RunSound env leafRows okIn ok ch runC) (hroot : RunRoot runC)
    {ctx : Ctx} {a b : Arr L} {t : Option CTree} (h : compressArray ch runC ctx a = .ok (b, t)) (hg : Good env.toEnv leafRows okIn a) :
    SameData env.toEnv leafRows ok a b := by
  unfold compressArray at h
  split at h
  · simp only [Res.ok.injEq, Prod.mk.injEq] at h
    rw [← h.1]; exact .refl (WF_mono hsub _ hg.wf)
  · exact hs _ _ _ _ _ _ h hg rfl
  · exact hs _ _ _ _ _ _ h hg rfl
  · split at h
    · rename_i hcan
      exact hs _ _ _ _ _ _ h hg (by simpa [canRun] using hcan)
    · exact compressPlain_ok hsub hs hroot h hg

theorem compressLike_ok (hsub : ∀ l, okIn l → ok l) {runC : CId → Ctx → Arr L → Option CTree → Res (Out L)} (hs : RunSound env leafRows okIn ok ch runC) (hroot : RunRoot runC)
    {ctx : Ctx} {a b : Arr L} {like t : Option CTree} (h : compressLike ch runC ctx a like = .ok (b, t)) (hg : Good env.toEnv leafRows okIn a) :
    SameData env.toEnv leafRows ok a b := by
  unfold compressLike at h
  split at h
  · split at h
    · rename_i hcan
      exact hs _ _ _ _ _ _ h hg hcan
    · exact compressArray_ok hsub hs hroot h hg
  · exact compressArray_ok hsub hs hroot h hg

theorem runs_root {rec : Ctx → Arr L → Option CTree → Res (Out L)} : ∀ n, RunRoot (runs env ch rec n)
  | 0 => by intro i ctx a like b t h; simp [runs] at h
  | n + 1 => by
    rw [runs]
    apply run_root
    intro ctx a like b t h
    unfold runChunked at h
    split at h
    · simp only [Res.bind_eq_ok, Res.ok.injEq, Prod.mk.injEq, Option.some.injEq] at h
      obtain ⟨_, _, _, _, _, _, _, _, _, h⟩ := h
      rw [← h]; rfl
    · simp at h

theorem runs_sound (hsub : ∀ l, okIn l → ok l) (hl : LeafLaws env.toEnv leafRows okIn) (lb : LeafBulk env leafRows okIn) (hc : ChoiceLaws env.toEnv leafRows okIn ok ch)
    {rec : Ctx → Arr L → Option CTree → Res (Out L)} (hr : Sound env leafRows okIn ok rec) : ∀ n, RunSound env leafRows okIn ok ch (runs env ch rec n)
  | 0 => by intro i ctx a like b t h; simp [runs] at h
  | n + 1 => by
    rw [runs]
    apply run_sound hsub hl lb hc hr
    intro ctx a like b t h hg
    exact run_chunked hsub hl lb hr (fun ctx a b t h hg => compressArray_ok hsub (runs_sound hsub hl lb hc hr n) (runs_root n) h hg) ctx a like b t h hg

/-- `compress` keeps the data. -/
theorem compress_sound (hsub : ∀ l, okIn l → ok l) (hl : LeafLaws env.toEnv leafRows okIn) (lb : LeafBulk env leafRows okIn) (hc : ChoiceLaws env.toEnv leafRows okIn ok ch) :
    ∀ n, Sound env leafRows okIn ok (compress env ch n)
  | 0 => by intro ctx a like b t h; simp [compress] at h
  | n + 1 => by
    intro ctx a like b t h hg
    simp only [compress] at h
    split at h
    · simp only [Res.ok.injEq, Prod.mk.injEq] at h
      rw [← h.1]; exact .refl (WF_mono hsub _ hg.wf)
    · exact compressLike_ok hsub (runs_sound hsub hl lb hc (compress_sound hsub hl lb hc n) (n + 1)) (runs_root (n + 1)) h hg

end Vx.Tree
