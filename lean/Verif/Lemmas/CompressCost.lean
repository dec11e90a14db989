import Verif.Spec.CompressCost
import Verif.Lemmas.UsedEncodings
/-! # Lemmas for C117 -/
namespace Vx.Tree

variable {L : Type} {env : BEnv L} {ch : Choice L} {lc : L → Nat}

theorem nestCostAll_le {w : CId → Nat} {K : Nat} : ∀ {cs : List (Arr L)}, nestCostAll w lc cs ≤ K ↔ ∀ c ∈ cs, nestCost w lc c ≤ K
  | [] => by simp [nestCostAll]
  | c :: cs => by simp [nestCostAll, Nat.max_le, nestCostAll_le (cs := cs)]

theorem costAll_le {w : CId → Nat} {K : Nat} : ∀ {cs : List (Option CTree)}, CTree.costAll w cs ≤ K ↔ ∀ c ∈ cs, CTree.costO w c ≤ K
  | [] => by simp [CTree.costAll]
  | c :: cs => by simp [CTree.costAll, Nat.max_le, costAll_le (cs := cs)]

theorem nestCost_ofValidity {w : CId → Nat} (v : Validity) : nestCostV w lc (ofValidity v : TVal (Arr L)) = 0 := by
  cases v <;> simp [ofValidity, nestCostV, nestCost]

/-- The children of a reused tree fit. -/
def Fit (ch : Choice L) (d : Nat) (t : Option CTree) : Prop := d ≤ ch.maxCost ∧ d + CTree.costO ch.cost t ≤ ch.maxCost

theorem fit_none {d : Nat} (h : d ≤ ch.maxCost) : Fit ch d none := ⟨h, by simpa [CTree.costO] using h⟩

def FitAll (ch : Choice L) (d : Nat) (t : Option CTree) : Prop := ∀ x, t = some x → ∀ c ∈ x.children, Fit ch d c

theorem fitAll_none {d : Nat} : FitAll ch d none := by intro x h; cases h

theorem fit_node {d : Nat} {i : CId} {cs : List (Option CTree)} (hd : d ≤ ch.maxCost) :
    Fit ch d (some (.node i cs)) ↔ d + ch.cost i + CTree.costAll ch.cost cs ≤ ch.maxCost := by
  simp only [Fit, CTree.costO, CTree.cost]
  omega

theorem fitAll_of_fit {d : Nat} {t : CTree} (h : Fit ch d (some t)) : FitAll ch (d + ch.cost t.id) (some t) := by
  obtain ⟨i, cs⟩ := t
  intro x hx c hc
  cases hx
  have h1 := (fit_node h.1).mp h
  simp only [CTree.id]
  have h2 : CTree.costO ch.cost c ≤ CTree.costAll ch.cost cs := costAll_le.mp (Nat.le_refl _) c hc
  exact ⟨by omega, by omega⟩

theorem fit_of_children {d : Nat} {t : CTree} (h : d + ch.cost t.id ≤ ch.maxCost) (hc : FitAll ch (d + ch.cost t.id) (some t)) : Fit ch d (some t) := by
  obtain ⟨i, cs⟩ := t
  simp only [CTree.id] at h hc
  rw [fit_node (by omega)]
  have : CTree.costAll ch.cost cs ≤ ch.maxCost - (d + ch.cost i) := costAll_le.mpr (fun c hm => by have := hc _ rfl c hm; unfold Fit at this; omega)
  omega

theorem fit_childOf {d : Nat} {like l : Option CTree} {i : Nat} (hd : d ≤ ch.maxCost) (h : FitAll ch d like) (hc : childOf like i = .ok l) : Fit ch d l := by
  cases like with
  | none => simp only [childOf, Res.ok.injEq] at hc; subst hc; exact fit_none hd
  | some t =>
    simp only [childOf] at hc
    cases hx : t.children[i]? with
    | none => rw [hx] at hc; simp [Res.unwrap] at hc
    | some c =>
      rw [hx] at hc
      simp only [Res.unwrap, Res.ok.injEq] at hc
      subst hc
      exact h t rfl _ (List.mem_of_getElem? hx)

/-- Shorthand: the cost with the compressors' costs. -/
abbrev nc (ch : Choice L) (lc : L → Nat) (a : Arr L) : Nat := nestCost ch.cost lc a

/-- Compressing adds no more cost than allowed. -/
def RecC (env : BEnv L) (ch : Choice L) (lc : L → Nat) (rec : Ctx → Arr L → Option CTree → Res (Out L)) : Prop :=
  ∀ ctx a like b t, rec ctx a like = .ok (b, t) → ctx.depth ≤ ch.maxCost → (∀ x, like = some x → canRun ch x.id a = true → Fit ch ctx.depth like) →
    Fit ch ctx.depth t ∧ (Rechunkable env.toEnv a → ctx.depth + nc ch lc b ≤ ch.maxCost + nc ch lc a)

variable {rec : Ctx → Arr L → Option CTree → Res (Out L)}

theorem rec_use (hr : RecC env ch lc rec) {ctx : Ctx} {a : Arr L} {like : Option CTree} {r : Out L} (h : rec ctx a like = .ok r) (hf : Fit ch ctx.depth like) :
    Fit ch ctx.depth r.2 ∧ (Rechunkable env.toEnv a → ctx.depth + nc ch lc r.1 ≤ ch.maxCost + nc ch lc a) :=
  hr ctx a like r.1 r.2 h hf.1 (fun _ _ _ => hf)

theorem fitAll_node {d : Nat} {i : CId} {cs : List (Option CTree)} (h : ∀ c ∈ cs, Fit ch d c) : FitAll ch d (some (.node i cs)) := by
  intro x hx
  cases hx
  exact h

theorem compressV_c (hr : RecC env ch lc rec) {ctx : Ctx} {v w : TVal (Arr L)} (h : compressV rec ctx v = .ok w) (hd : ctx.depth ≤ ch.maxCost)
    (hv : RechunkableV env.toEnv v) : ctx.depth + nestCostV ch.cost lc w ≤ ch.maxCost + nestCostV ch.cost lc v := by
  cases v with
  | array a =>
    simp only [compressV, Res.bind_eq_ok, Res.ok.injEq] at h
    obtain ⟨r, h1, rfl⟩ := h
    exact (rec_use hr h1 (fit_none hd)).2 hv
  | _ =>
    simp only [compressV, Res.ok.injEq] at h
    subst h
    simp only [nestCostV]; omega

theorem zigzag_c (hr : RecC env ch lc rec) {ctx : Ctx} {a b : Arr L} {like t : Option CTree}
    (h : runZigzag env rec ctx a like = .ok (b, t)) (hd : ctx.depth ≤ ch.maxCost) (hl : FitAll ch ctx.depth like) :
    FitAll ch ctx.depth t ∧ (Rechunkable env.toEnv a → ctx.depth + nc ch lc b ≤ ch.maxCost + nc ch lc a + ch.cost .zigzag) := by
  unfold runZigzag at h
  split at h
  · simp only [Res.bind_eq_ok, Res.ok.injEq, Prod.mk.injEq] at h
    obtain ⟨_, _, l, h1, r, h2, x, h3, rfl, rfl⟩ := h
    obtain ⟨q1, q2⟩ := rec_use hr h2 (fit_childOf hd hl h1)
    refine ⟨fitAll_node (by simpa [Ctx.excluding, Ctx.auxiliary, Ctx.including] using q1), fun ha => ?_⟩
    rw [mkMapped_eq h3]
    have := q2 ha
    simp only [nc, nestCost, Codec.compressor] at this ⊢
    omega
  · simp at h

theorem for_c (hs : CostLaws ch lc) (hr : RecC env ch lc rec) {ctx : Ctx} {a b : Arr L} {like t : Option CTree}
    (h : runFor env rec ctx a like = .ok (b, t)) (hd : ctx.depth ≤ ch.maxCost) (hl : FitAll ch ctx.depth like)
    (hroot : ∀ x, like = some x → x.id = .for) :
    FitAll ch ctx.depth t ∧ (Rechunkable env.toEnv a → ctx.depth + nc ch lc b ≤ ch.maxCost + nc ch lc a + ch.cost .for) := by
  unfold runFor at h
  split at h
  · rename_i p vals v
    simp only [Res.bind_eq_ok] at h
    obtain ⟨_, _, lv, _, f, _, e, h1, h⟩ := h
    have he : (e.1 = none → nc ch lc e.2 = 0 ∧ Rechunkable env.toEnv e.2 ∧ ∀ k xs v, e.2 ≠ .flat k xs v) ∧
        ∀ x, e.1 = some x → nc ch lc x.1 = nestCostV ch.cost lc v ∧ (RechunkableV env.toEnv v → Rechunkable env.toEnv x.1) := by
      cases f with
      | forArr f r s =>
        simp only [ofForEncoded, Res.ok.injEq] at h1
        subst h1
        exact ⟨by simp, by intro x hx; simp only [Option.some.injEq] at hx; subst hx; exact ⟨rfl, id⟩⟩
      | constant o n =>
        cases o with
        | some b =>
          simp only [ofForEncoded, Res.ok.injEq] at h1
          subst h1
          exact ⟨fun _ => ⟨rfl, trivial, by simp⟩, by simp⟩
        | none =>
          simp only [ofForEncoded, Res.ok.injEq] at h1
          subst h1
          exact ⟨fun _ => ⟨rfl, trivial, by simp⟩, by simp⟩
      | sparseZero is n =>
        simp only [ofForEncoded, Res.bind_eq_ok, Res.ok.injEq] at h1
        obtain ⟨x, h2, rfl⟩ := h1
        rw [mkSparse_eq h2]
        exact ⟨fun _ => ⟨by simp [nc, nestCost, hs.sparse], trivial, by simp⟩, by simp⟩
    simp only [finishFor] at h
    split at h
    · rename_i enc r s he1
      simp only [Res.bind_eq_ok, Res.ok.injEq, Prod.mk.injEq] at h
      obtain ⟨l, h2, c, h3, x, h4, rfl, rfl⟩ := h
      obtain ⟨q1, q2⟩ := rec_use hr h3 (fit_childOf hd hl h2)
      refine ⟨fitAll_node (by simpa [Ctx.excluding, Ctx.auxiliary, Ctx.including] using q1), fun ha => ?_⟩
      rw [mkMapped_eq h4]
      obtain ⟨g1, g2⟩ := he.2 _ he1
      have := q2 (g2 ha)
      simp only [nc, nestCost, Codec.compressor, Ctx.excluding] at this g1 ⊢
      omega
    · rename_i he1
      simp only [Res.bind_eq_ok, Res.ok.injEq, Prod.mk.injEq] at h
      obtain ⟨c, h3, rfl, rfl⟩ := h
      obtain ⟨g1, g2, g3⟩ := he.1 he1
      obtain ⟨q1, q2⟩ := hr (ctx.excluding .for) e.2 like c.1 c.2 h3 hd (by
        intro x hx hcan
        rw [hroot x hx] at hcan
        obtain ⟨k, xs, v, hh⟩ := hs.takesFor _ hcan
        exact absurd hh (g3 k xs v))
      refine ⟨fitAll_node (by simpa [Ctx.excluding, Ctx.auxiliary, Ctx.including] using q1), fun ha => ?_⟩
      have := q2 g2
      rw [g1] at this
      simp only [nc, Ctx.excluding] at this ⊢
      omega
  · simp at h

theorem dict_c (hr : RecC env ch lc rec) {ctx : Ctx} {a b : Arr L} {like t : Option CTree}
    (h : runDict env rec ctx a like = .ok (b, t)) (hd : ctx.depth ≤ ch.maxCost) (hl : FitAll ch ctx.depth like) :
    FitAll ch ctx.depth t ∧ (Rechunkable env.toEnv a → ctx.depth + nc ch lc b ≤ ch.maxCost + nc ch lc a + ch.cost .dict) := by
  unfold runDict at h
  split at h
  · simp only [Res.bind_eq_ok, Res.ok.injEq, Prod.mk.injEq] at h
    obtain ⟨_, _, lv, _, _, _, l0, h0, c, h1, l1, h2, w, h3, x, h4, rfl, rfl⟩ := h
    obtain ⟨q1, q2⟩ := rec_use hr h1 (fit_childOf hd hl h0)
    obtain ⟨q3, q4⟩ := rec_use hr h3 (fit_childOf hd hl h2)
    refine ⟨fitAll_node (by simpa using ⟨q1, q3⟩), fun ha => ?_⟩
    rw [mkDict_eq h4]
    have e1 := q2 trivial
    have e2 := q4 (rechunkableV_ofValidity _)
    simp only [nc, nestCost, nestCostV, nestCost_ofValidity, Ctx.excluding, Ctx.auxiliary] at e1 e2 ⊢
    omega
  · simp at h

theorem runEnd_c (hr : RecC env ch lc rec) {ctx : Ctx} {a b : Arr L} {like t : Option CTree}
    (h : runRunEnd env rec ctx a like = .ok (b, t)) (hd : ctx.depth ≤ ch.maxCost) (hl : FitAll ch ctx.depth like) :
    FitAll ch ctx.depth t ∧ (Rechunkable env.toEnv a → ctx.depth + nc ch lc b ≤ ch.maxCost + nc ch lc a + ch.cost .runEnd) := by
  unfold runRunEnd at h
  split at h
  · rename_i p vals v
    simp only [Res.bind_eq_ok, Res.ok.injEq, Prod.mk.injEq] at h
    obtain ⟨_, _, l1, h1, w, h2, v', h3, x, h4, rfl, rfl⟩ := h
    obtain ⟨q1, q2⟩ := rec_use hr h2 (fit_childOf hd hl h1)
    refine ⟨fitAll_node (by simpa using ⟨fit_none hd, q1⟩), fun ha => ?_⟩
    rw [mkRunEnd_eq h4]
    have e1 := q2 (by simp only [Rechunkable]; split <;> trivial)
    have e2 := compressV_c hr h3 hd ha
    have e3 : nestCostV ch.cost lc (if v.nullable then TVal.allValid else .nonNullable : TVal (Arr L)) = 0 := by split <;> rfl
    simp only [nc, nestCost, e3, Ctx.excluding] at e1 e2 ⊢
    omega
  · simp at h

theorem constant_c {ctx : Ctx} {a b : Arr L} {t : Option CTree} (h : runConstant env a = .ok (b, t)) (hd : ctx.depth ≤ ch.maxCost) :
    FitAll ch ctx.depth t ∧ (Rechunkable env.toEnv a → ctx.depth + nc ch lc b ≤ ch.maxCost + nc ch lc a + ch.cost .constant) := by
  simp only [runConstant, Res.bind_eq_ok, Res.ok.injEq, Prod.mk.injEq] at h
  obtain ⟨x, _, rfl, rfl⟩ := h
  exact ⟨fitAll_node (by simp), fun _ => by simp only [nc, nestCost]; omega⟩

theorem alp_c (hs : CostLaws ch lc) (hr : RecC env ch lc rec) {ctx : Ctx} {a b : Arr L} {like t : Option CTree}
    (h : runAlp env ch rec ctx a like = .ok (b, t)) (hd : ctx.depth ≤ ch.maxCost) (hl : FitAll ch ctx.depth like) :
    FitAll ch ctx.depth t ∧ (Rechunkable env.toEnv a → ctx.depth + nc ch lc b ≤ ch.maxCost + nc ch lc a + ch.cost .alp) := by
  unfold runAlp at h
  split at h
  · rename_i p vals v
    simp only [Res.bind_eq_ok] at h
    obtain ⟨ip, _, x, _, l0, h1, enc, h2, ps, h3, h⟩ := h
    obtain ⟨q1, q2⟩ := rec_use hr h2 (fit_childOf hd hl h1)
    have hp : ∀ pt, ps = some pt → Fit ch ctx.depth pt.2 ∧ ctx.depth + nc ch lc pt.1 ≤ ch.maxCost := by
      rintro pt rfl
      simp only [runPatches] at h3
      split at h3
      · simp at h3
      · simp only [Res.bind_eq_ok, Res.ok.injEq, Option.some.injEq] at h3
        obtain ⟨l1, g1, xs, _, s, g2, r, g3, rfl⟩ := h3
        obtain ⟨g4, g5⟩ := rec_use hr g3 (fit_childOf hd hl g1)
        refine ⟨g4, ?_⟩
        rw [mkSparse_eq g2] at g5
        have := g5 trivial
        simp only [nc, nestCost, nestCostV, hs.sparse, Ctx.including, Ctx.excluding, Ctx.auxiliary] at this ⊢
        omega
    have ha' : Rechunkable env.toEnv (.flat (.prim p) vals v) → ctx.depth + nc ch lc enc.1 ≤ ch.maxCost + nestCostV ch.cost lc v := fun ha => by
      have := q2 ha
      simp only [nc, nestCost, Ctx.excluding] at this ⊢
      omega
    split at h
    · simp only [Res.bind_eq_ok, Res.ok.injEq, Prod.mk.injEq] at h
      obtain ⟨y, h4, rfl, rfl⟩ := h
      refine ⟨fitAll_node (by simpa using ⟨q1, fit_none hd⟩), fun ha => ?_⟩
      rw [mkMapped_eq h4]
      have := ha' ha
      simp only [nc, nestCost, Codec.compressor] at this ⊢
      omega
    · rename_i pt
      simp only [Res.bind_eq_ok, Res.ok.injEq, Prod.mk.injEq] at h
      obtain ⟨y, h4, rfl, rfl⟩ := h
      obtain ⟨g1, g2⟩ := hp pt rfl
      refine ⟨fitAll_node (by simpa using ⟨q1, g1⟩), fun ha => ?_⟩
      rw [mkAlpP_eq h4]
      have := ha' ha
      simp only [nc, nestCost] at this g2 ⊢
      omega
  · simp at h

theorem sparse_c (hr : RecC env ch lc rec) {ctx : Ctx} {a b : Arr L} {like t : Option CTree}
    (h : runSparse env rec ctx a like = .ok (b, t)) (hd : ctx.depth ≤ ch.maxCost) (hl : FitAll ch ctx.depth like) :
    FitAll ch ctx.depth t ∧ (Rechunkable env.toEnv a → ctx.depth + nc ch lc b ≤ ch.maxCost + nc ch lc a + ch.cost .sparse) := by
  unfold runSparse at h
  split at h
  · simp only [Res.bind_eq_ok, Res.ok.injEq, Prod.mk.injEq] at h
    obtain ⟨l0, h1, r, h2, x, h3, rfl, rfl⟩ := h
    obtain ⟨q1, q2⟩ := rec_use hr h2 (fit_childOf hd hl h1)
    refine ⟨fitAll_node (by simpa using ⟨fit_none hd, q1⟩), fun ha => ?_⟩
    rw [mkSparse_eq h3]
    have := q2 ha
    simp only [nc, nestCost] at this ⊢
    omega
  · simp at h

theorem runFields_c (hr : RecC env ch lc rec) {ctx : Ctx} {K : Nat} : ∀ (fs : List (Arr L)) (ts : List (Option CTree)) (rs : List (Out L)),
    runFields rec ctx fs ts = .ok rs → (∀ t ∈ ts, Fit ch ctx.depth t) →
      (∀ r ∈ rs, Fit ch ctx.depth r.2) ∧ ((∀ f ∈ fs, Rechunkable env.toEnv f ∧ nc ch lc f ≤ K) → ∀ r ∈ rs, ctx.depth + nc ch lc r.1 ≤ ch.maxCost + K)
  | [], [], rs, h, _ => by simp only [runFields, Res.ok.injEq] at h; subst h; simp
  | [], _ :: _, rs, h, _ => by simp [runFields] at h
  | _ :: _, [], rs, h, _ => by simp [runFields] at h
  | f :: fs, t :: ts, rs, h, ht => by
    simp only [runFields, Res.bind_eq_ok, Res.ok.injEq] at h
    obtain ⟨r, h1, rs', h2, rfl⟩ := h
    obtain ⟨q1, q2⟩ := rec_use hr h1 (ht t (by simp))
    obtain ⟨q3, q4⟩ := runFields_c hr fs ts rs' h2 (fun t h => ht t (by simp [h]))
    refine ⟨?_, fun hf => ?_⟩
    · intro x hx
      simp only [List.mem_cons] at hx
      rcases hx with rfl | hx
      · exact q1
      · exact q3 x hx
    · intro x hx
      simp only [List.mem_cons] at hx
      rcases hx with rfl | hx
      · have := q2 (hf f (by simp)).1
        have := (hf f (by simp)).2
        omega
      · exact q4 (fun f h => hf f (by simp [h])) x hx

theorem struct_c (hr : RecC env ch lc rec) {ctx : Ctx} {a b : Arr L} {like t : Option CTree}
    (h : runStruct env rec ctx a like = .ok (b, t)) (hd : ctx.depth ≤ ch.maxCost) (hl : FitAll ch ctx.depth like) :
    FitAll ch ctx.depth t ∧ (Rechunkable env.toEnv a → ctx.depth + nc ch lc b ≤ ch.maxCost + nc ch lc a + ch.cost .struct) := by
  unfold runStruct at h
  split at h
  · rename_i names fs n v
    simp only [Res.bind_eq_ok, Res.ok.injEq, Prod.mk.injEq] at h
    obtain ⟨v', h1, rs, h2, x, h3, rfl, rfl⟩ := h
    obtain ⟨q1, q2⟩ := runFields_c (K := nestCostAll ch.cost lc fs) hr _ _ _ h2 (by
      cases like with
      | none => intro t ht; simp only [List.mem_replicate] at ht; rw [ht.2]; exact fit_none hd
      | some t => exact hl t rfl)
    refine ⟨fitAll_node ?_, fun ha => ?_⟩
    · intro t ht
      obtain ⟨r, hr', rfl⟩ := List.mem_map.mp ht
      exact q1 r hr'
    · obtain ⟨c1, c2⟩ := ha
      rw [mkStruct_eq h3]
      have e1 := compressV_c hr h1 hd c2
      have e2 : nestCostAll ch.cost lc (rs.map (·.1)) ≤ ch.maxCost + nestCostAll ch.cost lc fs - ctx.depth := by
        rw [nestCostAll_le]
        intro c hc
        obtain ⟨r, hr', rfl⟩ := List.mem_map.mp hc
        have := q2 (fun f hf => ⟨rechunkableAll_iff.mp c1 f hf, nestCostAll_le.mp (Nat.le_refl _) f hf⟩) r hr'
        simp only [nc] at this
        omega
      simp only [nc, nestCost] at e1 e2 ⊢
      omega
  · simp at h

theorem leaf_c (hs : CostLaws ch lc) {ctx : Ctx} {i : CId} {a b : Arr L} {like t : Option CTree}
    (h : runLeaf ch i a like = .ok (b, t)) (hd : ctx.depth ≤ ch.maxCost) :
    FitAll ch ctx.depth t ∧ (Rechunkable env.toEnv a → ctx.depth + nc ch lc b ≤ ch.maxCost + nc ch lc a + ch.cost i) := by
  simp only [runLeaf, Res.bind_eq_ok] at h
  obtain ⟨r, h1, h⟩ := h
  cases r with
  | some l =>
    simp only [Res.ok.injEq, Prod.mk.injEq] at h
    obtain ⟨rfl, rfl⟩ := h
    refine ⟨fitAll_node (by simp), fun _ => ?_⟩
    have := hs.leaf i a like l h1
    simp only [nc, nestCost]
    omega
  | none =>
    simp only [Res.ok.injEq, Prod.mk.injEq] at h
    obtain ⟨rfl, rfl⟩ := h
    exact ⟨fitAll_none, fun _ => by omega⟩

/-! ### Chunks -/

theorem chunkLike_c {d : Nat} {like prev : Option CTree} (hd : d ≤ ch.maxCost) (hl : FitAll ch d like) (h : chunkLike like = .ok prev) : Fit ch d prev := by
  cases like with
  | none => simp only [chunkLike, Res.ok.injEq] at h; subst h; exact fit_none hd
  | some t =>
    simp only [chunkLike] at h
    split at h
    · rename_i c hc
      simp only [Res.ok.injEq] at h
      subst h
      exact hl t rfl _ (by rw [hc]; simp)
    · simp at h

theorem chunkLoop_c (hr : RecC env ch lc rec) {again : Ctx → Arr L → Res (Out L)} {K : Nat}
    (ha : ∀ ctx a b t, again ctx a = .ok (b, t) → ctx.depth ≤ ch.maxCost →
      Fit ch ctx.depth t ∧ (Rechunkable env.toEnv a → ctx.depth + nc ch lc b ≤ ch.maxCost + nc ch lc a)) {ctx : Ctx} (hd : ctx.depth ≤ ch.maxCost) :
    ∀ (cs : List (Arr L)) (prev : Option CTree) (out : List (Arr L)) (t : Option CTree), chunkLoop ch rec again ctx prev cs = .ok (out, t) →
      Fit ch ctx.depth prev →
      Fit ch ctx.depth t ∧ ((∀ c ∈ cs, Rechunkable env.toEnv c ∧ nc ch lc c ≤ K) → ∀ c ∈ out, ctx.depth + nc ch lc c ≤ ch.maxCost + K) := by
  intro cs
  induction cs with
  | nil =>
    intro prev out t h hp
    simp only [chunkLoop, Res.ok.injEq, Prod.mk.injEq] at h
    obtain ⟨rfl, rfl⟩ := h
    exact ⟨hp, by simp⟩
  | cons c cs ih =>
    intro prev out t h hp
    simp only [chunkLoop, Res.bind_eq_ok] at h
    obtain ⟨r, h1, h2⟩ := h
    obtain ⟨q1, q2⟩ := rec_use hr h1 hp
    split at h2
    · simp only [Res.bind_eq_ok, Res.ok.injEq, Prod.mk.injEq] at h2
      obtain ⟨r', h3, rest, h4, rfl, rfl⟩ := h2
      obtain ⟨q3, q4⟩ := ha ctx c r'.1 r'.2 h3 hd
      obtain ⟨q5, q6⟩ := ih _ rest.1 rest.2 h4 q3
      refine ⟨q5, fun hi => ?_⟩
      intro x hx
      simp only [List.mem_cons] at hx
      rcases hx with rfl | hx
      · have := q4 (hi c (by simp)).1
        have := (hi c (by simp)).2
        omega
      · exact q6 (fun c h => hi c (by simp [h])) x hx
    · simp only [Res.bind_eq_ok, Res.ok.injEq, Prod.mk.injEq] at h2
      obtain ⟨rest, h4, rfl, rfl⟩ := h2
      obtain ⟨q5, q6⟩ := ih _ rest.1 rest.2 h4 (by
        cases prev with
        | some t => exact hp
        | none => exact q1)
      refine ⟨q5, fun hi => ?_⟩
      intro x hx
      simp only [List.mem_cons] at hx
      rcases hx with rfl | hx
      · have := q2 (hi c (by simp)).1
        have := (hi c (by simp)).2
        omega
      · exact q6 (fun c h => hi c (by simp [h])) x hx

theorem combine_c {dt : DType} {cs : List (Arr L)} {b : Arr L} {K : Nat} (h : combine env dt cs = .ok b)
    (hi : ∀ c ∈ cs, Rechunkable env.toEnv c ∧ nc ch lc c ≤ K) (hk : ∀ c ∈ cs, ChunkOk env.toEnv c) : Rechunkable env.toEnv b ∧ nc ch lc b ≤ K := by
  have hc : Inp env (fun _ => []) (fun _ => True) b :=
    combine_in (fun _ _ => trivial) h (fun c hc => ⟨fun _ _ => trivial, (hi c hc).1⟩) hk
  refine ⟨hc.chunks, ?_⟩
  clear hc
  simp only [combine, Res.bind_eq_ok] at h
  obtain ⟨a, h1, h2⟩ := h
  obtain ⟨rfl, hdt⟩ := mkChunked_eq h1
  have other : ∀ c, (kindOf (dtype env.toEnv c)).isSome = true → ∀ d, kindOf d = none → dtype env.toEnv c ≠ d := by
    intro c h d hd e; rw [e, hd] at h; simp at h
  split at h2
  · rename_i names ds nl
    have hp : ∀ c ∈ cs, ∃ fs n v, c = .struct names fs n v := by
      intro c hc
      have hd := hdt c hc
      have hkc := hk c hc
      cases c with
      | struct ns fs n v => simp only [dtype, DType.struct.injEq] at hd; exact ⟨fs, n, v, by rw [hd.1]⟩
      | ext id m s => simp [dtype] at hd
      | null n => simp [dtype] at hd
      | _ => exact absurd hd (other _ hkc _ rfl)
    obtain ⟨ps, rfl⟩ := struct_parts cs hp
    simp only [Res.bind_eq_ok] at h2
    obtain ⟨v, g1, gs, g2, g3⟩ := h2
    have hlen : ∀ p ∈ ps, p.1.length = ds.length := by
      intro p hp
      have hd := hdt _ (List.mem_map_of_mem hp)
      simp only [mkPart, dtype, DType.struct.injEq] at hd
      rw [← hd.2.1, dtypes_eq, List.length_map]
    obtain ⟨f1, f2⟩ := swizzleFields_ok names ds.length ps hlen ds 0 gs g2 (by omega)
    simp only [Nat.zero_add] at f2
    have hv : nestCostV ch.cost lc v = 0 := by
      unfold swizzleV at g1
      split at g1
      · simp only [Res.bind_eq_ok, Res.ok.injEq] at g1
        obtain ⟨lvs, _, rfl⟩ := g1
        exact nestCost_ofValidity _
      · simp only [Res.ok.injEq] at g1
        subst g1
        rfl
    rw [mkStruct_eq g3]
    simp only [nc, nestCost, hv]
    have : nestCostAll ch.cost lc gs ≤ K := by
      rw [nestCostAll_le]
      intro g hgm
      obtain ⟨j, hj, rfl⟩ := List.mem_iff_getElem.mp hgm
      obtain ⟨d, _, e2, _⟩ := f2 j gs[j] (List.getElem?_eq_getElem hj)
      rw [e2]
      simp only [nestCost]
      rw [nestCostAll_le]
      intro c hc
      obtain ⟨p, hp, rfl⟩ := List.mem_map.mp hc
      have hm : partField j p ∈ p.1 := by
        have : j < p.1.length := by rw [hlen p hp]; omega
        simp only [partField, List.getElem?_eq_getElem this, Option.getD_some]
        exact List.getElem_mem _
      have h3 := (hi _ (List.mem_map_of_mem hp)).2
      simp only [nc, mkPart, nestCost] at h3
      have h4 : nestCost ch.cost lc (partField j p) ≤ nestCostAll ch.cost lc p.1 := nestCostAll_le.mp (Nat.le_refl _) _ hm
      omega
    omega
  · rename_i id m nl
    have hp : ∀ c ∈ cs, ∃ s, c = .ext id m s := by
      intro c hc
      have hd := hdt c hc
      have hkc := hk c hc
      cases c with
      | struct ns fs n v => simp [dtype] at hd
      | ext id m s => simp only [dtype, DType.ext.injEq] at hd; exact ⟨s, by rw [hd.1, hd.2.1]⟩
      | null n => simp [dtype] at hd
      | _ => exact absurd hd (other _ hkc _ rfl)
    obtain ⟨ss, rfl⟩ := ext_parts cs hp
    simp only [combineExt, Res.bind_eq_ok] at h2
    obtain ⟨ss', e1, s, _, x, e3, e4⟩ := h2
    have e2 : Res.mapM (storageOf env) (ss.map (Arr.ext id m)) = .ok ss := by
      clear e1 hi hk hdt hp h1
      induction ss with
      | nil => rfl
      | cons s ss ih =>
        rw [List.map_cons, Res.mapM_cons, ih]
        have hd := depth_pos (Arr.ext id m s)
        obtain ⟨d, hd'⟩ : ∃ d, depth (Arr.ext id m s) = d + 1 := ⟨depth (Arr.ext id m s) - 1, by omega⟩
        simp [storageOf, Arr.canon, hd', bulks, bstep, canonFn]
    have e5 := e1.symm.trans e2
    simp only [Res.ok.injEq] at e5
    subst e5
    obtain ⟨rfl, _⟩ := mkChunked_eq e3
    simp only [Res.ok.injEq] at e4
    subst e4
    simp only [nc, nestCost]
    rw [nestCostAll_le]
    intro c hc
    exact (hi _ (List.mem_map_of_mem hc)).2
  · cases hkd : kindOf dt with
    | some k =>
      obtain ⟨xs, w, rfl, e6⟩ := canon_shape hkd h2
      simp only [nc, nestCost]
      rcases e6 with rfl | ⟨V, rfl⟩
      · simp [nestCostV]
      · rw [nestCost_ofValidity]; omega
    | none =>
      have hcn : (Arr.chunked dt cs).canon env = if dt = .null then .ok (.null (lens env.toEnv cs)) else .err := by
        have hd := depth_pos (Arr.chunked dt cs)
        obtain ⟨d, hd'⟩ : ∃ d, depth (Arr.chunked dt cs) = d + 1 := ⟨depth (Arr.chunked dt cs) - 1, by omega⟩
        simp only [Arr.canon, hd', bulks, bstep, canonFn, hkd]
      rw [hcn] at h2
      split at h2
      · simp only [Res.ok.injEq] at h2
        subst h2
        simp [nc, nestCost]
      · simp at h2

theorem chunked_c (hr : RecC env ch lc rec) {again : Ctx → Arr L → Res (Out L)}
    (ha : ∀ ctx a b t, again ctx a = .ok (b, t) → ctx.depth ≤ ch.maxCost →
      Fit ch ctx.depth t ∧ (Rechunkable env.toEnv a → ctx.depth + nc ch lc b ≤ ch.maxCost + nc ch lc a)) {ctx : Ctx} {a b : Arr L}
    {like t : Option CTree} (h : runChunked env ch rec again ctx a like = .ok (b, t)) (hd : ctx.depth ≤ ch.maxCost) (hl : FitAll ch ctx.depth like) :
    FitAll ch ctx.depth t ∧ (Rechunkable env.toEnv a → ctx.depth + nc ch lc b ≤ ch.maxCost + nc ch lc a) := by
  unfold runChunked at h
  split at h
  · rename_i dt cs
    simp only [Res.bind_eq_ok, Res.ok.injEq, Prod.mk.injEq] at h
    obtain ⟨prev, h1, less, h2, r, h3, x, h4, rfl, rfl⟩ := h
    obtain ⟨q1, q2⟩ := chunkLoop_c (K := nestCostAll ch.cost lc cs) hr ha hd less prev r.1 r.2 h3 (chunkLike_c hd hl h1)
    refine ⟨fitAll_node (by simpa using q1), fun hi => ?_⟩
    obtain ⟨c1, c2⟩ := hi
    have hQ := (rechunk_sound (P := fun c => (Rechunkable env.toEnv c ∧ nc ch lc c ≤ nestCostAll ch.cost lc cs) ∧ ChunkOk env.toEnv c)
      (Q := fun c => Rechunkable env.toEnv c ∧ nc ch lc c ≤ nestCostAll ch.cost lc cs) (rowsOf := fun _ => ([] : List Unit))
      (fun c hc => hc.1)
      (fun cs b hb _ hc => ⟨combine_c hb (fun c h => (hc c h).1) (fun c h => (hc c h).2), by simp⟩) cs [] 0 0 less h2 (by simp)
      (fun c hc => ⟨⟨rechunkableAll_iff.mp c1 c hc, nestCostAll_le.mp (Nat.le_refl _) c hc⟩, chunksOk_iff.mp c2 c hc⟩)).1
    obtain ⟨rfl, _⟩ := mkChunked_eq h4
    have := q2 hQ
    have e : nestCostAll ch.cost lc r.1 ≤ ch.maxCost + nestCostAll ch.cost lc cs - ctx.depth := by
      rw [nestCostAll_le]
      intro c hc
      have := this c hc
      simp only [nc] at this
      omega
    simp only [nc, nestCost]
    omega
  · simp at h

/-! ### The driver -/

/-- A compressor that is given a tree is given its own. -/
def OwnTree (i : CId) (like : Option CTree) : Prop := ∀ x, like = some x → x.id = i

/-- The same of one compressor, whose own cost is already counted in the depth. -/
def RunC' (env : BEnv L) (ch : Choice L) (lc : L → Nat) (runC : CId → Ctx → Arr L → Option CTree → Res (Out L)) : Prop :=
  ∀ i ctx a like b t, runC i ctx a like = .ok (b, t) → ctx.depth ≤ ch.maxCost → FitAll ch ctx.depth like → OwnTree i like →
    FitAll ch ctx.depth t ∧ (Rechunkable env.toEnv a → ctx.depth + nc ch lc b ≤ ch.maxCost + nc ch lc a + ch.cost i)

theorem run_c (hs : CostLaws ch lc) (hr : RecC env ch lc rec) {chunk : Ctx → Arr L → Option CTree → Res (Out L)}
    (hch : ∀ ctx a like b t, chunk ctx a like = .ok (b, t) → ctx.depth ≤ ch.maxCost → FitAll ch ctx.depth like →
      FitAll ch ctx.depth t ∧ (Rechunkable env.toEnv a → ctx.depth + nc ch lc b ≤ ch.maxCost + nc ch lc a)) : RunC' env ch lc (run env ch rec chunk) := by
  intro i ctx a like b t h hd hl ho
  cases i with
  | zigzag => exact zigzag_c hr h hd hl
  | «for» => exact for_c hs hr h hd hl ho
  | dict => exact dict_c hr h hd hl
  | runEnd => exact runEnd_c hr h hd hl
  | constant => exact constant_c h hd
  | alp => exact alp_c hs hr h hd hl
  | sparse => exact sparse_c hr h hd hl
  | struct => exact struct_c hr h hd hl
  | chunked =>
    obtain ⟨q1, q2⟩ := hch ctx a like b t h hd hl
    exact ⟨q1, fun ha => Nat.le_trans (q2 ha) (Nat.le_add_right _ _)⟩
  | alpRd => exact leaf_c hs h hd
  | bitPacked => exact leaf_c hs h hd
  | bitPackedNoPatches => exact leaf_c hs h hd
  | dateTimeParts => exact leaf_c hs h hd
  | delta => exact leaf_c hs h hd
  | fsst => exact leaf_c hs h hd
  | roaringBool => exact leaf_c hs h hd
  | roaringInt => exact leaf_c hs h hd

theorem candidates_c {ctx : Ctx} {a : Arr L} {i : CId} (h : i ∈ candidates ch ctx a) : ctx.depth + ch.cost i ≤ ch.maxCost := by
  simp only [candidates] at h
  have : i ∈ ctx.compressors.filter (fun i => !ctx.disabled.contains i && canRun ch i a && decide (ctx.depth + ch.cost i ≤ ch.maxCost)) := by
    split at h
    · exact (List.mem_filter.mp h).1
    · exact h
  have := (List.mem_filter.mp this).2
  simp only [Bool.and_eq_true, decide_eq_true_eq] at this
  exact this.2

/-- Running a compressor whose cost fits. -/
theorem run_use {runC : CId → Ctx → Arr L → Option CTree → Res (Out L)} (hrun : RunC' env ch lc runC) (hroot : RunRoot runC) {ctx : Ctx} {i : CId}
    {a b : Arr L} {like t : Option CTree} (h : runC i (ctx.forCompressor ch i) a like = .ok (b, t)) (hd : ctx.depth + ch.cost i ≤ ch.maxCost)
    (hl : FitAll ch (ctx.depth + ch.cost i) like) (ho : OwnTree i like) :
    Fit ch ctx.depth t ∧ (Rechunkable env.toEnv a → ctx.depth + nc ch lc b ≤ ch.maxCost + nc ch lc a) := by
  obtain ⟨q1, q2⟩ := hrun i (ctx.forCompressor ch i) a like b t h hd hl ho
  refine ⟨?_, fun ha => ?_⟩
  · cases t with
    | none => exact fit_none (by omega)
    | some t =>
      have e := hroot i _ a like b t h
      apply fit_of_children
      · rw [e]; exact hd
      · rw [e]; exact q1
  · have := q2 ha
    simp only [Ctx.forCompressor] at this
    omega

theorem run_free {runC : CId → Ctx → Arr L → Option CTree → Res (Out L)} (hrun : RunC' env ch lc runC) (hroot : RunRoot runC) {ctx : Ctx} {i : CId}
    {a b : Arr L} {t : Option CTree} (h : runC i ctx a none = .ok (b, t)) (hd : ctx.depth ≤ ch.maxCost) (h0 : ch.cost i = 0) :
    Fit ch ctx.depth t ∧ (Rechunkable env.toEnv a → ctx.depth + nc ch lc b ≤ ch.maxCost + nc ch lc a) := by
  have e : ctx.forCompressor ch i = ctx := by simp [Ctx.forCompressor, h0]
  exact run_use hrun hroot (by rw [e]; exact h) (by omega) fitAll_none (by intro x hx; cases hx)

theorem plain_c {runC : CId → Ctx → Arr L → Option CTree → Res (Out L)} (hrun : RunC' env ch lc runC) (hroot : RunRoot runC) {ctx : Ctx} {a b : Arr L}
    {t : Option CTree} (h : compressPlain ch runC ctx a = .ok (b, t)) (hd : ctx.depth ≤ ch.maxCost) :
    Fit ch ctx.depth t ∧ (Rechunkable env.toEnv a → ctx.depth + nc ch lc b ≤ ch.maxCost + nc ch lc a) := by
  have same : Fit ch ctx.depth none ∧ (Rechunkable env.toEnv a → ctx.depth + nc ch lc a ≤ ch.maxCost + nc ch lc a) := ⟨fit_none hd, fun _ => by omega⟩
  simp only [compressPlain] at h
  split at h
  · simp only [Res.ok.injEq, Prod.mk.injEq] at h
    obtain ⟨rfl, rfl⟩ := h
    exact same
  · split at h
    · rcases findBest_ok _ _ _ h with h1 | ⟨i, hi, _, h1⟩
      · simp only [Option.getD_none, Prod.mk.injEq] at h1
        obtain ⟨rfl, rfl⟩ := h1
        exact same
      · exact run_use hrun hroot h1 (candidates_c hi) fitAll_none (by intro x hx; cases hx)
    · simp only [Res.bind_eq_ok] at h
      obtain ⟨s, _, r, h2, h3⟩ := h
      split at h3
      · rename_i t' ht'
        have ht : Fit ch ctx.depth (some t') ∧ ctx.depth + ch.cost t'.id ≤ ch.maxCost := by
          rcases findBest_ok _ _ _ h2 with h1 | ⟨i, hi, _, h1⟩
          · rw [h1] at ht'; simp at ht'
          · have h1' : runC i (ctx.forCompressor ch i) s none = .ok (r.1, some t') := by rw [h1, ← ht']
            have q := (run_use hrun hroot h1' (candidates_c hi) fitAll_none (by intro x hx; cases hx)).1
            exact ⟨q, by rw [hroot _ _ _ _ _ _ h1']; exact candidates_c hi⟩
        exact run_use hrun hroot h3 ht.2 (fitAll_of_fit ht.1) (by intro x hx; cases hx; rfl)
      · simp only [Res.ok.injEq, Prod.mk.injEq] at h3
        obtain ⟨rfl, rfl⟩ := h3
        exact same

theorem array_c (hs : CostLaws ch lc) {runC : CId → Ctx → Arr L → Option CTree → Res (Out L)} (hrun : RunC' env ch lc runC) (hroot : RunRoot runC)
    {ctx : Ctx} {a b : Arr L} {t : Option CTree} (h : compressArray ch runC ctx a = .ok (b, t)) (hd : ctx.depth ≤ ch.maxCost) :
    Fit ch ctx.depth t ∧ (Rechunkable env.toEnv a → ctx.depth + nc ch lc b ≤ ch.maxCost + nc ch lc a) := by
  unfold compressArray at h
  split at h
  · simp only [Res.ok.injEq, Prod.mk.injEq] at h
    obtain ⟨rfl, rfl⟩ := h
    exact ⟨fit_none hd, fun _ => by omega⟩
  · exact run_free hrun hroot h hd hs.chunked
  · exact run_free hrun hroot h hd hs.struct
  · split at h
    · exact run_free hrun hroot h hd hs.constant
    · exact plain_c hrun hroot h hd

theorem like_c (hs : CostLaws ch lc) {runC : CId → Ctx → Arr L → Option CTree → Res (Out L)} (hrun : RunC' env ch lc runC) (hroot : RunRoot runC)
    {ctx : Ctx} {a b : Arr L} {like t : Option CTree} (h : compressLike ch runC ctx a like = .ok (b, t)) (hd : ctx.depth ≤ ch.maxCost)
    (hl : ∀ x, like = some x → canRun ch x.id a = true → Fit ch ctx.depth like) :
    Fit ch ctx.depth t ∧ (Rechunkable env.toEnv a → ctx.depth + nc ch lc b ≤ ch.maxCost + nc ch lc a) := by
  unfold compressLike at h
  split at h
  · rename_i x
    split at h
    · rename_i hcan
      have hf := hl x rfl hcan
      refine run_use hrun hroot h ?_ (fitAll_of_fit hf) (by intro y hy; cases hy; rfl)
      obtain ⟨i, cs⟩ := x
      have := (fit_node hf.1).mp hf
      simp only [CTree.id]
      omega
    · exact array_c hs hrun hroot h hd
  · exact array_c hs hrun hroot h hd

theorem runs_c (hs : CostLaws ch lc) (hr : RecC env ch lc rec) : ∀ n, RunC' env ch lc (runs env ch rec n)
  | 0 => by intro i ctx a like b t h; simp [runs] at h
  | n + 1 => by
    rw [runs]
    apply run_c hs hr
    intro ctx a like b t h hd hl
    exact chunked_c hr (fun ctx a b t h hd => array_c hs (runs_c hs hr n) (runs_root n) h hd) h hd hl

theorem compress_c (hs : CostLaws ch lc) : ∀ n, RecC env ch lc (compress env ch n)
  | 0 => by intro ctx a like b t h; simp [compress] at h
  | n + 1 => by
    intro ctx a like b t h hd hl
    simp only [compress] at h
    split at h
    · simp only [Res.ok.injEq, Prod.mk.injEq] at h
      obtain ⟨rfl, rfl⟩ := h
      exact ⟨fit_none hd, fun _ => by omega⟩
    · exact like_c hs (runs_c hs (compress_c hs n) (n + 1)) (runs_root (n + 1)) h hd hl

end Vx.Tree
