import Verif.Spec.ExprEq
import Verif.Lemmas.TreeStruct
/-! # C111: when two expressions are equal, and which columns an expression reads -/
namespace Vx.Tree
open RowExpr (Field)
namespace ExprEq

/-! ## Values -/

theorem fmt_eq_zero {f : Spec.Fmt} {a : BitVec f.width} (h : f.isZero a = true) (hm : (a.toNat == 2 ^ (f.exp + f.man)) = false) : a = 0#f.width := by
  have h1 : a.toNat % 2 ^ (f.exp + f.man) = 0 := by simpa [Spec.Fmt.isZero, Spec.Fmt.mag] using h
  have h2 : a.toNat < 2 ^ (f.exp + f.man) * 2 := by
    have h := a.isLt
    have e : 2 ^ f.width = 2 ^ (f.exp + f.man) * 2 := Nat.pow_succ 2 (f.exp + f.man)
    omega
  have h3 : a.toNat ≠ 2 ^ (f.exp + f.man) := by simpa using hm
  have h4 := Nat.div_add_mod a.toNat (2 ^ (f.exp + f.man))
  have h5 : a.toNat / 2 ^ (f.exp + f.man) < 2 := Nat.div_lt_of_lt_mul h2
  apply BitVec.eq_of_toNat_eq
  rw [h1] at h4
  rcases Nat.lt_or_ge (a.toNat / 2 ^ (f.exp + f.man)) 1 with h6 | h6
  · have h7 : a.toNat / 2 ^ (f.exp + f.man) = 0 := Nat.lt_one_iff.mp h6
    rw [h7] at h4; simpa using h4.symm
  · have h7 : a.toNat / 2 ^ (f.exp + f.man) = 1 := Nat.le_antisymm (Nat.lt_succ_iff.mp h5) h6
    rw [h7] at h4; omega

theorem fmt_eq {f : Spec.Fmt} {a b : BitVec f.width} (h : f.eq a b = true) (ha : (a.toNat == 2 ^ (f.exp + f.man)) = false)
    (hb : (b.toNat == 2 ^ (f.exp + f.man)) = false) : a = b := by
  simp only [Spec.Fmt.eq, Bool.and_eq_true, Bool.or_eq_true, beq_iff_eq] at h
  rcases h.2 with h | h
  · exact h
  · rw [fmt_eq_zero h.1 ha, fmt_eq_zero h.2 hb]

theorem fmt_refl {f : Spec.Fmt} {a : BitVec f.width} (h : f.isNaN a = false) : f.eq a a = true := by simp [Spec.Fmt.eq, h]

theorem pvalue_eq {p q : PValue} (h : p.eq q = true) (hp : isMinusZero p = false) (hq : isMinusZero q = false) : p = q := by
  obtain ⟨pt, a⟩ := p
  obtain ⟨qt, b⟩ := q
  cases pt <;> cases qt <;> simp only [PValue.eq, decide_eq_true_eq] at h <;> try exact h
  · rw [fmt_eq (f := PValue.fmt16) h hp hq]
  · rw [fmt_eq (f := Spec.f32) h hp hq]
  · rw [fmt_eq (f := Spec.f64) h hp hq]

theorem pvalue_refl {p : PValue} (h : notANumber p = false) : p.eq p = true := by
  obtain ⟨pt, a⟩ := p
  cases pt <;> simp only [PValue.eq, decide_true]
  · exact fmt_refl (f := PValue.fmt16) h
  · exact fmt_refl (f := Spec.f32) h
  · exact fmt_refl (f := Spec.f64) h

mutual
theorem value_eq : ∀ {x y : SV}, x.eq y = true → numbersAll (fun p => !isMinusZero p) x = true → numbersAll (fun p => !isMinusZero p) y = true → x = y
  | .prim p, y, h, hx, hy => by
    cases y <;> simp only [SV.eq, Bool.false_eq_true] at h
    rw [pvalue_eq h (by simpa [numbersAll] using hx) (by simpa [numbersAll] using hy)]
  | .list xs, y, h, hx, hy => by
    cases y <;> simp only [SV.eq, Bool.false_eq_true] at h
    rw [values_eq h (by simpa [numbersAll] using hx) (by simpa [numbersAll] using hy)]
  | .bool a, y, h, _, _ => by cases y <;> simp_all [SV.eq]
  | .buffer a, y, h, _, _ => by cases y <;> simp_all [SV.eq]
  | .str a, y, h, _, _ => by cases y <;> simp_all [SV.eq]
  | .null, y, h, _, _ => by cases y <;> simp_all [SV.eq]
theorem values_eq : ∀ {xs ys : List SV}, SV.eqs xs ys = true → numbersAlls (fun p => !isMinusZero p) xs = true → numbersAlls (fun p => !isMinusZero p) ys = true → xs = ys
  | [], ys, h, _, _ => by cases ys <;> simp_all [SV.eqs]
  | x :: xs, ys, h, hx, hy => by
    cases ys with
    | nil => simp [SV.eqs] at h
    | cons y ys =>
      simp only [SV.eqs, numbersAlls, Bool.and_eq_true] at h hx hy
      rw [value_eq h.1 hx.1 hy.1, values_eq h.2 hx.2 hy.2]
end

mutual
theorem value_refl : ∀ {x : SV}, numbersAll (fun p => !notANumber p) x = true → x.eq x = true
  | .prim p, h => by simpa [SV.eq] using pvalue_refl (by simpa [numbersAll] using h)
  | .list xs, h => by simpa [SV.eq] using values_refl (by simpa [numbersAll] using h)
  | .bool a, _ => by simp [SV.eq]
  | .buffer a, _ => by simp [SV.eq]
  | .str a, _ => by simp [SV.eq]
  | .null, _ => by simp [SV.eq]
theorem values_refl : ∀ {xs : List SV}, numbersAlls (fun p => !notANumber p) xs = true → SV.eqs xs xs = true
  | [], _ => by simp [SV.eqs]
  | x :: xs, h => by
    simp only [numbersAlls, Bool.and_eq_true] at h
    simp [SV.eqs, value_refl h.1, values_refl h.2]
end

/-! ## Expressions -/

theorem selectEq_iff (s t : Select) : XExpr.selectEq s t = true ↔ s = t := by
  cases s <;> cases t <;> simp [XExpr.selectEq]

/-- More calls do not change an answer. -/
theorem eqAny_mono : ∀ {k m : Nat} {a b : XExpr} {r : Bool}, a.eqAny k b = some r → k ≤ m → a.eqAny m b = some r
  | 0, _, _, _, _, h, _ => by simp [XExpr.eqAny] at h
  | k + 1, 0, _, _, _, _, hk => by omega
  | k + 1, m + 1, a, b, r, h, hk => by
    have hk' : k ≤ m := by omega
    cases a <;> cases b <;> simp only [XExpr.eqAny] at h ⊢ <;> try exact h
    · exact eqAny_mono h hk'
    · rename_i l op x l' op' x'
      split
      · rename_i ho; rw [if_pos ho] at h; exact h
      · rename_i ho; rw [if_neg ho] at h
        split at h
        · rename_i h1
          rw [eqAny_mono h1 hk']
          exact eqAny_mono h hk'
        · rename_i h1
          rw [eqAny_mono h hk']
          cases r with
          | false => rfl
          | true => exact absurd h (h1)

theorem answers_of {a b : XExpr} {r : Bool} {k : Nat} (h : a.eqAny k b = some r) : Answers a b r := ⟨k, fun _ hk => eqAny_mono h hk⟩

/-- **Comparing two expressions returns**, if at least one of them is free of `Identity`. -/
theorem C111_returns_partial : ∀ a b : XExpr, ¬ HasIdentity a ∨ ¬ HasIdentity b → ∃ r, Answers a b r := by
  suffices hs : ∀ a b : XExpr, ¬ HasIdentity a ∨ ¬ HasIdentity b → (∃ r, Answers a b r) ∧ (∃ r, Answers b a r) from fun a b h => (hs a b h).1
  intro a
  induction a with
  | identity =>
    intro b h
    have hb : ¬ HasIdentity b := by simpa [HasIdentity] using h
    cases b with
    | identity => exact absurd trivial hb
    | _ => exact ⟨⟨false, answers_of (k := 1) rfl⟩, ⟨false, answers_of (k := 1) rfl⟩⟩
  | col f => intro b _; cases b <;> exact ⟨⟨_, answers_of (k := 1) rfl⟩, ⟨_, answers_of (k := 1) rfl⟩⟩
  | lit d x => intro b _; cases b <;> exact ⟨⟨_, answers_of (k := 1) rfl⟩, ⟨_, answers_of (k := 1) rfl⟩⟩
  | select s => intro b _; cases b <;> exact ⟨⟨_, answers_of (k := 1) rfl⟩, ⟨_, answers_of (k := 1) rfl⟩⟩
  | bin l op r ihl ihr =>
    intro b h
    cases b with
    | bin l' op' r' =>
      have h1 : ¬ HasIdentity l ∨ ¬ HasIdentity l' := by
        rcases h with h | h
        · exact .inl fun hh => h (.inl hh)
        · exact .inr fun hh => h (.inl hh)
      have h2 : ¬ HasIdentity r ∨ ¬ HasIdentity r' := by
        rcases h with h | h
        · exact .inl fun hh => h (.inr hh)
        · exact .inr fun hh => h (.inr hh)
      obtain ⟨⟨x, nx, hx⟩, ⟨x', nx', hx'⟩⟩ := ihl l' h1
      obtain ⟨⟨y, ny, hy⟩, ⟨y', ny', hy'⟩⟩ := ihr r' h2
      refine ⟨?_, ?_⟩
      · by_cases ho : op' = op
        · have e1 := hx' (max nx' ny') (by omega)
          have e2 := hy' (max nx' ny') (by omega)
          cases x' with
          | true => exact ⟨y', answers_of (k := max nx' ny' + 1) (by simp [XExpr.eqAny, ho, e1, e2])⟩
          | false => exact ⟨false, answers_of (k := max nx' ny' + 1) (by simp [XExpr.eqAny, ho, e1])⟩
        · exact ⟨false, answers_of (k := 1) (by simp [XExpr.eqAny, ho])⟩
      · by_cases ho : op = op'
        · have e1 := hx (max nx ny) (by omega)
          have e2 := hy (max nx ny) (by omega)
          cases x with
          | true => exact ⟨y, answers_of (k := max nx ny + 1) (by simp [XExpr.eqAny, ho, e1, e2])⟩
          | false => exact ⟨false, answers_of (k := max nx ny + 1) (by simp [XExpr.eqAny, ho, e1])⟩
        · exact ⟨false, answers_of (k := 1) (by simp [XExpr.eqAny, ho])⟩
    | _ => exact ⟨⟨false, answers_of (k := 1) rfl⟩, ⟨false, answers_of (k := 1) rfl⟩⟩

/-- **Expressions that compare equal are the same expression**, unless a literal contains `-0.0`. -/
theorem C111_equal_same_partial {k : Nat} : ∀ {a b : XExpr}, NoMinusZero a → NoMinusZero b → a.eqAny k b = some true → a = b := by
  induction k with
  | zero => intro a b _ _ h; simp [XExpr.eqAny] at h
  | succ k ih =>
    intro a b ha hb h
    cases a <;> cases b <;> simp only [XExpr.eqAny, Option.some.injEq, Bool.false_eq_true, decide_eq_true_eq] at h
    · rfl
    · rw [h]
    · rename_i d x e y
      simp only [Scalar.eq, Bool.and_eq_true] at h
      rw [(DType.beq_eq _ _).1 h.1, value_eq h.2 hb ha]
    · rw [(selectEq_iff _ _).1 h]
    · rename_i l op r l' op' r'
      simp only [NoMinusZero, literalsAll, Bool.and_eq_true] at ha hb
      split at h
      · simp at h
      · rename_i ho
        have ho : op' = op := by simpa using ho
        split at h
        · rename_i h1
          rw [ih hb.1 ha.1 h1, ih hb.2 ha.2 h, ho]
        · rename_i h1; exact absurd h h1

/-- **An expression compares equal to itself**, unless it contains `Identity` or a NaN. -/
theorem C111_self_partial : ∀ {e : XExpr}, NoNaN e → ¬ HasIdentity e → Answers e e true := by
  intro e
  induction e with
  | identity => intro _ h; exact absurd trivial h
  | col f => intro _ _; exact answers_of (k := 1) (by simp [XExpr.eqAny])
  | lit d x =>
    intro hn _
    have h1 := (DType.beq_eq d d).2 rfl
    have h2 := value_refl hn
    exact answers_of (k := 1) (by simp [XExpr.eqAny, Scalar.eq, h1, h2])
  | select s => intro _ _; exact answers_of (k := 1) (by simp [XExpr.eqAny, selectEq_iff])
  | bin l op r ihl ihr =>
    intro hn hi
    simp only [NoNaN, literalsAll, Bool.and_eq_true] at hn
    obtain ⟨n, h1⟩ := ihl hn.1 (fun hh => hi (.inl hh))
    obtain ⟨m, h2⟩ := ihr hn.2 (fun hh => hi (.inr hh))
    have e1 := h1 (max n m) (by omega)
    have e2 := h2 (max n m) (by omega)
    exact answers_of (k := max n m + 1) (by simp [XExpr.eqAny, e1, e2])

/-- **Equality is identity** for expressions without `Identity`, NaN and `-0.0`: the comparison returns, and says whether the two are the same. -/
theorem C111_equality_partial {a b : XExpr} (ha : ¬ HasIdentity a) (hn : NoNaN a) (hza : NoMinusZero a) (hzb : NoMinusZero b) :
    (a = b → Answers a b true) ∧ (a ≠ b → Answers a b false) := by
  refine ⟨fun h => h ▸ C111_self_partial hn ha, fun h => ?_⟩
  obtain ⟨r, n, hr⟩ := C111_returns_partial a b (.inl ha)
  cases r with
  | false => exact ⟨n, hr⟩
  | true => exact absurd (C111_equal_same_partial hza hzb (hr n (Nat.le_refl _))) h

/-- **Expressions that compare equal give the same result on every batch**, unless a literal contains `-0.0`. -/
theorem C111_equal_results_partial (env : CEnv L) {k : Nat} {a b : XExpr} (hza : NoMinusZero a) (hzb : NoMinusZero b) (h : a.eqAny k b = some true) (batch : Arr L) :
    a.eval env batch = b.eval env batch := by rw [C111_equal_same_partial hza hzb h]

/-! ## What goes wrong -/

theorem identity_hangs : Hangs .identity .identity := by
  intro k
  induction k with
  | zero => rfl
  | succ k ih => simpa [XExpr.eqAny] using ih

/-- **Comparing an expression with itself never returns** if `Identity` is in it (and no NaN stops the comparison before it is reached). -/
theorem C111_identity_hangs : ∀ {e : XExpr}, HasIdentity e → NoNaN e → Hangs e e := by
  intro e
  induction e with
  | identity => intro _ _; exact identity_hangs
  | col f => intro h; exact absurd h (by simp [HasIdentity])
  | lit d x => intro h; exact absurd h (by simp [HasIdentity])
  | select s => intro h; exact absurd h (by simp [HasIdentity])
  | bin l op r ihl ihr =>
    intro h hn k
    simp only [NoNaN, literalsAll, Bool.and_eq_true] at hn
    cases k with
    | zero => rfl
    | succ k =>
      by_cases hl : HasIdentity l
      · have := ihl hl hn.1 k
        simp [XExpr.eqAny, this]
      · have hr : HasIdentity r := by rcases h with h | h; exact absurd h hl; exact h
        obtain ⟨n, h1⟩ := C111_self_partial hn.1 hl
        have h2 := ihr hr hn.2 k
        simp only [XExpr.eqAny, ne_eq, not_true_eq_false, if_false]
        cases h3 : l.eqAny k l with
        | none => rfl
        | some b =>
          have h4 := eqAny_mono h3 (Nat.le_max_left k n)
          rw [h1 (max k n) (by omega)] at h4
          rw [← h4]; exact h2

/-- `0.0` and `-0.0` as 32-bit floats. -/
def zero32 : SV := .prim ⟨.f32, 0#32⟩
def minusZero32 : SV := .prim ⟨.f32, 0x80000000#32⟩
def nan32 : SV := .prim ⟨.f32, 0x7fc00000#32⟩

/-- **Expressions that compare equal can give different results**: the literals `0.0` and `-0.0`. -/
theorem C111_zeros : Answers (.lit (.prim .f32 false) zero32) (.lit (.prim .f32 false) minusZero32) true ∧
    ∀ (env : CEnv L) (batch : Arr L), (XExpr.lit (.prim .f32 false) zero32).eval env batch ≠ (XExpr.lit (.prim .f32 false) minusZero32).eval env batch := by
  refine ⟨answers_of (k := 1) rfl, fun env batch h => ?_⟩
  simp only [XExpr.eval, Res.ok.injEq, Arr.const.injEq, zero32, minusZero32, SV.prim.injEq, true_and, and_true] at h
  exact absurd h (by decide)

/-- **An expression need not equal itself**: a NaN literal. -/
theorem C111_nan (d : DType) : Answers (.lit d nan32) (.lit d nan32) false := by
  refine answers_of (k := 1) ?_
  have : SV.eq nan32 nan32 = false := by rfl
  simp [XExpr.eqAny, Scalar.eq, this]

/-! ## References -/

theorem findName_find (n : Str) : ∀ cols : List (Str × Arr L), (DType.findName (cols.map (·.1)) n).bind (fun i => cols[i]?) = cols.find? (fun c => c.1 == n)
  | [] => by simp [DType.findName]
  | c :: cs => by
    have ih := findName_find n cs
    by_cases h : c.1 = n
    · simp [DType.findName, List.findIdx_cons, h]
    · have hb : (c.1 == n) = false := by simpa using h
      rw [List.find?_cons_of_neg (by simpa using h), ← ih]
      simp only [DType.findName, List.map_cons, List.findIdx_cons, hb, cond_false, List.length_cons, Nat.add_lt_add_iff_right]
      split <;> simp

theorem findName_find_none (n : Str) (cols : List (Str × Arr L)) : DType.findName (cols.map (·.1)) n = none ↔ cols.find? (fun c => c.1 == n) = none := by
  constructor
  · intro h; rw [← findName_find, h]; rfl
  · intro h
    cases hf : DType.findName (cols.map (·.1)) n with
    | none => rfl
    | some i =>
      rw [← findName_find, hf, Option.bind_some, List.getElem?_eq_none_iff] at h
      simp only [DType.findName] at hf
      split at hf
      · rename_i hlt; cases hf; rw [List.length_map] at hlt; omega
      · cases hf

theorem evalColumn_eq (f : Field) (cols : List (Str × Arr L)) (n : Nat) (v : TVal (Arr L)) :
    evalColumn f (structOf cols n v) = Res.ofOption ((columnOf cols f).map (·.2)) := by
  cases f with
  | name m =>
    simp only [evalColumn, structOf, columnOf]
    rw [← findName_find]
    congr 1
    cases DType.findName (cols.map (·.1)) m with
    | none => rfl
    | some i => simp
  | index i => simp [evalColumn, structOf, columnOf]

theorem pickField_eq (f : Field) (cols : List (Str × Arr L)) : pickField (cols.map (·.1)) (cols.map (·.2)) f =
    match columnOf cols f with
    | some c => .ok c
    | none => match f with | .name _ => .err | .index _ => .panic := by
  cases f with
  | name m =>
    simp only [pickField, fieldPos, columnOf]
    cases hf : cols.find? (fun c => c.1 == m) with
    | none => rw [(findName_find_none m cols).2 hf]; rfl
    | some c =>
      cases hg : DType.findName (cols.map (·.1)) m with
      | none => rw [(findName_find_none m cols).1 hg] at hf; cases hf
      | some i =>
        have h := findName_find m cols
        rw [hg, hf, Option.bind_some] at h
        simp [h, Res.ofOption, Res.unwrap]
  | index i =>
    simp only [pickField, fieldPos, columnOf, Res.ok_bind]
    cases h : cols[i]? with
    | none => simp [h, Res.unwrap]
    | some c => simp [h, Res.unwrap, Res.ofOption]

theorem mapM_congr {α β : Type} {f g : α → Res β} : ∀ {xs : List α}, (∀ x ∈ xs, f x = g x) → Res.mapM f xs = Res.mapM g xs
  | [], _ => rfl
  | x :: xs, h => by rw [Res.mapM_cons, Res.mapM_cons, h x (by simp), mapM_congr fun y hy => h y (by simp [hy])]

theorem project_congr (env : Env L) {fields : List Field} {cols cols' : List (Str × Arr L)} (h : ∀ f ∈ fields, columnOf cols f = columnOf cols' f) (n : Nat) (v : TVal (Arr L)) :
    project env fields (structOf cols n v) = project env fields (structOf cols' n v) := by
  simp only [project, structOf]
  rw [mapM_congr (g := pickField (cols'.map (·.1)) (cols'.map (·.2))) fun f hf => by rw [pickField_eq, pickField_eq, h f hf]]

/-- **An expression reads only the columns it refers to**: on two struct arrays of the same length and validity in which every field it lists stands for the same
column, it gives the same result. Only for expressions that name what they read. -/
theorem C111_references_partial (env : CEnv L) : ∀ (e : XExpr), Names e → ∀ (cols cols' : List (Str × Arr L)) (n : Nat) (v : TVal (Arr L)),
    (∀ f ∈ e.refs, columnOf cols f = columnOf cols' f) → e.eval env (structOf cols n v) = e.eval env (structOf cols' n v)
  | .identity, hn, _, _, _, _, _ => absurd hn (by simp [Names])
  | .col f, _, cols, cols', n, v, h => by
    simp only [XExpr.eval, evalColumn_eq]
    rw [h f (by simp [XExpr.refs])]
  | .lit d x, _, cols, cols', n, v, _ => by simp [XExpr.eval, structOf, len]
  | .select (.excl _), hn, _, _, _, _, _ => absurd hn (by simp [Names])
  | .select (.incl fs), _, cols, cols', n, v, h => by
    have hp := project_congr env.toEnv h n v
    simp only [XExpr.eval, evalSelect]
    simp only [structOf] at hp ⊢
    simp only [isStructArray, dtype, asStruct, Res.guard, if_true, Res.ofOption, Res.ok_bind]
    exact hp
  | .bin l op r, hn, cols, cols', n, v, h => by
    simp only [XExpr.eval]
    rw [C111_references_partial env l hn.1 cols cols' n v fun f hf => h f (by simp [XExpr.refs, hf]),
      C111_references_partial env r hn.2 cols cols' n v fun f hf => h f (by simp [XExpr.refs, hf])]

theorem mapM_pickNames : ∀ {ns : List Str} {cols ys : List (Str × Arr L)}, Res.mapM (pickField (cols.map (·.1)) (cols.map (·.2))) (ns.map Field.name) = .ok ys →
    ∀ m ∈ ns, columnOf ys (.name m) = columnOf cols (.name m)
  | [], _, _, _, m, hm => by simp at hm
  | k :: ns, cols, ys, h, m, hm => by
    rw [List.map_cons, Res.mapM_cons, pickField_eq] at h
    cases hk : columnOf cols (.name k) with
    | none => rw [hk] at h; cases h
    | some c =>
      rw [hk] at h
      simp only [Res.ok_bind] at h
      obtain ⟨zs, h1, h2⟩ := Res.bind_eq_ok.mp h
      cases h2
      have hc : c.1 = k := by have := List.find?_some (by simpa [columnOf] using hk); simpa using this
      by_cases hm' : k = m
      · subst hm'
        rw [hk]
        simp [columnOf, hc]
      · have : m ∈ ns := by rcases List.mem_cons.mp hm with h | h; exact absurd h.symm hm'; exact h
        rw [← mapM_pickNames h1 m this]
        simp only [columnOf]
        rw [List.find?_cons_of_neg (by simpa [hc] using hm')]

/-- **Reading only the referenced columns is enough**: if the expression names its columns and `ns` lists all the names it refers to, evaluating it on the batch projected
to `ns` gives what it gives on the batch. -/
theorem C111_projection_partial (env : CEnv L) (e : XExpr) (he : Names e) (ns : List Str) (hns : ∀ f ∈ e.refs, ∃ m ∈ ns, f = .name m) (cols : List (Str × Arr L)) (n : Nat)
    (v : TVal (Arr L)) (b : Arr L) (hb : project env.toEnv (ns.map Field.name) (structOf cols n v) = .ok b) : e.eval env b = e.eval env (structOf cols n v) := by
  simp only [project, structOf] at hb
  obtain ⟨ys, h1, h2⟩ := Res.bind_eq_ok.mp hb
  have h3 : b = structOf ys n v := by
    simp only [mkStruct] at h2
    obtain ⟨_, _, h2⟩ := Res.bind_eq_ok.mp h2
    obtain ⟨_, _, h2⟩ := Res.bind_eq_ok.mp h2
    obtain ⟨_, _, h2⟩ := Res.bind_eq_ok.mp h2
    cases h2; rfl
  rw [h3]
  refine C111_references_partial env e he ys cols n v fun f hf => ?_
  obtain ⟨m, hm, rfl⟩ := hns f hf
  exact mapM_pickNames h1 m hm

end ExprEq
end Vx.Tree
