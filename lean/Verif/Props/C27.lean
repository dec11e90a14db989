import Verif.Model.Pruning
import Verif.Lemmas.Expr
import Mathlib.Order.Nat
/-!
# C27: predicate pruning

Claim: if the pruning expression is true on truthful min/max statistics of a chunk, no row of the chunk satisfies the filter.
Proved for filters built from `=`, `!=`, `<`, `>` between a column and a constant expression, `=`, `<`, `>` between two columns, and
conjunctions with at least one such side (`C27_prune_sound_partial`). For the other shapes the claim is false of the code; each is a
theorem with a concrete chunk below.
-/
namespace Vx.RowExpr
open Vx.Spec

variable {V : Type} [LinearOrder V]

/-! ## Specification -/

/-- `a ≤ b`, where a null on either side says nothing. -/
def LeVal : Val V → Val V → Prop
  | .prim _ none, _ => True
  | .bool none, _ => True
  | _, .prim _ none => True
  | _, .bool none => True
  | .prim t (some a), .prim u (some b) => t = u ∧ a ≤ b
  | .bool (some a), .bool (some b) => a ≤ b
  | _, _ => False

/-- The row of statistics `s` is truthful for field `f` of a chunk (a list of rows): it has a minimum and a maximum for it (possibly null,
i.e. unknown) which bound every value of the chunk. -/
def Truth (s : Row V) (chunk : List (Row V)) (f : Field) : Prop :=
  ∃ mn mx, rowField s (statName f .min) = some mn ∧ rowField s (statName f .max) = some mx ∧
    ∀ r ∈ chunk, ∀ v, rowField r f = some v → LeVal mn v ∧ LeVal v mx

/-- The chunk can be skipped according to the pruning expression. -/
def Prunes (e : Expr V) (s : Row V) : Prop := Holds s (convert e).1

/-- The fragment on which pruning is right. -/
inductive Safe : Expr V → Prop where
  | colConst (f : Field) (op : Op) (c : Expr V) : op ∈ [Op.eq, .neq, .gt, .lt] → c.refs = [] → Safe (.bin (.col f) op c)
  | constCol (f : Field) (op : Op) (c : Expr V) : op ∈ [Op.eq, .neq, .gt, .lt] → c.refs = [] → Safe (.bin c op (.col f))
  | colCol (f g : Field) (op : Op) : op ∈ [Op.eq, .gt, .lt] → f ≠ g → Safe (.bin (.col f) op (.col g))
  | andLeft (l r : Expr V) : Safe l → Safe (.bin l .and r)
  | andRight (l r : Expr V) : Safe r → Safe (.bin l .and r)

/-! ## Inversion -/

theorem holds_cmp_inv {r : Row V} {l e : Expr V} {op : Op} (hop : op.isBool = false) (h : Holds r (.bin l op e)) :
    (∃ t a b, Value r l (.prim t (some a)) ∧ Value r e (.prim t (some b)) ∧ Rel op a b) ∨
      ∃ a b, Value r l (.bool (some a)) ∧ Value r e (.bool (some b)) ∧ Rel op a b := by
  unfold Holds at h
  generalize hv : (Val.bool (some true) : Val V) = v at h
  cases h with
  | cmp _ _ _ t' a' b' res' hop' hl' he' hr' =>
    simp only [Val.bool.injEq, Option.some.injEq] at hv
    exact .inl ⟨t', a', b', hl', he', hr'.mp hv.symm⟩
  | cmpNull _ _ _ t' a' b' hop' hl' he' hn => simp at hv
  | cmpBool _ _ _ a' b' res' hop' hl' he' hr' =>
    simp only [Val.bool.injEq, Option.some.injEq] at hv
    exact .inr ⟨a', b', hl', he', hr'.mp hv.symm⟩
  | cmpBoolNull _ _ _ a' b' hop' hl' he' hn => simp at hv
  | and _ _ a' b' hl' he' => simp [Op.isBool] at hop
  | or _ _ a' b' hl' he' => simp [Op.isBool] at hop
  | logicNull _ _ _ a' b' hop' hl' he' hn => simp [hop] at hop'

theorem holds_or_inv {r : Row V} {l e : Expr V} (h : Holds r (.bin l .or e)) : Holds r l ∨ Holds r e := by
  unfold Holds at h
  generalize hv : (Val.bool (some true) : Val V) = v at h
  cases h with
  | cmp _ _ _ t' a' b' res' hop' hl' he' hr' => simp [Op.isBool] at hop'
  | cmpNull _ _ _ t' a' b' hop' hl' he' hn => simp [Op.isBool] at hop'
  | cmpBool _ _ _ a' b' res' hop' hl' he' hr' => simp [Op.isBool] at hop'
  | cmpBoolNull _ _ _ a' b' hop' hl' he' hn => simp [Op.isBool] at hop'
  | or _ _ a' b' hl' he' =>
    simp only [Val.bool.injEq, Option.some.injEq, Bool.true_eq, Bool.or_eq_true] at hv
    rcases hv with rfl | rfl
    · exact .inl hl'
    · exact .inr he'
  | logicNull _ _ _ a' b' hop' hl' he' hn => simp at hv

theorem value_col {r : Row V} {f : Field} {v : Val V} (h : Value r (.col f) v) : rowField r f = some v := by
  cases h with | col _ _ h => exact h

/-- An expression without columns has the same value on every row. -/
theorem value_closed {r s : Row V} {c : Expr V} {v : Val V} (h : Value r c v) (hc : c.refs = []) : Value s c v := by
  induction h with
  | col f v h => simp [Expr.refs] at hc
  | lit v => exact .lit v
  | cmp l e op t a b res hop hl he hr ihl ihe =>
    simp only [Expr.refs, List.append_eq_nil_iff] at hc; exact .cmp l e op t a b res hop (ihl hc.1) (ihe hc.2) hr
  | cmpNull l e op t a b hop hl he hn ihl ihe =>
    simp only [Expr.refs, List.append_eq_nil_iff] at hc; exact .cmpNull l e op t a b hop (ihl hc.1) (ihe hc.2) hn
  | cmpBool l e op a b res hop hl he hr ihl ihe =>
    simp only [Expr.refs, List.append_eq_nil_iff] at hc; exact .cmpBool l e op a b res hop (ihl hc.1) (ihe hc.2) hr
  | cmpBoolNull l e op a b hop hl he hn ihl ihe =>
    simp only [Expr.refs, List.append_eq_nil_iff] at hc; exact .cmpBoolNull l e op a b hop (ihl hc.1) (ihe hc.2) hn
  | and l e a b hl he ihl ihe =>
    simp only [Expr.refs, List.append_eq_nil_iff] at hc; exact .and l e a b (ihl hc.1) (ihe hc.2)
  | or l e a b hl he ihl ihe =>
    simp only [Expr.refs, List.append_eq_nil_iff] at hc; exact .or l e a b (ihl hc.1) (ihe hc.2)
  | logicNull l e op a b hop hl he hn ihl ihe =>
    simp only [Expr.refs, List.append_eq_nil_iff] at hc; exact .logicNull l e op a b hop (ihl hc.1) (ihe hc.2) hn

omit [LinearOrder V] in
theorem replaceStat_closed (s : MStat) (c : Expr V) (m : Fetch) (hc : c.refs = []) : replaceStat s c m = (none, m) := by
  induction c generalizing m with
  | col f => simp [Expr.refs] at hc
  | lit v => rfl
  | bin l op r ihl ihr =>
    simp only [Expr.refs, List.append_eq_nil_iff] at hc
    simp [replaceStat, ihl m hc.1, ihr m hc.2]

omit [LinearOrder V] in
theorem rewriteOther_closed (s : MStat) (c : Expr V) (m : Fetch) (hc : c.refs = []) : rewriteOther c s m = (c, m) := by
  simp [rewriteOther, replaceStat_closed s c m hc]

omit [LinearOrder V] in
theorem rewriteOther_col (s : MStat) (g : Field) (m : Fetch) :
    rewriteOther (.col g : Expr V) s m = (.col (statName g s), m.push g s) := by
  simp [rewriteOther, replaceStat]

/-- Non-null values compared with an operator. -/
def CmpVal (op : Op) : Val V → Val V → Prop
  | .prim t (some a), .prim u (some b) => t = u ∧ Rel op a b
  | .bool (some a), .bool (some b) => Rel op a b
  | _, _ => False

theorem holds_cmp_val {r : Row V} {l e : Expr V} {op : Op} (hop : op.isBool = false) (h : Holds r (.bin l op e)) :
    ∃ x y, Value r l x ∧ Value r e y ∧ CmpVal op x y := by
  rcases holds_cmp_inv hop h with ⟨t, a, b, h1, h2, h3⟩ | ⟨a, b, h1, h2, h3⟩
  · exact ⟨_, _, h1, h2, rfl, h3⟩
  · exact ⟨_, _, h1, h2, h3⟩

/-! The order arguments, on values. -/

/-- All the facts used below are of this form: values `x`, `y` on the row satisfy `op`, bounds compare, contradiction. -/
theorem contra_lt {x y a b : Val V} (hxa : LeVal x a) (hby : LeVal b y) (hab : CmpVal .lte a b) (h : CmpVal .gt x y) : False := by
  cases x with
  | prim t x =>
    cases x with
    | none => simp [CmpVal] at h
    | some x =>
      cases y with
      | bool => simp [CmpVal] at h
      | prim u y =>
        cases y with
        | none => simp [CmpVal] at h
        | some y =>
          cases a with
          | bool a => cases a <;> cases b <;> simp_all [CmpVal, LeVal]
          | prim w a =>
            cases a with
            | none => simp [CmpVal] at hab
            | some a =>
              cases b with
              | bool => simp [CmpVal] at hab
              | prim w' b =>
                cases b with
                | none => simp [CmpVal] at hab
                | some b =>
                  simp only [CmpVal, Rel, LeVal] at *
                  exact absurd (le_trans hxa.2 (le_trans hab.2 hby.2)) (not_le.mpr h.2)
  | bool x =>
    cases x with
    | none => simp [CmpVal] at h
    | some x =>
      cases y with
      | prim => simp [CmpVal] at h
      | bool y =>
        cases y with
        | none => simp [CmpVal] at h
        | some y =>
          cases a with
          | prim w a => cases a <;> cases b <;> simp_all [CmpVal, LeVal]
          | bool a =>
            cases a with
            | none => simp [CmpVal] at hab
            | some a =>
              cases b with
              | prim => simp [CmpVal] at hab
              | bool b =>
                cases b with
                | none => simp [CmpVal] at hab
                | some b =>
                  simp only [CmpVal, Rel, LeVal] at *
                  exact absurd (le_trans hxa (le_trans hab hby)) (not_le.mpr h)

theorem CmpVal.flip_gt {x y : Val V} : CmpVal .gt x y ↔ CmpVal .lt y x := by
  rcases x with ⟨t, _ | a⟩ | (_ | a) <;> rcases y with ⟨u, _ | b⟩ | (_ | b) <;> simp [CmpVal, Rel, eq_comm]

theorem CmpVal.flip_gte {x y : Val V} : CmpVal .gte x y ↔ CmpVal .lte y x := by
  rcases x with ⟨t, _ | a⟩ | (_ | a) <;> rcases y with ⟨u, _ | b⟩ | (_ | b) <;> simp [CmpVal, Rel, eq_comm]

theorem CmpVal.flip_eq {x y : Val V} : CmpVal .eq x y ↔ CmpVal .eq y x := by
  rcases x with ⟨t, _ | a⟩ | (_ | a) <;> rcases y with ⟨u, _ | b⟩ | (_ | b) <;> simp [CmpVal, Rel, eq_comm]

theorem CmpVal.flip_neq {x y : Val V} : CmpVal .neq x y ↔ CmpVal .neq y x := by
  rcases x with ⟨t, _ | a⟩ | (_ | a) <;> rcases y with ⟨u, _ | b⟩ | (_ | b) <;> simp [CmpVal, Rel, eq_comm]

/-- `x = y` where `a > b` bound them apart (`a ≤ x`, `y ≤ b`). -/
theorem contra_eq {x y a b : Val V} (hax : LeVal a x) (hyb : LeVal y b) (hab : CmpVal .gt a b) (h : CmpVal .eq x y) : False := by
  cases x with
  | prim t x =>
    cases x with
    | none => simp [CmpVal] at h
    | some x =>
      cases y with
      | bool => simp [CmpVal] at h
      | prim u y =>
        cases y with
        | none => simp [CmpVal] at h
        | some y =>
          cases a with
          | bool a => cases a <;> cases b <;> simp_all [CmpVal, LeVal]
          | prim w a =>
            cases a with
            | none => simp [CmpVal] at hab
            | some a =>
              cases b with
              | bool => simp [CmpVal] at hab
              | prim w' b =>
                cases b with
                | none => simp [CmpVal] at hab
                | some b =>
                  simp only [CmpVal, Rel, LeVal] at *
                  obtain ⟨_, rfl⟩ := h
                  exact absurd (le_trans hax.2 hyb.2) (not_le.mpr hab.2)
  | bool x =>
    cases x with
    | none => simp [CmpVal] at h
    | some x =>
      cases y with
      | prim => simp [CmpVal] at h
      | bool y =>
        cases y with
        | none => simp [CmpVal] at h
        | some y =>
          cases a with
          | prim w a => cases a <;> cases b <;> simp_all [CmpVal, LeVal]
          | bool a =>
            cases a with
            | none => simp [CmpVal] at hab
            | some a =>
              cases b with
              | prim => simp [CmpVal] at hab
              | bool b =>
                cases b with
                | none => simp [CmpVal] at hab
                | some b =>
                  simp only [CmpVal, Rel, LeVal] at *
                  subst h
                  exact absurd (le_trans hax hyb) (not_le.mpr hab)

/-- `x ≠ y` where both bounds of `x` equal `y`. -/
theorem contra_neq {x y a b : Val V} (hax : LeVal a x) (hxb : LeVal x b) (hay : CmpVal .eq a y) (hyb : CmpVal .eq y b)
    (h : CmpVal .neq x y) : False := by
  cases x with
  | prim t x =>
    cases x with
    | none => simp [CmpVal] at h
    | some x =>
      cases y with
      | bool => simp [CmpVal] at h
      | prim u y =>
        cases y with
        | none => simp [CmpVal] at h
        | some y =>
          cases a with
          | bool a => simp_all [CmpVal]
          | prim w a =>
            cases a with
            | none => simp [CmpVal] at hay
            | some a =>
              cases b with
              | bool => simp [CmpVal] at hyb
              | prim w' b =>
                cases b with
                | none => simp [CmpVal] at hyb
                | some b =>
                  simp only [CmpVal, Rel, LeVal] at *
                  obtain ⟨_, rfl⟩ := hay
                  obtain ⟨_, rfl⟩ := hyb
                  exact h.2 (le_antisymm hxb.2 hax.2)
  | bool x =>
    cases x with
    | none => simp [CmpVal] at h
    | some x =>
      cases y with
      | prim => simp [CmpVal] at h
      | bool y =>
        cases y with
        | none => simp [CmpVal] at h
        | some y =>
          cases a with
          | prim w a => simp_all [CmpVal]
          | bool a =>
            cases a with
            | none => simp [CmpVal] at hay
            | some a =>
              cases b with
              | prim => simp [CmpVal] at hyb
              | bool b =>
                cases b with
                | none => simp [CmpVal] at hyb
                | some b =>
                  simp only [CmpVal, Rel, LeVal] at *
                  subst hay; subst hyb
                  exact h (le_antisymm hxb hax)

theorem LeVal.refl (x : Val V) : LeVal x x := by
  cases x <;> rename_i a <;> cases a <;> simp [LeVal]

/-- The common core: the field `f` against an operand whose value on the row is `y`, and whose replacements evaluate on the statistics to
bounds `ymin ≤ y ≤ ymax`. For `!=` the operand is a constant, i.e. all three are equal. -/
theorem rewrite_sound {s : Row V} {chunk : List (Row V)} {f : Field} (ht : Truth s chunk f) {r : Row V} (hr : r ∈ chunk)
    {op : Op} {other : Expr V} {p : Expr V × Fetch} {x y : Val V} (hx : rowField r f = some x)
    (hp : rewriteCmp f op other = some p) (hs : Holds s p.1)
    (hmin : ∀ m w, Value s (rewriteOther other .min m).1 w → LeVal w y)
    (hmax : ∀ m w, Value s (rewriteOther other .max m).1 w → LeVal y w)
    (hop : op ∈ [Op.eq, .gt, .lt] ∨ (op = .neq ∧ (∀ m w, Value s (rewriteOther other .min m).1 w → w = y) ∧
      ∀ m w, Value s (rewriteOther other .max m).1 w → w = y))
    (hxy : CmpVal op x y) : False := by
  obtain ⟨mn, mx, hmn, hmx, hb⟩ := ht
  obtain ⟨hlo, hhi⟩ := hb r hr x hx
  unfold rewriteCmp at hp
  split at hp
  · simp at hp
  rcases hop with hop | ⟨rfl, heqmin, heqmax⟩
  · simp only [List.mem_cons, List.not_mem_nil, or_false] at hop
    rcases hop with rfl | rfl | rfl
    · simp only [Option.some.injEq] at hp
      subst hp
      rcases holds_or_inv hs with h | h
      · obtain ⟨a, b, ha, hb', hc⟩ := holds_cmp_val rfl h
        have := value_col ha; rw [hmn] at this; simp only [Option.some.injEq] at this; subst this
        exact contra_eq hlo (hmax _ _ hb') hc hxy
      · obtain ⟨a, b, ha, hb', hc⟩ := holds_cmp_val rfl h
        have := value_col hb'; rw [hmx] at this; simp only [Option.some.injEq] at this; subst this
        exact contra_eq (hmin _ _ ha) hhi hc (CmpVal.flip_eq.mp hxy)
    · simp only [Option.some.injEq] at hp
      subst hp
      obtain ⟨a, b, ha, hb', hc⟩ := holds_cmp_val rfl hs
      have := value_col ha; rw [hmx] at this; simp only [Option.some.injEq] at this; subst this
      exact contra_lt hhi (hmin _ _ hb') hc hxy
    · simp only [Option.some.injEq] at hp
      subst hp
      obtain ⟨a, b, ha, hb', hc⟩ := holds_cmp_val rfl hs
      have := value_col ha; rw [hmn] at this; simp only [Option.some.injEq] at this; subst this
      exact contra_lt (hmax _ _ hb') hlo (CmpVal.flip_gte.mp hc) (CmpVal.flip_gt.mpr hxy)
  · simp only [Option.some.injEq] at hp
    subst hp
    rcases holds_or_inv hs with h | h
    · obtain ⟨h1, h2⟩ := holds_and.mp h
      obtain ⟨a, b, ha, hb', hc⟩ := holds_cmp_val rfl h1
      obtain ⟨a', b'', ha', hb'', hc'⟩ := holds_cmp_val rfl h2
      have := value_col ha; rw [hmn] at this; simp only [Option.some.injEq] at this; subst this
      have := value_col hb''; rw [hmx] at this; simp only [Option.some.injEq] at this; subst this
      have e1 := heqmin _ _ hb'; have e2 := heqmin _ _ ha'; subst e1; subst e2
      exact contra_neq hlo hhi hc hc' hxy
    · obtain ⟨h1, h2⟩ := holds_and.mp h
      obtain ⟨a, b, ha, hb', hc⟩ := holds_cmp_val rfl h1
      obtain ⟨a', b'', ha', hb'', hc'⟩ := holds_cmp_val rfl h2
      have := value_col ha; rw [hmn] at this; simp only [Option.some.injEq] at this; subst this
      have := value_col hb''; rw [hmx] at this; simp only [Option.some.injEq] at this; subst this
      have e1 := heqmax _ _ hb'; have e2 := heqmax _ _ ha'; subst e1; subst e2
      exact contra_neq hlo hhi hc hc' hxy

theorem swap_val {op : Op} (h : op ∈ [Op.eq, .neq, .gt, .lt]) {x y : Val V} (hc : CmpVal op x y) : CmpVal op.swap y x := by
  simp only [List.mem_cons, List.not_mem_nil, or_false] at h
  rcases h with rfl | rfl | rfl | rfl
  · exact CmpVal.flip_eq.mp hc
  · exact CmpVal.flip_neq.mp hc
  · exact CmpVal.flip_gt.mp hc
  · exact CmpVal.flip_gt.mpr hc

omit [LinearOrder V] in
theorem rewriteCmp_isSome {f : Field} {op : Op} {c : Expr V} (h : op.isBool = false) (hf : f ∉ c.refs) :
    ∃ p, rewriteCmp f op c = some p := by
  unfold rewriteCmp
  rw [if_neg hf]
  cases op <;> simp [Op.isBool] at h <;> exact ⟨_, rfl⟩

theorem closed_case {s : Row V} {chunk : List (Row V)} {f : Field} (ht : Truth s chunk f) {r : Row V} (hr : r ∈ chunk)
    {op : Op} {c : Expr V} (hc : c.refs = []) (hop : op ∈ [Op.eq, .neq, .gt, .lt]) {x y : Val V}
    (hx : rowField r f = some x) (hy : Value r c y) (hxy : CmpVal op x y)
    (hs : Holds s ((rewriteCmp f op c).getD fallback).1) : False := by
  have hb : op.isBool = false := by
    simp only [List.mem_cons, List.not_mem_nil, or_false] at hop; rcases hop with rfl | rfl | rfl | rfl <;> rfl
  obtain ⟨p, hp⟩ := rewriteCmp_isSome (f := f) (c := c) hb (by rw [hc]; simp)
  rw [hp] at hs
  have hval : ∀ (st : MStat) m w, Value s (rewriteOther c st m).1 w → w = y := by
    intro st m w hw
    rw [rewriteOther_closed st c m hc] at hw
    exact Value.unique hw (value_closed hy hc)
  refine rewrite_sound ht hr hx hp hs (y := y) (fun m w hw => ?_) (fun m w hw => ?_) ?_ hxy
  · rw [hval _ m w hw]; exact LeVal.refl y
  · rw [hval _ m w hw]; exact LeVal.refl y
  · simp only [List.mem_cons, List.not_mem_nil, or_false] at hop
    rcases hop with rfl | rfl | rfl | rfl
    · simp
    · exact .inr ⟨rfl, hval _, hval _⟩
    · simp
    · simp

/-! ## Soundness -/

/-- If the pruning expression of a `Safe` filter is true on truthful statistics of a chunk, no row of the chunk satisfies the filter.
Missing for the full property: `>=`, `<=`, `or`, bare boolean columns, `!=` between columns, self comparisons and nested operands,
for all of which it is false (below). -/
theorem C27_prune_sound_partial (e : Expr V) (hsafe : Safe e) (chunk : List (Row V)) (s : Row V)
    (ht : ∀ f ∈ e.refs, Truth s chunk f) (hp : Prunes e s) : ∀ r ∈ chunk, ¬ Holds r e := by
  unfold Prunes at hp
  induction hsafe with
  | colConst f op c hop hc =>
    intro r hr hh
    have hb : op.isBool = false := by
      simp only [List.mem_cons, List.not_mem_nil, or_false] at hop; rcases hop with rfl | rfl | rfl | rfl <;> rfl
    obtain ⟨x, y, hx, hy, hxy⟩ := holds_cmp_val hb hh
    have hno : ¬ (op = .or ∨ op = .and) := by rintro (rfl | rfl) <;> simp [Op.isBool] at hb
    simp only [convert, hno, if_false] at hp
    exact closed_case (ht f (by simp [Expr.refs])) hr hc hop (value_col hx) hy hxy hp
  | constCol f op c hop hc =>
    intro r hr hh
    have hb : op.isBool = false := by
      simp only [List.mem_cons, List.not_mem_nil, or_false] at hop; rcases hop with rfl | rfl | rfl | rfl <;> rfl
    obtain ⟨x, y, hx, hy, hxy⟩ := holds_cmp_val hb hh
    have hno : ¬ (op = .or ∨ op = .and) := by rintro (rfl | rfl) <;> simp [Op.isBool] at hb
    have hop' : op.swap ∈ [Op.eq, .neq, .gt, .lt] := by
      simp only [List.mem_cons, List.not_mem_nil, or_false] at hop; rcases hop with rfl | rfl | rfl | rfl <;> simp [Op.swap]
    have hconv : (convert (.bin c op (.col f))) = (rewriteCmp f op.swap c).getD fallback := by
      cases c with
      | col g => simp [Expr.refs] at hc
      | lit v => simp [convert, hno]
      | bin l o r => simp [convert, hno]
    rw [hconv] at hp
    exact closed_case (ht f (by simp [Expr.refs])) hr hc hop' (value_col hy) hx (swap_val hop hxy) hp
  | colCol f g op hop hfg =>
    intro r hr hh
    have hb : op.isBool = false := by
      simp only [List.mem_cons, List.not_mem_nil, or_false] at hop; rcases hop with rfl | rfl | rfl <;> rfl
    obtain ⟨x, y, hx, hy, hxy⟩ := holds_cmp_val hb hh
    have hno : ¬ (op = .or ∨ op = .and) := by rintro (rfl | rfl) <;> simp [Op.isBool] at hb
    simp only [convert, hno, if_false] at hp
    obtain ⟨p, hpc⟩ := rewriteCmp_isSome (f := f) (c := (.col g : Expr V)) hb (by simp [Expr.refs, hfg])
    rw [hpc] at hp
    obtain ⟨mn, mx, hmn, hmx, hbd⟩ := ht g (by simp [Expr.refs])
    obtain ⟨hlo, hhi⟩ := hbd r hr y (value_col hy)
    refine rewrite_sound (ht f (by simp [Expr.refs])) hr (value_col hx) hpc hp (y := y) (fun m w hw => ?_) (fun m w hw => ?_)
      (.inl hop) hxy
    · rw [rewriteOther_col] at hw
      have := value_col hw; rw [hmn] at this; simp only [Option.some.injEq] at this; subst this
      exact hlo
    · rw [rewriteOther_col] at hw
      have := value_col hw; rw [hmx] at this; simp only [Option.some.injEq] at this; subst this
      exact hhi
  | andLeft l r _ ih =>
    intro x hx hh
    simp only [convert, or_true, if_true] at hp
    exact ih (fun f hf => ht f (by simp [Expr.refs, hf])) (holds_and.mp hp).1 x hx (holds_and.mp hh).1
  | andRight l r _ ih =>
    intro x hx hh
    simp only [convert, or_true, if_true] at hp
    exact ih (fun f hf => ht f (by simp [Expr.refs, hf])) (holds_and.mp hp).2 x hx (holds_and.mp hh).2

/-! ## Non-vacuity -/

def fa : Field := .name ['a']
def fb : Field := .name ['b']
def nameOf (c : Char) (s : MStat) : List Char := c :: '_' :: s.show
def num (n : Nat) : Val Nat := .prim 0 (some n)
/-- A chunk with the one column `a`. -/
def chunkA (ns : List Nat) : List (Row Nat) := ns.map (fun n => [(['a'], num n)])
def statsA (lo hi : Nat) : Row Nat := [(nameOf 'a' .min, num lo), (nameOf 'a' .max, num hi)]

theorem truthA {ns : List Nat} {lo hi : Nat} (h : ∀ n ∈ ns, lo ≤ n ∧ n ≤ hi) : Truth (statsA lo hi) (chunkA ns) fa := by
  refine ⟨num lo, num hi, by simp [rowField, statsA, statName, nameOf, fa, MStat.show],
    by simp [rowField, statsA, statName, nameOf, fa, MStat.show], fun r hr v hv => ?_⟩
  simp only [chunkA, List.mem_map] at hr
  obtain ⟨n, hn, rfl⟩ := hr
  simp [rowField, fa] at hv
  subst hv
  exact ⟨⟨rfl, (h n hn).1⟩, ⟨rfl, (h n hn).2⟩⟩

/-- `a > 7 and a = 3` on a chunk with values 1..5: prunable, and the hypotheses of the theorem are met. -/
example : let e : Expr Nat := .bin (.bin (.col fa) .gt (.lit (num 7))) .and (.col fb)
    Safe e ∧ Truth (statsA 1 5) (chunkA [1, 4, 5]) fa ∧ Prunes e (statsA 1 5) := by
  refine ⟨.andLeft _ _ (.colConst _ _ _ (by simp) rfl), truthA (by simp), ?_⟩
  refine .and _ _ true true ?_ (.lit _)
  exact .cmp _ _ _ 0 5 7 true rfl (.col _ _ (by decide)) (.lit _) (by simp [Rel])

/-! ## Where pruning drops matching rows -/

/-- `a >= 5` on a chunk whose maximum is 5: the chunk is pruned although a row matches (`Gte` is rewritten like `Gt`). -/
theorem C27_gte_boundary_unsound : ∃ (e : Expr Nat) (chunk : List (Row Nat)) (s : Row Nat),
    (∀ f ∈ e.refs, Truth s chunk f) ∧ Prunes e s ∧ ∃ r ∈ chunk, Holds r e := by
  refine ⟨.bin (.col fa) .gte (.lit (num 5)), chunkA [5], statsA 5 5, ?_, ?_, [(['a'], num 5)], by simp [chunkA], ?_⟩
  · intro f hf; simp [Expr.refs] at hf; subst hf; exact truthA (by simp)
  · exact .cmp _ _ _ 0 5 5 true rfl (.col _ _ (by decide)) (.lit _) (by simp [Rel])
  · exact .cmp _ _ _ 0 5 5 true rfl (.col _ _ (by decide)) (.lit _) (by simp [Rel])

/-- `a <= 5` likewise. -/
theorem C27_lte_boundary_unsound : ∃ (e : Expr Nat) (chunk : List (Row Nat)) (s : Row Nat),
    (∀ f ∈ e.refs, Truth s chunk f) ∧ Prunes e s ∧ ∃ r ∈ chunk, Holds r e := by
  refine ⟨.bin (.col fa) .lte (.lit (num 5)), chunkA [5], statsA 5 5, ?_, ?_, [(['a'], num 5)], by simp [chunkA], ?_⟩
  · intro f hf; simp [Expr.refs] at hf; subst hf; exact truthA (by simp)
  · exact .cmp _ _ _ 0 5 5 true rfl (.col _ _ (by decide)) (.lit _) (by simp [Rel])
  · exact .cmp _ _ _ 0 5 5 true rfl (.col _ _ (by decide)) (.lit _) (by simp [Rel])

/-- `a > 9 or a = 5`: the disjunction is kept a disjunction of prunings, so one impossible side prunes the chunk. -/
theorem C27_or_unsound : ∃ (e : Expr Nat) (chunk : List (Row Nat)) (s : Row Nat),
    (∀ f ∈ e.refs, Truth s chunk f) ∧ Prunes e s ∧ ∃ r ∈ chunk, Holds r e := by
  refine ⟨.bin (.bin (.col fa) .gt (.lit (num 9))) .or (.bin (.col fa) .eq (.lit (num 5))), chunkA [5], statsA 5 5, ?_, ?_,
    [(['a'], num 5)], by simp [chunkA], ?_⟩
  · intro f hf; simp [Expr.refs] at hf; subst hf; exact truthA (by simp)
  · refine .or _ _ true false ?_ ?_
    · exact .cmp _ _ _ 0 5 9 true rfl (.col _ _ (by decide)) (.lit _) (by simp [Rel])
    · refine .or _ _ false false ?_ ?_
      · exact .cmp _ _ _ 0 5 5 false rfl (.col _ _ (by decide)) (.lit _) (by simp [Rel])
      · exact .cmp _ _ _ 0 5 5 false rfl (.lit _) (.col _ _ (by decide)) (by simp [Rel])
  · refine .or _ _ false true ?_ ?_
    · exact .cmp _ _ _ 0 5 9 false rfl (.col _ _ (by decide)) (.lit _) (by simp [Rel])
    · exact .cmp _ _ _ 0 5 5 true rfl (.col _ _ (by decide)) (.lit _) (by simp [Rel])

/-- Everything that cannot be translated becomes the literal `true`, i.e. "skip the chunk": a bare boolean column. -/
theorem C27_untranslatable_unsound (chunk : List (Row V)) (s : Row V) (f : Field) : Prunes (.col f) s ∧ Prunes (.lit (.bool (some true))) s
    ∧ (∀ r ∈ chunk, Holds r (.lit (.bool (some true)) : Expr V)) :=
  ⟨.lit _, .lit _, fun _ _ => .lit _⟩

/-- A column compared with itself is untranslatable, hence always pruned: `a = a`. -/
theorem C27_self_comparison_unsound (s : Row V) (f : Field) : Prunes (.bin (.col f) .eq (.col f)) s ∧
    ∀ (t : Nat) (v : V) (r : Row V), rowField r f = some (.prim t (some v)) → Holds r (.bin (.col f) .eq (.col f)) := by
  refine ⟨?_, fun t v r h => .cmp _ _ _ t v v true rfl (.col _ _ h) (.col _ _ h) (by simp [Rel])⟩
  have : (convert (.bin (.col f) .eq (.col f)) : Expr V × Fetch) = fallback := by
    simp [convert, rewriteCmp, Expr.refs]
  unfold Prunes; rw [this]; exact .lit _

def chunkAB (ps : List (Nat × Nat)) : List (Row Nat) := ps.map (fun p => [(['a'], num p.1), (['b'], num p.2)])
def statsAB (lo hi lo' hi' : Nat) : Row Nat :=
  [(nameOf 'a' .min, num lo), (nameOf 'a' .max, num hi), (nameOf 'b' .min, num lo'), (nameOf 'b' .max, num hi')]

/-- `a != b` with `a` constant 1 and `b` in 1..2: pruned because `b`'s minimum equals `a`, although row (1, 2) matches. -/
theorem C27_neq_columns_unsound : ∃ (e : Expr Nat) (chunk : List (Row Nat)) (s : Row Nat),
    (∀ f ∈ e.refs, Truth s chunk f) ∧ Prunes e s ∧ ∃ r ∈ chunk, Holds r e := by
  refine ⟨.bin (.col fa) .neq (.col fb), chunkAB [(1, 1), (1, 2)], statsAB 1 1 1 2, ?_, ?_,
    [(['a'], num 1), (['b'], num 2)], by simp [chunkAB], ?_⟩
  · intro f hf
    simp [Expr.refs] at hf
    rcases hf with rfl | rfl
    · refine ⟨num 1, num 1, by decide, by decide, fun r hr v hv => ?_⟩
      simp only [chunkAB, List.map_cons, List.map_nil, List.mem_cons, List.not_mem_nil, or_false] at hr
      rcases hr with rfl | rfl <;> · simp [rowField, fa] at hv; subst hv; simp [LeVal, num]
    · refine ⟨num 1, num 2, by decide, by decide, fun r hr v hv => ?_⟩
      simp only [chunkAB, List.map_cons, List.map_nil, List.mem_cons, List.not_mem_nil, or_false] at hr
      rcases hr with rfl | rfl <;> · simp [rowField, fb] at hv; subst hv; simp [LeVal, num]
  · refine .or _ _ true false ?_ ?_
    · refine .and _ _ true true ?_ ?_
      · exact .cmp _ _ _ 0 1 1 true rfl (.col _ _ (by decide)) (.col _ _ (by decide)) (by simp [Rel])
      · exact .cmp _ _ _ 0 1 1 true rfl (.col _ _ (by decide)) (.col _ _ (by decide)) (by simp [Rel])
    · refine .and _ _ false false ?_ ?_
      · exact .cmp _ _ _ 0 1 2 false rfl (.col _ _ (by decide)) (.col _ _ (by decide)) (by simp [Rel])
      · exact .cmp _ _ _ 0 2 1 false rfl (.col _ _ (by decide)) (.col _ _ (by decide)) (by simp [Rel])
  · exact .cmp _ _ _ 0 1 2 true rfl (.col _ _ (by decide)) (.col _ _ (by decide)) (by simp [Rel])

/-- A nested operand: `flag = (b < 2)` replaces `b` by its minimum on both sides, which is not a bound of `b < 2`.
With `flag` all true and `b` in 1..3, `true > (3 < 2)` prunes the chunk although row (true, 1) matches. -/
theorem C27_nested_operand_unsound : ∃ (e : Expr Nat) (chunk : List (Row Nat)) (s : Row Nat),
    (∀ f ∈ e.refs, Truth s chunk f) ∧ Prunes e s ∧ ∃ r ∈ chunk, Holds r e := by
  let rowT : Nat → Row Nat := fun n => [(['a'], .bool (some true)), (['b'], num n)]
  let st : Row Nat := [(nameOf 'a' .min, .bool (some true)), (nameOf 'a' .max, .bool (some true)), (nameOf 'b' .min, num 1),
    (nameOf 'b' .max, num 3)]
  refine ⟨.bin (.col fa) .eq (.bin (.col fb) .lt (.lit (num 2))), [rowT 1, rowT 3], st, ?_, ?_, rowT 1, by simp, ?_⟩
  · intro f hf
    simp [Expr.refs] at hf
    rcases hf with rfl | rfl
    · refine ⟨.bool (some true), .bool (some true), by decide, by decide, fun r hr v hv => ?_⟩
      simp only [List.mem_cons, List.not_mem_nil, or_false] at hr
      rcases hr with rfl | rfl <;> · simp [rowField, fa, rowT] at hv; subst hv; simp [LeVal]
    · refine ⟨num 1, num 3, by decide, by decide, fun r hr v hv => ?_⟩
      simp only [List.mem_cons, List.not_mem_nil, or_false] at hr
      rcases hr with rfl | rfl <;> · simp [rowField, fb, rowT] at hv; subst hv; simp [LeVal, num]
  · refine .or _ _ true false ?_ ?_
    · refine .cmpBool _ _ _ true false true rfl (.col _ _ (by decide)) ?_ (by simp [Rel])
      exact .cmp _ _ _ 0 3 2 false rfl (.col _ _ (by decide)) (.lit _) (by simp [Rel])
    · refine .cmpBool _ _ _ true true false rfl ?_ (.col _ _ (by decide)) (by simp [Rel])
      exact .cmp _ _ _ 0 1 2 true rfl (.col _ _ (by decide)) (.lit _) (by simp [Rel])
  · refine .cmpBool _ _ _ true true true rfl (.col _ _ (by decide)) ?_ (by simp [Rel])
    exact .cmp _ _ _ 0 1 2 true rfl (.col _ _ (by decide)) (.lit _) (by simp [Rel])

/-! ## Which statistics are fetched -/

/-- The statistics of `f` requested by a fetch plan. -/
def Fetch.get (f : Field) (m : Fetch) : List MStat := (m.filter (fun e => decide (e.1 = f))).flatMap (·.2)

/-- **C27 (statistics columns).** Different statistics of different named columns are read from different columns of the statistics table. -/
theorem C27_stat_names_distinct (n m : List Char) (s t : MStat) (h : statName (.name n) s = statName (.name m) t) : n = m ∧ s = t := by
  simp only [statName, Field.name.injEq] at h
  have h1 : n ++ ('_' :: s.show) = m ++ ('_' :: t.show) := h
  have hl : ('_' :: s.show).length = ('_' :: t.show).length := by cases s <;> cases t <;> rfl
  obtain ⟨h2, h3⟩ := List.append_inj' h1 hl
  refine ⟨h2, ?_⟩
  cases s <;> cases t <;> first | rfl | (exact absurd h3 (by decide))

example : statName (.name ['a']) .min = .name ['a', '_', 'm', 'i', 'n'] ∧ statName (.name ['a']) .min ≠ statName (.name ['a']) .max := by decide

/-- All statistics columns an expression reads are covered by the plan. -/
def Covers (m : Fetch) (e : Expr V) : Prop := ∀ g ∈ e.refs, ∃ f s, g = statName f s ∧ s ∈ Fetch.get f m

theorem get_push_self (f : Field) (s : MStat) (m : Fetch) : s ∈ Fetch.get f (Fetch.push f s m) := by
  induction m with
  | nil => simp [Fetch.push, Fetch.get]
  | cons p rest ih =>
    obtain ⟨g, ss⟩ := p
    by_cases h : g = f
    · simp [Fetch.push, Fetch.get, h]
    · simp only [Fetch.push, h, if_false]
      simpa [Fetch.get, h] using ih

theorem mem_get {f : Field} {t : MStat} {m : Fetch} : t ∈ Fetch.get f m ↔ ∃ ss, (f, ss) ∈ m ∧ t ∈ ss := by
  simp only [Fetch.get, List.mem_flatMap, List.mem_filter, decide_eq_true_eq]
  constructor
  · rintro ⟨⟨g, ss⟩, ⟨h1, rfl⟩, h2⟩; exact ⟨ss, h1, h2⟩
  · rintro ⟨ss, h1, h2⟩; exact ⟨(f, ss), ⟨h1, rfl⟩, h2⟩

theorem get_push_mono {f g : Field} {s t : MStat} {m : Fetch} (h : t ∈ Fetch.get g m) : t ∈ Fetch.get g (Fetch.push f s m) := by
  rw [mem_get] at h ⊢
  obtain ⟨ss, h1, h2⟩ := h
  induction m with
  | nil => simp at h1
  | cons p rest ih =>
    obtain ⟨k, ks⟩ := p
    by_cases hk : k = f
    · simp only [Fetch.push, if_pos hk]
      rcases List.mem_cons.mp h1 with h1 | h1
      · simp only [Prod.mk.injEq] at h1
        obtain ⟨rfl, rfl⟩ := h1
        exact ⟨ss ++ [s], by simp, by simp [h2]⟩
      · exact ⟨ss, by simp [h1], h2⟩
    · simp only [Fetch.push, if_neg hk]
      rcases List.mem_cons.mp h1 with h1 | h1
      · exact ⟨ss, by simp [h1], h2⟩
      · obtain ⟨ts, h3, h4⟩ := ih h1
        exact ⟨ts, by simp [h3], h4⟩

omit [LinearOrder V] in
theorem replaceStat_mono {s : MStat} (e : Expr V) {m : Fetch} {g : Field} {t : MStat} (h : t ∈ Fetch.get g m) :
    t ∈ Fetch.get g (replaceStat s e m).2 := by
  induction e generalizing m with
  | col f => exact get_push_mono h
  | lit v => exact h
  | bin l op r ihl ihr =>
    simp only [replaceStat]
    have h1 := ihl h
    have h2 := ihr h1
    split <;> exact h2

omit [LinearOrder V] in
theorem replaceStat_covers {s : MStat} (e : Expr V) (m : Fetch) : Covers (replaceStat s e m).2 ((replaceStat s e m).1.getD e) := by
  induction e generalizing m with
  | col f =>
    intro g hg
    simp only [replaceStat, Option.getD_some, Expr.refs, List.mem_singleton] at hg
    exact ⟨f, s, hg, get_push_self f s m⟩
  | lit v => intro g hg; simp [replaceStat, Expr.refs] at hg
  | bin l op r ihl ihr =>
    intro g hg
    have key : ∀ g ∈ ((replaceStat s l m).1.getD l).refs ++ ((replaceStat s r (replaceStat s l m).2).1.getD r).refs,
        ∃ f t, g = statName f t ∧ t ∈ Fetch.get f (replaceStat s r (replaceStat s l m).2).2 := by
      intro g hg
      rcases List.mem_append.mp hg with h | h
      · obtain ⟨f, t, h1, h2⟩ := ihl m g h
        exact ⟨f, t, h1, replaceStat_mono r h2⟩
      · exact ihr _ g h
    simp only [replaceStat] at hg ⊢
    split at hg
    · rename_i hn
      rw [if_pos hn]
      simp only [Bool.and_eq_true, Option.isNone_iff_eq_none] at hn
      refine key g ?_
      simp only [hn.1, hn.2, Option.getD_none]
      exact hg
    · rename_i hn
      rw [if_neg hn]
      refine key g ?_
      simpa [Expr.refs] using hg

omit [LinearOrder V] in
theorem Covers.mono {m m' : Fetch} {e : Expr V} (h : Covers m e) (hm : ∀ f s, s ∈ Fetch.get f m → s ∈ Fetch.get f m') : Covers m' e :=
  fun g hg => let ⟨f, s, h1, h2⟩ := h g hg; ⟨f, s, h1, hm f s h2⟩

omit [LinearOrder V] in
theorem rewriteOther_covers (other : Expr V) (s : MStat) (m : Fetch) :
    Covers (rewriteOther other s m).2 (rewriteOther other s m).1 := replaceStat_covers other m

omit [LinearOrder V] in
theorem rewriteOther_mono {other : Expr V} {s : MStat} {m : Fetch} {g : Field} {t : MStat} (h : t ∈ Fetch.get g m) :
    t ∈ Fetch.get g (rewriteOther other s m).2 := replaceStat_mono other h

omit [LinearOrder V] in
/-- For a single comparison (anything that is not `and`/`or` at the top) the fetch plan contains every statistic the pruning expression
reads. For conjunctions this is false (`C27_fetch_plan_loses_entries`). -/
theorem C27_fetch_covers_comparison_partial (e : Expr V) (h : ∀ l r op, e = .bin l op r → op.isBool = false) :
    Covers (convert e).2 (convert e).1 := by
  have hfb : Covers (fallback : Expr V × Fetch).2 (fallback : Expr V × Fetch).1 := by intro g hg; simp [fallback, Expr.refs] at hg
  have hrw : ∀ (f : Field) (op : Op) (other : Expr V),
      Covers ((rewriteCmp f op other).getD fallback).2 ((rewriteCmp f op other).getD fallback).1 := by
    intro f op other
    unfold rewriteCmp
    split
    · exact hfb
    · have hpush : ∀ (s t : MStat) (m : Fetch), t ∈ Fetch.get f (Fetch.push f s (Fetch.push f t m)) :=
        fun s t m => get_push_mono (get_push_self f t m)
      cases op with
      | eq =>
        intro g hg
        simp only [Option.getD_some, Expr.refs, List.mem_append, List.mem_singleton] at hg ⊢
        rcases hg with (rfl | hg) | (hg | rfl)
        · exact ⟨f, .min, rfl, rewriteOther_mono (rewriteOther_mono (hpush _ _ _))⟩
        · exact (rewriteOther_covers other .max _).mono (fun _ _ h => rewriteOther_mono h) g hg
        · exact rewriteOther_covers other .min _ g hg
        · exact ⟨f, .max, rfl, rewriteOther_mono (rewriteOther_mono (get_push_self _ _ _))⟩
      | neq =>
        intro g hg
        simp only [Option.getD_some, Expr.refs, List.mem_append, List.mem_singleton] at hg ⊢
        rcases hg with ((rfl | hg) | (hg | rfl)) | ((rfl | hg) | (hg | rfl))
        · exact ⟨f, .min, rfl, rewriteOther_mono (rewriteOther_mono (hpush _ _ _))⟩
        · exact rewriteOther_covers other .min _ g hg
        · exact rewriteOther_covers other .min _ g hg
        · exact ⟨f, .max, rfl, rewriteOther_mono (rewriteOther_mono (get_push_self _ _ _))⟩
        · exact ⟨f, .min, rfl, rewriteOther_mono (rewriteOther_mono (hpush _ _ _))⟩
        · exact (rewriteOther_covers other .max _).mono (fun _ _ h => rewriteOther_mono h) g hg
        · exact (rewriteOther_covers other .max _).mono (fun _ _ h => rewriteOther_mono h) g hg
        · exact ⟨f, .max, rfl, rewriteOther_mono (rewriteOther_mono (get_push_self _ _ _))⟩
      | gt =>
        intro g hg
        simp only [Option.getD_some, Expr.refs, List.mem_append, List.mem_singleton] at hg ⊢
        rcases hg with rfl | hg
        · exact ⟨f, .max, rfl, rewriteOther_mono (get_push_self _ _ _)⟩
        · exact rewriteOther_covers other .min _ g hg
      | gte =>
        intro g hg
        simp only [Option.getD_some, Expr.refs, List.mem_append, List.mem_singleton] at hg ⊢
        rcases hg with rfl | hg
        · exact ⟨f, .max, rfl, rewriteOther_mono (get_push_self _ _ _)⟩
        · exact rewriteOther_covers other .min _ g hg
      | lt =>
        intro g hg
        simp only [Option.getD_some, Expr.refs, List.mem_append, List.mem_singleton] at hg ⊢
        rcases hg with rfl | hg
        · exact ⟨f, .min, rfl, rewriteOther_mono (get_push_self _ _ _)⟩
        · exact rewriteOther_covers other .max _ g hg
      | lte =>
        intro g hg
        simp only [Option.getD_some, Expr.refs, List.mem_append, List.mem_singleton] at hg ⊢
        rcases hg with rfl | hg
        · exact ⟨f, .min, rfl, rewriteOther_mono (get_push_self _ _ _)⟩
        · exact rewriteOther_covers other .max _ g hg
      | and => exact hfb
      | or => exact hfb
  cases e with
  | col f => exact hfb
  | lit v => exact hfb
  | bin l op r =>
    have hb := h l r op rfl
    have hno : ¬ (op = .or ∨ op = .and) := by rintro (rfl | rfl) <;> simp [Op.isBool] at hb
    cases l with
    | col f => simp only [convert, hno, if_false]; exact hrw f op r
    | lit v =>
      cases r with
      | col f => simp only [convert, hno, if_false]; exact hrw f op.swap _
      | lit w => simp only [convert, hno, if_false]; exact hfb
      | bin a o b => simp only [convert, hno, if_false]; exact hfb
    | bin a o b =>
      cases r with
      | col f => simp only [convert, hno, if_false]; exact hrw f op.swap _
      | lit w => simp only [convert, hno, if_false]; exact hfb
      | bin c o' d => simp only [convert, hno, if_false]; exact hfb

/-- `a > 3 and a < 10` reads `a_max` and `a_min`, but the plan fetches only `min`: the right-hand map overwrites the left-hand one. -/
theorem C27_fetch_plan_loses_entries : ∃ e : Expr Nat, ¬ Covers (convert e).2 (convert e).1 := by
  refine ⟨.bin (.bin (.col fa) .gt (.lit (num 3))) .and (.bin (.col fa) .lt (.lit (num 10))), fun h => ?_⟩
  obtain ⟨f, s, h1, h2⟩ := h (statName fa .max) (by decide)
  have hm : (convert (.bin (.bin (.col fa) .gt (.lit (num 3))) .and (.bin (.col fa) .lt (.lit (num 10))))).2 = [(fa, [MStat.min])] := by
    decide
  rw [hm] at h2
  by_cases hf : fa = f
  · subst hf
    simp [Fetch.get] at h2
    subst h2
    exact absurd h1 (by decide)
  · simp [Fetch.get, hf] at h2

end Vx.RowExpr
