import Verif.Spec.Expr
import Verif.Lemmas.Validity
/-! # Lemmas about expression evaluation -/
namespace Vx.RowExpr
open Vx.Spec

variable {V : Type} [LinearOrder V]

theorem cmpV_iff (op : Op) (hop : op.isBool = false) (a b : V) : cmpV op a b = true ↔ Rel op a b := by
  cases op <;> simp_all [cmpV, Rel, Op.isBool]

theorem bool_eq_of_iff {a b : Bool} {p : Prop} (ha : a = true ↔ p) (hb : b = true ↔ p) : a = b := by
  cases a <;> cases b <;> simp_all

omit [LinearOrder V] in
theorem at_isSome {c : Col V} {i : Nat} (h : i < c.len) : ∃ v, c.at i = some v := by
  cases c with
  | prims t vs =>
    have h' : i < vs.length := h
    exact ⟨.prim t vs[i], by simp only [Col.at, List.getElem?_eq_getElem h', Option.map_some]⟩
  | bools bs =>
    have h' : i < bs.length := h
    exact ⟨.bool bs[i], by simp only [Col.at, List.getElem?_eq_getElem h', Option.map_some]⟩

/-- The value of an expression on a row is unique. -/
theorem Value.unique {r : Row V} {e : Expr V} {v w : Val V} (hv : Value r e v) (hw : Value r e w) : v = w := by
  induction hv generalizing w with
  | col f v h => cases hw with | col _ w h' => simp_all
  | lit v => cases hw; rfl
  | cmp l e op t a b res hop hl he hr ihl ihe =>
    cases hw with
    | cmp _ _ _ t' a' b' res' hop' hl' he' hr' =>
      have h1 := ihl hl'; have h2 := ihe he'
      simp at h1 h2; obtain ⟨_, rfl⟩ := h1; obtain ⟨_, rfl⟩ := h2
      rw [bool_eq_of_iff hr hr']
    | cmpNull _ _ _ t' a' b' hop' hl' he' hn =>
      have h1 := ihl hl'; have h2 := ihe he'
      simp at h1 h2; obtain ⟨_, rfl⟩ := h1; obtain ⟨_, rfl⟩ := h2; simp at hn
    | cmpBool _ _ _ a' b' res' hop' hl' he' hr' => have h1 := ihl hl'; simp at h1
    | cmpBoolNull _ _ _ a' b' hop' hl' he' hn => have h1 := ihl hl'; simp at h1
    | and _ _ a' b' hl' he' => simp [Op.isBool] at hop
    | or _ _ a' b' hl' he' => simp [Op.isBool] at hop
    | logicNull _ _ _ a' b' hop' hl' he' hn => simp [hop] at hop'
  | cmpNull l e op t a b hop hl he hn ihl ihe =>
    cases hw with
    | cmp _ _ _ t' a' b' res' hop' hl' he' hr' =>
      have h1 := ihl hl'; have h2 := ihe he'
      simp at h1 h2; obtain ⟨_, rfl⟩ := h1; obtain ⟨_, rfl⟩ := h2; simp at hn
    | cmpNull _ _ _ t' a' b' hop' hl' he' hn => rfl
    | cmpBool _ _ _ a' b' res' hop' hl' he' hr' => have h1 := ihl hl'; simp at h1
    | cmpBoolNull _ _ _ a' b' hop' hl' he' hn => rfl
    | and _ _ a' b' hl' he' => simp [Op.isBool] at hop
    | or _ _ a' b' hl' he' => simp [Op.isBool] at hop
    | logicNull _ _ _ a' b' hop' hl' he' hn => simp [hop] at hop'
  | cmpBool l e op a b res hop hl he hr ihl ihe =>
    cases hw with
    | cmp _ _ _ t' a' b' res' hop' hl' he' hr' => have h1 := ihl hl'; simp at h1
    | cmpNull _ _ _ t' a' b' hop' hl' he' hn => have h1 := ihl hl'; simp at h1
    | cmpBool _ _ _ a' b' res' hop' hl' he' hr' =>
      have h1 := ihl hl'; have h2 := ihe he'
      simp at h1 h2; subst h1; subst h2
      rw [bool_eq_of_iff hr hr']
    | cmpBoolNull _ _ _ a' b' hop' hl' he' hn =>
      have h1 := ihl hl'; have h2 := ihe he'
      simp at h1 h2; subst h1; subst h2; simp at hn
    | and _ _ a' b' hl' he' => simp [Op.isBool] at hop
    | or _ _ a' b' hl' he' => simp [Op.isBool] at hop
    | logicNull _ _ _ a' b' hop' hl' he' hn => simp [hop] at hop'
  | cmpBoolNull l e op a b hop hl he hn ihl ihe =>
    cases hw with
    | cmp _ _ _ t' a' b' res' hop' hl' he' hr' => have h1 := ihl hl'; simp at h1
    | cmpNull _ _ _ t' a' b' hop' hl' he' hn => rfl
    | cmpBool _ _ _ a' b' res' hop' hl' he' hr' =>
      have h1 := ihl hl'; have h2 := ihe he'
      simp at h1 h2; subst h1; subst h2; simp at hn
    | cmpBoolNull _ _ _ a' b' hop' hl' he' hn => rfl
    | and _ _ a' b' hl' he' => simp [Op.isBool] at hop
    | or _ _ a' b' hl' he' => simp [Op.isBool] at hop
    | logicNull _ _ _ a' b' hop' hl' he' hn => simp [hop] at hop'
  | and l e a b hl he ihl ihe =>
    cases hw with
    | cmp _ _ _ t' a' b' res' hop' hl' he' hr' => simp [Op.isBool] at hop'
    | cmpNull _ _ _ t' a' b' hop' hl' he' hn => simp [Op.isBool] at hop'
    | cmpBool _ _ _ a' b' res' hop' hl' he' hr' => simp [Op.isBool] at hop'
    | cmpBoolNull _ _ _ a' b' hop' hl' he' hn => simp [Op.isBool] at hop'
    | and _ _ a' b' hl' he' =>
      have h1 := ihl hl'; have h2 := ihe he'
      simp at h1 h2; subst h1; subst h2; rfl
    | logicNull _ _ _ a' b' hop' hl' he' hn =>
      have h1 := ihl hl'; have h2 := ihe he'
      simp at h1 h2; subst h1; subst h2; simp at hn
  | or l e a b hl he ihl ihe =>
    cases hw with
    | cmp _ _ _ t' a' b' res' hop' hl' he' hr' => simp [Op.isBool] at hop'
    | cmpNull _ _ _ t' a' b' hop' hl' he' hn => simp [Op.isBool] at hop'
    | cmpBool _ _ _ a' b' res' hop' hl' he' hr' => simp [Op.isBool] at hop'
    | cmpBoolNull _ _ _ a' b' hop' hl' he' hn => simp [Op.isBool] at hop'
    | or _ _ a' b' hl' he' =>
      have h1 := ihl hl'; have h2 := ihe he'
      simp at h1 h2; subst h1; subst h2; rfl
    | logicNull _ _ _ a' b' hop' hl' he' hn =>
      have h1 := ihl hl'; have h2 := ihe he'
      simp at h1 h2; subst h1; subst h2; simp at hn
  | logicNull l e op a b hop hl he hn ihl ihe =>
    cases hw with
    | cmp _ _ _ t' a' b' res' hop' hl' he' hr' => simp [hop] at hop'
    | cmpNull _ _ _ t' a' b' hop' hl' he' hn => rfl
    | cmpBool _ _ _ a' b' res' hop' hl' he' hr' => simp [hop] at hop'
    | cmpBoolNull _ _ _ a' b' hop' hl' he' hn => rfl
    | and _ _ a' b' hl' he' =>
      have h1 := ihl hl'; have h2 := ihe he'
      simp at h1 h2; subst h1; subst h2; simp at hn
    | or _ _ a' b' hl' he' =>
      have h1 := ihl hl'; have h2 := ihe he'
      simp at h1 h2; subst h1; subst h2; simp at hn
    | logicNull _ _ _ a' b' hop' hl' he' hn => rfl

/-! ## Columns against rows -/

omit [LinearOrder V] in
theorem row_cons (c : List Char × Col V) (cs : List (List Char × Col V)) (n i : Nat) {v : Val V} (h : c.2.at i = some v) :
    row ⟨n, c :: cs⟩ i = (c.1, v) :: row ⟨n, cs⟩ i := by
  simp [row, h]

omit [LinearOrder V] in
theorem lookup_row {b : Batch V} (hb : b.WF) {f : Field} {c : Col V} (h : lookup b.cols f = .ok c) :
    c.len = b.n ∧ ∀ i, i < b.n → ∃ v, c.at i = some v ∧ rowField (row b i) f = some v := by
  obtain ⟨n, cols⟩ := b
  induction cols generalizing f with
  | nil => cases f <;> simp [lookup, findName, Res.ofOption] at h
  | cons d ds ih =>
    have hd : d.2.len = n := hb d (by simp)
    have hds : Batch.WF ⟨n, ds⟩ := fun x hx => hb x (by simp [show x ∈ ds from hx])
    cases f with
    | name nm =>
      by_cases hn : d.1 = nm
      · simp only [lookup, findName, hn, if_true, Res.ofOption_some, Res.ok.injEq] at h
        subst h
        refine ⟨hd, fun i hi => ?_⟩
        obtain ⟨v, hv⟩ := at_isSome (c := d.2) (i := i) (by simp only [] at hi; omega)
        exact ⟨v, hv, by rw [row_cons _ _ _ _ hv]; simp [rowField, hn]⟩
      · have h' : lookup ds (.name nm) = .ok c := by
          simp only [lookup, findName, hn, if_false] at h
          exact h
        obtain ⟨h1, h2⟩ := ih hds h'
        refine ⟨h1, fun i hi => ?_⟩
        obtain ⟨v, hv, hr⟩ := h2 i hi
        obtain ⟨w, hw⟩ := at_isSome (c := d.2) (i := i) (by simp only [] at hi; omega)
        refine ⟨v, hv, ?_⟩
        rw [row_cons _ _ _ _ hw]
        simp only [rowField, List.find?_cons, hn, decide_false] at hr ⊢
        exact hr
    | index j =>
      cases j with
      | zero =>
        simp only [lookup, List.getElem?_cons_zero, Option.map_some, Res.ofOption_some, Res.ok.injEq] at h
        subst h
        refine ⟨hd, fun i hi => ?_⟩
        obtain ⟨v, hv⟩ := at_isSome (c := d.2) (i := i) (by simp only [] at hi; omega)
        exact ⟨v, hv, by rw [row_cons _ _ _ _ hv]; simp [rowField]⟩
      | succ j =>
        have h' : lookup ds (.index j) = .ok c := by simpa [lookup] using h
        obtain ⟨h1, h2⟩ := ih hds h'
        refine ⟨h1, fun i hi => ?_⟩
        obtain ⟨v, hv, hr⟩ := h2 i hi
        obtain ⟨w, hw⟩ := at_isSome (c := d.2) (i := i) (by simp only [] at hi; omega)
        exact ⟨v, hv, by rw [row_cons _ _ _ _ hw]; simpa [rowField] using hr⟩

omit [LinearOrder V] in
theorem const_len (v : Val V) (n : Nat) : (v.const n).len = n := by cases v <;> simp [Val.const, Col.len]

omit [LinearOrder V] in
theorem const_at (v : Val V) {n i : Nat} (h : i < n) : (v.const n).at i = some v := by
  cases v <;> simp [Val.const, Col.at, h]

theorem cmpO_value {r : Row V} {l e : Expr V} {op : Op} {t : Nat} {a b : Option V} (hop : op.isBool = false)
    (hl : Value r l (.prim t a)) (he : Value r e (.prim t b)) : Value r (.bin l op e) (.bool (cmpO op a b)) := by
  cases a with
  | none => exact .cmpNull l e op t _ _ hop hl he (.inl rfl)
  | some a =>
    cases b with
    | none => exact .cmpNull l e op t _ _ hop hl he (.inr rfl)
    | some b => exact .cmp l e op t a b _ hop hl he (cmpV_iff op hop a b)

theorem cmpO_value_bool {r : Row V} {l e : Expr V} {op : Op} {a b : Option Bool} (hop : op.isBool = false)
    (hl : Value r l (.bool a)) (he : Value r e (.bool b)) : Value r (.bin l op e) (.bool (cmpO op a b)) := by
  cases a with
  | none => exact .cmpBoolNull l e op _ _ hop hl he (.inl rfl)
  | some a =>
    cases b with
    | none => exact .cmpBoolNull l e op _ _ hop hl he (.inr rfl)
    | some b => exact .cmpBool l e op a b _ hop hl he (cmpV_iff op hop a b)

theorem boolO_value {r : Row V} {l e : Expr V} {op : Op} {a b : Option Bool} (hop : op.isBool = true)
    (hl : Value r l (.bool a)) (he : Value r e (.bool b)) : Value r (.bin l op e) (.bool (boolO op a b)) := by
  cases a with
  | none => exact .logicNull l e op _ _ hop hl he (.inl rfl)
  | some a =>
    cases b with
    | none => exact .logicNull l e op _ _ hop hl he (.inr rfl)
    | some b =>
      cases op <;> simp [Op.isBool] at hop
      · exact .and l e a b hl he
      · exact .or l e a b hl he

/-- `e` and `c` agree: the column holds the value of `e` on every row. -/
def Agrees (b : Batch V) (e : Expr V) (c : Col V) : Prop :=
  c.len = b.n ∧ ∀ i, i < b.n → ∃ v, c.at i = some v ∧ Value (row b i) e v

theorem zip_at {α β γ : Type} {f : α → β → γ} {xs : List α} {ys : List β} {i : Nat} {x : α} {y : β}
    (hx : xs[i]? = some x) (hy : ys[i]? = some y) : (List.zipWith f xs ys)[i]? = some (f x y) := by
  rw [List.getElem?_zipWith]; simp [hx, hy]

theorem evalOp_agrees {b : Batch V} {l r : Expr V} {op : Op} {x y c : Col V} (hx : Agrees b l x) (hy : Agrees b r y)
    (h : evalOp op x y = .ok c) : Agrees b (.bin l op r) c := by
  have hlen : x.len = y.len := hx.1.trans hy.1.symm
  unfold evalOp at h
  rw [if_neg (by simp [hlen])] at h
  cases hop : op.isBool with
  | true =>
    rw [if_pos hop] at h
    cases x with
    | prims => simp at h
    | bools a =>
      cases y with
      | prims => simp at h
      | bools b' =>
        simp only [Res.ok.injEq] at h; subst h
        refine ⟨?_, fun i hi => ?_⟩
        · have h1 := hx.1; have h2 := hy.1; simp only [Col.len] at h1 h2; simp [Col.len, h1, h2]
        · obtain ⟨v, hv, hv'⟩ := hx.2 i hi
          obtain ⟨w, hw, hw'⟩ := hy.2 i hi
          simp only [Col.at, Option.map_eq_some_iff] at hv hw
          obtain ⟨p, hp, rfl⟩ := hv
          obtain ⟨q, hq, rfl⟩ := hw
          exact ⟨_, by simp only [Col.at]; rw [zip_at hp hq]; rfl, boolO_value hop hv' hw'⟩
  | false =>
    rw [if_neg (by simp [hop])] at h
    cases x with
    | prims t a =>
      cases y with
      | bools => simp at h
      | prims u b' =>
        simp only at h
        split at h
        · rename_i htu; subst htu
          simp only [Res.ok.injEq] at h; subst h
          refine ⟨?_, fun i hi => ?_⟩
          · have h1 := hx.1; have h2 := hy.1; simp only [Col.len] at h1 h2; simp [Col.len, h1, h2]
          · obtain ⟨v, hv, hv'⟩ := hx.2 i hi
            obtain ⟨w, hw, hw'⟩ := hy.2 i hi
            simp only [Col.at, Option.map_eq_some_iff] at hv hw
            obtain ⟨p, hp, rfl⟩ := hv
            obtain ⟨q, hq, rfl⟩ := hw
            exact ⟨_, by simp only [Col.at]; rw [zip_at hp hq]; rfl, cmpO_value hop hv' hw'⟩
        · simp at h
    | bools a =>
      cases y with
      | prims => simp at h
      | bools b' =>
        simp only [Res.ok.injEq] at h; subst h
        refine ⟨?_, fun i hi => ?_⟩
        · have h1 := hx.1; have h2 := hy.1; simp only [Col.len] at h1 h2; simp [Col.len, h1, h2]
        · obtain ⟨v, hv, hv'⟩ := hx.2 i hi
          obtain ⟨w, hw, hw'⟩ := hy.2 i hi
          simp only [Col.at, Option.map_eq_some_iff] at hv hw
          obtain ⟨p, hp, rfl⟩ := hv
          obtain ⟨q, hq, rfl⟩ := hw
          exact ⟨_, by simp only [Col.at]; rw [zip_at hp hq]; rfl, cmpO_value_bool hop hv' hw'⟩

/-- Columnar evaluation computes, for every row, the value of the expression on that row. -/
theorem eval_agrees {b : Batch V} (hb : b.WF) (e : Expr V) : ∀ {c : Col V}, e.eval b = .ok c → Agrees b e c := by
  induction e with
  | col f =>
    intro c h
    obtain ⟨h1, h2⟩ := lookup_row hb (by simpa [Expr.eval] using h)
    refine ⟨h1, fun i hi => ?_⟩
    obtain ⟨v, hv, hr⟩ := h2 i hi
    exact ⟨v, hv, .col f v hr⟩
  | lit v =>
    intro c h
    simp only [Expr.eval, Res.ok.injEq] at h; subst h
    exact ⟨const_len v _, fun i hi => ⟨v, const_at v hi, .lit v⟩⟩
  | bin l op r ihl ihr =>
    intro c h
    simp only [Expr.eval, Res.bind_eq_ok] at h
    obtain ⟨x, hx, y, hy, h⟩ := h
    exact evalOp_agrees (ihl hx) (ihr hy) h

/-- `Holds` through an agreeing column. -/
theorem Agrees.holds_iff {b : Batch V} {e : Expr V} {c : Col V} (h : Agrees b e c) {i : Nat} (hi : i < b.n) :
    Holds (row b i) e ↔ c.at i = some (.bool (some true)) := by
  obtain ⟨v, hv, hval⟩ := h.2 i hi
  constructor
  · intro hh; rw [hv, Value.unique hval hh]
  · intro hh; rw [hv] at hh; simp only [Option.some.injEq] at hh; subst hh; exact hval

theorem value_and_inv {r : Row V} {l e : Expr V} {x : Bool} (h : Value r (.bin l .and e) (.bool (some x))) :
    ∃ a b, some x = some (a && b) ∧ Value r l (.bool (some a)) ∧ Value r e (.bool (some b)) := by
  generalize hv : (Val.bool (some x) : Val V) = v at h
  cases h with
  | cmp _ _ _ t' a' b' res' hop' hl' he' hr' => simp [Op.isBool] at hop'
  | cmpNull _ _ _ t' a' b' hop' hl' he' hn => simp [Op.isBool] at hop'
  | cmpBool _ _ _ a' b' res' hop' hl' he' hr' => simp [Op.isBool] at hop'
  | cmpBoolNull _ _ _ a' b' hop' hl' he' hn => simp [Op.isBool] at hop'
  | and _ _ a' b' hl' he' => exact ⟨a', b', by simpa using hv, hl', he'⟩
  | logicNull _ _ _ a' b' hop' hl' he' hn => simp at hv

/-- A conjunction holds exactly when both sides do. -/
theorem holds_and {r : Row V} {l e : Expr V} : Holds r (.bin l .and e) ↔ Holds r l ∧ Holds r e := by
  constructor
  · intro h
    obtain ⟨a, b, hx, h1, h2⟩ := value_and_inv h
    simp only [Option.some.injEq, Bool.true_eq, Bool.and_eq_true] at hx
    obtain ⟨rfl, rfl⟩ := hx
    exact ⟨h1, h2⟩
  · rintro ⟨h1, h2⟩
    exact .and l e true true h1 h2

end Vx.RowExpr
