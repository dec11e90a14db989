import Verif.Lemmas.TreeExpr
import Verif.Lemmas.TreeCompareConst
/-! # Boolean operators, expressions and row filters over encoded arrays: when they succeed -/
namespace Vx.Tree
open Spec
open RowExpr (Field)

variable {L : Type} {env : CEnv L} {leafRows : L → List SV} {ok : L → Prop} {cached : Arr L → Option Nat}

theorem ownBool_none {both : Bool} {l r : Arr L} (hc : isConstArr l = false) (hp : plainMask l = false) : ownBool env both l r = none := by
  cases l with
  | flat k vals v => cases k <;> simp [plainMask] at hp <;> rfl
  | const => simp [isConstArr] at hc
  | _ => rfl

theorem boolImpl_fresh {both : Bool} {l r b : Arr L} (h : boolImpl env both l r = .ok b) : isConstArr b = false := by
  simp only [boolImpl, Res.bind_eq_ok] at h
  obtain ⟨_, _, _, _, h⟩ := h
  exact fromArrowBools_fresh h

/-- Two decodable boolean arrays of the same length that are not constants. -/
theorem boolOp_total (hl : LeafLaws env.toEnv leafRows ok) (lb : LeafBulk env.toBEnv leafRows ok) {both : Bool} {l r : Arr L}
    (hw : WF env.toEnv leafRows ok l) (hn : Nice env.toEnv leafRows l) (hd : isBooleanType (dtype env.toEnv l) = true)
    (hw' : WF env.toEnv leafRows ok r) (hn' : Nice env.toEnv leafRows r) (hd' : isBooleanType (dtype env.toEnv r) = true)
    (hlen : (rows env.toEnv leafRows l).length = (rows env.toEnv leafRows r).length) (cl : isConstArr l = false) (cr : isConstArr r = false) :
    ∃ b, Arr.boolOp env both l r = .ok b ∧ Fresh env b := by
  have h1 : ¬ (len env.toEnv l ≠ len env.toEnv r) := by rw [len_eq hl l hw, len_eq hl r hw']; omega
  simp only [Arr.boolOp, h1, if_false, hd, hd', Bool.not_true, Bool.or_self, Bool.false_eq_true]
  cases pl : plainMask l with
  | true =>
    cases l with
    | flat k vals v =>
      cases k with
      | bool =>
        obtain ⟨b, b1, b2⟩ := boolImpl_ok (both := both) hl lb hw hn hd hw' hn' hd'
        exact ⟨b, by simp only [ownBool, b1], b2.dtype, boolImpl_fresh b1⟩
      | _ => simp [plainMask] at pl
    | const => simp [isConstArr] at cl
    | _ => simp [plainMask] at pl
  | false =>
    rw [ownBool_none cl pl]
    cases pr : plainMask r with
    | true =>
      cases r with
      | flat k vals v =>
        cases k with
        | bool =>
          obtain ⟨b, b1, b2⟩ := boolImpl_ok (both := both) hl lb hw' hn' hd' hw hn hd
          exact ⟨b, by simp only [ownBool, b1], b2.dtype, boolImpl_fresh b1⟩
        | _ => simp [plainMask] at pr
      | const => simp [isConstArr] at cr
      | _ => simp [plainMask] at pr
    | false =>
      rw [ownBool_none cr pr]
      obtain ⟨vals, v, g1, g2, g3, g4⟩ := canon_bool hl lb hw hn hd
      obtain ⟨b, b1, b2⟩ := boolImpl_ok (both := both) hl lb g2 (by simpa only [Nice] using g3) rfl hw' hn' hd'
      exact ⟨b, by simp only [decodeBool, g1, Res.ok_bind, b1], b2.dtype, boolImpl_fresh b1⟩

/-- A constant and a plain boolean array, either way round. -/
theorem boolOp_const (hl : LeafLaws env.toEnv leafRows ok) (lb : LeafBulk env.toBEnv leafRows ok) (hns : NoStats env) {both : Bool} {vals : List SV}
    {v : TVal (Arr L)} {dt : DType} {x : SV} (hw : WF env.toEnv leafRows ok (.flat .bool vals v)) (hn : NiceV env.toEnv leafRows v)
    (hd : isBooleanType dt = true) (hx : inst x dt = true) :
    (∃ b, Arr.boolOp env both (.flat .bool vals v) (.const dt x vals.length) = .ok b ∧ Fresh env b) ∧
      ∃ b, Arr.boolOp env both (.const dt x vals.length) (.flat .bool vals v) = .ok b ∧ Fresh env b := by
  obtain ⟨nl, rfl⟩ := boolType hd
  have hw' : WF env.toEnv leafRows ok (.const (.bool nl) x vals.length : Arr L) := by simpa only [WF] using hx
  obtain ⟨b, b1, b2⟩ := boolImpl_ok (both := both) hl lb hw (by simpa only [Nice] using hn) rfl hw' (by simp [Nice, kindOf]) rfl
  have hk : known env (.flat .bool vals v) = false := hns _
  constructor <;> refine ⟨b, ?_, b2.dtype, boolImpl_fresh b1⟩
  · simp [Arr.boolOp, Tree.len, dtype, Kind.dtype, isBooleanType, ownBool, b1]
  · simp [Arr.boolOp, Tree.len, dtype, Kind.dtype, isBooleanType, ownBool, constImpl, hk, b1]

/-! ### Expressions -/

/-- Operands whose comparison succeeds: two arrays without constants, or one such array and a constant that is not null. -/
inductive Pairs (env : CEnv L) (leafRows : L → List SV) : Arr L → Arr L → Prop
  | arrays {a b : Arr L} (sty : DType) : Straight env leafRows sty a → Straight env leafRows sty b → Pairs env leafRows a b
  | right {a : Arr L} (sty : DType) (dt : DType) (x : SV) (n : Nat) : Straight env leafRows sty a → x.isNull = false → Pairs env leafRows a (.const dt x n)
  | left {b : Arr L} (sty : DType) (dt : DType) (x : SV) (n : Nat) : Straight env leafRows sty b → x.isNull = false → Pairs env leafRows (.const dt x n) b

/-- The expressions that can be evaluated on a table: the columns exist, the operands of comparisons have the same type and are `Pairs`, and the boolean
columns that are combined are not constants. -/
def Runs (env : CEnv L) (leafRows : L → List SV) (batch : Arr L) : TExpr → Prop
  | .bin l op r =>
    match cmpOp op with
    | some _ => ∃ a b, l.eval env batch = .ok a ∧ r.eval env batch = .ok b ∧ (dtype env.toEnv a).eqIgnoreNullability (dtype env.toEnv b) = true ∧
        Pairs env leafRows a b
    | none => Runs env leafRows batch l ∧ Runs env leafRows batch r
  | e => ∃ a, e.eval env batch = .ok a ∧ isBooleanType (dtype env.toEnv a) = true ∧ isConstArr a = false

theorem compare_total (hl : LeafLaws env.toEnv leafRows ok) (lb : LeafBulk env.toBEnv leafRows ok) (hns : NoStats env)
    (hleaf : ∀ op l r, isConstArr r = false → env.leafCmp op l r = none) (hlc : LeafConst env) {op : Op} {l r : Arr L}
    (hc : Comparable env leafRows ok op l r) (hp : Pairs env leafRows l r)
    (hlen : (rows env.toEnv leafRows l).length = (rows env.toEnv leafRows r).length)
    (hd : (dtype env.toEnv l).eqIgnoreNullability (dtype env.toEnv r) = true) : ∃ b, l.compare env op r = .ok b ∧ Fresh env b := by
  cases hp with
  | arrays sty h1 h2 => exact compareF_total hl lb hns hleaf _ op l r hc h1 h2 hlen hd (by omega)
  | right sty dt x n h1 h2 =>
    exact compareF_const_total hl lb hns hlc h2 _ op l dt n hc h1 (by simpa only [rows, List.length_replicate] using hlen)
      (by simpa only [dtype] using hd) (by omega)
  | left sty dt x n h1 h2 =>
    unfold Arr.compare
    have hne := straight_not_const h1
    have hll : len env.toEnv (.const dt x n : Arr L) = len env.toEnv r := by rw [hc.left.len hl, hc.right.len hl, hlen]
    have hstep : compareF env (2 * (depth (.const dt x n : Arr L) + depth r) + 2) op (.const dt x n) r =
        compareF env (2 * (depth (.const dt x n : Arr L) + depth r) + 1) op.swap r (.const dt x n) := by
      rw [compareF, if_neg (by simp [hll]), if_neg (by simp [hd]), if_pos (by rw [hne]; rfl)]
    rw [hstep]
    exact compareF_const_total hl lb hns hlc h2 _ op.swap r dt n hc.swap h1 (by simpa only [rows, List.length_replicate] using hlen.symm)
      (by simpa only [dtype] using eqIgnore_symm hd) (by omega)

theorem eval_total (hl : LeafLaws env.toEnv leafRows ok) (lb : LeafBulk env.toBEnv leafRows ok) (lc : LeafCompare env leafRows ok)
    (hns : NoStats env) (hleaf : ∀ op l r, isConstArr r = false → env.leafCmp op l r = none) (hlc : LeafConst env)
    {names : List Str} {fs : List (Arr L)} {n : Nat} {v : TVal (Arr L)} (hw : WF env.toEnv leafRows ok (.struct names fs n v)) :
    ∀ e : TExpr, Claimed env leafRows ok (.struct names fs n v) e → Runs env leafRows (.struct names fs n v) e →
      ∃ a, e.eval env (.struct names fs n v) = .ok a ∧ isBooleanType (dtype env.toEnv a) = true ∧ isConstArr a = false
  | .col _, _, h => h
  | .lit _ _, _, h => h
  | .bin l op r, hc, h => by
    unfold Claimed at hc
    unfold Runs at h
    have hr : Readable env leafRows := fun a ha => by rw [hns a] at ha; cases ha
    cases ho : cmpOp op with
    | some o =>
      rw [ho] at h hc
      simp only at h hc
      obtain ⟨a, b, ha, hb, hd, hp⟩ := h
      have hcmp := hc.2.2 a b ha hb
      obtain ⟨c, c1, c2⟩ := compare_total hl lb hns hleaf hlc hcmp hp (by rw [atom_rows hw hc.1 ha, atom_rows hw hc.2.1 hb]; simp) hd
      exact ⟨c, by simp only [TExpr.eval, ha, hb, Res.ok_bind, applyOp, ho, c1], by rw [c2.1]; rfl, c2.2⟩
    | none =>
      rw [ho] at h hc
      simp only at h hc
      obtain ⟨a, a1, a2, a3⟩ := eval_total hl lb lc hns hleaf hlc hw l hc.1 h.1
      obtain ⟨b, b1, b2, b3⟩ := eval_total hl lb lc hns hleaf hlc hw r hc.2 h.2
      obtain ⟨x1, x2, x3⟩ := eval_sound hl lb lc hr hw l a hc.1 a1
      obtain ⟨y1, y2, y3⟩ := eval_sound hl lb lc hr hw r b hc.2 b1
      obtain ⟨c, c1, c2⟩ := boolOp_total (both := decide (op = .and)) hl lb x2 x3 a2 y2 y3 b2 (by rw [x1, y1]; simp) a3 b3
      exact ⟨c, by simp only [TExpr.eval, a1, b1, Res.ok_bind, applyOp, ho, c1], by rw [c2.1]; rfl, c2.2⟩

theorem split_runs {batch : Arr L} : ∀ e : TExpr, Runs env leafRows batch e → ∀ c ∈ e.split, Runs env leafRows batch c
  | .col _, h, c, hc => by simp [TExpr.split] at hc; subst hc; exact h
  | .lit _ _, h, c, hc => by simp [TExpr.split] at hc; subst hc; exact h
  | .bin l op r, h, c, hc => by
    simp only [TExpr.split] at hc
    split at hc
    · rename_i ho
      subst ho
      simp only [Runs, cmpOp] at h
      rcases List.mem_append.mp hc with hc | hc
      · exact split_runs l h.1 c hc
      · exact split_runs r h.2 c hc
    · simp at hc; subst hc; exact h

theorem maskLoop_total (hl : LeafLaws env.toEnv leafRows ok) (lb : LeafBulk env.toBEnv leafRows ok) (lc : LeafCompare env leafRows ok)
    (hns : NoStats env) (hleaf : ∀ op l r, isConstArr r = false → env.leafCmp op l r = none) (hlc : LeafConst env)
    {names : List Str} {fs : List (Arr L)} {n : Nat} {v : TVal (Arr L)} (hw : WF env.toEnv leafRows ok (.struct names fs n v)) :
    ∀ (es : List TExpr) (mask : Arr L), (∀ c ∈ es, Claimed env leafRows ok (.struct names fs n v) c) → (∀ c ∈ es, Runs env leafRows (.struct names fs n v) c) →
      WF env.toEnv leafRows ok mask → Nice env.toEnv leafRows mask → isBooleanType (dtype env.toEnv mask) = true → isConstArr mask = false →
      (rows env.toEnv leafRows mask).length = n → ∃ m, maskLoop env cached (.struct names fs n v) mask es = .ok m
  | [], mask, _, _, hwm, hnm, hd, _, _ => by
    obtain ⟨m, h, _⟩ := finishMask_ok hl lb hwm hnm hd
    exact ⟨m, by simp only [maskLoop, h]⟩
  | e :: es, mask, hc, hru, hwm, hnm, hd, hcm, hlen => by
    unfold maskLoop
    split
    · exact ⟨_, rfl⟩
    have hr : Readable env leafRows := fun a ha => by rw [hns a] at ha; cases ha
    obtain ⟨a, a1, a2, a3⟩ := eval_total hl lb lc hns hleaf hlc hw e (hc e List.mem_cons_self) (hru e List.mem_cons_self)
    obtain ⟨x1, x2, x3⟩ := eval_sound hl lb lc hr hw e a (hc e List.mem_cons_self) a1
    obtain ⟨c, c1, c2⟩ := boolOp_total (both := true) hl lb x2 x3 a2 hwm hnm hd (by rw [x1, hlen]; simp) a3 hcm
    obtain ⟨ans, _⟩ := boolOp_sound hl lb lc hr x2 x3 hwm hnm c1
    obtain ⟨m, hm⟩ := maskLoop_total hl lb lc hns hleaf hlc hw es c (fun d h => hc d (List.mem_cons_of_mem _ h)) (fun d h => hru d (List.mem_cons_of_mem _ h))
      ans.wf ans.nice (by rw [c2.1]; rfl) c2.2 (by rw [ans.rows, x1]; simp [hlen])
    exact ⟨m, by simp only [a1, c1, Res.ok_bind, hm]⟩

theorem rowFilter_total (hl : LeafLaws env.toEnv leafRows ok) (lb : LeafBulk env.toBEnv leafRows ok) (lc : LeafCompare env leafRows ok)
    (hns : NoStats env) (hleaf : ∀ op l r, isConstArr r = false → env.leafCmp op l r = none) (hlc : LeafConst env)
    {names : List Str} {fs : List (Arr L)} {n : Nat} {v : TVal (Arr L)} (hw : WF env.toEnv leafRows ok (.struct names fs n v)) {e : TExpr}
    (hc : Claimed env leafRows ok (.struct names fs n v) e) (hru : Runs env leafRows (.struct names fs n v) e) :
    ∃ m, rowFilter env cached e (.struct names fs n v) = .ok m := by
  unfold rowFilter
  have hcs := split_claimed e hc
  have hrs := split_runs e hru
  have hr : Readable env leafRows := fun a ha => by rw [hns a] at ha; cases ha
  cases he : e.split with
  | nil => exact absurd he (split_ne e)
  | cons c cs =>
    rw [he] at hcs hrs
    obtain ⟨a, a1, a2, a3⟩ := eval_total hl lb lc hns hleaf hlc hw c (hcs c List.mem_cons_self) (hrs c List.mem_cons_self)
    obtain ⟨x1, x2, x3⟩ := eval_sound hl lb lc hr hw c a (hcs c List.mem_cons_self) a1
    obtain ⟨m, hm⟩ := maskLoop_total (cached := cached) hl lb lc hns hleaf hlc hw cs a (fun d h => hcs d (List.mem_cons_of_mem _ h))
      (fun d h => hrs d (List.mem_cons_of_mem _ h)) x2 x3 a2 a3 (by rw [x1]; simp)
    exact ⟨m, by simp only [evalConjuncts, a1, Res.ok_bind, hm]⟩

end Vx.Tree
