import Verif.Lemmas.Expr
import Mathlib.Order.Nat
/-!
# C28: row filters

A row filter keeps exactly the rows on which every conjunct is true. Specification: `Spec.Holds` (Spec/Expr.lean), a per-row
relation independent of the columnar evaluator. The full claim ("regardless of early termination and available statistics") is false of
the code when the `TrueCount` of a mask cannot be computed (`C28_unavailable_true_count_drops_rows`); everything below is under the
hypothesis that it can.
-/
namespace Vx.RowExpr
open Vx.Spec

variable {V : Type} [LinearOrder V]

/-- The statistics and canonicalisation the filter relies on tell the truth: `compute_true_count` is available and counts the rows that
are true; `into_bool` keeps the rows. -/
structure Truthful (env : Env V) : Prop where
  count : ∀ bs, env.tc (.bools bs) = some (bs.count (some true))
  wf : ∀ bs, (env.intoBool bs).WF
  rows : ∀ bs, (env.intoBool bs).rows = bs

/-- A concrete environment: values with `false` under nulls, and an explicit validity. -/
def stdEnv : Env V where
  tc := fun c => match c with
    | .bools bs => some (bs.count (some true))
    | .prims _ _ => none
  intoBool := fun bs => ⟨bs.map (·.getD false), .array (bs.map (·.isSome))⟩

omit [LinearOrder V] in
theorem stdEnv_truthful : Truthful (stdEnv : Env V) where
  count := fun _ => rfl
  wf := fun bs => by simp [stdEnv, PArr.WF, Spec.FitsLen, Spec.mask]
  rows := fun bs => by
    simp only [stdEnv, PArr.rows, Spec.mask]
    apply List.ext_getElem?
    intro i
    rw [rows_getElem?]
    simp only [List.getElem?_map]
    cases h : bs[i]? with
    | none => simp
    | some x => cases x <;> simp

/-! ## Splitting -/

/-- Splitting a filter into conjuncts does not change its meaning. -/
theorem C28_split_meaning (e : Expr V) (r : Row V) : Holds r e ↔ ∀ c ∈ e.split, Holds r c := by
  induction e with
  | col f => simp [Expr.split]
  | lit v => simp [Expr.split]
  | bin l op x ihl ihx =>
    by_cases h : op = .and
    · subst h
      simp only [Expr.split, if_true, List.mem_append, holds_and, ihl, ihx]
      constructor
      · rintro ⟨h1, h2⟩ c (hc | hc)
        · exact h1 c hc
        · exact h2 c hc
      · intro h; exact ⟨fun c hc => h c (.inl hc), fun c hc => h c (.inr hc)⟩
    · simp [Expr.split, h]

omit [LinearOrder V] in
/-- No conjunct is itself a conjunction, and there is at least one. -/
theorem C28_split_complete (e : Expr V) : e.split ≠ [] ∧ ∀ c ∈ e.split, ∀ l r, c ≠ .bin l .and r := by
  induction e with
  | col f => simp [Expr.split]
  | lit v => simp [Expr.split]
  | bin l op x ihl ihx =>
    by_cases h : op = .and
    · subst h
      simp only [Expr.split, if_true]
      refine ⟨by simp [ihl.1], fun c hc => ?_⟩
      rcases List.mem_append.mp hc with hc | hc
      · exact ihl.2 c hc
      · exact ihx.2 c hc
    · simp [Expr.split, h]

/-- Evaluating an expression over a batch gives, row by row, the value the row semantics assigns. -/
theorem C28_evaluate_row_by_row (b : Batch V) (hb : b.WF) (e : Expr V) (c : Col V) (h : e.eval b = .ok c) :
    c.len = b.n ∧ ∀ i, i < b.n → ∃ v, c.at i = some v ∧ Value (row b i) e v ∧ ∀ w, Value (row b i) e w → w = v := by
  obtain ⟨h1, h2⟩ := eval_agrees hb e h
  refine ⟨h1, fun i hi => ?_⟩
  obtain ⟨v, hv, hval⟩ := h2 i hi
  exact ⟨v, hv, hval, fun w hw => Value.unique hw hval⟩

/-! ## null_as_false -/

omit [LinearOrder V] in
theorem nullAsFalse_spec {a : PArr Bool} (hw : a.WF) :
    ∃ m, nullAsFalse a = .ok ⟨m, .nonNullable⟩ ∧ m.length = a.vals.length ∧ m = a.rows.map (· == some true) := by
  obtain ⟨vals, v⟩ := a
  have key : ∀ m : List Bool, m.length = vals.length → List.zipWith (· && ·) vals m = (Spec.rows vals m).map (· == some true) := by
    intro m hm
    apply List.ext_getElem?
    intro i
    rw [List.getElem?_map, rows_getElem?, List.getElem?_zipWith]
    cases h1 : vals[i]? with
    | none => simp
    | some x =>
      have : i < m.length := by rw [hm]; exact (List.getElem?_eq_some_iff.mp h1).1
      rw [List.getElem?_eq_getElem this]
      cases x <;> cases m[i] <;> simp
  cases v with
  | nonNullable =>
    refine ⟨vals, rfl, rfl, ?_⟩
    simp only [PArr.rows, Spec.mask]
    rw [← key _ (by simp)]
    apply List.ext_getElem?
    intro i
    rw [List.getElem?_zipWith, List.getElem?_replicate]
    cases h1 : vals[i]? with
    | none => simp
    | some x =>
      have := (List.getElem?_eq_some_iff.mp h1).1
      simp [this]
  | allValid =>
    refine ⟨vals, rfl, rfl, ?_⟩
    simp only [PArr.rows, Spec.mask]
    rw [← key _ (by simp)]
    apply List.ext_getElem?
    intro i
    rw [List.getElem?_zipWith, List.getElem?_replicate]
    cases h1 : vals[i]? with
    | none => simp
    | some x =>
      have := (List.getElem?_eq_some_iff.mp h1).1
      simp [this]
  | allInvalid =>
    refine ⟨List.replicate vals.length false, rfl, by simp, ?_⟩
    simp only [PArr.rows, Spec.mask]
    rw [← key _ (by simp)]
    apply List.ext_getElem?
    intro i
    rw [List.getElem?_zipWith, List.getElem?_replicate]
    cases h1 : vals[i]? with
    | none =>
      have := List.getElem?_eq_none_iff.mp h1
      simp [this]
    | some x =>
      have := (List.getElem?_eq_some_iff.mp h1).1
      simp [this]
  | array m =>
    have hm : m.length = vals.length := hw
    exact ⟨List.zipWith (· && ·) vals m, rfl, by simp [hm], by rw [key m hm]; rfl⟩

/-! ## The filter -/

/-- The mask is the specified one: non-null, one entry per row, true exactly on the rows where all of `es` hold. -/
def IsMask (b : Batch V) (es : List (Expr V)) (m : PArr Bool) : Prop :=
  m.validity = .nonNullable ∧ m.vals.length = b.n ∧
    ∀ i, i < b.n → (m.vals[i]? = some true ↔ ∀ e ∈ es, Holds (row b i) e)

/-- Some conjunction of `es` is computed by the column `c`. -/
def AgreesAll (b : Batch V) (es : List (Expr V)) (c : Col V) : Prop :=
  c.len = b.n ∧ ∀ i, i < b.n → (c.at i = some (.bool (some true)) ↔ ∀ e ∈ es, Holds (row b i) e)

theorem evalOp_and_true {x y c : Col V} (h : evalOp .and x y = .ok c) :
    c.len = x.len ∧ c.len = y.len ∧ ∀ i, (c.at i = some (.bool (some true)) ↔
      x.at i = some (.bool (some true)) ∧ y.at i = some (.bool (some true))) := by
  unfold evalOp at h
  split at h
  · simp at h
  rename_i hlen
  rw [if_pos (by rfl)] at h
  cases x with
  | prims => simp at h
  | bools a =>
    cases y with
    | prims => simp at h
    | bools b' =>
      simp only [Res.ok.injEq] at h; subst h
      simp only [Col.len, ne_eq, Decidable.not_not] at hlen
      refine ⟨by simp [Col.len, hlen], by simp [Col.len, hlen], fun i => ?_⟩
      simp only [Col.at, List.getElem?_zipWith]
      cases h1 : a[i]? with
      | none => simp
      | some p =>
        cases h2 : b'[i]? with
        | none => simp
        | some q => cases p <;> cases q <;> simp [boolO]

theorem filterLoop_mask {env : Env V} (ht : Truthful env) {b : Batch V} (hb : b.WF) (es : List (Expr V)) :
    ∀ {done : List (Expr V)} {mask : Col V} {m : PArr Bool}, AgreesAll b done mask →
      filterLoop env b mask es = .ok m → IsMask b (done ++ es) m := by
  induction es with
  | nil =>
    intro done mask m hd h
    simp only [filterLoop] at h
    cases mask with
    | prims => simp [Env.canon] at h
    | bools bs =>
      simp only [Env.canon, Res.ok_bind] at h
      obtain ⟨x, hx, hl, hrow⟩ := nullAsFalse_spec (ht.wf bs)
      rw [hx] at h
      simp only [Res.ok.injEq] at h; subst h
      have hlen : x.length = bs.length := by rw [hrow, ht.rows]; simp
      refine ⟨rfl, by simp only []; rw [hlen]; exact hd.1, fun i hi => ?_⟩
      rw [List.append_nil, ← hd.2 i hi, hrow, ht.rows]
      simp only [List.getElem?_map, Col.at]
      cases bs[i]? with
      | none => simp
      | some y => cases y <;> simp
  | cons e es ih =>
    intro done mask m hd h
    simp only [filterLoop] at h
    split at h
    · rename_i hz
      simp only [Res.ok.injEq] at h; subst h
      refine ⟨rfl, by simp, fun i hi => ?_⟩
      constructor
      · intro hh; simp [hi] at hh
      · intro hall
        exfalso
        have := (hd.2 i hi).mpr (fun e' he' => hall e' (by simp [he']))
        cases mask with
        | prims => simp [Col.at] at this
        | bools bs =>
          rw [ht.count] at hz
          simp only [Option.getD_some] at hz
          simp only [Col.at, Option.map_eq_some_iff, Val.bool.injEq] at this
          obtain ⟨y, hy, rfl⟩ := this
          exact List.count_eq_zero.mp hz (List.mem_of_getElem? hy)
    · simp only [Res.bind_eq_ok] at h
      obtain ⟨c, hc, mask', hmask, h⟩ := h
      have hag := eval_agrees hb e hc
      obtain ⟨hl1, hl2, hand⟩ := evalOp_and_true hmask
      have hd' : AgreesAll b (done ++ [e]) mask' := by
        refine ⟨hl1.trans hag.1, fun i hi => ?_⟩
        rw [hand i, ← hag.holds_iff hi, hd.2 i hi]
        simp only [List.mem_append, List.mem_singleton]
        constructor
        · rintro ⟨h1, h2⟩ x (hx | rfl)
          · exact h2 x hx
          · exact h1
        · intro hall; exact ⟨hall e (.inr rfl), fun x hx => hall x (.inl hx)⟩
      have := ih hd' h
      simpa using this

/-- Whatever the list of conjuncts and their order: an evaluation that succeeds returns exactly the rows on which all of them hold. -/
theorem C28_conjuncts_mask_partial {env : Env V} (ht : Truthful env) (b : Batch V) (hb : b.WF) (es : List (Expr V)) (m : PArr Bool)
    (h : evalConj env b es = .ok m) : IsMask b es m := by
  cases es with
  | nil => simp [evalConj] at h
  | cons e es =>
    simp only [evalConj, Res.bind_eq_ok] at h
    obtain ⟨c, hc, h⟩ := h
    have hag := eval_agrees hb e hc
    have : AgreesAll b [e] c := ⟨hag.1, fun i hi => by rw [← hag.holds_iff hi]; simp⟩
    exact filterLoop_mask ht hb es this h

/-- The filter keeps exactly the rows on which the whole expression is true. Missing for the full property: masks whose encoding cannot
compute `TrueCount` (see `C28_unavailable_true_count_drops_rows`). -/
theorem C28_row_filter_partial {env : Env V} (ht : Truthful env) (b : Batch V) (hb : b.WF) (e : Expr V) (m : PArr Bool)
    (h : rowFilter env e b = .ok m) :
    m.validity = .nonNullable ∧ m.vals.length = b.n ∧ ∀ i, i < b.n → (m.vals[i]? = some true ↔ Holds (row b i) e) := by
  obtain ⟨h1, h2, h3⟩ := C28_conjuncts_mask_partial ht b hb e.split m h
  exact ⟨h1, h2, fun i hi => by rw [h3 i hi, C28_split_meaning]⟩

theorem mask_ext {b : Batch V} {es fs : List (Expr V)} {m k : PArr Bool} (hm : IsMask b es m) (hk : IsMask b fs k)
    (hp : ∀ i, i < b.n → ((∀ e ∈ es, Holds (row b i) e) ↔ ∀ e ∈ fs, Holds (row b i) e)) : m = k := by
  obtain ⟨mv, mval⟩ := m
  obtain ⟨kv, kval⟩ := k
  obtain ⟨h1, h2, h3⟩ := hm
  obtain ⟨g1, g2, g3⟩ := hk
  simp only at h1 h2 h3 g1 g2 g3
  subst h1; subst g1
  congr 1
  apply List.ext_getElem (by omega)
  intro i hi hi'
  have hb : i < b.n := by omega
  have := (h3 i hb).trans ((hp i hb).trans (g3 i hb).symm)
  rw [List.getElem?_eq_getElem hi, List.getElem?_eq_getElem hi'] at this
  cases hx : mv[i] <;> cases hy : kv[i] <;> simp_all

/-- The order (and repetition) of the conjuncts does not matter. -/
theorem C28_order_irrelevant_partial {env : Env V} (ht : Truthful env) (b : Batch V) (hb : b.WF) (es fs : List (Expr V))
    (hmem : ∀ e, e ∈ es ↔ e ∈ fs) (m k : PArr Bool) (h : evalConj env b es = .ok m) (h' : evalConj env b fs = .ok k) : m = k :=
  mask_ext (C28_conjuncts_mask_partial ht b hb es m h) (C28_conjuncts_mask_partial ht b hb fs k h')
    (fun i _ => by simp only [hmem])

/-- A filter whose expression can be evaluated as a whole to booleans can also be evaluated conjunct by conjunct. -/
theorem split_eval_ok {b : Batch V} (e : Expr V) : ∀ {bs : List (Option Bool)}, e.eval b = .ok (.bools bs) →
    ∀ c ∈ e.split, ∃ cs, c.eval b = .ok (.bools cs) := by
  induction e with
  | col f => intro bs h c hc; simp only [Expr.split, List.mem_singleton] at hc; subst hc; exact ⟨bs, h⟩
  | lit v => intro bs h c hc; simp only [Expr.split, List.mem_singleton] at hc; subst hc; exact ⟨bs, h⟩
  | bin l op x ihl ihx =>
    intro bs h c hc
    by_cases hop : op = .and
    · subst hop
      simp only [Expr.split, if_true, List.mem_append] at hc
      simp only [Expr.eval, Res.bind_eq_ok] at h
      obtain ⟨p, hp, q, hq, h⟩ := h
      unfold evalOp at h
      split at h
      · simp at h
      rw [if_pos (by rfl)] at h
      cases p with
      | prims => simp at h
      | bools ps =>
        cases q with
        | prims => simp at h
        | bools qs =>
          rcases hc with hc | hc
          · exact ihl hp c hc
          · exact ihx hq c hc
    · simp only [Expr.split, hop, if_false, List.mem_singleton] at hc; subst hc; exact ⟨bs, h⟩

theorem filterLoop_ok {env : Env V} (hw : ∀ bs, (env.intoBool bs).WF) {b : Batch V} (hb : b.WF) (es : List (Expr V))
    (hes : ∀ e ∈ es, ∃ cs, e.eval b = .ok (.bools cs)) :
    ∀ bs : List (Option Bool), bs.length = b.n → ∃ m, filterLoop env b (.bools bs) es = .ok m := by
  induction es with
  | nil =>
    intro bs _
    obtain ⟨x, hx, _⟩ := nullAsFalse_spec (hw bs)
    exact ⟨_, by simp only [filterLoop, Env.canon, Res.ok_bind]; exact hx⟩
  | cons e es ih =>
    intro bs hbs
    simp only [filterLoop]
    split
    · exact ⟨_, rfl⟩
    · obtain ⟨cs, hcs⟩ := hes e (by simp)
      have hlen : cs.length = b.n := (eval_agrees hb e hcs).1
      rw [hcs]
      have : evalOp .and (.bools cs : Col V) (.bools bs) = .ok (.bools (List.zipWith (boolO .and) cs bs)) := by
        simp [evalOp, Col.len, hlen, hbs, Op.isBool]
      simp only [Res.ok_bind, this]
      exact ih (fun e he => hes e (by simp [he])) _ (by simp [hlen, hbs])

/-- Completeness: if the whole expression evaluates to a boolean column, the filter succeeds (also without statistics). -/
theorem C28_row_filter_succeeds {env : Env V} (hw : ∀ bs, (env.intoBool bs).WF) (b : Batch V) (hb : b.WF) (e : Expr V)
    (bs : List (Option Bool)) (h : e.eval b = .ok (.bools bs)) : ∃ m, rowFilter env e b = .ok m := by
  have hall := split_eval_ok e h
  unfold rowFilter
  cases hs : e.split with
  | nil => exact absurd hs (C28_split_complete e).1
  | cons c cs =>
    rw [hs] at hall
    obtain ⟨xs, hxs⟩ := hall c (by simp)
    simp only [evalConj, hxs, Res.ok_bind]
    exact filterLoop_ok hw hb cs (fun e he => hall e (by simp [he])) xs (eval_agrees hb c hxs).1

/-- Putting both together: evaluating the expression as a whole and reading nulls as false gives the mask of the filter. -/
theorem C28_filter_eq_whole_expression_partial {env : Env V} (ht : Truthful env) (b : Batch V) (hb : b.WF) (e : Expr V)
    (bs : List (Option Bool)) (h : e.eval b = .ok (.bools bs)) :
    rowFilter env e b = .ok ⟨bs.map (· == some true), .nonNullable⟩ := by
  obtain ⟨m, hm⟩ := C28_row_filter_succeeds ht.wf b hb e bs h
  have h1 := C28_conjuncts_mask_partial ht b hb e.split m hm
  have hag := eval_agrees hb e h
  have h2 : IsMask b [e] ⟨bs.map (· == some true), .nonNullable⟩ := by
    refine ⟨rfl, by have := hag.1; simp only [Col.len] at this; simpa using this, fun i hi => ?_⟩
    simp only [List.mem_singleton, forall_eq, hag.holds_iff hi, List.getElem?_map, Col.at]
    cases bs[i]? with
    | none => simp
    | some y => cases y <;> simp
  rw [hm, mask_ext h1 h2 (fun i _ => by rw [← C28_split_meaning]; simp)]

/-! ## References -/

omit [LinearOrder V] in
/-- The filter references exactly the fields of the expression. -/
theorem C28_references (e : Expr V) (f : Field) : f ∈ rowFilterRefs e ↔ f ∈ e.refs := by
  unfold rowFilterRefs
  induction e with
  | col g => simp [Expr.split, Expr.refs]
  | lit v => simp [Expr.split, Expr.refs]
  | bin l op x ihl ihx =>
    by_cases h : op = .and
    · subst h; simp only [Expr.split, if_true, List.flatMap_append, List.mem_append, ihl, ihx, Expr.refs]
    · simp [Expr.split, h]

theorem eval_congr {b b' : Batch V} (hn : b.n = b'.n) (e : Expr V) (h : ∀ f ∈ e.refs, lookup b.cols f = lookup b'.cols f) :
    e.eval b = e.eval b' := by
  induction e with
  | col f => exact h f (by simp [Expr.refs])
  | lit v => simp [Expr.eval, hn]
  | bin l op r ihl ihr =>
    simp only [Expr.eval]
    rw [ihl (fun f hf => h f (by simp [Expr.refs, hf])), ihr (fun f hf => h f (by simp [Expr.refs, hf]))]

/-- Only the referenced columns matter: two batches that agree on them give the same mask (so a reader may load just those). -/
theorem C28_references_suffice (env : Env V) (e : Expr V) (b b' : Batch V) (hn : b.n = b'.n)
    (h : ∀ f ∈ rowFilterRefs e, lookup b.cols f = lookup b'.cols f) : rowFilter env e b = rowFilter env e b' := by
  have hev : ∀ c ∈ e.split, c.eval b = c.eval b' := by
    intro c hc
    refine eval_congr hn c (fun f hf => h f ?_)
    exact List.mem_flatMap.mpr ⟨c, hc, hf⟩
  unfold rowFilter
  have hloop : ∀ (es : List (Expr V)), (∀ c ∈ es, c.eval b = c.eval b') → ∀ m, filterLoop env b m es = filterLoop env b' m es := by
    intro es
    induction es with
    | nil => intro _ m; simp [filterLoop]
    | cons e es ih =>
      intro hes m
      simp only [filterLoop, hn, hes e (by simp)]
      have := ih (fun c hc => hes c (by simp [hc]))
      simp only [this]
  cases hs : e.split with
  | nil => rfl
  | cons c cs =>
    rw [hs] at hev
    simp only [evalConj, hev c (by simp), hloop cs (fun d hd => hev d (by simp [hd]))]

/-! ## Operators -/

/-- Changing the sides together with `swap` keeps the meaning. -/
theorem C28_swap (op : Op) (hop : op.isBool = false) (a b : V) : Rel op a b ↔ Rel op.swap b a := by
  cases op <;> simp_all [Rel, Op.swap, Op.isBool, eq_comm]

/-- `inverse` is logical negation on comparisons. -/
theorem C28_inverse (op op' : Op) (h : op.inverse = some op') (a b : V) : Rel op' a b ↔ ¬ Rel op a b := by
  cases op <;> simp [Op.inverse] at h <;> subst h <;> simp [Rel]

/-! ## The defect, and non-vacuity -/

/-- Statistics are not always available: `SparseArray`, `RunEndBoolArray` and null constants compute no `TrueCount`
(encodings/runend-bool/src/array.rs `impl ArrayStatisticsCompute for RunEndBoolArray {}`, array/sparse/mod.rs). Then the filter drops rows
that satisfy every conjunct. -/
theorem C28_unavailable_true_count_drops_rows :
    ∃ (env : Env Nat) (b : Batch Nat) (e : Expr Nat) (m : PArr Bool), b.WF ∧ (∀ bs, (env.intoBool bs).rows = bs) ∧
      (∀ c, env.tc c = none) ∧ rowFilter env e b = .ok m ∧ m.vals[0]? = some false ∧ Holds (row b 0) e := by
  refine ⟨⟨fun _ => none, (stdEnv : Env Nat).intoBool⟩, ⟨1, [(['a'], .bools [some true]), (['b'], .bools [some true])]⟩,
    .bin (.col (.name ['a'])) .and (.col (.name ['b'])), ⟨[false], .nonNullable⟩, ?_, ?_, fun _ => rfl, by decide, rfl, ?_⟩
  · intro c hc; simp at hc; rcases hc with rfl | rfl <;> rfl
  · exact fun bs => (stdEnv_truthful (V := Nat)).rows bs
  · exact .and _ _ true true (.col _ _ (by decide)) (.col _ _ (by decide))

/-- A concrete filter `a < 3 and b` over three rows with a null: row 0 kept, row 1 dropped (null), row 2 dropped (`a = 5`). -/
def exBatch : Batch Nat := ⟨3, [(['a'], .prims 0 [some 1, none, some 5]), (['b'], .bools [some true, some true, some true])]⟩
def exExpr : Expr Nat := .bin (.bin (.col (.name ['a'])) .lt (.lit (.prim 0 (some 3)))) .and (.col (.index 1))

example : exBatch.WF := by intro c hc; simp [exBatch] at hc; rcases hc with rfl | rfl <;> rfl
example : rowFilter stdEnv exExpr exBatch = .ok ⟨[true, false, false], .nonNullable⟩ := by decide
example : Truthful (stdEnv : Env Nat) := stdEnv_truthful
example : exExpr.eval exBatch = .ok (.bools [some true, none, some false]) := by decide

end Vx.RowExpr
