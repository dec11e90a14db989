import Verif.Spec.Sql
import Mathlib.Data.List.Forall2
/-! # Lemmas for C43 -/
namespace Vx.DF
open Vx.RowExpr (Op cmpV findName)

variable {V : Type} [LinearOrder V]

omit [LinearOrder V] in
theorem findName_find {α : Type} (n : List Char) (cs : List (List Char × α)) :
    findName n cs = (cs.find? (fun x => decide (x.1 = n))).map (·.2) := by
  induction cs with
  | nil => rfl
  | cons c cs ih =>
    simp only [findName, List.find?_cons]
    by_cases h : c.1 = n <;> simp [h, ih]

/-- The relation between a stored column and the SQL values of an expression, row by row: values are exact where the column holds data; a
boolean is stored with its SQL value wherever that is known. -/
def Agrees (col : RCol V) (i : Nat) (x : SqlV V) : Prop :=
  match col with
  | .prims t vs => ∃ y, vs[i]? = some y ∧ x = .prim t (if y.2 then some y.1 else none)
  | .bools bs => ∃ y b, bs[i]? = some y ∧ x = .bool b ∧ (∀ z, b = some z → y.1 = z) ∧ (y.2 = true → b = some y.1)
  | .nulls _ => x = .null ∨ x = .bool none ∨ ∃ t, x = .prim t none

theorem convert_cmp {op : DOp} {o : Op} (h : op.convert = .ok o) : o.isBool = !isCmp op ∧ (isCmp op = false → op = .and ∧ o = .and ∨ op = .or ∧ o = .or) ∧
    (isCmp op = true → ∀ (W : Type) [LinearOrder W] (a b : W), rel op a b = some (cmpV o a b)) := by
  cases op <;> simp only [DOp.convert, Res.ok.injEq, reduceCtorEq] at h <;> subst h <;> simp [isCmp, Op.isBool, rel, cmpV]

theorem zipRaw_getElem? (f : α → β → Bool) (xs : List (α × Bool)) (ys : List (β × Bool)) (i : Nat) :
    (zipRaw f xs ys)[i]? = match xs[i]?, ys[i]? with
      | some x, some y => some (f x.1 y.1, x.2 && y.2)
      | _, _ => none := by
  simp only [zipRaw, List.getElem?_zipWith]
  cases xs[i]? <;> cases ys[i]? <;> rfl

theorem evalOp_len {op : Op} {l r x : RCol V} (h : evalOp op l r = .ok x) : x.len = l.len ∧ l.len = r.len := by
  unfold evalOp at h
  split at h
  · simp at h
  · rename_i hlen
    simp only [ne_eq, Decidable.not_not] at hlen
    split at h
    · simp only [Res.ok.injEq] at h; subst h; simp_all [RCol.len, zipRaw]
    · split at h
      · simp only [Res.ok.injEq] at h; subst h; simp_all [RCol.len, zipRaw]
      · simp at h
    · simp only [Res.ok.injEq] at h; subst h; simp_all [RCol.len, zipRaw]
    · simp only [Res.ok.injEq] at h; subst h; simp_all [RCol.len]
    · simp at h

theorem eval_len {c : Chunk V} (hc : c.WF) : ∀ (e : VExpr V) (x : RCol V), e.eval c = .ok x → x.len = c.n
  | .col n, x, h => by
    simp only [VExpr.eval, findName_find] at h
    cases hf : c.cols.find? (fun x => decide (x.1 = n)) with
    | none => rw [hf] at h; simp [Res.ofOption] at h
    | some y =>
      rw [hf] at h
      simp only [Option.map_some, Res.ofOption, Res.ok.injEq] at h
      rw [← h]
      exact hc y (List.mem_of_find?_eq_some hf)
  | .lit v, x, h => by
    simp only [VExpr.eval, Res.ok.injEq] at h
    subst h
    cases v <;> simp [VLit.const, RCol.len]
  | .bin l op r, x, h => by
    simp only [VExpr.eval, Res.bind_eq_ok] at h
    obtain ⟨a, h1, b, h2, h3⟩ := h
    rw [(evalOp_len h3).1]
    exact eval_len hc l a h1

theorem evalOp_agrees {op : DOp} {o : Op} (ho : op.convert = .ok o) {l r x : RCol V} (h : evalOp o l r = .ok x) {i : Nat} (hi : i < l.len)
    {a b z : SqlV V} (ha : Agrees l i a) (hb : Agrees r i b) (hz : sqlOp op a b = some z) : Agrees x i z := by
  obtain ⟨c1, c2, c3⟩ := convert_cmp ho
  unfold evalOp at h
  split at h
  · simp at h
  · rename_i hlen
    simp only [ne_eq, Decidable.not_not] at hlen
    split at h
    · -- and, or
      rename_i p q hb'
      simp only [Res.ok.injEq] at h
      subst h
      obtain ⟨y1, b1, e1, rfl, v1, w1⟩ := ha
      obtain ⟨y2, b2, e2, rfl, v2, w2⟩ := hb
      have hc : isCmp op = false := by rw [hb'] at c1; simpa using c1.symm
      rcases c2 hc with ⟨rfl, rfl⟩ | ⟨rfl, rfl⟩
      · simp only [sqlOp, Option.some.injEq] at hz
        refine ⟨_, and3 b1 b2, by rw [zipRaw_getElem?, e1, e2], hz.symm, ?_, ?_⟩
        · intro zz hzz
          rcases b1 with _ | _ | _ <;> rcases b2 with _ | _ | _ <;> simp_all [and3]
        · intro hv
          simp only [Bool.and_eq_true] at hv
          rw [w1 hv.1, w2 hv.2]
          cases y1.1 <;> cases y2.1 <;> rfl
      · simp only [sqlOp, Option.some.injEq] at hz
        refine ⟨_, or3 b1 b2, by rw [zipRaw_getElem?, e1, e2], hz.symm, ?_, ?_⟩
        · intro zz hzz
          rcases b1 with _ | _ | _ <;> rcases b2 with _ | _ | _ <;> simp_all [or3]
        · intro hv
          simp only [Bool.and_eq_true] at hv
          rw [w1 hv.1, w2 hv.2]
          cases y1.1 <;> cases y2.1 <;> rfl
    · -- primitive
      rename_i t p u q hb'
      have hc : isCmp op = true := by rw [hb'] at c1; simpa using c1.symm
      split at h
      · rename_i htu
        subst htu
        simp only [Res.ok.injEq] at h
        subst h
        obtain ⟨y1, e1, rfl⟩ := ha
        obtain ⟨y2, e2, rfl⟩ := hb
        have hz' : z = .bool (cmp3 op (if y1.2 then some y1.1 else none) (if y2.2 then some y2.1 else none)) := by
          cases op <;> simp_all [sqlOp, isCmp]
        subst hz'
        refine ⟨_, _, by rw [zipRaw_getElem?, e1, e2], rfl, ?_, ?_⟩
        · intro zz hzz
          cases h1 : y1.2 <;> cases h2 : y2.2 <;> simp only [h1, h2, cmp3, Bool.false_eq_true, if_false, if_true, reduceCtorEq] at hzz
          rw [c3 hc] at hzz
          simpa using hzz
        · intro hv
          simp only [Bool.and_eq_true] at hv
          simp only [hv.1, hv.2, if_true, cmp3, c3 hc]
      · simp at h
    · -- booleans
      rename_i p q hb'
      have hc : isCmp op = true := by rw [hb'] at c1; simpa using c1.symm
      simp only [Res.ok.injEq] at h
      subst h
      obtain ⟨y1, b1, e1, rfl, v1, w1⟩ := ha
      obtain ⟨y2, b2, e2, rfl, v2, w2⟩ := hb
      have hz' : z = .bool (cmp3 op b1 b2) := by cases op <;> simp_all [sqlOp, isCmp]
      subst hz'
      refine ⟨_, _, by rw [zipRaw_getElem?, e1, e2], rfl, ?_, ?_⟩
      · intro zz hzz
        cases b1 with
        | none => simp [cmp3] at hzz
        | some x1 =>
          cases b2 with
          | none => simp [cmp3] at hzz
          | some x2 =>
            simp only [cmp3, c3 hc, Option.some.injEq] at hzz
            rw [v1 x1 rfl, v2 x2 rfl]
            exact hzz
      · intro hv
        simp only [Bool.and_eq_true] at hv
        rw [w1 hv.1, w2 hv.2]
        simp only [cmp3, c3 hc]
    · -- nulls
      rename_i n m hb'
      have hc : isCmp op = true := by rw [hb'] at c1; simpa using c1.symm
      simp only [Res.ok.injEq] at h
      subst h
      have hzb : z = .bool none := by
        rcases ha with rfl | rfl | ⟨t, rfl⟩ <;> rcases hb with rfl | rfl | ⟨u, rfl⟩ <;> cases op <;>
          simp_all [sqlOp, isCmp, cmp3]
      refine ⟨(false, false), none, ?_, hzb, by simp, by simp⟩
      simp only [RCol.len] at hi
      simp [hi]
    · simp at h

/-- The value stored by the evaluator is the SQL value wherever that is known. -/
theorem eval_agrees {c : Chunk V} (hc : c.WF) {i : Nat} (hi : i < c.n) : ∀ (e : DExpr V) (v : VExpr V) (x : RCol V) (z : SqlV V),
    e.convert = .ok v → v.eval c = .ok x → sql (c.row i) e = some z → Agrees x i z
  | .col n, v, x, z, h1, h2, h3 => by
    simp only [DExpr.convert, Res.ok.injEq] at h1
    subst h1
    simp only [VExpr.eval, findName_find] at h2
    simp only [sql, Chunk.row] at h3
    cases hf : c.cols.find? (fun x => decide (x.1 = n)) with
    | none => rw [hf] at h3; simp at h3
    | some y =>
      rw [hf] at h2 h3
      simp only [Option.map_some, Res.ofOption, Res.ok.injEq] at h2
      subst h2
      cases hy : y.2 with
      | prims t vs =>
        simp only [hy, RCol.at, Option.map_eq_some_iff] at h3
        obtain ⟨w, e1, e2⟩ := h3
        exact ⟨w, e1, e2.symm⟩
      | bools bs =>
        simp only [hy, RCol.at, Option.map_eq_some_iff] at h3
        obtain ⟨w, e1, e2⟩ := h3
        refine ⟨w, _, e1, e2.symm, ?_, ?_⟩
        · intro z hz; split at hz <;> simp_all
        · intro hv; simp [hv]
      | nulls n =>
        simp only [hy, RCol.at] at h3
        split at h3
        · simp only [Option.some.injEq] at h3; exact .inl h3.symm
        · simp at h3
  | .lit l, v, x, z, h1, h2, h3 => by
    simp only [DExpr.convert, Res.ok.injEq] at h1
    subst h1
    simp only [VExpr.eval, Res.ok.injEq] at h2
    subst h2
    simp only [sql, Option.some.injEq] at h3
    subst h3
    cases l with
    | null => exact .inl rfl
    | bool b =>
      cases b with
      | none => exact .inr (.inl rfl)
      | some b => exact ⟨(b, true), some b, by simp [hi], rfl, by simp, by simp⟩
    | prim t v =>
      cases v with
      | none => exact .inr (.inr ⟨t, rfl⟩)
      | some v => exact ⟨(v, true), by simp [hi], by simp [Lit.sql]⟩
  | .bin l op r, v, x, z, h1, h2, h3 => by
    simp only [DExpr.convert, Res.bind_eq_ok, Res.ok.injEq] at h1
    obtain ⟨vl, hl, vr, hr, o, ho, rfl⟩ := h1
    simp only [VExpr.eval, Res.bind_eq_ok] at h2
    obtain ⟨a, ha, b, hb, hx⟩ := h2
    simp only [sql] at h3
    split at h3
    · rename_i p q hp hq
      exact evalOp_agrees ho hx (by rw [eval_len hc vl a ha]; exact hi) (eval_agrees hc hi l vl a p hl ha hp) (eval_agrees hc hi r vr b q hr hb hq) h3
    · simp at h3
  | .other n, v, x, z, h1, _, _ => by simp [DExpr.convert] at h1

/-! ### Projection to the referenced columns -/

omit [LinearOrder V] in
theorem convert_refs : ∀ (e : DExpr V) (v : VExpr V), e.convert = .ok v → v.refs = e.cols
  | .col n, v, h => by simp only [DExpr.convert, Res.ok.injEq] at h; subst h; rfl
  | .lit l, v, h => by simp only [DExpr.convert, Res.ok.injEq] at h; subst h; rfl
  | .other n, v, h => by simp [DExpr.convert] at h
  | .bin l op r, v, h => by
    simp only [DExpr.convert, Res.bind_eq_ok, Res.ok.injEq] at h
    obtain ⟨vl, hl, vr, hr, o, ho, rfl⟩ := h
    simp only [VExpr.refs, DExpr.cols, convert_refs l vl hl, convert_refs r vr hr]

theorem eval_congr {c p : Chunk V} (hn : p.n = c.n) : ∀ (v : VExpr V), (∀ n ∈ v.refs, findName n p.cols = findName n c.cols) → v.eval p = v.eval c
  | .col n, h => by simp only [VExpr.eval]; rw [h n (by simp [VExpr.refs])]
  | .lit l, _ => by simp [VExpr.eval, hn]
  | .bin l op r, h => by
    simp only [VExpr.eval]
    rw [eval_congr hn l (fun n hm => h n (by simp [VExpr.refs, hm])), eval_congr hn r (fun n hm => h n (by simp [VExpr.refs, hm]))]

omit [LinearOrder V] in
theorem projectNames_ok {c p : Chunk V} {fp : List (List Char)} (h : projectNames c fp = .ok p) :
    p.n = c.n ∧ ∀ n ∈ fp, findName n p.cols = findName n c.cols := by
  simp only [projectNames, Res.bind_eq_ok, Res.ok.injEq] at h
  obtain ⟨cols, h1, rfl⟩ := h
  refine ⟨rfl, ?_⟩
  simp only
  induction fp generalizing cols with
  | nil => simp
  | cons m fp ih =>
    rw [Res.mapM_cons] at h1
    simp only [Res.bind_eq_ok, Res.ok.injEq] at h1
    obtain ⟨y, ⟨x, h2, h3⟩, ys, h4, rfl⟩ := h1
    subst h3
    intro n hn
    simp only [findName]
    split
    · rename_i he
      subst he
      cases hf : findName m c.cols with
      | none => rw [hf] at h2; simp [Res.ofOption] at h2
      | some w => rw [hf] at h2; simp only [Res.ofOption, Res.ok.injEq] at h2; rw [h2]
    · rename_i he
      simp only [List.mem_cons] at hn
      rcases hn with rfl | hn
      · exact absurd rfl he
      · exact ih ys h4 n hn

/-! ### Conjunctions -/

/-- Evaluating a conjunction evaluates both sides, and the stored bits are combined. -/
theorem eval_and {c : Chunk V} {a b : VExpr V} {bs : List (Bool × Bool)} (h : (VExpr.bin a .and b).eval c = .ok (.bools bs)) :
    ∃ xs ys, a.eval c = .ok (.bools xs) ∧ b.eval c = .ok (.bools ys) ∧ xs.length = ys.length ∧ bs = zipRaw (fun x y => x && y) xs ys := by
  simp only [VExpr.eval, Res.bind_eq_ok] at h
  obtain ⟨x, h1, y, h2, h3⟩ := h
  unfold evalOp at h3
  split at h3
  · simp at h3
  · rename_i hlen
    simp only [ne_eq, Decidable.not_not] at hlen
    cases x <;> cases y <;> simp only [Op.isBool, Res.ok.injEq, RCol.bools.injEq, reduceCtorEq, if_true] at h3
    exact ⟨_, _, h1, h2, hlen, h3.symm⟩

/-- The bit of row `i`. -/
def bitAt (bs : List (Bool × Bool)) (i : Nat) : Bool := ((bs[i]?).map (·.1)).getD false

theorem bitAt_zip (xs ys : List (Bool × Bool)) (hl : xs.length = ys.length) (i : Nat) :
    bitAt (zipRaw (fun x y => x && y) xs ys) i = (bitAt xs i && bitAt ys i) := by
  simp only [bitAt, zipRaw_getElem?]
  cases h1 : xs[i]? with
  | none => simp
  | some x =>
    cases h2 : ys[i]? with
    | none => simp
    | some y => simp

/-- Every filter is converted and evaluated, and the bit of the conjunction is the conjunction of their bits. -/
theorem conj_bits {c : Chunk V} : ∀ (fs : List (DExpr V)) (f : DExpr V) (v : VExpr V) (bs : List (Bool × Bool)),
    (fs.foldl (fun a b => .bin a .and b) f).convert = .ok v → v.eval c = .ok (.bools bs) →
    (∀ g ∈ f :: fs, ∃ w xs, g.convert = .ok w ∧ w.eval c = .ok (.bools xs)) ∧
    ∀ i, bitAt bs i = true ↔ ∀ g ∈ f :: fs, ∀ w xs, g.convert = .ok w → w.eval c = .ok (.bools xs) → bitAt xs i = true
  | [], f, v, bs, h1, h2 => by
    simp only [List.foldl_nil] at h1
    refine ⟨by simpa using ⟨v, h1, bs, h2⟩, fun i => ⟨fun hb g hg w xs hw hx => ?_, fun hb => hb f (by simp) v bs h1 h2⟩⟩
    simp only [List.mem_singleton] at hg
    subst hg
    rw [h1] at hw
    simp only [Res.ok.injEq] at hw
    subst hw
    rw [h2] at hx
    simp only [Res.ok.injEq, RCol.bools.injEq] at hx
    rw [← hx]; exact hb
  | g :: fs, f, v, bs, h1, h2 => by
    simp only [List.foldl_cons] at h1
    obtain ⟨i1, i2⟩ := conj_bits fs (.bin f .and g) v bs h1 h2
    obtain ⟨w, xs, hw, hx⟩ := i1 (.bin f .and g) (by simp)
    simp only [DExpr.convert, DOp.convert, Res.ok_bind, Res.bind_eq_ok, Res.ok.injEq] at hw
    obtain ⟨vf, hf, vg, hg, rfl⟩ := hw
    obtain ⟨as, cs, ha, hc', hlen, rfl⟩ := eval_and hx
    refine ⟨?_, ?_⟩
    · intro k hk
      simp only [List.mem_cons] at hk
      rcases hk with rfl | rfl | hk
      · exact ⟨vf, as, hf, ha⟩
      · exact ⟨vg, cs, hg, hc'⟩
      · exact i1 k (by simp [hk])
    · intro i
      rw [i2 i]
      have hconv : (DExpr.bin f .and g).convert = .ok (.bin vf .and vg) := by simp [DExpr.convert, DOp.convert, hf, hg]
      constructor
      · intro h k hk w ys hw hy
        have hh := h (.bin f .and g) (by simp) _ _ hconv hx
        rw [bitAt_zip as cs hlen, Bool.and_eq_true] at hh
        simp only [List.mem_cons] at hk
        rcases hk with rfl | rfl | hk
        · rw [hf] at hw; simp only [Res.ok.injEq] at hw; subst hw
          rw [ha] at hy; simp only [Res.ok.injEq, RCol.bools.injEq] at hy; rw [← hy]; exact hh.1
        · rw [hg] at hw; simp only [Res.ok.injEq] at hw; subst hw
          rw [hc'] at hy; simp only [Res.ok.injEq, RCol.bools.injEq] at hy; rw [← hy]; exact hh.2
        · exact h k (by simp [hk]) w ys hw hy
      · intro h k hk w ys hw hy
        simp only [List.mem_cons] at hk
        rcases hk with rfl | hk
        · rw [hconv] at hw; simp only [Res.ok.injEq] at hw; subst hw
          rw [hx] at hy; simp only [Res.ok.injEq, RCol.bools.injEq] at hy; rw [← hy, bitAt_zip as cs hlen, Bool.and_eq_true]
          exact ⟨h f (by simp) vf as hf ha, h g (by simp) vg cs hg hc'⟩
        · exact h k (by simp [hk]) w ys hw hy

/-- The row selector on one chunk: it lists, in order, the rows whose stored bits are all true. -/
theorem rowIndices_ok {c : Chunk V} {fp : List (List Char)} {f : DExpr V} {fs : List (DExpr V)} {v : VExpr V} {sel : List Nat}
    (hv : (fs.foldl (fun a b => .bin a .and b) f).convert = .ok v) (hfp : ∀ n ∈ v.refs, n ∈ fp) (hc : c.WF) (h : rowIndices fp v c = .ok sel) :
    sel.Pairwise (· < ·) ∧ (∀ i ∈ sel, i < c.n) ∧ (∀ g ∈ f :: fs, ∃ w xs, g.convert = .ok w ∧ w.eval c = .ok (.bools xs)) ∧
    ∀ i < c.n, i ∈ sel ↔ ∀ g ∈ f :: fs, ∀ w xs, g.convert = .ok w → w.eval c = .ok (.bools xs) → bitAt xs i = true := by
  simp only [rowIndices, Res.bind_eq_ok] at h
  obtain ⟨p, h1, s, h2, h3⟩ := h
  obtain ⟨p1, p2⟩ := projectNames_ok h1
  rw [eval_congr p1 v (fun n hn => p2 n (hfp n hn))] at h2
  cases s with
  | prims t vs => simp [setIndices] at h3
  | nulls n => simp [setIndices] at h3
  | bools bs =>
    simp only [setIndices, Res.ok.injEq] at h3
    subst h3
    have hl := eval_len hc v _ h2
    simp only [RCol.len] at hl
    obtain ⟨i1, i2⟩ := conj_bits fs f v bs hv h2
    refine ⟨List.Pairwise.filter _ List.pairwise_lt_range, ?_, i1, ?_⟩
    · intro i hi; rw [← hl]; simpa using (List.mem_filter.mp hi).1
    · intro i hi
      rw [← i2 i]
      simp only [List.mem_filter, List.mem_range, hl, hi, true_and, bitAt]

/-! ### The output -/

omit [LinearOrder V] in
theorem takeCol_ok {is : List Nat} {x y : RCol V} (h : takeCol is x = .ok y) (hi : ∀ i ∈ is, i < x.len) :
    y.len = is.length ∧ ∀ m i, is[m]? = some i → y.at m = x.at i := by
  have unw : ∀ {α : Type} {vs : List α} {i : Nat} {b : α}, Res.unwrap vs[i]? = .ok b → vs[i]? = some b := by
    intro α vs i b h
    cases hv : vs[i]? with
    | none => rw [hv] at h; simp [Res.unwrap] at h
    | some w => rw [hv] at h; simpa [Res.unwrap] using h
  cases x with
  | prims t vs =>
    simp only [takeCol, Res.bind_eq_ok, Res.ok.injEq] at h
    obtain ⟨xs, h1, rfl⟩ := h
    refine ⟨Res.mapM_eq_ok_length h1, fun m i hm => ?_⟩
    obtain ⟨b, hb, hu⟩ := Res.mapM_eq_ok_getElem? h1 hm
    simp only [RCol.at, hb, unw hu]
  | bools bs =>
    simp only [takeCol, Res.bind_eq_ok, Res.ok.injEq] at h
    obtain ⟨xs, h1, rfl⟩ := h
    refine ⟨Res.mapM_eq_ok_length h1, fun m i hm => ?_⟩
    obtain ⟨b, hb, hu⟩ := Res.mapM_eq_ok_getElem? h1 hm
    simp only [RCol.at, hb, unw hu]
  | nulls n =>
    simp only [takeCol, Res.ok.injEq] at h
    subst h
    refine ⟨rfl, fun m i hm => ?_⟩
    have h1 := (List.getElem?_eq_some_iff.mp hm).1
    have h2 := hi i (List.mem_of_getElem? hm)
    simp only [RCol.len] at h2
    simp [RCol.at, h1, h2]

omit [LinearOrder V] in
theorem take_selection {c p b : Chunk V} {proj sel : List Nat} (hc : c.WF) (hs : ∀ i ∈ sel, i < c.n) (h1 : projectIdx c proj = .ok p)
    (h2 : takeChunk sel p = .ok b) : IsSelection c proj sel b := by
  simp only [projectIdx, Res.bind_eq_ok, Res.ok.injEq] at h1
  obtain ⟨cols, h3, rfl⟩ := h1
  simp only [takeChunk, Res.bind_eq_ok, Res.ok.injEq] at h2
  obtain ⟨outs, h4, rfl⟩ := h2
  refine ⟨rfl, by simpa using (Res.mapM_eq_ok_length h4).trans (Res.mapM_eq_ok_length h3), ?_⟩
  intro k j hk
  obtain ⟨x, hx, hu⟩ := Res.mapM_eq_ok_getElem? h3 hk
  have hcx : c.cols[j]? = some x := by
    cases hv : c.cols[j]? with
    | none => rw [hv] at hu; simp [Res.unwrap] at hu
    | some w => rw [hv] at hu; simpa [Res.unwrap] using hu
  obtain ⟨y, hy, hf⟩ := Res.mapM_eq_ok_getElem? h4 hx
  simp only [Res.bind_eq_ok, Res.ok.injEq] at hf
  obtain ⟨z, hz, rfl⟩ := hf
  have hlen : x.2.len = c.n := hc x (List.mem_of_getElem? hcx)
  obtain ⟨t1, t2⟩ := takeCol_ok hz (fun i hi => by rw [hlen]; exact hs i hi)
  exact ⟨x, _, hcx, hy, rfl, t1, t2⟩

omit [LinearOrder V] in
theorem takeLoop_ok {table : List (Chunk V)} {proj : List Nat} (hp : proj ≠ []) : ∀ (iss : List (List Nat)) (pre cs : List (Chunk V)) (out : List (Chunk V)),
    table = pre ++ cs → cs.length = iss.length → (∀ c ∈ cs, c.WF) → List.Forall₂ (fun c is => ∀ i ∈ is, i < Chunk.n c) cs iss →
    takeLoop table proj pre.length iss = .ok out → List.Forall₂ (fun ci b => IsSelection ci.1 proj ci.2 b) (cs.zip iss) out
  | [], pre, cs, out, _, hl, _, _, h => by
    simp only [List.length_nil, List.length_eq_zero_iff] at hl
    subst hl
    simp only [takeLoop, Res.ok.injEq] at h
    subst h
    exact .nil
  | is :: iss, pre, [], out, _, hl, _, _, h => by simp at hl
  | is :: iss, pre, c :: cs, out, ht, hl, hw, hf, h => by
    simp only [takeLoop, Res.bind_eq_ok] at h
    obtain ⟨_, _, h⟩ := h
    have he : proj.isEmpty = false := by simpa using hp
    simp only [he, Bool.false_eq_true, if_false, Res.bind_eq_ok, Res.ok.injEq] at h
    obtain ⟨c', h1, p, h2, b, h3, bs, h4, rfl⟩ := h
    have hcc : c' = c := by
      rw [ht] at h1
      simp only [List.length_append, Nat.le_refl, List.getElem?_append_right, Nat.sub_self, List.getElem?_cons_zero, Res.ofOption, Res.ok.injEq] at h1
      exact h1.symm
    subst hcc
    cases hf with
    | cons f1 f2 =>
      simp only [List.zip_cons_cons]
      refine .cons (take_selection (hw c' (by simp)) f1 h2 h3) ?_
      exact takeLoop_ok (table := table) hp iss (pre ++ [c']) cs bs (by simp [ht]) (by simpa using hl) (fun x hx => hw x (by simp [hx])) f2 (by simpa using h4)

omit [LinearOrder V] in
/-- Without output columns: one batch per list of indices, with its length. -/
theorem takeLoop_count {table : List (Chunk V)} : ∀ (iss : List (List Nat)) (k : Nat) (out : List (Chunk V)),
    takeLoop table [] k iss = .ok out → out = iss.map (fun is => ⟨is.length, []⟩)
  | [], _, out, h => by simp only [takeLoop, Res.ok.injEq] at h; simp [← h]
  | is :: iss, k, out, h => by
    simp only [takeLoop, Res.bind_eq_ok] at h
    obtain ⟨_, _, h⟩ := h
    simp only [List.isEmpty_nil, if_true, Res.bind_eq_ok, Res.ok.injEq] at h
    obtain ⟨bs, h1, rfl⟩ := h
    rw [takeLoop_count iss k bs h1]
    rfl

/-! ### Success -/

/-- The kind of a stored column. -/
def RCol.hasTy : RCol V → Ty → Prop
  | .prims t _, .prim u => t = u
  | .bools _, .bool => True
  | _, _ => False

theorem typed_eval {Γ : List Char → Option Ty} {c : Chunk V} (hc : c.WF) (hΓ : Conforms Γ c) :
    ∀ {e : DExpr V} {τ : Ty}, Typed Γ e τ → ∃ v x, e.convert = .ok v ∧ v.eval c = .ok x ∧ x.hasTy τ := by
  intro e τ h
  induction h with
  | col n τ h =>
    obtain ⟨x, hx, ht⟩ := hΓ n τ h
    refine ⟨.col n, x, rfl, by simp [VExpr.eval, findName_find, hx, Res.ofOption], ?_⟩
    cases τ with
    | prim t => obtain ⟨vs, rfl⟩ := ht; rfl
    | bool => obtain ⟨bs, rfl⟩ := ht; trivial
  | litPrim t v => exact ⟨_, _, rfl, rfl, rfl⟩
  | litBool b => exact ⟨_, _, rfl, rfl, trivial⟩
  | cmp l op r τ hop h1 h2 ih1 ih2 =>
    obtain ⟨v, x, a1, a2, a3⟩ := ih1
    obtain ⟨w, y, b1, b2, b3⟩ := ih2
    obtain ⟨o, ho, hb⟩ : ∃ o, op.convert = .ok o ∧ o.isBool = false := by
      cases op <;> simp [isCmp] at hop <;> exact ⟨_, rfl, rfl⟩
    have hlen : x.len = y.len := by rw [eval_len hc v x a2, eval_len hc w y b2]
    have hev : ∃ z, evalOp o x y = .ok (.bools z) := by
      unfold evalOp
      simp only [hlen, ne_eq, not_true_eq_false, if_false, hb]
      cases τ with
      | prim t =>
        cases x <;> simp only [RCol.hasTy] at a3
        cases y <;> simp only [RCol.hasTy] at b3
        subst a3; subst b3
        exact ⟨_, if_pos rfl⟩
      | bool =>
        cases x <;> simp only [RCol.hasTy] at a3
        cases y <;> simp only [RCol.hasTy] at b3
        exact ⟨_, rfl⟩
    obtain ⟨z, hz⟩ := hev
    exact ⟨.bin v o w, .bools z, by simp [DExpr.convert, a1, b1, ho], by simp [VExpr.eval, a2, b2, hz], trivial⟩
  | logic l op r hop h1 h2 ih1 ih2 =>
    obtain ⟨v, x, a1, a2, a3⟩ := ih1
    obtain ⟨w, y, b1, b2, b3⟩ := ih2
    obtain ⟨o, ho, hb⟩ : ∃ o, op.convert = .ok o ∧ o.isBool = true := by
      rcases hop with rfl | rfl <;> exact ⟨_, rfl, rfl⟩
    have hlen : x.len = y.len := by rw [eval_len hc v x a2, eval_len hc w y b2]
    have hev : ∃ z, evalOp o x y = .ok (.bools z) := by
      unfold evalOp
      simp only [hlen, ne_eq, not_true_eq_false, if_false, hb]
      cases x <;> simp only [RCol.hasTy] at a3
      cases y <;> simp only [RCol.hasTy] at b3
      exact ⟨_, rfl⟩
    obtain ⟨z, hz⟩ := hev
    exact ⟨.bin v o w, .bools z, by simp [DExpr.convert, a1, b1, ho], by simp [VExpr.eval, a2, b2, hz], trivial⟩

theorem projectNames_succeeds {Γ : List Char → Option Ty} {c : Chunk V} (hΓ : Conforms Γ c) {fp : List (List Char)} (hfp : ∀ n ∈ fp, (Γ n).isSome = true) :
    ∃ p, projectNames c fp = .ok p := by
  have : ∃ cols, Res.mapM (fun n => do
      let x ← Res.ofOption (findName n c.cols)
      Res.ok (n, x)) fp = .ok cols := by
    induction fp with
    | nil => exact ⟨[], rfl⟩
    | cons n fp ih =>
      obtain ⟨τ, hτ⟩ := Option.isSome_iff_exists.mp (hfp n (by simp))
      obtain ⟨x, hx, _⟩ := hΓ n τ hτ
      obtain ⟨ys, hys⟩ := ih (fun m hm => hfp m (by simp [hm]))
      refine ⟨(n, x) :: ys, ?_⟩
      rw [Res.mapM_cons, hys]
      simp [findName_find, hx, Res.ofOption]
  obtain ⟨cols, h⟩ := this
  exact ⟨⟨c.n, cols⟩, by simp only [projectNames, h, Res.ok_bind]⟩

theorem rowIndices_succeeds {Γ : List Char → Option Ty} {c : Chunk V} (hc : c.WF) (hΓ : Conforms Γ c) {fp : List (List Char)}
    (hfp : ∀ n ∈ fp, (Γ n).isSome = true) {e : DExpr V} (ht : Typed Γ e .bool) {v : VExpr V} (hv : e.convert = .ok v) (hr : ∀ n ∈ v.refs, n ∈ fp) :
    ∃ sel, rowIndices fp v c = .ok sel := by
  obtain ⟨p, hp⟩ := projectNames_succeeds hΓ hfp
  obtain ⟨p1, p2⟩ := projectNames_ok hp
  obtain ⟨w, x, h1, h2, h3⟩ := typed_eval hc hΓ ht
  rw [hv] at h1
  simp only [Res.ok.injEq] at h1
  subst h1
  cases x <;> simp only [RCol.hasTy] at h3
  simp only [rowIndices, hp, Res.ok_bind, eval_congr p1 v (fun n hn => p2 n (hr n hn)), h2, setIndices]
  exact ⟨_, rfl⟩

omit [LinearOrder V] in
theorem mapM_total {α β : Type} {f : α → Res β} : ∀ (as : List α), (∀ a ∈ as, ∃ b, f a = .ok b) → ∃ bs, Res.mapM f as = .ok bs
  | [], _ => ⟨[], rfl⟩
  | a :: as, h => by
    obtain ⟨b, hb⟩ := h a (by simp)
    obtain ⟨bs, hbs⟩ := mapM_total as (fun x hx => h x (by simp [hx]))
    exact ⟨b :: bs, by rw [Res.mapM_cons, hb, hbs]; rfl⟩

omit [LinearOrder V] in
theorem takeCol_succeeds {is : List Nat} {x : RCol V} (hi : ∀ i ∈ is, i < x.len) : ∃ y, takeCol is x = .ok y := by
  have unw : ∀ {α : Type} {vs : List α}, (∀ i ∈ is, i < vs.length) → ∃ xs, Res.mapM (fun (i : Nat) => Res.unwrap vs[i]?) is = .ok xs := by
    intro α vs h
    apply mapM_total
    intro i hi
    exact ⟨vs[i]'(h i hi), by simp [h i hi, Res.unwrap]⟩
  cases x with
  | prims t vs => obtain ⟨xs, h⟩ := unw (vs := vs) hi; refine ⟨.prims t xs, ?_⟩; simp only [takeCol, h, Res.ok_bind]
  | bools bs => obtain ⟨xs, h⟩ := unw (vs := bs) hi; refine ⟨.bools xs, ?_⟩; simp only [takeCol, h, Res.ok_bind]
  | nulls n => exact ⟨_, rfl⟩

omit [LinearOrder V] in
theorem projectIdx_succeeds {c : Chunk V} {proj : List Nat} (h : ∀ j ∈ proj, j < c.cols.length) : ∃ p, projectIdx c proj = .ok p ∧ p.n = c.n ∧ ∀ x ∈ p.cols, x ∈ c.cols := by
  obtain ⟨cols, hc⟩ := mapM_total (f := fun (i : Nat) => Res.unwrap c.cols[i]?) proj (fun i hi => ⟨c.cols[i]'(h i hi), by simp [h i hi, Res.unwrap]⟩)
  refine ⟨⟨c.n, cols⟩, by simp only [projectIdx, hc, Res.ok_bind], rfl, ?_⟩
  intro x hx
  obtain ⟨k, hk⟩ := List.mem_iff_getElem?.mp hx
  have hk' := (List.getElem?_eq_some_iff.mp hk).1
  simp only at hk'
  rw [Res.mapM_eq_ok_length hc] at hk'
  obtain ⟨b, hb, hu⟩ := Res.mapM_eq_ok_getElem? hc (List.getElem?_eq_getElem hk')
  rw [hk] at hb
  simp only [Option.some.injEq] at hb
  subst hb
  have hj := h _ (List.getElem_mem hk')
  rw [List.getElem?_eq_getElem hj] at hu
  simp only [Res.unwrap, Res.ok.injEq] at hu
  rw [← hu]
  exact List.getElem_mem hj

omit [LinearOrder V] in
theorem takeLoop_succeeds {table : List (Chunk V)} {proj : List Nat} : ∀ (iss : List (List Nat)) (pre cs : List (Chunk V)),
    table = pre ++ cs → cs.length = iss.length → (∀ c ∈ cs, c.WF ∧ ∀ j ∈ proj, j < c.cols.length) →
    List.Forall₂ (fun c is => ∀ i ∈ is, i < Chunk.n c) cs iss → ∀ k, (proj ≠ [] → k = pre.length) → k ≤ pre.length →
    ∃ out, takeLoop table proj k iss = .ok out
  | [], pre, cs, _, _, _, _, k, _, _ => ⟨[], by simp [takeLoop]⟩
  | is :: iss, pre, [], _, hl, _, _, k, _, _ => by simp at hl
  | is :: iss, pre, c :: cs, ht, hl, hw, hf, k, hk, hk' => by
    cases hf with
    | cons f1 f2 =>
      have hlen : k ≤ table.length := by rw [ht, List.length_append]; omega
      simp only [takeLoop, hlen, decide_true, Res.assert, if_true, Res.ok_bind]
      by_cases hp : proj = []
      · subst hp
        obtain ⟨bs, hbs⟩ := takeLoop_succeeds (table := table) (proj := []) iss (pre ++ [c]) cs (by simp [ht]) (by simpa using hl)
          (fun x hx => hw x (by simp [hx])) f2 k (by simp) (by simp; omega)
        exact ⟨⟨is.length, []⟩ :: bs, by simp [hbs]⟩
      · have hkp := hk hp
        subst hkp
        obtain ⟨hcw, hcp⟩ := hw c (by simp)
        obtain ⟨p, hp1, hp2, hp3⟩ := projectIdx_succeeds hcp
        obtain ⟨cols, hcols⟩ := mapM_total (f := fun (x : List Char × RCol V) => do
            let y ← takeCol is x.2
            Res.ok (x.1, y)) p.cols (fun x hx => by
              obtain ⟨y, hy⟩ := takeCol_succeeds (is := is) (x := x.2) (fun i hi => by rw [hcw x (hp3 x hx)]; exact f1 i hi)
              exact ⟨(x.1, y), by rw [hy]; rfl⟩)
        obtain ⟨bs, hbs⟩ := takeLoop_succeeds (table := table) (proj := proj) iss (pre ++ [c]) cs (by simp [ht]) (by simpa using hl)
          (fun x hx => hw x (by simp [hx])) f2 (pre.length + 1) (by simp) (by simp)
        have he : proj.isEmpty = false := by simpa using hp
        have hget : table[pre.length]? = some c := by simp [ht]
        exact ⟨⟨is.length, cols⟩ :: bs, by
          simp only [he, Bool.false_eq_true, if_false, hget, Res.ofOption, Res.ok_bind, hp1, takeChunk, hcols, hbs]⟩

end Vx.DF
