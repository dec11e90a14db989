import Verif.Model.Kernels
import Verif.Lemmas.Scalar
import Verif.Lemmas.Primitive
import Verif.Lemmas.Patch
import Verif.Props.C23
/-! # C39: kernels of primitive (and boolean) arrays -/

namespace Vx.Kernels
open Spec

/-- The number stored. -/
def num (p : PType) (x : BitVec p.bits) : Int := PValue.toInt ⟨p, x⟩

theorem allValid_iff {v : Validity} {n : Nat} (hf : FitsLen v n) (hn : n ≠ 0) : allValid v n = true ↔ mask n v = List.replicate n true := by
  have h := (C23_to_logical v n hf).1
  cases v with
  | nonNullable => simp [allValid, Validity.toLogical, mask]
  | allValid => simp [allValid, Validity.toLogical, mask]
  | allInvalid =>
    have : mask n .allInvalid ≠ List.replicate n true := by simp [mask, List.replicate_inj, hn]
    simp [allValid, Validity.toLogical, this]
  | array m =>
    simp only [FitsLen, mask] at hf h ⊢
    subst hf
    simp only [allValid, Validity.toLogical, Validity.boolMin]
    have hne : m.isEmpty = false := by cases m <;> simp_all
    simp only [hne, Bool.false_eq_true, if_false, Option.getD_some]
    by_cases hc : m.count true = m.length
    · simp [hc, ← count_true_eq_length]
    · simp only [hc, beq_iff_eq, if_false]
      rw [← count_true_eq_length]
      constructor
      · intro hh
        split at hh
        · next heq => split at heq <;> cases heq
        · cases hh
      · intro hh; exact absurd hh hc

theorem none_notMem_rows {a : PArr α} (hw : a.WF) : none ∉ a.rows ↔ mask a.len a.validity = List.replicate a.len true := by
  have hl : (mask a.len a.validity).length = a.len := hw
  have gen : ∀ (vals : List α) (m : List Bool), m.length = vals.length → (none ∉ rows vals m ↔ m = List.replicate vals.length true) := by
    intro vals
    induction vals with
    | nil => intro m hm; simp at hm; simp [hm, rows]
    | cons x vals ih =>
      intro m hm
      cases m with
      | nil => simp at hm
      | cons b m =>
        have := ih m (by simpa using hm)
        simp only [rows, List.zipWith_cons_cons, List.mem_cons, List.length_cons, List.replicate_succ, List.cons.injEq] at this ⊢
        rw [not_or, this]
        cases b <;> simp
  exact gen a.vals _ hl

/-! ## cast -/

theorem castElem_int (F : FloatOps) {p q : PType} (hp : p.isFloat = false) (hq : q.isFloat = false) (x : BitVec p.bits) :
    (q.inRange (num p x) = true → ∃ y, castElem F p q x = .ok y ∧ num q y = num p x) ∧ (q.inRange (num p x) = false → castElem F p q x = .err) := by
  unfold castElem num
  simp only [hp, hq]
  constructor
  · intro h
    refine ⟨BitVec.ofInt q.bits (PValue.toInt ⟨p, x⟩), by rw [if_pos h], ?_⟩
    have : intCast q (PValue.toInt ⟨p, x⟩) = some ⟨q, BitVec.ofInt q.bits (PValue.toInt ⟨p, x⟩)⟩ := by simp [intCast, h]
    exact (PValue.intCast_some this).2
  · intro h; rw [if_neg (by simp [h])]

theorem castVals_ok (F : FloatOps) {p q : PType} (hp : p.isFloat = false) (hq : q.isFloat = false) (vals : List (BitVec p.bits)) :
    ((∀ x ∈ vals, q.inRange (num p x) = true) → ∃ ys, castVals F p q vals = .ok ys ∧ ys.map (num q) = vals.map (num p)) ∧
      ((∃ x ∈ vals, q.inRange (num p x) = false) → castVals F p q vals = .err) := by
  by_cases h : p = q
  · subst h
    have hr : ∀ x, p.inRange (num p x) = true := fun x => PValue.inRange_toInt ⟨p, x⟩
    refine ⟨fun _ => ⟨vals, by rw [castVals, dif_pos rfl]; congr 1; exact List.map_id _, rfl⟩, ?_⟩
    rintro ⟨x, _, hx⟩; rw [hr x] at hx; cases hx
  · simp only [castVals, h, dite_false]
    induction vals with
    | nil => exact ⟨fun _ => ⟨[], rfl, rfl⟩, by simp⟩
    | cons x vals ih =>
      obtain ⟨e1, e2⟩ := castElem_int F hp hq x
      constructor
      · intro hall
        obtain ⟨y, y1, y2⟩ := e1 (hall x (by simp))
        obtain ⟨ys, z1, z2⟩ := ih.1 (fun z hz => hall z (by simp [hz]))
        exact ⟨y :: ys, by simp only [Res.mapM_cons, y1, z1, Res.ok_bind], by simp [y2, z2]⟩
      · rintro ⟨z, hz, hzr⟩
        simp only [Res.mapM_cons]
        cases hx : q.inRange (num p x) with
        | false => rw [e2 hx]; rfl
        | true =>
          obtain ⟨y, y1, _⟩ := e1 hx
          rw [y1]
          rcases List.mem_cons.mp hz with rfl | hz
          · rw [hx] at hzr; cases hzr
          · rw [ih.2 ⟨z, hz, hzr⟩]; rfl

theorem castValidity_spec {v : Validity} {n : Nat} (hf : FitsLen v n) (nl : Bool) :
    (∀ v', castValidity v n nl = .ok v' → nullable v' = nl ∧ FitsLen v' n ∧ mask n v' = mask n v) ∧
      (castValidity v n nl = .err ∨ ∃ v', castValidity v n nl = .ok v') := by
  unfold castValidity
  by_cases h1 : nullable v = nl
  · rw [if_pos h1]
    exact ⟨fun v' h => by simp at h; subst h; exact ⟨h1, hf, rfl⟩, .inr ⟨_, rfl⟩⟩
  · rw [if_neg h1]
    cases nl with
    | true =>
      have hv : v = .nonNullable := by cases v <;> simp_all [nullable]
      subst hv
      refine ⟨fun v' h => ?_, .inr ⟨_, rfl⟩⟩
      simp [Validity.intoNullable] at h
      subst h
      exact ⟨rfl, hf, rfl⟩
    | false =>
      simp only [Bool.false_eq_true, if_false]
      by_cases h2 : allValid v n = true
      · rw [if_pos h2]
        refine ⟨fun v' h => ?_, .inr ⟨_, rfl⟩⟩
        simp at h
        subst h
        refine ⟨rfl, by simp [FitsLen, mask], ?_⟩
        by_cases hn : n = 0
        · subst hn
          have : (mask 0 v).length = 0 := hf
          rw [List.length_eq_zero_iff] at this
          rw [this]; rfl
        · exact ((allValid_iff hf hn).mp h2).symm
      · rw [if_neg h2]
        exact ⟨fun v' h => by simp at h, .inl rfl⟩

theorem rows_num {p q : PType} {vals : List (BitVec p.bits)} {ys : List (BitVec q.bits)} (h : ys.map (num q) = vals.map (num p)) (m : List Bool) :
    (rows ys m).map (Option.map (num q)) = (rows vals m).map (Option.map (num p)) := by
  induction vals generalizing ys m with
  | nil => simp at h; subst h; rfl
  | cons x vals ih =>
    cases ys with
    | nil => simp at h
    | cons y ys =>
      simp only [List.map_cons, List.cons.injEq] at h
      cases m with
      | nil => rfl
      | cons b m =>
        have := ih h.2 m
        simp only [rows, List.zipWith_cons_cons, List.map_cons] at this ⊢
        rw [this]
        cases b <;> simp [h.1]

/-- **C39 (cast).** A successful cast between integer types keeps every row: the same numbers, the same nulls, with the requested type and nullability. -/
theorem C39_cast_preserves (F : FloatOps) (p q : PType) (hp : p.isFloat = false) (hq : q.isFloat = false) (nl : Bool) (a : NArr p) (hw : a.WF)
    (r : NArr q) (h : cast F p q nl a = .ok r) :
    r.WF ∧ nullable r.validity = nl ∧ r.rows.map (Option.map (num q)) = a.rows.map (Option.map (num p)) := by
  unfold cast at h
  rw [Res.bind_eq_ok] at h
  obtain ⟨v, hv, h⟩ := h
  rw [Res.bind_eq_ok] at h
  obtain ⟨ys, hy, h⟩ := h
  simp at h
  subst h
  obtain ⟨c1, c2, c3⟩ := (castValidity_spec hw nl).1 v hv
  have hall : ∀ x ∈ a.vals, q.inRange (num p x) = true := by
    intro x hx
    cases hb : q.inRange (num p x) with
    | true => rfl
    | false => rw [(castVals_ok F hp hq a.vals).2 ⟨x, hx, hb⟩] at hy; cases hy
  obtain ⟨ys', z1, z2⟩ := (castVals_ok F hp hq a.vals).1 hall
  rw [z1] at hy
  simp at hy
  subst hy
  have hl : ys'.length = a.vals.length := by have := congrArg List.length z2; simpa using this
  refine ⟨?_, c1, ?_⟩
  · simp only [PArr.WF, hl]; exact c2
  · simp only [PArr.rows, hl]
    have : mask a.vals.length v = mask a.vals.length a.validity := c3
    rw [this]
    exact rows_num z2 _

/-- When it succeeds: every *stored* value (also under nulls) is representable, and a non-nullable target is asked of an array without nulls. In all other
cases the cast is an error, never a crash. -/
theorem C39_cast_succeeds (F : FloatOps) (p q : PType) (hp : p.isFloat = false) (hq : q.isFloat = false) (nl : Bool) (a : NArr p) (hw : a.WF)
    (hne : a.vals ≠ []) :
    if (∀ x ∈ a.vals, q.inRange (num p x) = true) ∧ (nl = true ∨ none ∉ a.rows) then ∃ r, cast F p q nl a = .ok r else cast F p q nl a = .err := by
  have hn : a.len ≠ 0 := by simp [PArr.len, hne]
  have hav : allValid a.validity a.len = true ↔ none ∉ a.rows := by rw [none_notMem_rows hw]; exact allValid_iff hw hn
  have hcv : (nl = true ∨ none ∉ a.rows) → ∃ v, castValidity a.validity a.len nl = .ok v := by
    intro h
    unfold castValidity
    split
    · exact ⟨_, rfl⟩
    · cases nl with
      | true => exact ⟨_, rfl⟩
      | false =>
        have := hav.mpr (by simpa using h)
        exact ⟨_, by simp only [Bool.false_eq_true, if_false]; rw [if_pos this]⟩
  have hcv' : ¬ (nl = true ∨ none ∉ a.rows) → castValidity a.validity a.len nl = .err := by
    intro h
    rw [not_or] at h
    have hnl : nl = false := by simpa using h.1
    subst hnl
    have hva : ¬ allValid a.validity a.len = true := fun hc => h.2 (hav.mp hc)
    unfold castValidity
    rw [if_neg, if_neg (by simp), if_neg hva]
    intro hc
    have : a.validity = .nonNullable := by cases hv : a.validity <;> simp_all [nullable]
    exact hva (by simp [this, allValid, Validity.toLogical])
  split
  · next h =>
    obtain ⟨v, hv⟩ := hcv h.2
    obtain ⟨ys, hy, _⟩ := (castVals_ok F hp hq a.vals).1 h.1
    exact ⟨⟨ys, v⟩, by simp only [cast, hv, hy, Res.ok_bind]⟩
  · next h =>
    by_cases h2 : nl = true ∨ none ∉ a.rows
    · obtain ⟨v, hv⟩ := hcv h2
      have : ∃ x ∈ a.vals, q.inRange (num p x) = false := by
        apply Classical.byContradiction
        intro hc
        refine h ⟨fun x hx => ?_, h2⟩
        cases hb : q.inRange (num p x) with
        | true => rfl
        | false => exact absurd ⟨x, hx, hb⟩ hc
      simp only [cast, hv, Res.ok_bind, (castVals_ok F hp hq a.vals).2 this, Res.err_bind]
    · simp only [cast, hcv' h2, Res.err_bind]

/-- A float/int conversion table, for examples only. -/
def noFloats : FloatOps := ⟨fun _ _ _ => 0, fun _ _ => 0, fun _ _ => none⟩

/-- The value under a null row counts too: casting `[null]` fails when the buffer holds an unrepresentable number there. -/
theorem C39_cast_garbage_under_null : ∃ a : NArr .u32, a.WF ∧ a.rows = [none] ∧ cast noFloats .u32 .u8 true a = .err :=
  ⟨⟨[256#32], .allInvalid⟩, by decide, by decide, by decide +kernel⟩

/-- An empty array that still carries a validity array cannot be cast to a non-nullable type. -/
theorem C39_cast_empty : ∃ a : NArr .u32, a.WF ∧ a.rows = [] ∧ cast noFloats .u32 .u32 false a = .err :=
  ⟨⟨[], .array []⟩, by decide, by decide, by decide +kernel⟩

example : cast noFloats .i16 .u8 true ⟨[7#16, 200#16], .array [true, false]⟩ = .ok ⟨[7#8, 200#8], .array [true, false]⟩ := by decide +kernel

/-! ## fill_forward -/

/-- `v` is what row `i` must be filled with: the last valid value at or before it, or the default when there is none. -/
def Fills (dflt : α) (rs : List (Option α)) (i : Nat) (v : α) : Prop :=
  (∃ j ≤ i, rs[j]? = some (some v) ∧ ∀ k, j < k → k ≤ i → rs[k]? = some none) ∨ ((∀ k ≤ i, rs[k]? = some none) ∧ v = dflt)

theorem fillLoop_length (last : α) (l : List (α × Bool)) : (fillLoop last l).length = l.length := by
  induction l generalizing last with
  | nil => rfl
  | cons p l ih => obtain ⟨v, b⟩ := p; cases b <;> simp [fillLoop, ih]

theorem fillLoop_spec (last : α) (vals : List α) (m : List Bool) (hm : m.length = vals.length) (i : Nat) (hi : i < vals.length) :
    ∃ v, (fillLoop last (vals.zip m))[i]? = some v ∧ Fills last (rows vals m) i v := by
  induction vals generalizing last m i with
  | nil => simp at hi
  | cons x vals ih =>
    cases m with
    | nil => simp at hm
    | cons b m =>
      have hm' : m.length = vals.length := by simpa using hm
      have hr : rows (x :: vals) (b :: m) = (if b then some x else none) :: rows vals m := rfl
      cases i with
      | zero =>
        cases b with
        | true => exact ⟨x, by simp [fillLoop], .inl ⟨0, by omega, by simp [hr], by intro k h1 h2; omega⟩⟩
        | false => exact ⟨last, by simp [fillLoop], .inr ⟨by intro k hk; obtain rfl := Nat.le_zero.mp hk; simp [hr], rfl⟩⟩
      | succ i =>
        have hi' : i < vals.length := by simpa using hi
        obtain ⟨v, h1, h2⟩ := ih (if b then x else last) m hm' i hi'
        refine ⟨v, ?_, ?_⟩
        · cases b <;> simpa [fillLoop] using h1
        · rcases h2 with ⟨j, hj, g1, g2⟩ | ⟨g1, g2⟩
          · refine .inl ⟨j + 1, by omega, by simpa [hr] using g1, ?_⟩
            intro k hk1 hk2
            obtain ⟨k', rfl⟩ : ∃ k', k = k' + 1 := ⟨k - 1, by omega⟩
            simpa [hr] using g2 k' (by omega) (by omega)
          · cases b with
            | true =>
              refine .inl ⟨0, by omega, by simp only [hr]; simp at g2; simp [g2], ?_⟩
              intro k hk1 hk2
              obtain ⟨k', rfl⟩ : ∃ k', k = k' + 1 := ⟨k - 1, by omega⟩
              simpa [hr] using g1 k' (by omega)
            | false =>
              refine .inr ⟨?_, by simpa using g2⟩
              intro k hk
              cases k with
              | zero => simp [hr]
              | succ k => simpa [hr] using g1 k (by omega)

theorem rows_allValid (vals : List α) : rows vals (List.replicate vals.length true) = vals.map some := by
  induction vals with
  | nil => rfl
  | cons x vals ih => simp only [rows, List.length_cons, List.replicate_succ, List.zipWith_cons_cons, if_true, List.map_cons] at ih ⊢; rw [ih]

theorem rows_allInvalid (vals : List α) : rows vals (List.replicate vals.length false) = vals.map fun _ => none := by
  induction vals with
  | nil => rfl
  | cons x vals ih =>
    simp only [rows, List.length_cons, List.replicate_succ, List.zipWith_cons_cons, List.map_cons] at ih ⊢; rw [ih]; simp

/-- **C39 (fill_forward).** The result has no nulls; every row holds the last valid value at or before it, or the type's default when there is none. Valid rows
are unchanged (they are their own last valid value), and the dtype stays the same. -/
theorem C39_fill_forward (dflt : α) (a : PArr α) (hw : a.WF) :
    (fillForward dflt a).rows.length = a.rows.length ∧ nullable (fillForward dflt a).validity = nullable a.validity ∧
      ∀ i, i < a.rows.length → ∃ v, (fillForward dflt a).rows[i]? = some (some v) ∧ Fills dflt a.rows i v := by
  have hlen := PArr.rows_len hw
  have hself : ∀ (rs : List (Option α)) i v, rs[i]? = some (some v) → Fills dflt rs i v := by
    intro rs i v h; exact .inl ⟨i, Nat.le_refl _, h, by intro k h1 h2; omega⟩
  have hfull : ∀ (vals : List α), (⟨vals, .allValid⟩ : PArr α).rows = vals.map some := fun vals => rows_allValid vals
  unfold fillForward
  by_cases hnl : nullable a.validity = false
  · rw [if_pos hnl]
    refine ⟨rfl, rfl, ?_⟩
    have hv : a.validity = .nonNullable := by cases h : a.validity <;> simp_all [nullable]
    have hr : a.rows = a.vals.map some := by unfold PArr.rows; rw [hv]; exact rows_allValid _
    intro i hi
    have hi' : i < a.vals.length := by rw [hlen] at hi; exact hi
    refine ⟨a.vals[i], by rw [hr]; simp [hi'], hself _ _ _ (by rw [hr]; simp [hi'])⟩
  · rw [if_neg hnl]
    have hnl' : nullable a.validity = true := by simpa using hnl
    have hb := (C23_to_logical a.validity a.len hw).1
    cases hL : a.validity.toLogical a.len with
    | allValid n =>
      rw [hL] at hb
      have hnlen := (C23_to_logical a.validity a.len hw).2.2
      rw [hL] at hnlen
      simp only [LogicalValidity.len] at hnlen
      subst hnlen
      have hr : a.rows = a.vals.map some := by
        unfold PArr.rows
        have : mask a.vals.length a.validity = List.replicate a.vals.length true := hb.symm
        rw [this]; exact rows_allValid _
      simp only [hfull, hr]
      refine ⟨by simp, by rw [hnl']; rfl, ?_⟩
      intro i hi
      have hi' : i < a.vals.length := by simpa using hi
      exact ⟨a.vals[i], by simp [hi'], hself _ _ _ (by simp [hi'])⟩
    | allInvalid n =>
      rw [hL] at hb
      have hnlen := (C23_to_logical a.validity a.len hw).2.2
      rw [hL] at hnlen
      simp only [LogicalValidity.len] at hnlen
      subst hnlen
      have hr : a.rows = a.vals.map fun _ => none := by
        unfold PArr.rows
        have : mask a.vals.length a.validity = List.replicate a.vals.length false := hb.symm
        rw [this]; exact rows_allInvalid _
      simp only [hfull, hr]
      refine ⟨by simp [PArr.len], by rw [hnl']; rfl, ?_⟩
      intro i hi
      have hi' : i < a.vals.length := by simpa using hi
      refine ⟨dflt, by simp [PArr.len, hi'], .inr ⟨?_, rfl⟩⟩
      intro k hk
      have : k < a.vals.length := by omega
      simp [this]
    | array m =>
      rw [hL] at hb
      simp only [LogicalValidity.intoBools] at hb
      have hml : m.length = a.vals.length := by rw [hb]; exact hw
      have hr : a.rows = rows a.vals m := by unfold PArr.rows; rw [hb]; rfl
      simp only [hfull]
      refine ⟨?_, by rw [hnl']; rfl, ?_⟩
      · rw [List.length_map, fillLoop_length, hlen]; simp [hml, PArr.len]
      · intro i hi
        have hi' : i < a.vals.length := by rw [hlen] at hi; exact hi
        obtain ⟨v, h1, h2⟩ := fillLoop_spec dflt a.vals m hml i hi'
        exact ⟨v, by simp [h1], by rw [hr]; exact h2⟩

example : (fillForward 0#8 ⟨[9, 8, 7, 10, 3], .array [false, true, false, true, false]⟩).rows = [some 0, some 8, some 8, some 10, some 10] := by decide

/-! ## subtract_scalar -/

/-- **C39 (subtract_scalar, integers).** Without overflow checks (release builds) every valid row is reduced by `y` modulo `2 ^ bits`, nulls stay null. -/
theorem C39_subtract_partial (p : PType) (hp : p.isFloat = false) (fsub : BitVec p.bits → BitVec p.bits → BitVec p.bits) (a : NArr p) (hw : a.WF)
    (y : BitVec p.bits) :
    ∃ r, subtractScalar false p fsub a ⟨nullable a.validity, some y⟩ = .ok r ∧ r.rows = a.rows.map (Option.map fun x => x - y) := by
  have hmap : (⟨a.vals.map fun v => v - y, a.validity⟩ : NArr p).rows = a.rows.map (Option.map fun x => x - y) := PArr.rows_map (fun x => x - y) a
  have hzero : y = 0 → a.rows.map (Option.map fun x => x - y) = a.rows := by
    intro h; subst h
    simp
  have hplain : Res.mapM (fun v => subPlain false p.isSigned v y) a.vals = .ok (a.vals.map fun v => v - y) := by
    apply Res.mapM_ok; intro v _; simp [subPlain]
  have hint : ∃ r, subtractInt false p.isSigned a y = .ok r ∧ r.rows = a.rows.map (Option.map fun x => x - y) := by
    unfold subtractInt
    by_cases h0 : y = 0
    · rw [if_pos h0]; exact ⟨a, rfl, (hzero h0).symm⟩
    · rw [if_neg h0]
      by_cases hv : allValid a.validity a.len = true
      · rw [if_neg (by simp [hv])]
        simp only [hplain, Res.ok_bind]
        refine ⟨_, rfl, ?_⟩
        rw [← hmap]
        by_cases hn : a.len = 0
        · have : a.vals = [] := List.length_eq_zero_iff.mp hn
          simp [PArr.rows, this, rows]
        · have hm := (allValid_iff hw hn).mp hv
          unfold PArr.rows
          simp only [List.length_map]
          congr 1
          exact hm.symm
      · rw [if_pos (by simp [hv])]; exact ⟨_, rfl, hmap⟩
  unfold subtractScalar
  rw [if_neg (by simp)]
  have hb := (C23_to_logical a.validity a.len hw).1
  have hnlen := (C23_to_logical a.validity a.len hw).2.2
  obtain ⟨r, r1, r2⟩ := hint
  cases hL : a.validity.toLogical a.len with
  | allInvalid n =>
    refine ⟨_, rfl, ?_⟩
    rw [hL] at hb hnlen
    simp only [LogicalValidity.len] at hnlen
    subst hnlen
    have hr : a.rows = a.vals.map fun _ => none := by
      unfold PArr.rows
      have : mask a.vals.length a.validity = List.replicate a.vals.length false := hb.symm
      rw [this]; exact rows_allInvalid _
    rw [hr]
    simp only [SubOut.rows, PArr.len, List.map_map]
    symm
    rw [List.eq_replicate_iff]
    exact ⟨by simp, by simp⟩
  | allValid n =>
    simp only [hp, Bool.false_eq_true, if_false]
    exact ⟨.arr r, by simp only [r1, Res.ok_bind], r2⟩
  | array m =>
    simp only [hp, Bool.false_eq_true, if_false]
    exact ⟨.arr r, by simp only [r1, Res.ok_bind], r2⟩

/-- A scalar of another nullability, or a null scalar, is refused (unless every row is null). -/
theorem C39_subtract_rejects (checks : Bool) (p : PType) (fsub : BitVec p.bits → BitVec p.bits → BitVec p.bits) (a : NArr p) (s : Sub p)
    (h : nullable a.validity ≠ s.nl) : subtractScalar checks p fsub a s = .err := by
  unfold subtractScalar; rw [if_pos h]

/-- With overflow checks a column without nulls panics where one with a null wraps around. -/
theorem C39_subtract_overflow : (∃ a b : NArr .u16, a.WF ∧ b.WF ∧ a.rows = [some 0#16] ∧ b.rows = [some 0#16, none] ∧
    subtractScalar true .u16 (fun x _ => x) a ⟨true, some 1#16⟩ = .panic ∧
    ∃ r, subtractScalar true .u16 (fun x _ => x) b ⟨true, some 1#16⟩ = .ok r ∧ r.rows = [some 65535#16, none]) :=
  ⟨⟨[0#16], .allValid⟩, ⟨[0#16, 0#16], .array [true, false]⟩, by decide, by decide, rfl, rfl, rfl, _, rfl, rfl⟩

/-- On float columns the nulls are lost: the result is non-nullable and shows numbers computed from the garbage under the nulls. -/
theorem C39_subtract_float_loses_nulls (fsub : BitVec 64 → BitVec 64 → BitVec 64) (y : BitVec 64) : ∃ (a : NArr .f64), a.WF ∧ none ∈ a.rows ∧
    ∃ r, subtractScalar false .f64 fsub a ⟨true, some y⟩ = .ok r ∧ none ∉ r.rows ∧ r.nullable = false :=
  ⟨⟨[0#64, 0#64], .array [true, false]⟩, by decide, by decide, _, rfl, by
    show none ∉ [some (fsub 0#64 y), some (fsub 0#64 y)]
    simp, rfl⟩

/-- A nullable column without nulls comes back with a non-nullable type (unless the scalar is zero). -/
theorem C39_subtract_changes_dtype : ∃ (a : NArr .u16) (r : SubOut 16), nullable a.validity = true ∧
    subtractScalar false .u16 (fun x _ => x) a ⟨true, some 1#16⟩ = .ok r ∧ r.nullable = false :=
  ⟨⟨[7#16], .allValid⟩, .arr ⟨[6#16], .nonNullable⟩, rfl, rfl, rfl⟩

/-- An integer array with a null row keeps its nullability (so its dtype) under subtraction, and so does a non-nullable one: only a nullable array
without nulls changes it (`C39_subtract_changes_dtype`). -/
theorem C39_subtract_keeps_dtype (checks : Bool) (p : PType) (hp : p.isFloat = false) (fsub : BitVec p.bits → BitVec p.bits → BitVec p.bits) (a : NArr p)
    (hw : a.WF) (s : Sub p) (hnull : none ∈ a.rows ∨ nullable a.validity = false) (r : SubOut p.bits) (h : subtractScalar checks p fsub a s = .ok r) :
    r.nullable = nullable a.validity := by
  have hint : ∀ r y, subtractInt checks p.isSigned a y = .ok r → nullable r.validity = nullable a.validity := by
    intro r y h
    unfold subtractInt at h
    split at h
    · cases h; rfl
    · split at h
      · cases h; rfl
      · rename_i hav
        obtain ⟨vs, _, h⟩ := Res.bind_eq_ok.mp h
        cases h
        rcases hnull with hnull | hnull
        · exfalso
          have hn : a.len ≠ 0 := by
            intro h0
            have : a.vals = [] := List.length_eq_zero_iff.mp h0
            simp [PArr.rows, this, rows] at hnull
          have hm := (allValid_iff hw hn).mp (show allValid a.validity a.len = true by simpa using hav)
          exact absurd hnull ((none_notMem_rows hw).mpr hm)
        · rw [hnull]; rfl
  unfold subtractScalar at h
  split at h
  · cases h
  · split at h
    · rename_i n hL
      cases h
      cases hv : a.validity <;> simp_all [SubOut.nullable, Validity.toLogical, nullable]
    · split at h
      · cases h
      · simp only [hp, Bool.false_eq_true, if_false] at h
        obtain ⟨q, hq, h⟩ := Res.bind_eq_ok.mp h
        cases h
        exact hint q _ hq

example : ∃ (a : NArr .u16) (r : SubOut 16), none ∈ a.rows ∧ subtractScalar true .u16 (fun x _ => x) a ⟨true, some 1#16⟩ = .ok r ∧ r.nullable = true :=
  ⟨⟨[7#16, 0#16], .array [true, false]⟩, .arr ⟨[6#16, 0xffff#16], .array [true, false]⟩, by decide, rfl, rfl⟩

/-! ## patch -/

/-- **C39 (patch).** With strictly ascending in-range positions, exactly the listed stored values are replaced, and the validity is kept. -/
theorem C39_patch_partial (a : PArr α) (positions : List Nat) (values : List α) (hl : positions.length = values.length)
    (hs : positions.Pairwise (· < ·)) (hb : ∀ i ∈ positions, i < a.vals.length) :
    ∃ b, a.patch positions values = .ok b ∧ b.validity = a.validity ∧ b.vals.length = a.vals.length ∧
      (∀ (k : Nat) (i : Nat) (x : α), positions[k]? = some i → values[k]? = some x → b.vals[i]? = some x) ∧
      (∀ j, j ∉ positions → b.vals[j]? = a.vals[j]?) := by
  have hfst : (positions.zip values).map (·.1) = positions := by rw [List.map_fst_zip]; omega
  obtain ⟨v, h1, h2, h3, h4⟩ := setLoop_spec (positions.zip values) (by rw [hfst]; exact hs) a.vals (by
    intro p hp; exact hb _ (List.of_mem_zip hp).1)
  refine ⟨⟨v, a.validity⟩, ?_, rfl, h2, ?_, ?_⟩
  · simp only [PArr.patch, Res.assert, hl, beq_self_eq_true, if_true, Res.ok_bind, h1]
  · intro k i x hi hx
    have : (positions.zip values)[k]? = some (i, x) := by simp [List.getElem?_zip_eq_some, hi, hx]
    exact h3 (i, x) (List.mem_of_getElem? this)
  · intro j hj; exact h4 j (by rw [hfst]; exact hj)

/-- The validity is not patched: a patched null row stays null. -/
theorem C39_patch_null_stays : ∃ (a b : PArr (BitVec 8)), a.WF ∧ a.patch [0] [5#8] = .ok b ∧ b.rows = [none] :=
  ⟨⟨[1#8], .allInvalid⟩, ⟨[5#8], .allInvalid⟩, by decide, rfl, by decide⟩

/-- Positions and values of different lengths, or a position out of range, crash. -/
theorem C39_patch_crashes (a : PArr α) (positions : List Nat) (values : List α)
    (h : positions.length ≠ values.length) : a.patch positions values = .panic := by
  simp [PArr.patch, Res.assert, h]

end Vx.Kernels
