import Verif.Spec.PyRead
import Verif.Props.C94
/-! # Python expressions and the filters they build -/
namespace Vx.Py
open Vx.RowExpr (Op Val Expr)
open Vx.DF (DExpr DOp Lit Ty Typed SqlV)
open Vx.FileScan (toExpr litVal typed_convert)

variable {V : Type}

/-- The SQL expression with the operands in the order in which Python builds them. -/
def norm (C : Conv V) (kind : DType → Option Ty) : Src → DExpr V
  | .column n => .col n
  | .value v => .lit (Spec.litOf C kind v)
  | .literal d v => .lit (Spec.litAt C kind d v)
  | .op l o r => if l.isValue then .bin (norm C kind r) (Spec.sqlOp o.swap) (norm C kind l) else .bin (norm C kind l) (Spec.sqlOp o) (norm C kind r)

theorem sqlOp_convert (o : Op) : (Spec.sqlOp o).convert = .ok o := by cases o <;> rfl

theorem isCmp_swap (o : Op) : DF.isCmp (Spec.sqlOp o.swap) = DF.isCmp (Spec.sqlOp o) := by cases o <;> rfl

theorem typed_prim {kind : DType → Option Ty} {d : DType} {v : V} {l : Lit V} (hl : Spec.typed kind d v = l) (hn : l ≠ .null) :
    ∃ t, kind d = some (.prim t) ∧ l = .prim t (some v) := by
  unfold Spec.typed at hl
  cases hk : kind d with
  | none => simp only [hk] at hl; exact absurd hl.symm hn
  | some τ =>
    cases τ with
    | prim t => simp only [hk] at hl; exact ⟨t, rfl, hl.symm⟩
    | bool => simp only [hk] at hl; exact absurd hl.symm hn

theorem prim_lit {kind : DType → Option Ty} {d : DType} {v : V} {l : Lit V} (hl : Spec.typed kind d v = l) (hn : l ≠ .null) :
    prim kind d v = .ok (litVal l.convert) := by
  obtain ⟨t, h1, h2⟩ := typed_prim hl hn
  subst h2
  simp only [prim, h1]
  rfl

/-- A literal that is not null and fits is built. -/
theorem scalar_lit {C : Conv V} {kind : DType → Option Ty} {d : DType} {v : PyVal} (hf : Spec.fits d v = true)
    (hn : Spec.litAt C kind d v ≠ .null) : scalarValue C kind d v = .ok (litVal (Spec.litAt C kind d v).convert) := by
  cases d with
  | null => simp [Spec.litAt] at hn
  | bool n => cases v <;> simp [Spec.litAt] at hn; rfl
  | prim p n =>
    cases v <;> try (simp [Spec.litAt] at hn; done)
    case int z =>
      by_cases hp : p.isFloat = true
      · simp only [Spec.litAt, hp, if_true] at hn ⊢
        cases hi : C.intToFloat z with
        | none => simp [hi] at hn
        | some x =>
          simp only [hi] at hn ⊢
          simp only [scalarValue, hp, if_true, extractFloat, hi, Res.ofOption, Res.ok_bind]
          exact prim_lit rfl hn
      · simp only [Bool.not_eq_true] at hp
        simp only [Spec.litAt, hp, Bool.false_eq_true, if_false] at hn ⊢
        simp only [Spec.fits, hp, Bool.false_or] at hf
        simp only [scalarValue, hp, Bool.false_eq_true, if_false, extractInt, hf, if_true, Res.ok_bind]
        exact prim_lit rfl hn
    case float x =>
      by_cases hp : p.isFloat = true
      · simp only [Spec.litAt, hp, if_true] at hn ⊢
        simp only [scalarValue, hp, if_true, extractFloat, Res.ok_bind]
        exact prim_lit rfl hn
      · simp [Spec.litAt, hp] at hn
  | utf8 n => cases v <;> simp only [Spec.litAt, ne_eq, not_true] at hn <;> exact prim_lit rfl hn
  | binary n => cases v <;> simp only [Spec.litAt, ne_eq, not_true] at hn <;> exact prim_lit rfl hn
  | struct _ _ _ => cases v <;> simp [Spec.litAt] at hn
  | list _ _ => cases v <;> simp [Spec.litAt] at hn
  | ext _ _ _ => cases v <;> simp [Spec.litAt] at hn

theorem typed_lit {Γ : Str → Option Ty} {l : Lit V} {τ : Ty} (h : Typed Γ (.lit l) τ) : l ≠ .null := by
  cases h <;> simp

/-- A plain value that is not a boolean becomes a literal. -/
theorem coerce_lit {C : Conv V} {kind : DType → Option Ty} {v : PyVal} (hb : Spec.Buildable (.value v) = true) (hn : Spec.litOf C kind v ≠ .null) :
    coerce C kind (.val v) = .ok (.lit (litVal (Spec.litOf C kind v).convert)) := by
  cases v with
  | bool b => simp [Spec.Buildable] at hb
  | none => simp [Spec.litOf] at hn
  | other n => simp [Spec.litOf] at hn
  | int z => simp only [coerce, Spec.litOf] at hn ⊢; rw [scalar_lit hb hn]; rfl
  | float x => simp only [coerce, Spec.litOf] at hn ⊢; rw [scalar_lit rfl hn]; rfl
  | str s => simp only [coerce, Spec.litOf] at hn ⊢; rw [scalar_lit rfl hn]; rfl
  | bytes b => simp only [coerce, Spec.litOf] at hn ⊢; rw [scalar_lit rfl hn]; rfl

theorem typed_bin {Γ : Str → Option Ty} {l r : DExpr V} {op : DOp} {τ : Ty} (h : Typed Γ (.bin l op r) τ) :
    ∃ σ, Typed Γ l σ ∧ Typed Γ r σ ∧ (DF.isCmp op = true ∨ (op = .and ∨ op = .or) ∧ σ = .bool) ∧ τ = .bool := by
  cases h with
  | cmp _ _ _ σ ho h1 h2 => exact ⟨σ, h1, h2, .inl ho, rfl⟩
  | logic _ _ _ ho h1 h2 => exact ⟨.bool, h1, h2, .inr ⟨ho, rfl⟩, rfl⟩

theorem norm_typed {C : Conv V} {kind : DType → Option Ty} {Γ : Str → Option Ty} : ∀ (s : Src) (τ : Ty), Spec.Buildable s = true →
    Typed Γ (Spec.sqlOf C kind s) τ → Typed Γ (norm C kind s) τ
  | .column _, _, _, h => h
  | .value _, _, _, h => h
  | .literal _ _, _, _, h => h
  | .op l o r, τ, hb, h => by
    simp only [Spec.Buildable, Bool.and_eq_true, Bool.not_eq_true'] at hb
    obtain ⟨σ, h1, h2, h3, rfl⟩ := typed_bin h
    have i1 := norm_typed l σ hb.2.2.1 h1
    have i2 := norm_typed r σ hb.2.2.2 h2
    by_cases hl : l.isValue = true
    · simp only [norm, hl, if_true]
      rcases h3 with h3 | ⟨h3, rfl⟩
      · exact .cmp _ _ _ σ (by rw [isCmp_swap]; exact h3) i2 i1
      · exact .logic _ _ _ (by cases o <;> simp_all [Spec.sqlOp, Op.swap]) i2 i1
    · simp only [norm, hl, Bool.false_eq_true, if_false]
      rcases h3 with h3 | ⟨h3, rfl⟩
      · exact .cmp _ _ _ σ h3 i1 i2
      · exact .logic _ _ _ h3 i1 i2

/-- What a buildable, well-typed expression evaluates to. -/
theorem build_norm {C : Conv V} {kind : DType → Option Ty} {Γ : Str → Option Ty} : ∀ (s : Src) (τ : Ty), Spec.Buildable s = true →
    Typed Γ (Spec.sqlOf C kind s) τ → ∃ ob v, s.build C kind = .ok ob ∧ (norm C kind s).convert = .ok v ∧ coerce C kind ob = .ok (toExpr v) ∧
      (s.isValue = false → ob = .expr (toExpr v)) ∧ (s.isValue = true → ∃ x, ob = .val x)
  | .column n, _, _, _ => ⟨_, _, rfl, rfl, rfl, fun _ => rfl, fun h => by simp [Src.isValue] at h⟩
  | .value v, _, hb, h => ⟨_, _, rfl, rfl, coerce_lit hb (typed_lit h), fun h => by simp [Src.isValue] at h, fun _ => ⟨_, rfl⟩⟩
  | .literal d v, _, hb, h => by
    refine ⟨.expr (.lit (litVal (Spec.litAt C kind d v).convert)), .lit (Spec.litAt C kind d v).convert, ?_, rfl, rfl, fun _ => rfl,
      fun h => by simp [Src.isValue] at h⟩
    simp only [Src.build, scalar_lit (C := C) (kind := kind) hb (typed_lit h), Res.ok_bind]
  | .op l o r, τ, hb, h => by
    simp only [Spec.Buildable, Bool.and_eq_true, Bool.not_eq_true', decide_eq_true_eq] at hb
    obtain ⟨σ, h1, h2, h3, rfl⟩ := typed_bin h
    obtain ⟨oa, v, a1, a2, a3, a4, a5⟩ := build_norm l σ hb.2.2.1 h1
    obtain ⟨ob, w, b1, b2, b3, b4, b5⟩ := build_norm r σ hb.2.2.2 h2
    simp only [Src.build, a1, b1, Res.ok_bind]
    by_cases hl : l.isValue = true
    · obtain ⟨x, rfl⟩ := a5 hl
      simp only [hl, Bool.true_and, Bool.or_eq_false_iff] at hb
      have := b4 hb.2.1.2
      subst this
      refine ⟨.expr (.bin (toExpr w) o.swap (toExpr v)), .bin w o.swap v, ?_, ?_, rfl, fun _ => rfl, fun h => by simp [Src.isValue] at h⟩
      · simp only [apply, hb.2.1.1, Bool.false_eq_true, if_false, a3, Res.ok_bind, if_neg hb.1]
      · simp only [norm, hl, if_true, DExpr.convert, a2, b2, sqlOp_convert, Res.ok_bind]
    · simp only [Bool.not_eq_true] at hl
      have := a4 hl
      subst this
      refine ⟨.expr (.bin (toExpr v) o (toExpr w)), .bin v o w, ?_, ?_, rfl, fun _ => rfl, fun h => by simp [Src.isValue] at h⟩
      · simp only [apply, b3, Res.ok_bind, if_neg hb.1]
      · simp only [norm, hl, Bool.false_eq_true, if_false, DExpr.convert, a2, b2, sqlOp_convert, Res.ok_bind]

theorem rel_swap [LinearOrder V] (o : Op) (a b : V) : DF.rel (Spec.sqlOp o.swap) b a = DF.rel (Spec.sqlOp o) a b := by
  cases o <;> simp [DF.rel, Spec.sqlOp, Op.swap, eq_comm]

theorem cmp3_swap [LinearOrder V] (o : Op) (a b : Option V) : DF.cmp3 (Spec.sqlOp o.swap) b a = DF.cmp3 (Spec.sqlOp o) a b := by
  cases a <;> cases b <;> simp only [DF.cmp3, rel_swap]

theorem and3_comm (a b : Option Bool) : DF.and3 a b = DF.and3 b a := by
  rcases a with _ | _ | _ <;> rcases b with _ | _ | _ <;> rfl

theorem or3_comm (a b : Option Bool) : DF.or3 a b = DF.or3 b a := by
  rcases a with _ | _ | _ <;> rcases b with _ | _ | _ <;> rfl

theorem sqlOp_swap [LinearOrder V] (o : Op) (a b : SqlV V) : DF.sqlOp (Spec.sqlOp o.swap) b a = DF.sqlOp (Spec.sqlOp o) a b := by
  have hc := isCmp_swap o
  cases a with
  | prim t x => cases b with
    | prim u y =>
      have : (u == t) = (t == u) := by rw [Bool.eq_iff_iff]; simp only [beq_iff_eq]; exact eq_comm
      have h := cmp3_swap o x y
      cases o <;> simp only [Spec.sqlOp, Op.swap] at h hc ⊢ <;> simp [DF.sqlOp, this, h, DF.isCmp]
    | bool y => cases o <;> rfl
    | null => cases o <;> rfl
  | bool x => cases b with
    | prim u y => cases o <;> rfl
    | bool y =>
      have h := cmp3_swap o x y
      cases o <;> simp only [Spec.sqlOp, Op.swap] at h hc ⊢ <;> simp [DF.sqlOp, h, DF.isCmp, and3_comm x, or3_comm x]
    | null => cases o <;> rfl
  | null => cases b <;> cases o <;> rfl

theorem norm_sql [LinearOrder V] {C : Conv V} {kind : DType → Option Ty} (row : Str → Option (SqlV V)) (s : Src) :
    DF.sql row (norm C kind s) = DF.sql row (Spec.sqlOf C kind s) := by
  induction s with
  | column n => rfl
  | value v => rfl
  | literal d v => rfl
  | op l o r ihl ihr =>
    by_cases hl : l.isValue = true
    · simp only [norm, hl, if_true, Spec.sqlOf, DF.sql, ihl, ihr]
      cases DF.sql row (Spec.sqlOf C kind l) <;> cases DF.sql row (Spec.sqlOf C kind r) <;> simp only [sqlOp_swap]
    · simp only [norm, hl, Bool.false_eq_true, if_false, Spec.sqlOf, DF.sql, ihl, ihr]

theorem norm_cols {C : Conv V} {kind : DType → Option Ty} (n : Str) (s : Src) : n ∈ (norm C kind s).cols ↔ n ∈ (Spec.sqlOf C kind s).cols := by
  induction s with
  | column n => rfl
  | value v => rfl
  | literal d v => rfl
  | op l o r ihl ihr =>
    by_cases hl : l.isValue = true
    · simp only [norm, hl, if_true, Spec.sqlOf, DExpr.cols, List.mem_append, ihl, ihr, or_comm]
    · simp only [norm, hl, Bool.false_eq_true, if_false, Spec.sqlOf, DExpr.cols, List.mem_append, ihl, ihr]

theorem norm_noLogic {C : Conv V} {kind : DType → Option Ty} (s : Src) :
    FileScan.Spec.noLogic (norm C kind s) = FileScan.Spec.noLogic (Spec.sqlOf C kind s) := by
  induction s with
  | column n => rfl
  | value v => rfl
  | literal d v => rfl
  | op l o r ihl ihr =>
    by_cases hl : l.isValue = true
    · simp only [norm, hl, if_true, Spec.sqlOf, FileScan.Spec.noLogic, ihl, ihr]
      cases o <;> simp [Spec.sqlOp, Op.swap, Bool.and_comm]
    · simp only [norm, hl, Bool.false_eq_true, if_false, Spec.sqlOf, FileScan.Spec.noLogic, ihl, ihr]

/-- The conjuncts are those of the expression as written, up to the order of operands. -/
theorem norm_conjuncts {C : Conv V} {kind : DType → Option Ty} : ∀ (s : Src), ∀ c ∈ FileScan.Spec.conjuncts (norm C kind s),
    ∃ c' ∈ FileScan.Spec.conjuncts (Spec.sqlOf C kind s), FileScan.Spec.noLogic c = FileScan.Spec.noLogic c' ∧ ∀ n, n ∈ c.cols ↔ n ∈ c'.cols := by
  have single : ∀ s, FileScan.Spec.conjuncts (norm C kind s) = [norm C kind s] → FileScan.Spec.conjuncts (Spec.sqlOf C kind s) = [Spec.sqlOf C kind s] →
      ∀ c ∈ FileScan.Spec.conjuncts (norm C kind s),
      ∃ c' ∈ FileScan.Spec.conjuncts (Spec.sqlOf C kind s), FileScan.Spec.noLogic c = FileScan.Spec.noLogic c' ∧ ∀ n, n ∈ c.cols ↔ n ∈ c'.cols := by
    intro s h1 h2 c hc
    rw [h1, List.mem_singleton] at hc
    subst hc
    exact ⟨Spec.sqlOf C kind s, by rw [h2]; simp, norm_noLogic s, fun n => norm_cols n s⟩
  intro s
  induction s with
  | column n => exact single _ rfl rfl
  | value v => exact single _ rfl rfl
  | literal d v => exact single _ rfl rfl
  | op l o r ihl ihr =>
    by_cases ho : o = .and
    · subst ho
      intro c hc
      by_cases hl : l.isValue = true
      · simp only [norm, hl, if_true, Spec.sqlOp, Op.swap, FileScan.Spec.conjuncts, List.mem_append] at hc
        simp only [Spec.sqlOf, Spec.sqlOp, FileScan.Spec.conjuncts, List.mem_append]
        rcases hc with hc | hc
        · obtain ⟨c', h1, h2⟩ := ihr c hc; exact ⟨c', .inr h1, h2⟩
        · obtain ⟨c', h1, h2⟩ := ihl c hc; exact ⟨c', .inl h1, h2⟩
      · simp only [norm, hl, Bool.false_eq_true, if_false, Spec.sqlOp, FileScan.Spec.conjuncts, List.mem_append] at hc
        simp only [Spec.sqlOf, Spec.sqlOp, FileScan.Spec.conjuncts, List.mem_append]
        rcases hc with hc | hc
        · obtain ⟨c', h1, h2⟩ := ihl c hc; exact ⟨c', .inl h1, h2⟩
        · obtain ⟨c', h1, h2⟩ := ihr c hc; exact ⟨c', .inr h1, h2⟩
    · refine single _ ?_ ?_
      · by_cases hl : l.isValue = true
        · simp only [norm, hl, if_true]; cases o <;> simp_all [Spec.sqlOp, Op.swap, FileScan.Spec.conjuncts]
        · simp only [norm, hl, Bool.false_eq_true, if_false]; cases o <;> simp_all [Spec.sqlOp, FileScan.Spec.conjuncts]
      · simp only [Spec.sqlOf]; cases o <;> simp_all [Spec.sqlOp, FileScan.Spec.conjuncts]

end Vx.Py
