import Verif.Lemmas.FileScan
/-! # The row filter's logic and SQL's -/
namespace Vx.FileScan
open Vx.Layout
open Vx.DF (DExpr SqlV Ty Typed)

variable {V : Type} [LinearOrder V]

/-- The filter's row `r` and the SQL row `row` have the same typed values in the columns `cols`. -/
def SameCells (Γ : Str → Option Ty) (cols : List Str) (r : Vx.Spec.Row V) (row : Str → Option (SqlV V)) : Prop :=
  ∀ n ∈ cols, ∀ τ, Γ n = some τ → ∃ x, Vx.Spec.rowField r (.name n) = some x ∧ Spec.HasTy τ x ∧ row n = some (Spec.sqlVal x)

theorem rel_cmpV {W : Type} [LinearOrder W] {op : DF.DOp} {o : RowExpr.Op} (hc : DF.isCmp op = true) (ho : op.convert = .ok o) (a b : W) :
    DF.rel op a b = some (RowExpr.cmpV o a b) ∧ o.isBool = false := by
  cases op <;> simp only [DF.isCmp, DF.DOp.convert, Res.ok.injEq, Bool.false_eq_true] at hc ho <;> subst ho <;> simp [DF.rel, RowExpr.cmpV, RowExpr.Op.isBool]

theorem convert_bin {l r : DExpr V} {op : DF.DOp} {v : DF.VExpr V} (h : (DExpr.bin l op r).convert = .ok v) :
    ∃ x y o, l.convert = .ok x ∧ r.convert = .ok y ∧ op.convert = .ok o ∧ v = .bin x o y := by
  simp only [DExpr.convert, Res.bind_eq_ok, Res.ok.injEq] at h
  obtain ⟨x, hx, y, hy, o, ho, rfl⟩ := h
  exact ⟨x, y, o, hx, hy, ho, rfl⟩

/-- Without `AND` and `OR`, or without nulls, the filter's value of an expression is SQL's. -/
theorem exact_value {Γ : Str → Option Ty} {r : Vx.Spec.Row V} {row : Str → Option (SqlV V)} {e : DExpr V} {τ : Ty} (h : Typed Γ e τ) :
    ∀ {v : DF.VExpr V}, e.convert = .ok v → SameCells Γ e.cols r row →
      (Spec.noLogic e = true ∨ ∀ n ∈ e.cols, ∃ y, row n = some y ∧ Spec.notNull y = true) →
      ∃ w, Vx.Spec.Value r (toExpr v) w ∧ Spec.HasTy τ w ∧ DF.sql row e = some (Spec.sqlVal w) ∧
        ((∀ n ∈ e.cols, ∃ y, row n = some y ∧ Spec.notNull y = true) → Spec.notNull (Spec.sqlVal w) = true) := by
  induction h with
  | col n τ hn =>
    intro v hv hs _
    simp only [DExpr.convert, Res.ok.injEq] at hv; subst hv
    obtain ⟨x, h1, h2, h3⟩ := hs n (by simp [DExpr.cols]) τ hn
    refine ⟨x, .col _ _ h1, h2, h3, fun hnn => ?_⟩
    obtain ⟨y, y1, y2⟩ := hnn n (by simp [DExpr.cols])
    rw [h3, Option.some.injEq] at y1; subst y1; exact y2
  | litPrim t x =>
    intro v hv _ _
    simp only [DExpr.convert, DF.Lit.convert, Res.ok.injEq] at hv; subst hv
    exact ⟨.prim (t + 1) (some x), .lit _, ⟨_, rfl⟩, rfl, fun _ => rfl⟩
  | litBool b =>
    intro v hv _ _
    simp only [DExpr.convert, DF.Lit.convert, Res.ok.injEq] at hv; subst hv
    exact ⟨.bool (some b), .lit _, ⟨_, rfl⟩, rfl, fun _ => rfl⟩
  | cmp l op e τ hop hl he ihl ihe =>
    intro v hv hs hc
    obtain ⟨vl, ve, o, c1, c2, c3, rfl⟩ := convert_bin hv
    obtain ⟨wl, a1, a2, a3, a4⟩ := ihl c1 (fun n hn => hs n (by simp [DExpr.cols, hn])) (by
      rcases hc with hc | hc
      · simp only [Spec.noLogic, Bool.and_eq_true] at hc; exact Or.inl hc.2.2.1
      · exact Or.inr fun n hn => hc n (by simp [DExpr.cols, hn]))
    obtain ⟨we, b1, b2, b3, b4⟩ := ihe c2 (fun n hn => hs n (by simp [DExpr.cols, hn])) (by
      rcases hc with hc | hc
      · simp only [Spec.noLogic, Bool.and_eq_true] at hc; exact Or.inl hc.2.2.2
      · exact Or.inr fun n hn => hc n (by simp [DExpr.cols, hn]))
    have hob : o.isBool = false := (rel_cmpV hop c3 true true).2
    have hne : op ≠ .and ∧ op ≠ .or := by constructor <;> (rintro rfl; simp [DF.isCmp] at hop)
    have hsql : DF.sql row (.bin l op e) = DF.sqlOp op (Spec.sqlVal wl) (Spec.sqlVal we) := by simp only [DF.sql, a3, b3]
    cases τ with
    | prim t =>
      obtain ⟨x, rfl⟩ := a2
      obtain ⟨y, rfl⟩ := b2
      have hop' : DF.sqlOp op (Spec.sqlVal (.prim (t + 1) x)) (Spec.sqlVal (.prim (t + 1) y)) = some (.bool (DF.cmp3 op x y)) := by
        simp only [Spec.sqlVal]
        unfold DF.sqlOp
        cases op <;> simp_all [DF.isCmp]
      rw [hop'] at hsql
      cases x with
      | none => exact ⟨.bool none, .cmpNull _ _ _ (t + 1) none y hob a1 b1 (Or.inl rfl), ⟨_, rfl⟩, by rw [hsql]; rfl, fun hn => by
          have := a4 (fun n hn' => hn n (by simp [DExpr.cols, hn'])); simp [Spec.sqlVal, Spec.notNull] at this⟩
      | some x =>
        cases y with
        | none => exact ⟨.bool none, .cmpNull _ _ _ (t + 1) (some x) none hob a1 b1 (Or.inr rfl), ⟨_, rfl⟩, by rw [hsql]; rfl, fun hn => by
            have := b4 (fun n hn' => hn n (by simp [DExpr.cols, hn'])); simp [Spec.sqlVal, Spec.notNull] at this⟩
        | some y => exact ⟨.bool (some (RowExpr.cmpV o x y)), .cmp _ _ _ (t + 1) x y _ hob a1 b1 (RowExpr.cmpV_iff o hob x y), ⟨_, rfl⟩, by
            rw [hsql]; simp only [DF.cmp3, (rel_cmpV hop c3 x y).1]; rfl, fun _ => rfl⟩
    | bool =>
      obtain ⟨x, rfl⟩ := a2
      obtain ⟨y, rfl⟩ := b2
      have hop' : DF.sqlOp op (Spec.sqlVal (.bool x : RowExpr.Val V)) (Spec.sqlVal (.bool y : RowExpr.Val V)) = some (.bool (DF.cmp3 op x y)) := by
        simp only [Spec.sqlVal]
        unfold DF.sqlOp
        cases op <;> simp_all [DF.isCmp]
      rw [hop'] at hsql
      cases x with
      | none => exact ⟨.bool none, .cmpBoolNull _ _ _ none y hob a1 b1 (Or.inl rfl), ⟨_, rfl⟩, by rw [hsql]; rfl, fun hn => by
          have := a4 (fun n hn' => hn n (by simp [DExpr.cols, hn'])); simp [Spec.sqlVal, Spec.notNull] at this⟩
      | some x =>
        cases y with
        | none => exact ⟨.bool none, .cmpBoolNull _ _ _ (some x) none hob a1 b1 (Or.inr rfl), ⟨_, rfl⟩, by rw [hsql]; rfl, fun hn => by
            have := b4 (fun n hn' => hn n (by simp [DExpr.cols, hn'])); simp [Spec.sqlVal, Spec.notNull] at this⟩
        | some y => exact ⟨.bool (some (RowExpr.cmpV o x y)), .cmpBool _ _ _ x y _ hob a1 b1 (RowExpr.cmpV_iff o hob x y), ⟨_, rfl⟩, by
            rw [hsql]; simp only [DF.cmp3, (rel_cmpV hop c3 x y).1]; rfl, fun _ => rfl⟩
  | logic l op e hop hl he ihl ihe =>
    intro v hv hs hc
    obtain ⟨vl, ve, o, c1, c2, c3, rfl⟩ := convert_bin hv
    have hnn : ∀ n ∈ (DExpr.bin l op e).cols, ∃ y, row n = some y ∧ Spec.notNull y = true := by
      rcases hc with hc | hc
      · rcases hop with rfl | rfl <;> simp [Spec.noLogic] at hc
      · exact hc
    have hnl : ∀ n ∈ l.cols, ∃ y, row n = some y ∧ Spec.notNull y = true := fun n hn => hnn n (by simp [DExpr.cols, hn])
    have hne : ∀ n ∈ e.cols, ∃ y, row n = some y ∧ Spec.notNull y = true := fun n hn => hnn n (by simp [DExpr.cols, hn])
    obtain ⟨wl, a1, ⟨x, rfl⟩, a3, a4⟩ := ihl c1 (fun n hn => hs n (by simp [DExpr.cols, hn])) (Or.inr hnl)
    obtain ⟨we, b1, ⟨y, rfl⟩, b3, b4⟩ := ihe c2 (fun n hn => hs n (by simp [DExpr.cols, hn])) (Or.inr hne)
    have a4 := a4 hnl
    have b4 := b4 hne
    cases x with
    | none => simp [Spec.sqlVal, Spec.notNull] at a4
    | some x =>
      cases y with
      | none => simp [Spec.sqlVal, Spec.notNull] at b4
      | some y =>
        rcases hop with rfl | rfl
        · simp only [DF.DOp.convert, Res.ok.injEq] at c3; subst c3
          exact ⟨.bool (some (x && y)), .and _ _ x y a1 b1, ⟨_, rfl⟩, by
            simp only [DF.sql, a3, b3, Spec.sqlVal, DF.sqlOp]; cases x <;> cases y <;> rfl, fun _ => rfl⟩
        · simp only [DF.DOp.convert, Res.ok.injEq] at c3; subst c3
          exact ⟨.bool (some (x || y)), .or _ _ x y a1 b1, ⟨_, rfl⟩, by
            simp only [DF.sql, a3, b3, Spec.sqlVal, DF.sqlOp]; cases x <;> cases y <;> rfl, fun _ => rfl⟩

/-- A well-typed expression has a SQL value of its type. -/
theorem sql_typed {Γ : Str → Option Ty} {r : Vx.Spec.Row V} {row : Str → Option (SqlV V)} {e : DExpr V} {τ : Ty} (h : Typed Γ e τ) :
    SameCells Γ e.cols r row → ∃ w : RowExpr.Val V, Spec.HasTy τ w ∧ DF.sql row e = some (Spec.sqlVal w) := by
  induction h with
  | col n τ hn =>
    intro hs
    obtain ⟨x, _, h2, h3⟩ := hs n (by simp [DExpr.cols]) τ hn
    exact ⟨x, h2, h3⟩
  | litPrim t x => intro _; exact ⟨.prim (t + 1) (some x), ⟨_, rfl⟩, rfl⟩
  | litBool b => intro _; exact ⟨.bool (some b), ⟨_, rfl⟩, rfl⟩
  | cmp l op e τ hop hl he ihl ihe =>
    intro hs
    obtain ⟨wl, a2, a3⟩ := ihl (fun n hn => hs n (by simp [DExpr.cols, hn]))
    obtain ⟨we, b2, b3⟩ := ihe (fun n hn => hs n (by simp [DExpr.cols, hn]))
    have hsql : DF.sql row (.bin l op e) = DF.sqlOp op (Spec.sqlVal wl) (Spec.sqlVal we) := by simp only [DF.sql, a3, b3]
    cases τ with
    | prim t =>
      obtain ⟨x, rfl⟩ := a2
      obtain ⟨y, rfl⟩ := b2
      exact ⟨.bool (DF.cmp3 op x y), ⟨_, rfl⟩, by rw [hsql]; simp only [Spec.sqlVal]; unfold DF.sqlOp; cases op <;> simp_all [DF.isCmp]⟩
    | bool =>
      obtain ⟨x, rfl⟩ := a2
      obtain ⟨y, rfl⟩ := b2
      exact ⟨.bool (DF.cmp3 op x y), ⟨_, rfl⟩, by rw [hsql]; simp only [Spec.sqlVal]; unfold DF.sqlOp; cases op <;> simp_all [DF.isCmp]⟩
  | logic l op e hop hl he ihl ihe =>
    intro hs
    obtain ⟨wl, ⟨x, rfl⟩, a3⟩ := ihl (fun n hn => hs n (by simp [DExpr.cols, hn]))
    obtain ⟨we, ⟨y, rfl⟩, b3⟩ := ihe (fun n hn => hs n (by simp [DExpr.cols, hn]))
    rcases hop with rfl | rfl
    · exact ⟨.bool (DF.and3 x y), ⟨_, rfl⟩, by simp only [DF.sql, a3, b3, Spec.sqlVal, DF.sqlOp]⟩
    · exact ⟨.bool (DF.or3 x y), ⟨_, rfl⟩, by simp only [DF.sql, a3, b3, Spec.sqlVal, DF.sqlOp]⟩

omit [LinearOrder V] in
theorem sqlVal_true (w : RowExpr.Val V) : Spec.sqlVal w = .bool (some true) ↔ w = .bool (some true) := by
  cases w with
  | prim t x => cases t <;> simp [Spec.sqlVal]
  | bool b => simp [Spec.sqlVal]

theorem and3_true (a b : Option Bool) : DF.and3 a b = some true ↔ a = some true ∧ b = some true := by
  cases a with
  | none => cases b with
    | none => simp [DF.and3]
    | some b => cases b <;> simp [DF.and3]
  | some a => cases b with
    | none => cases a <;> simp [DF.and3]
    | some b => cases a <;> cases b <;> simp [DF.and3]

omit [LinearOrder V] in
theorem conjuncts_cols (e : DExpr V) : ∀ c ∈ Spec.conjuncts e, ∀ n ∈ c.cols, n ∈ e.cols := by
  induction e with
  | bin l op r ihl ihr =>
    intro c hc n hn
    by_cases h : op = .and
    · subst h
      simp only [Spec.conjuncts, List.mem_append] at hc
      rcases hc with hc | hc
      · simp [DExpr.cols, ihl c hc n hn]
      · simp [DExpr.cols, ihr c hc n hn]
    · have : Spec.conjuncts (.bin l op r) = [.bin l op r] := by cases op <;> simp_all [Spec.conjuncts]
      rw [this, List.mem_singleton] at hc; subst hc; exact hn
  | col n => intro c hc; simp only [Spec.conjuncts, List.mem_singleton] at hc; subst hc; exact fun _ h => h
  | lit v => intro c hc; simp only [Spec.conjuncts, List.mem_singleton] at hc; subst hc; exact fun _ h => h
  | other k => intro c hc; simp only [Spec.conjuncts, List.mem_singleton] at hc; subst hc; exact fun _ h => h

/-- A filter is true for the row filter exactly when it is true in SQL: when each of its conjuncts is free of `AND` and `OR` or has no null. -/
theorem holds_iff_true {Γ : Str → Option Ty} {r : Vx.Spec.Row V} {row : Str → Option (SqlV V)} (e : DExpr V) :
    ∀ {v : DF.VExpr V}, Typed Γ e .bool → e.convert = .ok v → SameCells Γ e.cols r row →
      (∀ c ∈ Spec.conjuncts e, Spec.noLogic c = true ∨ ∀ n ∈ c.cols, ∃ y, row n = some y ∧ Spec.notNull y = true) →
      (Vx.Spec.Holds r (toExpr v) ↔ DF.sql row e = some (.bool (some true))) := by
  have leaf : ∀ (e : DExpr V) {v : DF.VExpr V}, Spec.conjuncts e = [e] → Typed Γ e .bool → e.convert = .ok v → SameCells Γ e.cols r row →
      (∀ c ∈ Spec.conjuncts e, Spec.noLogic c = true ∨ ∀ n ∈ c.cols, ∃ y, row n = some y ∧ Spec.notNull y = true) →
      (Vx.Spec.Holds r (toExpr v) ↔ DF.sql row e = some (.bool (some true))) := by
    intro e v hone ht hv hs hc
    rw [hone] at hc
    obtain ⟨w, w1, w2, w3, _⟩ := exact_value ht hv hs (hc e (by simp))
    rw [w3, Option.some.injEq, sqlVal_true]
    exact ⟨fun h => (RowExpr.Value.unique h w1).symm, fun h => by subst h; exact w1⟩
  induction e with
  | bin l op x ihl ihx =>
    intro v ht hv hs hc
    by_cases h : op = .and
    · subst h
      obtain ⟨vl, ve, o, c1, c2, c3, rfl⟩ := convert_bin hv
      simp only [DF.DOp.convert, Res.ok.injEq] at c3; subst c3
      obtain ⟨htl, htx⟩ : Typed Γ l .bool ∧ Typed Γ x .bool := by
        cases ht with
        | cmp _ _ _ _ hop => simp [DF.isCmp] at hop
        | logic _ _ _ _ h1 h2 => exact ⟨h1, h2⟩
      have hsl : SameCells Γ l.cols r row := fun n hn => hs n (by simp [DExpr.cols, hn])
      have hsx : SameCells Γ x.cols r row := fun n hn => hs n (by simp [DExpr.cols, hn])
      have i1 := ihl htl c1 hsl (fun c hc' => hc c (by simp [Spec.conjuncts, hc']))
      have i2 := ihx htx c2 hsx (fun c hc' => hc c (by simp [Spec.conjuncts, hc']))
      obtain ⟨wl, ⟨a, rfl⟩, a3⟩ := sql_typed htl hsl
      obtain ⟨we, ⟨b, rfl⟩, b3⟩ := sql_typed htx hsx
      simp only [toExpr]
      rw [RowExpr.holds_and, i1, i2]
      simp only [DF.sql, a3, b3, Spec.sqlVal, DF.sqlOp, Option.some.injEq, SqlV.bool.injEq, and3_true]
    · exact leaf _ (by cases op <;> simp_all [Spec.conjuncts]) ht hv hs hc
  | col n => exact leaf _ rfl
  | lit v => exact leaf _ rfl
  | other k => exact leaf _ rfl

/-- The conjunction of the filters is true exactly when all of them are. -/
theorem conjunction_true {Γ : Str → Option Ty} {r : Vx.Spec.Row V} {row : Str → Option (SqlV V)} (fs : List (DExpr V)) :
    ∀ (f : DExpr V), Typed Γ f .bool → (∀ g ∈ fs, Typed Γ g .bool) → SameCells Γ ((f :: fs).flatMap DExpr.cols) r row →
      (DF.sql row (fs.foldl (fun a b => .bin a .and b) f) = some (.bool (some true)) ↔ ∀ g ∈ f :: fs, DF.sql row g = some (.bool (some true))) := by
  induction fs with
  | nil => intro f _ _ _; simp
  | cons g fs ih =>
    intro f hf hfs hs
    have hsf : SameCells Γ f.cols r row := fun n hn => hs n (by simp [hn])
    have hsg : SameCells Γ g.cols r row := fun n hn => hs n (by simp [hn])
    rw [List.foldl_cons, ih (.bin f .and g) (.logic _ _ _ (Or.inl rfl) hf (hfs g (by simp))) (fun x hx => hfs x (by simp [hx])) (by
      intro n hn
      apply hs n
      simpa [DExpr.cols, List.append_assoc] using hn)]
    obtain ⟨wl, ⟨a, rfl⟩, a3⟩ := sql_typed hf hsf
    obtain ⟨we, ⟨b, rfl⟩, b3⟩ := sql_typed (hfs g (by simp)) hsg
    simp only [List.mem_cons, forall_eq_or_imp, DF.sql, a3, b3, Spec.sqlVal, DF.sqlOp, Option.some.injEq, SqlV.bool.injEq, and3_true, and_assoc]

omit [LinearOrder V] in
theorem conjunction_typed {Γ : Str → Option Ty} (fs : List (DExpr V)) :
    ∀ (f : DExpr V), Typed Γ f .bool → (∀ g ∈ fs, Typed Γ g .bool) → Typed Γ (fs.foldl (fun a b => .bin a .and b) f) .bool := by
  induction fs with
  | nil => intro f hf _; exact hf
  | cons g fs ih => intro f hf hfs; exact ih _ (.logic _ _ _ (Or.inl rfl) hf (hfs g (by simp))) (fun x hx => hfs x (by simp [hx]))

omit [LinearOrder V] in
theorem conjunction_conjuncts (fs : List (DExpr V)) :
    ∀ (f : DExpr V), Spec.conjuncts (fs.foldl (fun a b => .bin a .and b) f) = (f :: fs).flatMap Spec.conjuncts := by
  induction fs with
  | nil => intro f; simp
  | cons g fs ih => intro f; rw [List.foldl_cons, ih]; simp [Spec.conjuncts]

end Vx.FileScan
