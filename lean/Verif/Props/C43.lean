import Verif.Lemmas.DataFusion
import Verif.Props.C28
/-!
# C43: query push-down

Specification: `Spec/Sql.lean`, the three-valued SQL meaning of a filter on one row, and `IsSelection` (an output batch holds these rows
and these columns).
-/
namespace Vx.DF
open Vx.RowExpr (Op cmpV findName)

variable {V : Type} [LinearOrder V]

/-- The filter is true, or false, on the row. -/
def IsTrue (row : List Char → Option (SqlV V)) (e : DExpr V) : Prop := sql row e = some (.bool (some true))
def IsFalse (row : List Char → Option (SqlV V)) (e : DExpr V) : Prop := sql row e = some (.bool (some false))

/-! ### What is pushed down -/

omit [LinearOrder V] in
/-- **C43 (push-down is decided by what can be evaluated).** A filter is accepted exactly if every operator in it is one of the eight that
can be converted, every column exists with a supported type, every literal has a supported type, and nothing else occurs in it. -/
theorem C43_accepted (tyOf : Nat → DataType) (schema : List (List Char × DataType)) (e : DExpr V) :
    canPush tyOf schema e = true ↔
      match e with
      | .bin l op r => (∃ o, op.convert = .ok o) ∧ canPush tyOf schema l = true ∧ canPush tyOf schema r = true
      | .col n => ∃ d, (schema.find? (fun x => decide (x.1 = n))).map (·.2) = some d ∧ ∀ k, d ≠ .other k
      | .lit v => ∀ k, v.dataType tyOf ≠ .other k
      | .other _ => False := by
  have hs : ∀ d : DataType, supportedDataTypes d = true ↔ ∀ k, d ≠ .other k := by
    intro d; cases d <;> simp [supportedDataTypes]
  cases e with
  | bin l op r =>
    simp only [canPush, Bool.and_eq_true]
    cases op <;> simp [DOp.supported, DOp.convert]
  | col n =>
    simp only [canPush, findName_find]
    cases (schema.find? (fun x => decide (x.1 = n))) <;> simp [hs]
  | lit v => simp only [canPush, hs]
  | other n => simp [canPush]

omit [LinearOrder V] in
/-- **C43 (accepted filters are converted).** Every accepted filter is translated to a vortex expression; a filter with anything else in
it is not accepted. -/
theorem C43_accepted_converts (tyOf : Nat → DataType) (schema : List (List Char × DataType)) (e : DExpr V) (h : canPush tyOf schema e = true) :
    ∃ v, e.convert = .ok v := by
  induction e with
  | bin l op r ihl ihr =>
    rw [C43_accepted] at h
    obtain ⟨⟨o, ho⟩, h1, h2⟩ := h
    obtain ⟨x, hx⟩ := ihl h1
    obtain ⟨y, hy⟩ := ihr h2
    exact ⟨.bin x o y, by simp [DExpr.convert, hx, hy, ho]⟩
  | col n => exact ⟨_, rfl⟩
  | lit v => exact ⟨_, rfl⟩
  | other n => simp [canPush] at h

omit [LinearOrder V] in
/-- Nothing is accepted when push-down is switched off; otherwise exactly the filters above, position by position. -/
theorem C43_supports (enable : Bool) (tyOf : Nat → DataType) (schema : List (List Char × DataType)) (fs : List (DExpr V)) (i : Nat) :
    (supportsPushdown enable tyOf schema fs)[i]? = (fs[i]?).map (fun f => enable && canPush tyOf schema f) := by
  cases enable
  · simp only [supportsPushdown, Bool.false_eq_true, if_false, Bool.false_and, List.getElem?_replicate]
    cases h : fs[i]? with
    | none => simp [List.getElem?_eq_none_iff.mp h]
    | some f => simp [(List.getElem?_eq_some_iff.mp h).1]
  · simp [supportsPushdown]

/-! ### What a scan returns -/

/-- The relation between a chunk of the table and its output batch: the rows `sel`, in order, of the projected columns only; every row on
which all filters are true is among them, and none on which some filter is false. -/
def Pushed (filters : List (DExpr V)) (proj : List Nat) (c : Chunk V) (sel : List Nat) : Prop :=
  sel.Pairwise (· < ·) ∧ (∀ i ∈ sel, i < c.n) ∧
  (∀ i < c.n, (∀ f ∈ filters, IsTrue (c.row i) f) → i ∈ sel) ∧
  ∀ i ∈ sel, ∀ f ∈ filters, ¬ IsFalse (c.row i) f

theorem rowIndices_pushed {c : Chunk V} {fp : List (List Char)} {f : DExpr V} {fs : List (DExpr V)} {v : VExpr V} {sel : List Nat}
    (hv : (fs.foldl (fun a b => .bin a .and b) f).convert = .ok v) (hfp : ∀ n ∈ v.refs, n ∈ fp) (hc : c.WF) (h : rowIndices fp v c = .ok sel)
    (proj : List Nat) : Pushed (f :: fs) proj c sel := by
  obtain ⟨h1, h2, h3, h4⟩ := rowIndices_ok hv hfp hc h
  refine ⟨h1, h2, ?_, ?_⟩
  · intro i hi ht
    rw [h4 i hi]
    intro g hg w xs hw hx
    obtain ⟨y, b, e1, e2, e3, _⟩ := eval_agrees hc hi g w _ _ hw hx (ht g hg)
    simp only [SqlV.bool.injEq] at e2
    simp only [bitAt, e1, Option.map_some, Option.getD_some]
    exact e3 true e2.symm
  · intro i hs g hg hf
    have hi := h2 i hs
    obtain ⟨w, xs, hw, hx⟩ := h3 g hg
    have hb := (h4 i hi).mp hs g hg w xs hw hx
    obtain ⟨y, b, e1, e2, e3, _⟩ := eval_agrees hc hi g w _ _ hw hx hf
    simp only [SqlV.bool.injEq] at e2
    simp only [bitAt, e1, Option.map_some, Option.getD_some] at hb
    rw [e3 false e2.symm] at hb
    cases hb

/-- The columns a list of filters mentions: what the row selector asks for, in the order of a hash set. -/
def Mentions (fp : List (List Char)) (filters : List (DExpr V)) : Prop := ∀ f ∈ filters, ∀ n ∈ f.cols, n ∈ fp

omit [LinearOrder V] in
theorem foldl_cols (fs : List (DExpr V)) : ∀ f : DExpr V, (fs.foldl (fun a b => DExpr.bin a .and b) f).cols = (f :: fs).flatMap DExpr.cols := by
  induction fs with
  | nil => intro f; simp
  | cons g fs ih => intro f; rw [List.foldl_cons, ih]; simp [DExpr.cols]

theorem mapM_forall₂ {α β : Type} {f : α → Res β} : ∀ {as : List α} {bs : List β}, Res.mapM f as = .ok bs → List.Forall₂ (fun a b => f a = .ok b) as bs
  | [], bs, h => by simp only [Res.mapM_nil, Res.ok.injEq] at h; subst h; exact .nil
  | a :: as, bs, h => by
    rw [Res.mapM_cons] at h
    simp only [Res.bind_eq_ok, Res.ok.injEq] at h
    obtain ⟨b, hb, cs, hcs, rfl⟩ := h
    exact .cons hb (mapM_forall₂ hcs)

theorem forall₂_zip {α β γ : Type} {R : α → β → Prop} {S : α × β → γ → Prop} : ∀ {as : List α} {bs : List β} {cs : List γ},
    List.Forall₂ R as bs → List.Forall₂ S (as.zip bs) cs → List.Forall₂ (fun a c => ∃ b, R a b ∧ S (a, b) c) as cs
  | [], [], cs, .nil, h => by simp only [List.zip_nil_left] at h; cases h; exact .nil
  | a :: as, b :: bs, cs, .cons h1 h2, h => by
    simp only [List.zip_cons_cons] at h
    cases h with
    | cons g1 g2 => exact .cons ⟨b, h1, g1⟩ (forall₂_zip h2 g2)

/-- **C43 (filtered scan).** For every chunked table, every non-empty list of filters and every projection: if the scan returns, there is
one output batch per chunk, holding rows of that chunk in their order and the projected columns only; every row on which all the filters are
true is there, and no row on which one of them is false. (Rows on which a filter is unknown may be there: see `C43_unknown_rows_returned`.) -/
theorem C43_scan_partial (fp : List (List Char)) (ncols : Nat) (projection : Option (List Nat)) (filters : List (DExpr V)) (table out : List (Chunk V))
    (hne : filters ≠ []) (hfp : Mentions fp filters) (hw : ∀ c ∈ table, c.WF) (hp : projection.getD (List.range ncols) ≠ [])
    (h : scan fp ncols projection filters table = .ok out) :
    List.Forall₂ (fun c b => ∃ sel, Pushed filters (projection.getD (List.range ncols)) c sel ∧
      IsSelection c (projection.getD (List.range ncols)) sel b) table out := by
  cases filters with
  | nil => simp at hne
  | cons f fs =>
    simp only [scan, conjunction, filterThenTake, Res.bind_eq_ok] at h
    obtain ⟨v, hv, iss, h1, h2⟩ := h
    have hr : ∀ n ∈ v.refs, n ∈ fp := by
      intro n hn
      rw [convert_refs _ _ hv, foldl_cols, List.mem_flatMap] at hn
      obtain ⟨g, hg, hn⟩ := hn
      exact hfp g hg n hn
    have hf := mapM_forall₂ h1
    have hpush : List.Forall₂ (fun c is => Pushed (f :: fs) (projection.getD (List.range ncols)) c is) table iss := by
      clear h1 h2
      induction hf with
      | nil => exact .nil
      | cons g1 g2 ih => exact .cons (rowIndices_pushed hv hr (hw _ (by simp)) g1 _) (ih (fun c hc => hw c (by simp [hc])))
    have := takeLoop_ok hp iss [] table out rfl (Res.mapM_eq_ok_length h1).symm hw (hpush.imp (fun _ _ q => q.2.1)) (by simpa using h2)
    exact forall₂_zip hpush this

/-- **C43 (exactly the true rows).** If no filter is unknown on any row, the rows returned are exactly those on which all filters are true. -/
theorem C43_scan_exact_partial (fp : List (List Char)) (ncols : Nat) (projection : Option (List Nat)) (filters : List (DExpr V)) (table out : List (Chunk V))
    (hne : filters ≠ []) (hfp : Mentions fp filters) (hw : ∀ c ∈ table, c.WF) (hp : projection.getD (List.range ncols) ≠ [])
    (hk : ∀ c ∈ table, ∀ i < c.n, ∀ f ∈ filters, IsTrue (c.row i) f ∨ IsFalse (c.row i) f)
    (h : scan fp ncols projection filters table = .ok out) :
    List.Forall₂ (fun c b => ∃ sel, sel.Pairwise (· < ·) ∧ (∀ i, i ∈ sel ↔ i < c.n ∧ ∀ f ∈ filters, IsTrue (c.row i) f) ∧
      IsSelection c (projection.getD (List.range ncols)) sel b) table out := by
  have hh := C43_scan_partial fp ncols projection filters table out hne hfp hw hp h
  clear h
  induction hh with
  | nil => exact .nil
  | cons g1 g2 ih =>
    rename_i c b cs bs
    refine .cons ?_ (ih (fun c hc => hw c (by simp [hc])) (fun c hc => hk c (by simp [hc])))
    obtain ⟨sel, ⟨p1, p2, p3, p4⟩, hs⟩ := g1
    refine ⟨sel, p1, fun i => ⟨fun hi => ⟨p2 i hi, fun f hf => ?_⟩, fun hi => p3 i hi.1 hi.2⟩, hs⟩
    rcases hk c (by simp) i (p2 i hi) f hf with ht | hf'
    · exact ht
    · exact absurd hf' (p4 i hi f hf)

/-- **C43 (counting).** With no output columns, every batch only has a row count, and it is the number of selected rows of its chunk. -/
theorem C43_count_partial (fp : List (List Char)) (ncols : Nat) (filters : List (DExpr V)) (table out : List (Chunk V))
    (hne : filters ≠ []) (hfp : Mentions fp filters) (hw : ∀ c ∈ table, c.WF) (h : scan fp ncols (some []) filters table = .ok out) :
    List.Forall₂ (fun c b => ∃ sel, Pushed filters [] c sel ∧ b = ⟨sel.length, []⟩) table out := by
  cases filters with
  | nil => simp at hne
  | cons f fs =>
    simp only [scan, conjunction, filterThenTake, Res.bind_eq_ok, Option.getD_some] at h
    obtain ⟨v, hv, iss, h1, h2⟩ := h
    have hr : ∀ n ∈ v.refs, n ∈ fp := by
      intro n hn
      rw [convert_refs _ _ hv, foldl_cols, List.mem_flatMap] at hn
      obtain ⟨g, hg, hn⟩ := hn
      exact hfp g hg n hn
    have hf := mapM_forall₂ h1
    rw [takeLoop_count iss 0 out h2]
    clear h1 h2
    induction hf with
    | nil => exact .nil
    | cons g1 g2 ih => exact .cons ⟨_, rowIndices_pushed hv hr (hw _ (by simp)) g1 _, rfl⟩ (ih (fun c hc => hw c (by simp [hc])))

/-- **C43 (full scan).** Without filters every row of every chunk is returned, projected columns only. -/
theorem C43_full_scan (fp : List (List Char)) (ncols : Nat) (projection : Option (List Nat)) (table : List (Chunk V))
    (hp : ∀ c ∈ table, ∀ j ∈ projection.getD (List.range ncols), j < c.cols.length) :
    ∃ out, scan fp ncols projection [] table = .ok out ∧
      List.Forall₂ (fun c b => b.n = c.n ∧ b.cols.map some = (projection.getD (List.range ncols)).map (fun (j : Nat) => c.cols[j]?)) table out := by
  simp only [scan, conjunction, fullScan]
  obtain ⟨out, ho⟩ := mapM_total (f := fun c => projectIdx c (projection.getD (List.range ncols))) table
    (fun c hc => by obtain ⟨p, hp, _⟩ := projectIdx_succeeds (hp c hc); exact ⟨p, hp⟩)
  refine ⟨out, ho, ?_⟩
  have hf := mapM_forall₂ ho
  refine hf.imp (fun c b hb => ?_)
  simp only [projectIdx, Res.bind_eq_ok, Res.ok.injEq] at hb
  obtain ⟨cols, h1, rfl⟩ := hb
  refine ⟨rfl, ?_⟩
  apply List.ext_getElem?
  intro k
  simp only [List.getElem?_map]
  cases hk : (projection.getD (List.range ncols))[k]? with
  | none =>
    have : cols.length ≤ k := by rw [Res.mapM_eq_ok_length h1]; exact List.getElem?_eq_none_iff.mp hk
    simp [this]
  | some j =>
    obtain ⟨x, hx, hu⟩ := Res.mapM_eq_ok_getElem? h1 hk
    rw [hx]
    cases hv : c.cols[j]? with
    | none => rw [hv] at hu; simp [Res.unwrap] at hu
    | some w => rw [hv] at hu; simp only [Res.unwrap, Res.ok.injEq] at hu; simp [hv, hu]

/-- **C43 (well-typed filters succeed).** A scan with well-typed filters without null literals, over chunks that have the columns with the
types of the schema, and a projection within the columns, does return. -/
theorem C43_scan_succeeds (Γ : List Char → Option Ty) (fp : List (List Char)) (ncols : Nat) (projection : Option (List Nat)) (filters : List (DExpr V))
    (table : List (Chunk V)) (hne : filters ≠ []) (ht : ∀ f ∈ filters, Typed Γ f .bool) (hfp : Mentions fp filters)
    (hfk : ∀ n ∈ fp, (Γ n).isSome = true) (hw : ∀ c ∈ table, c.WF ∧ Conforms Γ c)
    (hp : ∀ c ∈ table, ∀ j ∈ projection.getD (List.range ncols), j < c.cols.length) :
    ∃ out, scan fp ncols projection filters table = .ok out := by
  cases filters with
  | nil => simp at hne
  | cons f fs =>
    have htc : Typed Γ (fs.foldl (fun a b => DExpr.bin a .and b) f) .bool := by
      clear hne hfp
      induction fs generalizing f with
      | nil => exact ht f (by simp)
      | cons g fs ih =>
        rw [List.foldl_cons]
        apply ih
        intro k hk
        simp only [List.mem_cons] at hk
        rcases hk with rfl | hk
        · exact .logic _ _ _ (.inl rfl) (ht f (by simp)) (ht g (by simp))
        · exact ht k (by simp [hk])
    obtain ⟨v, hv⟩ : ∃ v, (fs.foldl (fun a b => DExpr.bin a .and b) f).convert = .ok v := by
      have : ∀ {e : DExpr V} {τ : Ty}, Typed Γ e τ → ∃ v, e.convert = .ok v := by
        intro e τ h
        induction h with
        | col n τ h => exact ⟨_, rfl⟩
        | litPrim t v => exact ⟨_, rfl⟩
        | litBool b => exact ⟨_, rfl⟩
        | cmp l op r τ hop _ _ ih1 ih2 =>
          obtain ⟨x, hx⟩ := ih1
          obtain ⟨y, hy⟩ := ih2
          cases op <;> simp [isCmp] at hop <;> exact ⟨_, by simp only [DExpr.convert, hx, hy, DOp.convert, Res.ok_bind]; rfl⟩
        | logic l op r hop _ _ ih1 ih2 =>
          obtain ⟨x, hx⟩ := ih1
          obtain ⟨y, hy⟩ := ih2
          rcases hop with rfl | rfl <;> exact ⟨_, by simp only [DExpr.convert, hx, hy, DOp.convert, Res.ok_bind]; rfl⟩
      exact this htc
    have hr : ∀ n ∈ v.refs, n ∈ fp := by
      intro n hn
      rw [convert_refs _ _ hv, foldl_cols, List.mem_flatMap] at hn
      obtain ⟨g, hg, hn⟩ := hn
      exact hfp g hg n hn
    obtain ⟨iss, h1⟩ := mapM_total (f := rowIndices fp v) table (fun c hc => rowIndices_succeeds (hw c hc).1 (hw c hc).2 hfk htc hv hr)
    have hf := mapM_forall₂ h1
    have hrange : List.Forall₂ (fun c is => ∀ i ∈ is, i < Chunk.n c) table iss := by
      have hlen := (Res.mapM_eq_ok_length h1)
      clear hp h1 hlen
      induction hf with
      | nil => exact .nil
      | cons g1 g2 ih => exact .cons (rowIndices_ok hv hr (hw _ (by simp)).1 g1).2.1 (ih (fun c hc => hw c (by simp [hc])))
    obtain ⟨out, ho⟩ := takeLoop_succeeds (proj := projection.getD (List.range ncols)) iss [] table rfl (Res.mapM_eq_ok_length h1).symm
      (fun c hc => ⟨(hw c hc).1, hp c hc⟩) hrange 0 (by simp) (by simp)
    exact ⟨out, by simp only [scan, conjunction, filterThenTake, hv, Res.ok_bind, h1]; exact ho⟩

/-! ### A concrete table -/

def nm (s : String) : List Char := s.toList

/-- Two chunks of a table with columns `a` (numbers, nullable), `b` (booleans) and `c` (numbers). -/
def exTable : List (Chunk Nat) := [
  ⟨3, [(nm "a", .prims 0 [(1, true), (5, true), (7, true)]), (nm "b", .bools [(true, true), (false, true), (true, true)]),
    (nm "c", .prims 0 [(10, true), (20, true), (30, true)])]⟩,
  ⟨2, [(nm "a", .prims 0 [(9, true), (2, true)]), (nm "b", .bools [(true, true), (true, true)]), (nm "c", .prims 0 [(40, true), (50, true)])]⟩]

/-- `a > 4 AND b`, as two filters. -/
def exFilters : List (DExpr Nat) := [.bin (.col (nm "a")) .gt (.lit (.prim 0 (some 4))), .bin (.col (nm "b")) .eq (.lit (.bool (some true)))]

/-- The types of the columns. -/
def exΓ : List Char → Option Ty := fun n => if n = nm "a" then some (.prim 0) else if n = nm "b" then some .bool else if n = nm "c" then some (.prim 0) else none

/-- The scan with projection `c`: only that column, only the matching rows. -/
example : scan [nm "b", nm "a"] 3 (some [2]) exFilters exTable =
    .ok [⟨1, [(nm "c", .prims 0 [(30, true)])]⟩, ⟨1, [(nm "c", .prims 0 [(40, true)])]⟩] := by decide +kernel

example : ∀ c ∈ exTable, c.WF ∧ Conforms exΓ c := by
  intro c hc
  simp only [exTable, List.mem_cons, List.not_mem_nil, or_false] at hc
  rcases hc with rfl | rfl
  all_goals
    refine ⟨?_, ?_⟩
    · intro x hx
      simp only [List.mem_cons, List.not_mem_nil, or_false] at hx
      rcases hx with rfl | rfl | rfl <;> rfl
    · intro n τ hn
      simp only [exΓ] at hn
      split at hn
      · rename_i h; subst h; simp only [Option.some.injEq] at hn; subst hn; exact ⟨_, rfl, _, rfl⟩
      · split at hn
        · rename_i h; subst h; simp only [Option.some.injEq] at hn; subst hn; exact ⟨_, rfl, _, rfl⟩
        · split at hn
          · rename_i h; subst h; simp only [Option.some.injEq] at hn; subst hn; exact ⟨_, rfl, _, rfl⟩
          · simp at hn

example : Mentions [nm "b", nm "a"] exFilters ∧ ∀ f ∈ exFilters, Typed exΓ f .bool := by
  refine ⟨?_, ?_⟩
  · intro f hf n hn
    simp only [exFilters, List.mem_cons, List.not_mem_nil, or_false] at hf
    rcases hf with rfl | rfl <;> simp_all [DExpr.cols]
  · intro f hf
    simp only [exFilters, List.mem_cons, List.not_mem_nil, or_false] at hf
    rcases hf with rfl | rfl
    · exact .cmp _ _ _ _ rfl (.col _ _ (by decide)) (.litPrim _ _)
    · exact .cmp _ _ _ _ rfl (.col _ _ (by decide)) (.litBool _)

/-! ### Where the claim fails -/

/-- A null in column `a`, stored as 5. -/
def exNull : Chunk Nat := ⟨2, [(nm "a", .prims 0 [(5, false), (5, true)])]⟩
def exNulls : List (Chunk Nat) := [exNull]

/-- `a > 4` is unknown on the first row, yet the row is returned: the selector reads the stored bits and ignores the validity. -/
theorem C43_unknown_rows_returned :
    scan [nm "a"] 1 none [.bin (.col (nm "a")) .gt (.lit (.prim 0 (some 4)))] exNulls = .ok [⟨2, [(nm "a", .prims 0 [(5, false), (5, true)])]⟩] ∧
    sql (exNull.row 0) (.bin (.col (nm "a")) .gt (.lit (.prim 0 (some 4)))) = some (.bool none) := by
  constructor
  · decide +kernel
  · decide +kernel

/-- A typed null literal is accepted for push-down (in SQL such a filter keeps nothing), but the scan fails: the conversion drops the type
of the null. -/
theorem C43_null_literal_fails :
    canPush (fun _ => .integer) [(nm "a", .integer)] (.bin (.col (nm "a")) .eq (.lit (.prim 0 none)) : DExpr Nat) = true ∧
    scan [nm "a"] 1 none [.bin (.col (nm "a")) .eq (.lit (.prim 0 none))] exNulls = .err := by
  constructor <;> decide +kernel

/-- Accepting a filter does not look at the types of its operands: a number compared with a boolean is accepted and fails. -/
theorem C43_ill_typed_accepted :
    canPush (fun _ => .integer) [(nm "a", .integer)] (.bin (.col (nm "a")) .eq (.lit (.bool (some true))) : DExpr Nat) = true ∧
    scan [nm "a"] 1 none [.bin (.col (nm "a")) .eq (.lit (.bool (some true)))] exNulls = .err := by
  constructor <;> decide +kernel

/-- Scans of files evaluate the filter with arrow's `or`, not Kleene's: `a = 1 OR c = 2` is true in SQL on the row `a = 1, c = null`, and
the row is dropped although the filter is declared exact. -/
theorem C43_file_or_null :
    sql (fun n => if n = nm "a" then some (.prim 0 (some 1)) else if n = nm "c" then some (.prim 0 none) else none)
      (.bin (.bin (.col (nm "a")) .eq (.lit (.prim 0 (some 1)))) .or (.bin (.col (nm "c")) .eq (.lit (.prim 0 (some (2 : Nat)))))) = some (.bool (some true)) ∧
    RowExpr.rowFilter RowExpr.stdEnv
      (.bin (.bin (.col (.name (nm "a"))) .eq (.lit (.prim 0 (some 1)))) .or (.bin (.col (.name (nm "c"))) .eq (.lit (.prim 0 (some (2 : Nat))))))
      ⟨1, [(nm "a", .prims 0 [some 1]), (nm "c", .prims 0 [none])]⟩ = .ok ⟨[false], .nonNullable⟩ := by
  constructor <;> decide +kernel

end Vx.DF
