import Verif.Lemmas.PyRead
/-!
# C95: reading files from Python
-/
namespace Vx.Py
open Vx.Layout
open Vx.FileScan
open Vx.RowExpr (Op Val Expr)
open Vx.DF (DExpr Ty Typed)
open Ipc (Bytes)

variable {V : Type}

/-- The columns asked for, by name or by position; all of them if the argument is left out. -/
def Spec.Asks (names : List Str) : Option (List PyVal) → List Nat → Prop
  | none, sel => sel = List.range names.length
  | some l, sel => List.Forall₂ (fun p i => (∃ s, p = .str s ∧ names.findIdx? (· == s) = some i) ∨ (p = .int i ∧ i < names.length ∧ i < 2 ^ 64)) l sel

theorem projArg_asks {names : List Str} {projection : Option (List PyVal)} {sel : List Nat} (h : Spec.Asks names projection sel) :
    ∃ proj, projArg projection = .ok proj ∧ Selects names proj sel := by
  cases projection with
  | none => exact ⟨.all, rfl, h⟩
  | some l =>
    have : ∃ fs, Res.mapM fieldArg l = .ok fs ∧ fs.map (Layout.Spec.position names) = sel.map some := by
      simp only [Spec.Asks] at h
      induction h with
      | nil => exact ⟨[], rfl, rfl⟩
      | @cons p i l sel h1 _ ih =>
        obtain ⟨fs, f1, f2⟩ := ih
        rcases h1 with ⟨s, rfl, hs⟩ | ⟨rfl, hi, hi'⟩
        · exact ⟨.name s :: fs, by simp only [Res.mapM_cons, fieldArg, f1, Res.ok_bind], by simp [Layout.Spec.position, hs, f2]⟩
        · refine ⟨.index i :: fs, ?_, by simp [Layout.Spec.position, hi, f2]⟩
          have : (0 : Int) ≤ i ∧ (i : Int) < 2 ^ 64 := by omega
          simp only [Res.mapM_cons, fieldArg, if_pos this, f1, Res.ok_bind, Int.toNat_natCast]
    obtain ⟨fs, f1, f2⟩ := this
    exact ⟨.flat fs, by simp only [projArg, f1, Res.ok_bind], f2⟩

theorem columnsArg_eq {columns : Option (List Str)} {proj : Projection} (h : projArg (columns.map (·.map .str)) = .ok proj) : columnsArg columns = proj := by
  cases columns with
  | none => simpa [projArg, columnsArg] using h
  | some cs =>
    have : ∀ cs : List Str, Res.mapM fieldArg (cs.map PyVal.str) = .ok (cs.map .name) := by
      intro cs; induction cs with
      | nil => rfl
      | cons c cs ih => simp only [List.map_cons, Res.mapM_cons, fieldArg, ih, Res.ok_bind]
    simpa [projArg, columnsArg, this] using h

section
variable [LinearOrder V] {R : Reader V} {ctx : Nat → Bool} {meaning : DType → Nat → Ipc.Node → Rows (Val V)} {metaNode : List Nat → Ipc.Node}
  {names : List Str} {dtypes : List DType} {nl : Bool} {data : List StructBatch} {file : Bytes}

/-- What the theorems ask of the filter of a read in stretches of `batch` rows: it can be built, is well-typed and mentions a column; each conjunct is free
of `&` and `|` or without nulls in this file; each stretch but the last has a row on which it is true. -/
structure Spec.FilterOk (C : Conv V) (kind : DType → Option Ty) (meaning : DType → Nat → Ipc.Node → Rows (Val V)) (names : List Str) (dtypes : List DType)
    (data : List StructBatch) (batch : Nat) (s : Src) : Prop where
  builds : Spec.Buildable s = true
  typed : Typed (FileScan.Spec.tableTypes kind names dtypes) (Spec.sqlOf C kind s) .bool
  cols : (Spec.sqlOf C kind s).cols ≠ []
  nulls : ∀ c ∈ FileScan.Spec.conjuncts (Spec.sqlOf C kind s), FileScan.Spec.noLogic c = true ∨
    ∀ k < FileScan.Spec.rowCount data, ∀ n ∈ c.cols, ∃ y, FileScan.Spec.sqlRow meaning names dtypes data k n = some y ∧ FileScan.Spec.notNull y = true
  gap : ∀ j, (j + 1) * batch < FileScan.Spec.rowCount data → ∃ k, j * batch ≤ k ∧ k < (j + 1) * batch ∧
    DF.sql (FileScan.Spec.sqlRow meaning names dtypes data k) (Spec.sqlOf C kind s) = some (.bool (some true))

omit [LinearOrder V] in
theorem not_value {C : Conv V} {kind : DType → Option Ty} {Γ : Str → Option Ty} {s : Src} (hb : Spec.Buildable s = true)
    (h : Typed Γ (Spec.sqlOf C kind s) .bool) : s.isValue = false := by
  cases s with
  | value v =>
    exfalso
    have hn := typed_lit h
    cases v with
    | bool b => simp [Spec.Buildable] at hb
    | none => exact hn rfl
    | other n => exact hn rfl
    | int z =>
      simp only [Spec.sqlOf, Spec.litOf, Spec.litAt, show PType.isFloat .i64 = false from rfl, Bool.false_eq_true, if_false] at h hn
      obtain ⟨t, _, ht⟩ := typed_prim rfl hn
      rw [ht] at h; cases h
    | float x =>
      simp only [Spec.sqlOf, Spec.litOf, Spec.litAt, show PType.isFloat .f64 = true from rfl, if_true] at h hn
      obtain ⟨t, _, ht⟩ := typed_prim rfl hn
      rw [ht] at h; cases h
    | str x =>
      simp only [Spec.sqlOf, Spec.litOf, Spec.litAt] at h hn
      obtain ⟨t, _, ht⟩ := typed_prim rfl hn
      rw [ht] at h; cases h
    | bytes x =>
      simp only [Spec.sqlOf, Spec.litOf, Spec.litAt] at h hn
      obtain ⟨t, _, ht⟩ := typed_prim rfl hn
      rw [ht] at h; cases h
  | _ => rfl

/-- The answer to a filter does not depend on which operand Python's dispatch puts first. -/
theorem answer_norm (C : Conv V) (kind : DType → Option Ty) (sel : List Nat) (s : Src) :
    FileScan.Spec.answer meaning names dtypes sel [norm C kind s] data = FileScan.Spec.answer meaning names dtypes sel [Spec.sqlOf C kind s] data := by
  simp only [FileScan.Spec.answer, List.all_cons, List.all_nil, Bool.and_true, FileScan.Spec.isTrue, norm_sql]

theorem read_core (hR : ReaderOk R ctx meaning) (hf : FileOk R metaNode ctx names dtypes nl data file) (C : Conv V) {proj : Projection} {sel : List Nat}
    (ho : Selects names proj sel) (hp : sel ≠ []) {batch : Nat} (hb : 0 < batch) (rowFilter : Option Src)
    (hs : ∀ s ∈ rowFilter, Spec.FilterOk C R.kind meaning names dtypes data batch s) :
    ∃ fl, filterSrc C R.kind rowFilter = .ok fl ∧ ∃ bs N, (∀ fuel, N ≤ fuel → buildAndRead R proj batch fl fuel file =
        .ok (.struct (sel.map fun i => names.getD i []) (sel.map fun i => dtypes.getD i .null) nl, bs)) ∧
      bs.flatten = FileScan.Spec.answer meaning names dtypes sel (rowFilter.toList.map (Spec.sqlOf C R.kind)) data := by
  cases rowFilter with
  | none =>
    obtain ⟨fl, h1, h2⟩ := file_answer hR hf ho hp hb [] (by simp) (by simp) (by simp) (by simp)
    simp only [DF.conjunction, filterOf, Res.ok.injEq] at h1
    subst h1
    exact ⟨none, rfl, h2⟩
  | some s =>
    have h := hs s rfl
    obtain ⟨ob, v, b1, b2, _, b4, _⟩ := build_norm s .bool h.builds h.typed
    have b4 := b4 (not_value h.builds h.typed)
    obtain ⟨fl, f1, f2⟩ := file_answer hR hf ho hp hb [norm C R.kind s] (by
        intro f hf'; simp only [List.mem_singleton] at hf'; subst hf'
        exact norm_typed s .bool h.builds h.typed) (fun _ => ⟨_, List.mem_cons_self, by
        obtain ⟨n, hn⟩ := List.exists_mem_of_ne_nil _ h.cols
        exact List.ne_nil_of_mem ((norm_cols n s).mpr hn)⟩) (by
        intro f hf' c hc; simp only [List.mem_singleton] at hf'; subst hf'
        obtain ⟨c', c1, c2, c3⟩ := norm_conjuncts s c hc
        rcases h.nulls c' c1 with h' | h'
        · exact .inl (by rw [c2]; exact h')
        · exact .inr fun k hk n hn => h' k hk n ((c3 n).mp hn)) (by
        intro _ j hj
        obtain ⟨k, k1, k2, k3⟩ := h.gap j hj
        refine ⟨k, k1, k2, fun f hf' => ?_⟩
        simp only [List.mem_singleton] at hf'; subst hf'
        rw [norm_sql]; exact k3)
    simp only [DF.conjunction, List.foldl_nil, filterOf, b2, Res.ok_bind, Res.ok.injEq] at f1
    subst f1
    subst b4
    refine ⟨some (toExpr v), by simp only [filterSrc, b1, Res.ok_bind, filterArg], ?_⟩
    rw [answer_norm] at f2
    exact f2

/-- **C95.** `vortex.io.read` of a file: for every projection by names or positions and every row filter built from columns, plain values, typed literals and the
operators, the result has the dtype of the projected columns and exactly the rows on which the filter, read as SQL, is true, in order. Missing, because
the code is wrong there: the cases of `C95_not_equal`, `C95_value_and`, `C95_mistyped`, `C95_true_column`, and those of C94. -/
theorem C95_read_partial (hR : ReaderOk R ctx meaning) (hf : FileOk R metaNode ctx names dtypes nl data file) (C : Conv V)
    (projection : Option (List PyVal)) (sel : List Nat) (ha : Spec.Asks names projection sel) (hp : sel ≠ []) (rowFilter : Option Src)
    (hs : ∀ s ∈ rowFilter, Spec.FilterOk C R.kind meaning names dtypes data 65536 s) :
    ∃ N, ∀ fuel, N ≤ fuel → read R C projection rowFilter fuel file =
      .ok (.struct (sel.map fun i => names.getD i []) (sel.map fun i => dtypes.getD i .null) nl,
        FileScan.Spec.answer meaning names dtypes sel (rowFilter.toList.map (Spec.sqlOf C R.kind)) data) := by
  obtain ⟨proj, p1, p2⟩ := projArg_asks ha
  obtain ⟨fl, f1, bs, N, h1, h2⟩ := read_core hR hf C p2 hp (batch := 65536) (by omega) rowFilter hs
  refine ⟨N, fun fuel hfu => ?_⟩
  have := h1 fuel hfu
  simp only [read, f1, p1, Res.ok_bind, asyncRead, Option.getD_none, DEFAULT_BATCH_SIZE, this, h2]

/-- The same for `Dataset.to_array`, which takes column names and a batch size. -/
theorem C95_to_array_partial (hR : ReaderOk R ctx meaning) (hf : FileOk R metaNode ctx names dtypes nl data file) (C : Conv V)
    (columns : Option (List Str)) (sel : List Nat) (ha : Spec.Asks names (columns.map (·.map .str)) sel) (hp : sel ≠ []) (batch : Option Nat)
    (hb : batch ≠ some 0) (rowFilter : Option Src) (hs : ∀ s ∈ rowFilter, Spec.FilterOk C R.kind meaning names dtypes data (batch.getD 65536) s) :
    ∃ N, ∀ fuel, N ≤ fuel → toArray R C columns batch rowFilter fuel file =
      .ok (.struct (sel.map fun i => names.getD i []) (sel.map fun i => dtypes.getD i .null) nl,
        FileScan.Spec.answer meaning names dtypes sel (rowFilter.toList.map (Spec.sqlOf C R.kind)) data) := by
  obtain ⟨proj, p1, p2⟩ := projArg_asks ha
  have hpos : 0 < batch.getD 65536 := by cases batch with
    | none => simp
    | some b => simp only [Option.getD_some]; rcases b with _ | b <;> simp at hb ⊢
  obtain ⟨fl, f1, bs, N, h1, h2⟩ := read_core hR hf C p2 hp hpos rowFilter hs
  have hproj := columnsArg_eq p1
  refine ⟨N, fun fuel hfu => ?_⟩
  have := h1 fuel hfu
  simp only [toArray, f1, hproj, Res.ok_bind, asyncRead, DEFAULT_BATCH_SIZE, this, h2]

/-- And for the batches of `Dataset.to_record_batch_reader`, one after the other. -/
theorem C95_record_batches_partial (hR : ReaderOk R ctx meaning) (hf : FileOk R metaNode ctx names dtypes nl data file) (C : Conv V)
    (columns : Option (List Str)) (sel : List Nat) (ha : Spec.Asks names (columns.map (·.map .str)) sel) (hp : sel ≠ []) (batch : Option Nat)
    (hb : batch ≠ some 0) (rowFilter : Option Src) (hs : ∀ s ∈ rowFilter, Spec.FilterOk C R.kind meaning names dtypes data (batch.getD 65536) s) :
    ∃ bs N, (∀ fuel, N ≤ fuel → recordBatches R C columns batch rowFilter fuel file =
      .ok (.struct (sel.map fun i => names.getD i []) (sel.map fun i => dtypes.getD i .null) nl, bs)) ∧
      bs.flatten = FileScan.Spec.answer meaning names dtypes sel (rowFilter.toList.map (Spec.sqlOf C R.kind)) data := by
  obtain ⟨proj, p1, p2⟩ := projArg_asks ha
  have hpos : 0 < batch.getD 65536 := by cases batch with
    | none => simp
    | some b => simp only [Option.getD_some]; rcases b with _ | b <;> simp at hb ⊢
  obtain ⟨fl, f1, bs, N, h1, h2⟩ := read_core hR hf C p2 hp hpos rowFilter hs
  have hproj := columnsArg_eq p1
  refine ⟨bs, N, fun fuel hfu => ?_, h2⟩
  have := h1 fuel hfu
  simp only [recordBatches, f1, hproj, Res.ok_bind, DEFAULT_BATCH_SIZE, this]

/-! ## What fails -/

omit [LinearOrder V] in
/-- A filter `a != b` is never accepted: Python makes it `not (a == b)`, which is `False`. -/
theorem C95_not_equal (C : Conv V) (kind : DType → Option Ty) (l r : Src) (fl : Option (Expr V)) : filterSrc C kind (some (.op l .neq r)) ≠ .ok fl := by
  intro h
  simp only [filterSrc, Src.build, Res.bind_eq_ok] at h
  obtain ⟨o, ⟨a, _, b, _, h3⟩, h4⟩ := h
  cases a with
  | expr a =>
    simp only [apply, Res.bind_eq_ok, if_true, Res.ok.injEq] at h3
    obtain ⟨_, _, rfl⟩ := h3
    simp [filterArg] at h4
  | val x =>
    cases b with
    | val y => simp [apply] at h3
    | expr b =>
      simp only [apply, Op.isBool, Bool.false_eq_true, if_false, Res.bind_eq_ok, if_true, Res.ok.injEq] at h3
      obtain ⟨_, _, rfl⟩ := h3
      simp [filterArg] at h4

/-- So such a read fails on every file. -/
theorem C95_not_equal_fails (C : Conv V) (projection : Option (List PyVal)) (l r : Src) (fuel : Nat) (file : Bytes) (out : DType × Rows (Val V)) :
    read R C projection (some (.op l .neq r)) fuel file ≠ .ok out := by
  intro h
  simp only [read, Res.bind_eq_ok] at h
  obtain ⟨fl, h1, _⟩ := h
  exact C95_not_equal C R.kind l r fl h1

omit [LinearOrder V] in
/-- `value & expression` and `value | expression` are refused. -/
theorem C95_value_and (C : Conv V) (kind : DType → Option Ty) (v : PyVal) (o : Op) (ho : o = .and ∨ o = .or) (n : Str) :
    filterSrc C kind (some (.op (.value v) o (.column n))) = .err := by
  rcases ho with rfl | rfl <;> rfl

/-- The stream of a filtered read, whatever the filter evaluates to, and what its batches are like. -/
theorem file_stream (hR : ReaderOk R ctx meaning) (hf : FileOk R metaNode ctx names dtypes nl data file) {proj : Projection} {out : List Nat}
    (ho : Selects names proj out) (hp : out ≠ []) {batch : Nat} (hb : 0 < batch) {e : Expr V}
    (hrefs : ∀ f ∈ e.refs, ∃ n τ, f = .name n ∧ FileScan.Spec.tableTypes R.kind names dtypes n = some τ) (hne : e.refs ≠ []) :
    ∃ N sel, (∀ fuel, N ≤ fuel → buildAndRead R proj batch (some e) fuel file =
        (emitted (evalBatch R.kind R.renv (DType.struct names dtypes nl).toFb (R.walk (RowExpr.rowFilterRefs e)) e)
          (cut false batch (selRows meaning names dtypes data out)) false (cut false batch (selRows meaning names dtypes data sel))).bind fun bs =>
        .ok (.struct (out.map fun i => names.getD i []) (out.map fun i => dtypes.getD i .null) nl, bs)) ∧
      projectedDType (DType.struct names dtypes nl).toFb (.flat (R.walk (RowExpr.rowFilterRefs e))) =
        .ok (.struct (sel.map fun i => names.getD i []) (sel.map fun i => dtypes.getD i .null) nl) ∧
      (∀ g ∈ cut false batch (selRows meaning names dtypes data sel),
        BatchTyped R.kind (sel.map fun i => names.getD i []) (sel.map fun i => dtypes.getD i .null) g) ∧
      ∀ n τ, .name n ∈ e.refs → FileScan.Spec.tableTypes R.kind names dtypes n = some τ →
        ∃ j d, (sel.map fun i => names.getD i []).findIdx? (· == n) = some j ∧ (sel.map fun i => dtypes.getD i .null)[j]? = some d ∧ R.kind d = some τ := by
  obtain ⟨d, ls, rs, o1, o2, o3, hfin⟩ := opened hR.codec hf.table hf.written hf.size hf.tail
  obtain ⟨p1, r, p2, p3⟩ := data_reader hR.env hR.codec hf.table hfin ho hp (nl := nl) hb
  obtain ⟨r1, _, r3⟩ := written_regular hf.table hfin
  have hrefs' : ∀ f ∈ R.walk (RowExpr.rowFilterRefs e), ∃ n τ, f = .name n ∧ FileScan.Spec.tableTypes R.kind names dtypes n = some τ := by
    intro f hf'
    rw [hR.walk, RowExpr.C28_references] at hf'
    exact hrefs f hf'
  obtain ⟨sel, s1, s2, s3, s4, s5⟩ := positions hf.table.names rfl _ hrefs'
  have hsel : ∀ n, .name n ∈ e.refs → ∀ j, names.findIdx? (· == n) = some j → j ∈ sel := by
    intro n hn j hj
    refine s4 n j hj ?_
    rw [hR.walk, RowExpr.C28_references]
    exact hn
  have hne' : sel ≠ [] := by
    obtain ⟨f, hf'⟩ := List.exists_mem_of_ne_nil _ hne
    obtain ⟨n, τ, rfl, hτ⟩ := hrefs f hf'
    rw [FileScan.Spec.tableTypes, Option.bind_eq_some_iff] at hτ
    obtain ⟨j, hj, _⟩ := hτ
    exact List.ne_nil_of_mem (hsel n hf' j hj)
  obtain ⟨c1, c2, c3⟩ := columns_of_written hR.env hR.codec hf.table hfin _ _ s1
  have htab : Layout.Spec.table R.env file ls names dtypes (R.walk (RowExpr.rowFilterRefs e)) = some (selRows meaning names dtypes data sel) := by
    rw [Layout.Spec.table, c1, Option.bind_some]
    exact structOf_sel hR.env hf.table hne' s2
  obtain ⟨fr, q1, q2⟩ := table_build (root := .columnL ls) (nl := nl) rfl r1 hR.env.column htab hb
  have hfd : projectedDType (DType.struct names dtypes nl).toFb (.flat (R.walk (RowExpr.rowFilterRefs e))) =
      .ok (.struct (sel.map fun i => names.getD i []) (sel.map fun i => dtypes.getD i .null) nl) := by
    simp only [projectedDType, deserializeAndProject, DType.toFb, c3, Res.ok_bind, List.map_map]; rfl
  obtain ⟨N, hN⟩ := readFiltered_of_rep (refs := R.walk (RowExpr.rowFilterRefs e))
    (eval := evalBatch R.kind R.renv (DType.struct names dtypes nl).toFb (R.walk (RowExpr.rowFilterRefs e)) e) p2 q1 p3 q2 hR.order
  rw [zeroBatch_columnL hfin] at hN
  refine ⟨N, sel, fun fuel hfu => ?_, hfd, ?_, ?_⟩
  · have := hN fuel hfu
    simp only [buildAndRead, Res.ok_bind, readFileFiltered, o1, o2, o3, p1]
    simp only [FbLayout.columnL] at this ⊢
    rw [this]; rfl
  · intro g hg
    have hsub : ∀ r ∈ g, ∃ k, k < FileScan.Spec.rowCount data ∧ r = FileScan.Spec.outRow meaning names dtypes sel data k := by
      intro r hr
      have : r ∈ (cut false batch (selRows meaning names dtypes data sel)).flatten := List.mem_flatten.mpr ⟨g, hg, hr⟩
      rw [cut_flatten hb] at this
      simp only [selRows, List.mem_map, List.mem_range] at this
      obtain ⟨k, hk, rfl⟩ := this
      exact ⟨k, hk, rfl⟩
    refine ⟨by simp, ?_, ?_⟩
    · intro r hr
      obtain ⟨k, hk, rfl⟩ := hsub r hr
      rw [outRow_fields hR hf.table hk sel s2]
      exact ⟨_, rfl, by simp⟩
    · intro j n d' hn hd
      rw [List.getElem?_map, Option.map_eq_some_iff] at hn hd
      obtain ⟨i, hi, rfl⟩ := hn
      obtain ⟨i', hi', rfl⟩ := hd
      rw [hi, Option.some.injEq] at hi'; subst hi'
      have him := List.mem_of_getElem? hi
      obtain ⟨τ, hτ⟩ := s3 i him
      refine ⟨τ, hτ, fun r hr => ?_⟩
      obtain ⟨k, hk, rfl⟩ := hsub r hr
      obtain ⟨x, hx, hxt⟩ := cell hR hf.table (s2 i him) hτ hk
      refine ⟨_, x, outRow_fields hR hf.table hk sel s2, ?_, hxt⟩
      rw [List.getElem?_map, hi, Option.map_some, hx, Option.getD_some]
  · intro n τ hn hτ
    rw [FileScan.Spec.tableTypes, Option.bind_eq_some_iff] at hτ
    obtain ⟨j, hj, hτ⟩ := hτ
    rw [Option.bind_eq_some_iff] at hτ
    obtain ⟨d', hd', hk'⟩ := hτ
    have hjs := hsel n hn j hj
    have hex : ∃ p : Nat, (sel.map fun i => names.getD i []).findIdx? (· == n) = some p := by
      rw [← Option.isSome_iff_exists, List.findIdx?_isSome, List.any_eq_true]
      exact ⟨names.getD j [], List.mem_map.mpr ⟨j, hjs, rfl⟩, by rw [name_of_idx hj]; simp⟩
    obtain ⟨p, hp'⟩ := hex
    obtain ⟨l1, l2, _⟩ := List.findIdx?_eq_some_iff_getElem.mp hp'
    simp only [List.getElem_map, beq_iff_eq] at l2
    have l1' : p < sel.length := by simpa using l1
    have hpj : sel[p] = j := by
      have := s5 sel[p] (List.getElem_mem l1')
      rw [l2, hj, Option.some.injEq] at this
      exact this.symm
    refine ⟨p, d', hp', ?_, hk'⟩
    rw [List.getElem?_map, List.getElem?_eq_getElem l1', Option.map_some, hpj, List.getD_eq_getElem?_getD, hd']; rfl

/-- Comparing a column with a literal of another type is an error. -/
theorem evalBatch_mistyped {kind : DType → Option Ty} {renv : RowExpr.Env V} {schema : FbDType} {refs : List RowExpr.Field} {ns : List Str}
    {ds : List DType} {nl : Bool} (hd : projectedDType schema (.flat refs) = .ok (.struct ns ds nl)) {g : Rows (Val V)} (hg : BatchTyped kind ns ds g)
    {n : Str} {τ τ' : Ty} {j : Nat} {d : DType} (h1 : ns.findIdx? (· == n) = some j) (h2 : ds[j]? = some d) (h3 : kind d = some τ) {o : Op}
    (ho : o.isBool = false) {x : Val V} (hx : FileScan.Spec.HasTy τ' x) (hne : τ ≠ τ') :
    evalBatch kind renv schema refs (.bin (.col (.name n)) o (.lit x)) g = .err := by
  obtain ⟨cs, c1, c2, c3, c4, c5⟩ := colsOf_typed (kind := kind) (fun r hr => by obtain ⟨fs, h, _⟩ := hg.rows r hr; exact ⟨fs, h⟩) ns ds 0 hg.len (by
    intro r hr fs hfs
    obtain ⟨fs', rfl, hl⟩ := hg.rows r hr
    cases hfs
    simpa using hl) (by simpa using hg.typed)
  rw [← c2] at h1
  obtain ⟨c, e1, e2⟩ := findName_getElem h1
  have hc := c4 j d τ c h2 h3 e1
  have hsplit : (Expr.bin (.col (.name n)) o (.lit x)).split = [.bin (.col (.name n)) o (.lit x)] := by
    simp only [Expr.split]; rw [if_neg (by rintro rfl; simp [Op.isBool] at ho)]
  have hev : (Expr.bin (.col (.name n)) o (.lit x)).eval ⟨g.length, cs⟩ = .err := by
    simp only [Expr.eval, RowExpr.lookup, e2, Res.ofOption_some, Res.ok_bind]
    unfold RowExpr.evalOp
    split
    · rfl
    · rw [if_neg (by simp [ho])]
      cases τ with
      | prim t =>
        obtain ⟨xs, hxs⟩ := hc
        rw [hxs]
        cases τ' with
        | prim u =>
          obtain ⟨y, rfl⟩ := hx
          simp only [Val.const]
          rw [if_neg (by intro h; apply hne; congr; omega)]
        | bool => obtain ⟨y, rfl⟩ := hx; rfl
      | bool =>
        obtain ⟨xs, hxs⟩ := hc
        rw [hxs]
        cases τ' with
        | prim u => obtain ⟨y, rfl⟩ := hx; rfl
        | bool => exact absurd rfl hne
  simp only [evalBatch, hd, Res.ok_bind, batchOf, c1, RowExpr.rowFilter, hsplit, RowExpr.evalConj, hev]
  rfl

/-- A file with rows, read with a filter that compares a column with a literal of another type. -/
theorem file_mistyped (hR : ReaderOk R ctx meaning) (hf : FileOk R metaNode ctx names dtypes nl data file) {proj : Projection} {out : List Nat}
    (ho : Selects names proj out) (hp : out ≠ []) {batch : Nat} (hb : 0 < batch) {n : Str} {τ τ' : Ty}
    (hn : FileScan.Spec.tableTypes R.kind names dtypes n = some τ) {o : Op} (hob : o.isBool = false) {x : Val V} (hx : FileScan.Spec.HasTy τ' x)
    (hne : τ ≠ τ') (hrows : 0 < FileScan.Spec.rowCount data) :
    ∃ N, ∀ fuel, N ≤ fuel → buildAndRead R proj batch (some (.bin (.col (.name n)) o (.lit x))) fuel file = .err := by
  obtain ⟨N, sel, h1, h2, h3, h4⟩ := file_stream hR hf ho hp hb (e := .bin (.col (.name n)) o (.lit x)) (by
    intro f hf'
    simp only [Expr.refs, List.append_nil, List.mem_singleton] at hf'
    exact ⟨n, τ, hf', hn⟩) (by simp [Expr.refs])
  refine ⟨N, fun fuel hfu => ?_⟩
  rw [h1 fuel hfu]
  obtain ⟨j, d, j1, j2, j3⟩ := h4 n τ (by simp [Expr.refs]) hn
  have hev := fun g hg => evalBatch_mistyped (renv := R.renv) h2 (h3 g hg) j1 j2 j3 hob hx hne
  have hsel : selRows meaning names dtypes data sel ≠ [] := by
    intro h
    have : (selRows meaning names dtypes data sel).length = FileScan.Spec.rowCount data := by simp [selRows]
    rw [h] at this; simp at this; omega
  rw [cut_of_ne hsel, batches_cons hb hsel] at hev ⊢
  have := hev _ List.mem_cons_self
  cases cut false batch (selRows meaning names dtypes data out) with
  | nil => simp only [emitted, this, Res.bind]
  | cons a l => simp only [emitted, this, Res.bind]

/-- `column(n) < 3` on a column of any type other than `i64` (a narrower integer, an unsigned one, a float) fails as soon as the file has a row: a plain Python
integer is an `i64`, and nothing converts it to the type of the column. -/
theorem C95_mistyped (hR : ReaderOk R ctx meaning) (hf : FileOk R metaNode ctx names dtypes nl data file) (C : Conv V)
    (projection : Option (List PyVal)) (sel : List Nat) (ha : Spec.Asks names projection sel) (hp : sel ≠ []) (n : Str) (τ : Ty) (u : Nat)
    (hn : FileScan.Spec.tableTypes R.kind names dtypes n = some τ) (hu : R.kind (.prim .i64 false) = some (.prim u)) (hne : τ ≠ .prim u)
    (o : Op) (ho : o.isBool = false) (ho' : o ≠ .neq) (z : Int) (hz : PType.inRange .i64 z = true) (hrows : 0 < FileScan.Spec.rowCount data) :
    ∃ N, ∀ fuel, N ≤ fuel → read R C projection (some (.op (.column n) o (.value (.int z)))) fuel file = .err := by
  obtain ⟨proj, p1, p2⟩ := projArg_asks ha
  obtain ⟨N, h⟩ := file_mistyped hR hf p2 hp (batch := 65536) (by omega) hn ho (x := .prim (u + 1) (some (C.ofInt z))) (τ' := .prim u) ⟨_, rfl⟩ hne hrows
  refine ⟨N, fun fuel hfu => ?_⟩
  have := h fuel hfu
  have hb : filterSrc C R.kind (some (.op (.column n) o (.value (.int z)))) =
      .ok (some (.bin (.col (.name n)) o (.lit (.prim (u + 1) (some (C.ofInt z)))))) := by
    simp only [filterSrc, Src.build, Res.ok_bind, apply, coerce, scalarValue, show PType.isFloat .i64 = false from rfl, Bool.false_eq_true, if_false,
      extractInt, hz, if_true, prim, hu, if_neg ho', filterArg]
  simp only [read, hb, p1, Res.ok_bind, asyncRead, Option.getD_none, DEFAULT_BATCH_SIZE, this]
  rfl

/-- `column(n) == True` on a boolean column fails: a plain Python boolean is the integer 1. -/
theorem C95_true_column (hR : ReaderOk R ctx meaning) (hf : FileOk R metaNode ctx names dtypes nl data file) (C : Conv V)
    (projection : Option (List PyVal)) (sel : List Nat) (ha : Spec.Asks names projection sel) (hp : sel ≠ []) (n : Str) (u : Nat)
    (hn : FileScan.Spec.tableTypes R.kind names dtypes n = some .bool) (hu : R.kind (.prim .i64 false) = some (.prim u)) (b : Bool)
    (hrows : 0 < FileScan.Spec.rowCount data) :
    ∃ N, ∀ fuel, N ≤ fuel → read R C projection (some (.op (.column n) .eq (.value (.bool b)))) fuel file = .err := by
  obtain ⟨proj, p1, p2⟩ := projArg_asks ha
  obtain ⟨N, h⟩ := file_mistyped hR hf p2 hp (batch := 65536) (by omega) hn (o := .eq) rfl (x := .prim (u + 1) (some (C.ofInt (if b then 1 else 0))))
    (τ' := .prim u) ⟨_, rfl⟩ (by simp) hrows
  refine ⟨N, fun fuel hfu => ?_⟩
  have := h fuel hfu
  have hb : filterSrc C R.kind (some (.op (.column n) .eq (.value (.bool b)))) =
      .ok (some (.bin (.col (.name n)) .eq (.lit (.prim (u + 1) (some (C.ofInt (if b then 1 else 0))))))) := by
    simp only [filterSrc, Src.build, Res.ok_bind, apply, coerce, scalarValue, show PType.isFloat .i64 = false from rfl, Bool.false_eq_true, if_false,
      extractInt, prim, hu, filterArg]
    rfl
  simp only [read, hb, p1, Res.ok_bind, asyncRead, Option.getD_none, DEFAULT_BATCH_SIZE, this]
  rfl

end
end Vx.Py
