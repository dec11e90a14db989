import Verif.Spec.FileQuery
import Verif.Props.C94
import Verif.Props.C102
/-!
# C109: from an array through the compressor, the file and a query
-/
namespace Vx.Query
open Own Store
open Layout (Rows Row FileCodec LayoutWriter EnvOk finalize StructBatch)
open FileScan (Reader ReaderOk FileOk Files selOf scan)
open Vx.DF (DExpr SqlV Ty Typed)
open Vx.Tree (WF LeafLaws)
open Ipc (Bytes)

variable {L V : Type} {sc : Scalars} {S : Leaves L} {env : Tree.Env L} {leafRows : L → List SV} {ok : L → Prop} {C : Compute}

section
variable (M : OwnCodec) (rows : Own.Arr → Rows SV) (num : SV → V) (kind : DType → Option Ty)

/-- What the reader makes of a serialised array of a column: the values of the rows of the array it reads. -/
def queryMeaning (d : DType) (len : Nat) (n : Ipc.Node) : Rows (RowExpr.Val V) :=
  (viewRows M rows d len n).map fun r => .leaf (cellVal num kind d (toSV r))

end

theorem cellVal_typed (num : SV → V) (kind : DType → Option Ty) (d : DType) (τ : Ty) (h : kind d = some τ) (x : SV) :
    FileScan.Spec.HasTy τ (cellVal num kind d x) := by
  cases τ with
  | prim t => simp [cellVal, h, FileScan.Spec.HasTy]
  | bool => simp [cellVal, h, FileScan.Spec.HasTy]

theorem query_typed (M : OwnCodec) (rows : Own.Arr → Rows SV) (num : SV → V) (kind : DType → Option Ty) :
    FileScan.Spec.TypedMeaning kind (queryMeaning M rows num kind) := by
  intro d τ h l n r hr
  simp only [queryMeaning, List.mem_map] at hr
  obtain ⟨x, _, rfl⟩ := hr
  exact ⟨_, rfl, cellVal_typed num kind d τ h _⟩

/-- A file of a table: an encoded table (`t`) within the limits of the format, written with the layout writer. -/
structure Saved (sc : Scalars) (S : Leaves L) (env : Tree.Env L) (leafRows : L → List SV) (ok : L → Prop) (C : Compute) (M : OwnCodec) (F : FileCodec) (init : Nat)
    (metaNode : List Nat → Ipc.Node) (ctx : Nat → Bool) (names : List Str) (dtypes : List DType) (nl : Bool) (t : Tree.Arr L) (file : Bytes) : Prop where
  wf : WF env leafRows ok t
  fits : Fits sc env t
  table : Table t
  storable : Own.Spec.Storable F M ctx (phys sc S env t) names dtypes nl
  written : ∃ w, writeArrayColumns C M F.msgs LayoutWriter.new (phys sc S env t) = .ok w ∧ finalize F metaNode w = .ok file
  size : file.length < 2 ^ 64
  tail : ∀ bytes ls, file = Layout.fileOf F bytes (.struct names dtypes nl) (.columnL ls) (Tree.len env t) →
    Layout.tailLength F (.struct names dtypes nl) (.columnL ls) (Tree.len env t) ≤ init

/-- The struct arrays that are handed to the layout writer. -/
def dataOf (M : OwnCodec) (a : Own.Arr) : List StructBatch := (Own.Spec.parts a).map (batchSpec M)

theorem rowCount_eq (h : Built C a) (M : OwnCodec) : FileScan.Spec.rowCount (dataOf M a) = a.len := by
  unfold FileScan.Spec.rowCount dataOf
  rw [List.map_map, ← parts_len h]; rfl

theorem toSV_structRow {names : List Str} {cs : List (Rows SV)} (hl : names.length = cs.length) {k : Nat} (hk : ∀ c ∈ cs, k < c.length) :
    toSV (Layout.structRow (names.zip cs) k) = .list (cs.map fun c => (c[k]?.map toSV).getD .null) := by
  simp only [Layout.structRow, toSV, toSVs_eq, SV.list.injEq]
  induction cs generalizing names with
  | nil => simp
  | cons c cs ih =>
    cases names with
    | nil => simp at hl
    | cons n names =>
      have := hk c (by simp)
      simp only [List.zip_cons_cons, List.filterMap_cons, List.getElem?_eq_getElem this, Option.map_some, List.map_cons, Option.getD_some]
      rw [← ih (by simpa using hl) (fun c hc => hk c (by simp [hc]))]

/-- The rows of column `j` are the fields `j` of the rows of the table. -/
theorem column_cells (hC : C.Lawful) (hO : SortedOk C) (hl : ∀ l, ok l → env.len l = (leafRows l).length) (hS : StoreLaws C S env ok) {M : OwnCodec} (hM : M.Lawful)
    {F : FileCodec} {ctx : Nat → Bool} {names : List Str} {dtypes : List DType} {nl : Bool} {t : Tree.Arr L} (h : WF env leafRows ok t) (hf : Fits sc env t)
    (ht : Table t) (hs : Own.Spec.Storable F M ctx (phys sc S env t) names dtypes nl) (num : SV → V) (kind : DType → Option Ty) (j : Nat) (hj : j < dtypes.length) :
    Layout.Spec.columnRows (queryMeaning M (storedRows sc S env leafRows) num kind) (dataOf M (phys sc S env t)) j (dtypes.getD j .null) =
      (Tree.rows env leafRows t).map fun r => .leaf (cellVal num kind (dtypes.getD j .null) (cellAt j r)) := by
  have hb := phys_built hC hO hl hS t h hf
  have hn := table_noNull (sc := sc) (S := S) (env := env) t ht
  have hR : Meaning C (storedRows sc S env leafRows) := stored_meaning
  have hrows := stored_phys (sc := sc) hl hS t h hf
  generalize phys sc S env t = a at *
  have h1 : Layout.Spec.columnRows (queryMeaning M (storedRows sc S env leafRows) num kind) (dataOf M a) j (dtypes.getD j .null) =
      (Layout.Spec.columnRows (viewRows M (storedRows sc S env leafRows)) (dataOf M a) j (dtypes.getD j .null)).map
        (fun r => .leaf (cellVal num kind (dtypes.getD j .null) (toSV r))) := by
    simp only [Layout.Spec.columnRows, queryMeaning, List.map_flatMap]
  rw [h1, dataOf, columnRows_eq hM hR hb hs j hj, ← hrows, ← fieldRows_eq hR hb hn hs.dtype, Own.Spec.fieldRows]
  simp only [List.map_flatMap, List.map_map]
  apply flatMap_congr'
  intro p hp
  obtain ⟨p1, p2, p3, p4, p5, v, hv⟩ := part_facts hb hs p hp
  have hzip : names.zip (p.children.map (storedRows sc S env leafRows)) = names.zip ((fieldsOf p).map (storedRows sc S env leafRows)) := by
    apply List.ext_getElem?
    intro i
    by_cases hi : i < dtypes.length
    · simp only [List.getElem?_zip_eq_some, List.zip, List.getElem?_zipWith, List.getElem?_map, p5 i hi]
    · have : names[i]? = none := by rw [List.getElem?_eq_none_iff]; omega
      simp only [List.zip, List.getElem?_zipWith, this]
  have hfl : (fieldsOf p).length = dtypes.length := by rw [← p2, List.length_map]
  have hjf : j < (fieldsOf p).length := by omega
  have hflen : ∀ f ∈ fieldsOf p, (storedRows sc S env leafRows f).length = p.len := fun f hf' => (hR.length f (p4 f hf').2).trans (p4 f hf').1
  rw [p5 j hj, List.getElem?_eq_getElem hjf, hzip]
  simp only [Option.map_some, Option.getD_some]
  have hcl := hflen _ (List.getElem_mem hjf)
  apply List.ext_getElem
  · simp [hcl]
  intro k hk _
  simp only [List.length_map, hcl] at hk
  simp only [List.getElem_map, List.getElem_range, Function.comp_apply]
  rw [toSV_structRow (by simp; omega) (by
    intro c hc
    obtain ⟨f, hf', rfl⟩ := List.mem_map.mp hc
    rw [hflen f hf']; exact hk)]
  have hk' : k < (storedRows sc S env leafRows (fieldsOf p)[j]).length := by omega
  simp only [cellAt, List.getElem?_map, List.getElem?_eq_getElem hjf, Option.map_some, Option.getD_some, List.getElem?_eq_getElem hk']

theorem filter_range {α β : Type} [Inhabited α] (rows : List α) (P : Nat → Bool) (P' : α → Bool) (f : Nat → β) (f' : α → β)
    (h : ∀ k r, rows[k]? = some r → P k = P' r ∧ f k = f' r) :
    ((List.range rows.length).filter P).map f = (rows.filter P').map f' := by
  have hr : rows = (List.range rows.length).map (fun k => rows[k]?.getD default) := by
    apply List.ext_getElem
    · simp
    · intro i h1 h2; simp [List.getElem?_eq_getElem h1]
  conv_rhs => rw [hr, List.filter_map, List.map_map]
  have hP : (List.range rows.length).filter P = (List.range rows.length).filter (P' ∘ fun k => rows[k]?.getD default) := by
    apply List.filter_congr
    intro k hk
    have hk := List.mem_range.mp hk
    simp only [Function.comp_apply, List.getElem?_eq_getElem hk, Option.getD_some]
    exact (h k _ (List.getElem?_eq_getElem hk)).1
  rw [hP]
  apply List.map_congr_left
  intro k hk
  have hk := List.mem_range.mp (List.mem_filter.mp hk).1
  simp only [Function.comp_apply, List.getElem?_eq_getElem hk, Option.getD_some]
  exact (h k _ (List.getElem?_eq_getElem hk)).2

/-- What the file holds, in terms of the rows of the table. -/
structure Agrees [LinearOrder V] (num : SV → V) (kind : DType → Option Ty) (meaning : DType → Nat → Ipc.Node → Rows (RowExpr.Val V)) (names : List Str)
    (dtypes : List DType) (rows : List SV) (data : List StructBatch) : Prop where
  count : FileScan.Spec.rowCount data = rows.length
  row : ∀ k r, rows[k]? = some r → FileScan.Spec.sqlRow meaning names dtypes data k = sqlOf num kind names dtypes r
  out : ∀ sel, (∀ i ∈ sel, i < dtypes.length) → ∀ k r, rows[k]? = some r →
    FileScan.Spec.outRow meaning names dtypes sel data k = outOf num kind names dtypes sel r

theorem Agrees.answer [LinearOrder V] {num : SV → V} {kind : DType → Option Ty} {meaning : DType → Nat → Ipc.Node → Rows (RowExpr.Val V)} {names : List Str}
    {dtypes : List DType} {rows : List SV} {data : List StructBatch} (h : Agrees num kind meaning names dtypes rows data) (sel : List Nat)
    (hsel : ∀ i ∈ sel, i < dtypes.length) (filters : List (DExpr V)) :
    FileScan.Spec.answer meaning names dtypes sel filters data = answerRows num kind names dtypes sel filters rows := by
  unfold FileScan.Spec.answer answerRows
  rw [h.count]
  haveI : Inhabited SV := ⟨.null⟩
  apply filter_range
  intro k r hr
  exact ⟨by rw [h.row k r hr], h.out sel hsel k r hr⟩

theorem agrees [LinearOrder V] (hC : C.Lawful) (hO : SortedOk C) (hl : ∀ l, ok l → env.len l = (leafRows l).length) (hS : StoreLaws C S env ok) {M : OwnCodec} (hM : M.Lawful)
    {F : FileCodec} {ctx : Nat → Bool} {names : List Str} {dtypes : List DType} {nl : Bool} {t : Tree.Arr L} (h : WF env leafRows ok t) (hf : Fits sc env t)
    (ht : Table t) (hs : Own.Spec.Storable F M ctx (phys sc S env t) names dtypes nl) (num : SV → V) (kind : DType → Option Ty) :
    Agrees num kind (queryMeaning M (storedRows sc S env leafRows) num kind) names dtypes (Tree.rows env leafRows t) (dataOf M (phys sc S env t)) := by
  have hcol := fun j hj => column_cells hC hO hl hS hM h hf ht hs num kind j hj
  have hb := phys_built hC hO hl hS t h hf
  have hnl : names.length = dtypes.length := (table_ok hb hs).names
  refine ⟨?_, ?_, ?_⟩
  · rw [rowCount_eq hb, phys_len hS t h, Tree.len_of hl t h]
  · intro k r hr
    funext n
    simp only [FileScan.Spec.sqlRow, sqlOf]
    cases hj : names.findIdx? (· == n) with
    | none => rfl
    | some j =>
      have hj' : j < dtypes.length := by
        obtain ⟨h1, _⟩ := List.findIdx?_eq_some_iff_getElem.mp hj
        omega
      simp only [Option.bind_some, Option.map_some, hcol j hj', List.getElem?_map, hr]
  · intro sel hsel k r hr
    simp only [FileScan.Spec.outRow, outOf, Layout.structRow, Row.struct.injEq, List.filterMap_map]
    rw [← List.filterMap_eq_map]
    apply List.filterMap_congr
    intro i hi
    simp only [Function.comp_apply, Layout.Spec.projected, hcol i (hsel i hi), List.getElem?_map, hr, Option.map_some]

theorem written_file (hC : C.Lawful) {M : OwnCodec} {F : FileCodec} {ctx : Nat → Bool} {names : List Str} {dtypes : List DType} {nl : Bool} {a : Own.Arr}
    (h : Built C a) (hs : Own.Spec.Storable F M ctx a names dtypes nl) (lw : LayoutWriter) :
    writeArrayColumns C M F.msgs lw a = lw.writeStream F.msgs (.struct names dtypes nl) (dataOf M a) := by
  have hb : Res.mapM (batchOf C M) (Own.Spec.parts a) = .ok (dataOf M a) := Res.mapM_ok (fun p hp => by
    obtain ⟨p1, _, _, _, _, v, hv⟩ := part_facts h hs p hp
    exact batchOf_eq hC M p1 hv)
  simp only [writeArrayColumns, streamOf_eq hC h, hb, Res.ok_bind, hs.dtype]

/-- The tables as the layout writer sees them, file by file. -/
theorem saved_files [LinearOrder V] {R : Reader V} (hC : C.Lawful) (hO : SortedOk C) (hl : ∀ l, ok l → env.len l = (leafRows l).length) (hS : StoreLaws C S env ok)
    {M : OwnCodec} (hM : M.Lawful) {metaNode : List Nat → Ipc.Node} {ctx : Nat → Bool} {names : List Str} {dtypes : List DType} {nl : Bool} (num : SV → V)
    {ts : List (Tree.Arr L)} {files : List Bytes}
    (h : List.Forall₂ (Saved sc S env leafRows ok C M R.codec R.init metaNode ctx names dtypes nl) ts files) :
    Files R metaNode ctx names dtypes nl (ts.map fun t => dataOf M (phys sc S env t)) files ∧
      ∀ t ∈ ts, Agrees num R.kind (queryMeaning M (storedRows sc S env leafRows) num R.kind) names dtypes (Tree.rows env leafRows t) (dataOf M (phys sc S env t)) := by
  induction h with
  | nil => exact ⟨.nil, nofun⟩
  | @cons t file ts files h1 _ ih =>
    have hb := phys_built hC hO hl hS t h1.wf h1.fits
    refine ⟨.cons ?_ ih.1, ?_⟩
    · obtain ⟨w, w1, w2⟩ := h1.written
      rw [written_file hC hb h1.storable] at w1
      refine ⟨⟨w, w1, w2⟩, table_ok hb h1.storable, h1.size, ?_⟩
      rw [rowCount_eq hb, phys_len hS t h1.wf]
      exact h1.tail
    · intro x hx
      rcases List.mem_cons.mp hx with rfl | hx
      · exact agrees hC hO hl hS hM h1.wf h1.fits h1.table h1.storable num R.kind
      · exact ih.2 x hx

theorem flatMap_eq {α β γ : Type} (xs : List α) (g : α → β) (f : β → List γ) (f' : α → List γ) (h : ∀ x ∈ xs, f (g x) = f' x) :
    (xs.map g).flatMap f = xs.flatMap f' := by
  rw [List.flatMap_map]
  exact flatMap_congr' (fun x hx => h x hx)

/-- **C109.** A query over any number of files, each the file of a table of any encodings: with any well-typed filters and any non-empty projection, what is returned is,
in order, the requested columns of exactly those rows of the tables on which every filter is true in SQL. Nothing depends on how the columns are encoded, on how
the table is cut into chunks, or on the order of I/O. Missing, because the code is wrong there: what is missing from `C94_query_partial`, and tables with null rows
(`C34_null_rows_lost`). -/
theorem C109_query_partial [LinearOrder V] {R : Reader V} (hC : C.Lawful) (hO : SortedOk C) (hl : ∀ l, ok l → env.len l = (leafRows l).length) (hS : StoreLaws C S env ok)
    {M : OwnCodec} (hM : M.Lawful) {metaNode : List Nat → Ipc.Node} {ctx : Nat → Bool} {names : List Str} {dtypes : List DType} {nl : Bool} (num : SV → V)
    (hR : ReaderOk R ctx (queryMeaning M (storedRows sc S env leafRows) num R.kind)) (ts : List (Tree.Arr L)) (files : List Bytes)
    (h : List.Forall₂ (Saved sc S env leafRows ok C M R.codec R.init metaNode ctx names dtypes nl) ts files) (projection : Option (List Nat))
    (hp : selOf dtypes.length projection ≠ []) (hin : ∀ i ∈ selOf dtypes.length projection, i < dtypes.length) (filters : List (DExpr V))
    (hty : ∀ f ∈ filters, Typed (FileScan.Spec.tableTypes R.kind names dtypes) f .bool) (hcols : filters ≠ [] → ∃ f ∈ filters, f.cols ≠ [])
    (htwo : ∀ t ∈ ts, TwoValuedRows num R.kind names dtypes filters (Tree.rows env leafRows t))
    (hgap : filters ≠ [] → ∀ t ∈ ts, NoGapRows num R.kind names dtypes filters (Tree.rows env leafRows t)) :
    ∃ out N, (∀ fuel, N ≤ fuel → scan R projection filters files fuel = .ok out) ∧
      out.flatten = ts.flatMap fun t => answerRows num R.kind names dtypes (selOf dtypes.length projection) filters (Tree.rows env leafRows t) := by
  obtain ⟨hf, hag⟩ := saved_files hC hO hl hS hM num h
  have htwo' : FileScan.Spec.TwoValued (queryMeaning M (storedRows sc S env leafRows) num R.kind) names dtypes filters (ts.map fun t => dataOf M (phys sc S env t)) := by
    intro f hf' c hc
    by_cases hno : FileScan.Spec.noLogic c = true
    · exact .inl hno
    · refine .inr ?_
      intro data hd k hk n hn
      obtain ⟨t, ht, rfl⟩ := List.mem_map.mp hd
      have ha := hag t ht
      rw [ha.count] at hk
      obtain ⟨y, hy⟩ := ((htwo t ht f hf' c hc).resolve_left hno) _ (List.getElem_mem hk) n hn
      exact ⟨y, by rw [ha.row k _ (List.getElem?_eq_getElem hk)]; exact hy⟩
  have hgap' : filters ≠ [] → ∀ data ∈ ts.map (fun t => dataOf M (phys sc S env t)),
      FileScan.Spec.NoGap (queryMeaning M (storedRows sc S env leafRows) num R.kind) names dtypes filters data := by
    intro hne data hd j hj
    obtain ⟨t, ht, rfl⟩ := List.mem_map.mp hd
    have ha := hag t ht
    rw [ha.count] at hj
    obtain ⟨k, r, k1, k2, k3, k4⟩ := hgap hne t ht j hj
    exact ⟨k, k1, k2, by rw [ha.row k r k3]; exact k4⟩
  obtain ⟨out, N, h1, h2⟩ := FileScan.C94_query_partial hR _ files hf projection hp hin filters hty hcols htwo' hgap'
  refine ⟨out, N, h1, ?_⟩
  rw [h2]
  exact flatMap_eq _ _ _ _ (fun t ht => (hag t ht).answer _ hin filters)

/-- **C109 (small files).** With files of at most 65536 rows there are no gaps. -/
theorem C109_small_files_partial [LinearOrder V] {R : Reader V} (hC : C.Lawful) (hO : SortedOk C) (hl : ∀ l, ok l → env.len l = (leafRows l).length)
    (hS : StoreLaws C S env ok) {M : OwnCodec} (hM : M.Lawful) {metaNode : List Nat → Ipc.Node} {ctx : Nat → Bool} {names : List Str} {dtypes : List DType} {nl : Bool}
    (num : SV → V) (hR : ReaderOk R ctx (queryMeaning M (storedRows sc S env leafRows) num R.kind)) (ts : List (Tree.Arr L)) (files : List Bytes)
    (h : List.Forall₂ (Saved sc S env leafRows ok C M R.codec R.init metaNode ctx names dtypes nl) ts files)
    (hsmall : ∀ t ∈ ts, (Tree.rows env leafRows t).length ≤ 65536) (projection : Option (List Nat))
    (hp : selOf dtypes.length projection ≠ []) (hin : ∀ i ∈ selOf dtypes.length projection, i < dtypes.length) (filters : List (DExpr V))
    (hty : ∀ f ∈ filters, Typed (FileScan.Spec.tableTypes R.kind names dtypes) f .bool) (hcols : filters ≠ [] → ∃ f ∈ filters, f.cols ≠ [])
    (htwo : ∀ t ∈ ts, TwoValuedRows num R.kind names dtypes filters (Tree.rows env leafRows t)) :
    ∃ out N, (∀ fuel, N ≤ fuel → scan R projection filters files fuel = .ok out) ∧
      out.flatten = ts.flatMap fun t => answerRows num R.kind names dtypes (selOf dtypes.length projection) filters (Tree.rows env leafRows t) :=
  C109_query_partial hC hO hl hS hM num hR ts files h projection hp hin filters hty hcols htwo (fun _ t ht j hj => by have := hsmall t ht; omega)

/-- The file of a table that went through the compressor: whatever the compressor chose (`ch`), at whatever depth, and whatever compression tree it reused. -/
def SavedCompressed (benv : Tree.BEnv L) (ch : Tree.Choice L) (sc : Scalars) (S : Leaves L) (leafRows : L → List SV) (ok : L → Prop) (C : Compute) (M : OwnCodec)
    (F : FileCodec) (init : Nat) (metaNode : List Nat → Ipc.Node) (ctx : Nat → Bool) (names : List Str) (dtypes : List DType) (nl : Bool) (t : Tree.Arr L) (file : Bytes) :
    Prop :=
  ∃ fuel cctx like b tree, Tree.compress benv ch fuel cctx t like = .ok (b, tree) ∧
    Saved sc S benv.toEnv leafRows ok C M F init metaNode ctx names dtypes nl b file

/-- **C109 (compressed).** The same when every table has been compressed before it was written: the answer is the one of the uncompressed rows. Missing besides the above:
floating-point zeros, whose sign the compressor may change (`C41_negative_zero`). -/
theorem C109_compressed_query_partial [LinearOrder V] {R : Reader V} {benv : Tree.BEnv L} {ch : Tree.Choice L} (hL : LeafLaws benv.toEnv leafRows ok)
    (lb : Tree.LeafBulk benv leafRows ok) (hch : Tree.ChoiceLaws benv.toEnv leafRows ok ok ch) (hC : C.Lawful) (hO : SortedOk C) (hS : StoreLaws C S benv.toEnv ok)
    {M : OwnCodec} (hM : M.Lawful) {metaNode : List Nat → Ipc.Node} {ctx : Nat → Bool} {names : List Str} {dtypes : List DType} {nl : Bool} (num : SV → V)
    (hR : ReaderOk R ctx (queryMeaning M (storedRows sc S benv.toEnv leafRows) num R.kind)) (ts : List (Tree.Arr L)) (files : List Bytes)
    (hg : ∀ t ∈ ts, Tree.Good benv.toEnv leafRows ok t ∧ ∀ r ∈ Tree.rows benv.toEnv leafRows t, Tree.zeroFree r = true)
    (h : List.Forall₂ (SavedCompressed benv ch sc S leafRows ok C M R.codec R.init metaNode ctx names dtypes nl) ts files) (projection : Option (List Nat))
    (hp : selOf dtypes.length projection ≠ []) (hin : ∀ i ∈ selOf dtypes.length projection, i < dtypes.length) (filters : List (DExpr V))
    (hty : ∀ f ∈ filters, Typed (FileScan.Spec.tableTypes R.kind names dtypes) f .bool) (hcols : filters ≠ [] → ∃ f ∈ filters, f.cols ≠ [])
    (htwo : ∀ t ∈ ts, TwoValuedRows num R.kind names dtypes filters (Tree.rows benv.toEnv leafRows t))
    (hgap : filters ≠ [] → ∀ t ∈ ts, NoGapRows num R.kind names dtypes filters (Tree.rows benv.toEnv leafRows t)) :
    ∃ out N, (∀ fuel, N ≤ fuel → scan R projection filters files fuel = .ok out) ∧
      out.flatten = ts.flatMap fun t => answerRows num R.kind names dtypes (selOf dtypes.length projection) filters (Tree.rows benv.toEnv leafRows t) := by
  have key : ∃ bs, List.Forall₂ (Saved sc S benv.toEnv leafRows ok C M R.codec R.init metaNode ctx names dtypes nl) bs files ∧
      bs.map (Tree.rows benv.toEnv leafRows) = ts.map (Tree.rows benv.toEnv leafRows) := by
    clear htwo hgap
    induction h with
    | nil => exact ⟨[], .nil, rfl⟩
    | @cons t file ts files h1 _ ih =>
      obtain ⟨bs, b1, b2⟩ := ih (fun t ht => hg t (by simp [ht]))
      obtain ⟨fuel, cctx, like, b, tree, h2, h3⟩ := h1
      refine ⟨b :: bs, .cons h3 b1, ?_⟩
      rw [List.map_cons, List.map_cons, b2,
        Tree.C41_compress_rows_partial hL lb hch fuel cctx t b like tree (hg t (by simp)).1 (hg t (by simp)).2 h2]
  obtain ⟨bs, b1, b2⟩ := key
  have hmem : ∀ b ∈ bs, ∃ t ∈ ts, Tree.rows benv.toEnv leafRows b = Tree.rows benv.toEnv leafRows t := by
    intro b hb
    have : Tree.rows benv.toEnv leafRows b ∈ ts.map (Tree.rows benv.toEnv leafRows) := by rw [← b2]; exact List.mem_map_of_mem hb
    obtain ⟨t, ht, he⟩ := List.mem_map.mp this
    exact ⟨t, ht, he.symm⟩
  obtain ⟨out, N, h1, h2⟩ := C109_query_partial hC hO hL.len hS hM num hR bs files b1 projection hp hin filters hty hcols
    (fun b hb => by obtain ⟨t, ht, he⟩ := hmem b hb; rw [he]; exact htwo t ht)
    (fun hne b hb => by obtain ⟨t, ht, he⟩ := hmem b hb; rw [he]; exact hgap hne t ht)
  refine ⟨out, N, h1, ?_⟩
  rw [h2]
  have e : ∀ l : List (Tree.Arr L), (l.flatMap fun t => answerRows num R.kind names dtypes (selOf dtypes.length projection) filters (Tree.rows benv.toEnv leafRows t)) =
      (l.map (Tree.rows benv.toEnv leafRows)).flatMap (answerRows num R.kind names dtypes (selOf dtypes.length projection) filters) := by
    intro l; rw [List.flatMap_map]
  rw [e, e, b2]

end Vx.Query
