import Verif.Props.C34
import Verif.Props.C36
/-!
# C34: writing a table and reading it back
-/
namespace Vx.Layout
open Ipc (Bytes Codec itemBytes frame)

variable {α : Type}

/-- The rows of column `j` of a written stream, read as `d`: the rows of its chunks one after the other. `meaning d l n` are the rows of the array
tree `n` of length `l` seen as an array of dtype `d`. -/
def Spec.columnRows (meaning : DType → Nat → Ipc.Node → Rows α) (batches : List StructBatch) (j : Nat) (d : DType) : Rows α :=
  (Spec.columnChunks batches j).flatMap fun c => meaning d c.2 c.1

/-- A written table: struct arrays of the dtype's columns, each column in chunks that add up to the array's length, every chunk small enough for the
message format and of a known encoding. The limits are those of the layout reader (`u16` parts) and of the flatbuffer verifier (10⁶ tables). -/
structure TableOk (F : FileCodec) (ctx : Nat → Bool) (names : List Str) (dtypes : List DType) (batches : List StructBatch) : Prop where
  shape : Shape dtypes.length batches
  names : names.length = dtypes.length
  sums : ∀ b ∈ batches, ∀ f ∈ b.fields, (f.map (·.2)).sum = b.len
  chunks : ∀ b ∈ batches, ∀ f ∈ b.fields, ∀ c ∈ f, Ipc.Fits F.msgs (Ipc.batchMsg c.1 c.2) ∧ ctx c.1.encoding = true
  columns : dtypes.length ≤ 2 ^ 16
  perColumn : ∀ j < dtypes.length, (Spec.columnChunks batches j).length < 2 ^ 16
  tables : 1 + ((List.range dtypes.length).map fun j => 3 + (Spec.columnChunks batches j).length).sum < 1000000

/-- What the reader needs: the three layouts registered, lengths respected. -/
structure EnvOk (env : Env α) (F : FileCodec) (ctx : Nat → Bool) (meaning : DType → Nat → Ipc.Node → Rows α) : Prop where
  decode : env.decode = (fileEnv F.msgs ctx meaning env.registered).decode
  flat : env.registered FLAT = true
  chunked : env.registered CHUNKED = true
  column : env.registered COLUMN = true
  lengths : ∀ d l n, (meaning d l n).length = l

theorem finished_get {C : Codec} {metaNode : List Nat → Ipc.Node} {out : Bytes} {ls : List FbLayout} {css : List (List Chunk)} {rs : List (Nat × Nat)}
    (h : Finished C metaNode out ls css rs) : ls.length = css.length ∧ ∀ (j : Nat) (hj : j < ls.length) (hj' : j < css.length), ∃ rg d m,
        ls[j] = colLayout rg d m ∧ Ats C out rg css[j] := by
  induction h with
  | nil => simp
  | cons a1 _ _ _ ih =>
    refine ⟨by simp [ih.1], fun j hj hj' => ?_⟩
    cases j with
    | zero => exact ⟨_, _, _, rfl, a1⟩
    | succ j => exact ih.2 j (by simpa using hj) (by simpa using hj')

theorem decode_chunk {env : Env α} {F : FileCodec} {ctx : Nat → Bool} {meaning : DType → Nat → Ipc.Node → Rows α} (hE : EnvOk env F ctx meaning)
    (hF : F.Lawful) (d : DType) (c : Chunk) (hfit : Ipc.Fits F.msgs (Ipc.batchMsg c.1 c.2)) (hctx : ctx c.1.encoding = true) :
    env.decode d (itemBytes F.msgs (.batch c.1 c.2)) = .ok (meaning d c.2 c.1) := by
  obtain ⟨v, v1, v2, v3, v4, v5⟩ := Ipc.C33_reads_back F.msgs hF.msgs ctx d c.1 c.2 hfit hctx []
  have hb : itemBytes F.msgs (.batch c.1 c.2) = frame F.msgs (Ipc.batchMsg c.1 c.2) ++ (Ipc.padded (Ipc.Spec.preorder c.1) ++ []) := by
    simp [itemBytes, Ipc.itemMsg, Ipc.itemBody]
  rw [hE.decode, hb]
  simp only [fileEnv, v1, Res.bind, v5, v3]

theorem denote_flats {env : Env α} {F : FileCodec} {ctx : Nat → Bool} {meaning : DType → Nat → Ipc.Node → Rows α} (hE : EnvOk env F ctx meaning)
    (hF : F.Lawful) (d : DType) (file : Bytes) : ∀ (rg : List (Nat × Nat)) (cs : List Chunk), Ats F.msgs file rg cs →
      (∀ c ∈ cs, Ipc.Fits F.msgs (Ipc.batchMsg c.1 c.2) ∧ ctx c.1.encoding = true) →
      Spec.denoteChunks env file (rg.map fun p => .flatL (toRange p)) d 0 = some (cs.map fun c => meaning d c.2 c.1)
  | [], [], _, _ => rfl
  | [], _ :: _, h, _ => by simp [Ats] at h
  | _ :: _, [], h, _ => by simp [Ats] at h
  | p :: ps, c :: cs, h, hc => by
    have h1 := bytesAt_of_at h.1
    have h2 := decode_chunk hE hF d c (hc c (by simp)).1 (hc c (by simp)).2
    have ih := denote_flats hE hF d file ps cs h.2 (fun c' hc' => hc c' (by simp [hc']))
    simp only [List.map_cons, FbLayout.flatL] at ih ⊢
    simp only [Spec.denoteChunks, Spec.denote, hE.flat, Spec.firstBytes, h1, Option.bind_some, h2, Spec.toOption, ih, Option.map_some, true_and, if_true]

/-- A column's layout denotes the column's rows. -/
theorem denote_column {env : Env α} {F : FileCodec} {ctx : Nat → Bool} {meaning : DType → Nat → Ipc.Node → Rows α} (hE : EnvOk env F ctx meaning)
    (hF : F.Lawful) {metaNode : List Nat → Ipc.Node} {names : List Str} {dtypes : List DType} {batches : List StructBatch} (h : TableOk F ctx names dtypes batches)
    {file : Bytes} {ls : List FbLayout} {rs : List (Nat × Nat)} (hfin : Finished F.msgs metaNode file ls (Spec.allColumns dtypes.length batches) rs)
    (j : Nat) (hj : j < ls.length) (d : DType) : Spec.denote env file ls[j] d = some (Spec.columnRows meaning batches j d) := by
  obtain ⟨hl, hg⟩ := finished_get hfin
  have hj' : j < (Spec.allColumns dtypes.length batches).length := by omega
  obtain ⟨rg, dd, m, g1, g2⟩ := hg j hj hj'
  have hcj : (Spec.allColumns dtypes.length batches)[j] = Spec.columnChunks batches j := by simp [Spec.allColumns]
  rw [hcj] at g2
  have hcs : ∀ c ∈ Spec.columnChunks batches j, Ipc.Fits F.msgs (Ipc.batchMsg c.1 c.2) ∧ ctx c.1.encoding = true := by
    intro c hc
    simp only [Spec.columnChunks, List.mem_flatMap] at hc
    obtain ⟨b, hb, hc⟩ := hc
    cases hf : b.fields[j]? with
    | none => rw [hf] at hc; simp at hc
    | some f => rw [hf] at hc; exact h.chunks b hb f (List.mem_of_getElem? hf) c (by simpa using hc)
  have hden := denote_flats hE hF d file rg _ g2 hcs
  rw [g1]
  simp only [colLayout, FbLayout.chunkedL, Spec.denote, hE.chunked, Spec.MetaOk, Spec.skips, if_true]
  have e1 : Spec.denoteChunks env file (.inlineL [.flatL (toRange m)] (toRange dd) :: rg.map fun p => .flatL (toRange p)) d 1 =
      Spec.denoteChunks env file (rg.map fun p => .flatL (toRange p)) d 0 := by rw [Spec.denoteChunks]
  simp [CHUNKED, FLAT, e1, hden, Spec.columnRows, List.flatMap]

theorem columnRows_length {env : Env α} {F : FileCodec} {ctx : Nat → Bool} {meaning : DType → Nat → Ipc.Node → Rows α} (hE : EnvOk env F ctx meaning)
    {names : List Str} {dtypes : List DType} {batches : List StructBatch} (h : TableOk F ctx names dtypes batches) (j : Nat) (hj : j < dtypes.length) (d : DType) :
    (Spec.columnRows meaning batches j d).length = (batches.map StructBatch.len).sum := by
  have hlen : ∀ cs : List Chunk, (cs.flatMap fun c => meaning d c.2 c.1).length = (cs.map (·.2)).sum := by
    intro cs
    induction cs with
    | nil => rfl
    | cons c cs ih => simp [hE.lengths, ih]
  have key : ∀ bs : List StructBatch, (∀ b ∈ bs, b.fields.length = dtypes.length) → (∀ b ∈ bs, ∀ f ∈ b.fields, (f.map (·.2)).sum = b.len) →
      (((bs.flatMap fun b => (b.fields[j]?).getD []).map (·.2)).sum) = (bs.map StructBatch.len).sum := by
    intro bs
    induction bs with
    | nil => intro _ _; rfl
    | cons b bs ih =>
      intro h1 h2
      have hb : j < b.fields.length := by have := h1 b (by simp); omega
      simp only [List.flatMap_cons, List.map_append, List.sum_append, List.map_cons, List.sum_cons]
      rw [ih (fun b' hb' => h1 b' (by simp [hb'])) (fun b' hb' => h2 b' (by simp [hb'])), List.getElem?_eq_getElem hb, Option.getD_some,
        h2 b (by simp) _ (List.getElem_mem hb)]
  unfold Spec.columnRows
  rw [hlen]
  exact key batches h.shape.fields h.sums

theorem regular_flats (rg : List (Nat × Nat)) : FbLayout.Regulars (rg.map fun p => .flatL (toRange p)) = true := by
  induction rg with
  | nil => rfl
  | cons p ps ih => simp [FbLayout.Regulars, FbLayout.flatL, FbLayout.Regular] at ih ⊢; exact ih

theorem tables_flats (rg : List (Nat × Nat)) : FbLayout.tablesAll (rg.map fun p => .flatL (toRange p)) = rg.length := by
  induction rg with
  | nil => rfl
  | cons p ps ih => simp [FbLayout.tablesAll, FbLayout.flatL, FbLayout.tables] at ih ⊢; omega

theorem colLayout_facts (rg : List (Nat × Nat)) (d m : Nat × Nat) (h : rg.length < 2 ^ 16) :
    (colLayout rg d m).Regular = true ∧ (colLayout rg d m).zeroBatch = false ∧ (colLayout rg d m).tables = 3 + rg.length := by
  refine ⟨?_, ?_, ?_⟩
  · have := regular_flats rg
    simp only [colLayout, FbLayout.chunkedL, FbLayout.inlineL, FbLayout.Regular, FbLayout.Regulars, FbLayout.flatL] at this ⊢
    simp [this, CHUNKED, COLUMN, INLINE]
    omega
  · simp [colLayout, FbLayout.chunkedL, FbLayout.zeroBatch, CHUNKED, FLAT]
  · have := tables_flats rg
    simp only [colLayout, FbLayout.chunkedL, FbLayout.inlineL, FbLayout.tables, FbLayout.tablesAll, FbLayout.flatL] at this ⊢
    omega

theorem finished_facts {C : Codec} {metaNode : List Nat → Ipc.Node} {out : Bytes} {ls : List FbLayout} {css : List (List Chunk)} {rs : List (Nat × Nat)}
    (h : Finished C metaNode out ls css rs) : (∀ c ∈ css, c.length < 2 ^ 16) →
    FbLayout.Regulars ls = true ∧ (∀ c ∈ ls, c.zeroBatch = false) ∧ FbLayout.tablesAll ls = (css.map fun c => 3 + c.length).sum := by
  induction h with
  | nil => intro _; simp [FbLayout.Regulars, FbLayout.tablesAll]
  | @cons ranges d m chunks ls css rs a1 _ _ _ ih =>
    intro hc
    obtain ⟨i1, i2, i3⟩ := ih (fun c hc' => hc c (by simp [hc']))
    have hrl := a1.length
    obtain ⟨c1, c2, c3⟩ := colLayout_facts ranges d m (by rw [hrl]; exact hc _ (by simp))
    refine ⟨by simp [FbLayout.Regulars, c1, i1], ?_, by simp [FbLayout.tablesAll, c3, i3, hrl]⟩
    intro c hc'
    simp only [List.mem_cons] at hc'
    rcases hc' with rfl | hc'
    · exact c2
    · exact i2 c hc'

theorem written_regular {F : FileCodec} {ctx : Nat → Bool} {metaNode : List Nat → Ipc.Node} {names : List Str} {dtypes : List DType}
    {batches : List StructBatch} (h : TableOk F ctx names dtypes batches) {out : Bytes} {ls : List FbLayout} {rs : List (Nat × Nat)}
    (hfin : Finished F.msgs metaNode out ls (Spec.allColumns dtypes.length batches) rs) :
    (FbLayout.columnL ls).Regular = true ∧ (FbLayout.columnL ls).tables < 1000000 ∧ ls.length = dtypes.length := by
  obtain ⟨f1, f2, f3⟩ := finished_facts hfin (by
    intro c hc
    simp only [Spec.allColumns, List.mem_map, List.mem_range] at hc
    obtain ⟨j, hj, rfl⟩ := hc
    exact h.perColumn j hj)
  have hl : ls.length = dtypes.length := by rw [(finished_get hfin).1]; simp [Spec.allColumns]
  refine ⟨?_, ?_, hl⟩
  · have hz : FbLayout.zeroBatches ls = false := by
      cases ls with
      | nil => rfl
      | cons c cs => exact f2 c (by simp)
    have hc := h.columns
    simp only [FbLayout.columnL, FbLayout.Regular, f1, hz, hl, Bool.and_eq_true, decide_eq_true_eq, Bool.or_eq_true, List.all_eq_true, beq_iff_eq]
    exact ⟨hc, trivial, Or.inr f2⟩
  · have := h.tables
    simp only [FbLayout.columnL, FbLayout.tables, f3, Spec.allColumns, List.map_map]
    exact this

/-- The columns a projection asks for, from the written stream: name and rows. -/
def Spec.projected (meaning : DType → Nat → Ipc.Node → Rows α) (names : List Str) (dtypes : List DType) (batches : List StructBatch) (i : Nat) : Str × Rows α :=
  (names.getD i [], Spec.columnRows meaning batches i (dtypes.getD i .null))

theorem columns_of_written {env : Env α} {F : FileCodec} {ctx : Nat → Bool} {meaning : DType → Nat → Ipc.Node → Rows α} (hE : EnvOk env F ctx meaning)
    (hF : F.Lawful) {metaNode : List Nat → Ipc.Node} {names : List Str} {dtypes : List DType} {batches : List StructBatch} (h : TableOk F ctx names dtypes batches)
    {file : Bytes} {ls : List FbLayout} {rs : List (Nat × Nat)} (hfin : Finished F.msgs metaNode file ls (Spec.allColumns dtypes.length batches) rs) :
    ∀ (fields : List RowExpr.Field) (sel : List Nat), fields.map (Spec.position names) = sel.map some →
      Spec.columns env file ls names dtypes fields = some (sel.map (Spec.projected meaning names dtypes batches)) ∧
      (∀ i ∈ sel, i < dtypes.length) ∧
      Res.mapM (projectField (some names) (some (DType.toFbs dtypes))) fields = .ok (sel.map fun i => (names.getD i [], dtypes.getD i .null))
  | [], [], _ => ⟨rfl, by simp, rfl⟩
  | [], _ :: _, hs => by simp at hs
  | _ :: _, [], hs => by simp at hs
  | f :: fs, i :: sel, hs => by
    simp only [List.map_cons, List.cons.injEq] at hs
    obtain ⟨i1, i2, i3⟩ := columns_of_written hE hF h hfin fs sel hs.2
    have hi : i < names.length := (position_resolve hs.1).2
    have hl := (written_regular h hfin).2.2
    have hid : i < dtypes.length := by rw [← h.names]; exact hi
    have hil : i < ls.length := by omega
    refine ⟨?_, ?_, ?_⟩
    · simp only [Spec.columns, Spec.column, hs.1, Option.bind_some, List.getElem?_eq_getElem hi, List.getElem?_eq_getElem hid,
        List.getElem?_eq_getElem hil, denote_column hE hF h hfin i hil, i1, Option.map_some, List.map_cons, Spec.projected, List.getD_eq_getElem?_getD,
        Option.getD_some]
    · intro i' hi'
      simp only [List.mem_cons] at hi'
      rcases hi' with rfl | hi'
      · exact hid
      · exact i2 i' hi'
    · have := position_projectField (dtypes := dtypes) hs.1 (List.getElem?_eq_getElem hi) (List.getElem?_eq_getElem hid)
      simp only [Res.mapM, this, i3, Res.ok_bind, List.map_cons, List.getD_eq_getElem?_getD, List.getElem?_eq_getElem hi, List.getElem?_eq_getElem hid,
        Option.getD_some]

/-- Write a table, open the file, read it: with the projection `fields` (all of them existing columns, by name or position; `sel` are their positions),
any batch size and any order of I/O completion, the dtype is the projected one and the rows are, in order, one struct for every written row with the
projected columns' values. -/
theorem C34_round_trip (F : FileCodec) (hF : F.Lawful) (metaNode : List Nat → Ipc.Node) (ctx : Nat → Bool) (meaning : DType → Nat → Ipc.Node → Rows α)
    (env : Env α) (hE : EnvOk env F ctx meaning) (names : List Str) (dtypes : List DType) (nl : Bool) (batches : List StructBatch)
    (h : TableOk F ctx names dtypes batches) :
    ∃ w data ls file, LayoutWriter.new.writeStream F.msgs (.struct names dtypes nl) batches = .ok w ∧ finalize F metaNode w = .ok file ∧
      file = fileOf F data (.struct names dtypes nl) (.columnL ls) (batches.map StructBatch.len).sum ∧
      (file.length < 2 ^ 64 → ∀ (init : Nat), tailLength F (.struct names dtypes nl) (.columnL ls) (batches.map StructBatch.len).sum ≤ init →
        ∀ (batch : Nat), 0 < batch → ∀ (order : List Message → List Message), (∀ l, (order l).Perm l) →
        (∃ bs N, (∀ fuel, N ≤ fuel → readFile F env init file file.length .all batch order fuel = .ok (.struct names dtypes nl, bs)) ∧
          bs.flatten = (List.range (batches.map StructBatch.len).sum).map (structRow ((List.range dtypes.length).map (Spec.projected meaning names dtypes batches)))) ∧
        ∀ (fields : List RowExpr.Field) (sel : List Nat), sel ≠ [] → fields.map (Spec.position names) = sel.map some →
          ∃ bs N, (∀ fuel, N ≤ fuel → readFile F env init file file.length (.flat fields) batch order fuel =
              .ok (.struct (sel.map fun i => names.getD i []) (sel.map fun i => dtypes.getD i .null) nl, bs)) ∧
            bs.flatten = (List.range (batches.map StructBatch.len).sum).map (structRow (sel.map (Spec.projected meaning names dtypes batches)))) := by
  obtain ⟨w, data, ls, rs, h1, h2, h3, h4, h5, h6⟩ := write_finished F metaNode (.struct names dtypes nl) _ batches h.shape
  obtain ⟨r1, r2, r3⟩ := written_regular h h3
  refine ⟨w, data, ls, _, h1, h2, rfl, ?_⟩
  intro hsize init hinit batch hb order hord
  obtain ⟨d, o1, o2, o3, _⟩ := C34_open F hF data (.struct names dtypes nl) (.columnL ls) (batches.map StructBatch.len).sum init h5 r2 hsize hinit
  obtain ⟨more, hmore⟩ : ∃ more, fileOf F data (.struct names dtypes nl) (.columnL ls) (batches.map StructBatch.len).sum = data ++ more := by
    refine ⟨frame F.msgs (Ipc.schemaMsg (.struct names dtypes nl)) ++ (tableFrame (F.encFooter (.columnL ls) (batches.map StructBatch.len).sum) ++
      (F.encPs data.length (data.length + (frame F.msgs (Ipc.schemaMsg (.struct names dtypes nl))).length) ++ EOF)), ?_⟩
    simp only [fileOf, List.append_assoc]
  have hfin : Finished F.msgs metaNode (fileOf F data (.struct names dtypes nl) (.columnL ls) (batches.map StructBatch.len).sum) ls
      (Spec.allColumns dtypes.length batches) rs := by rw [hmore]; exact h3.mono more
  generalize fileOf F data (.struct names dtypes nl) (.columnL ls) (batches.map StructBatch.len).sum = file at *
  have hst : ∀ sel : List Nat, sel ≠ [] → (∀ i ∈ sel, i < dtypes.length) → Spec.structOf (sel.map (Spec.projected meaning names dtypes batches)) =
      some ((List.range (batches.map StructBatch.len).sum).map (structRow (sel.map (Spec.projected meaning names dtypes batches)))) := by
    intro sel hne hin
    have hlen : ∀ i ∈ sel, (Spec.projected meaning names dtypes batches i).2.length = (batches.map StructBatch.len).sum :=
      fun i hi => columnRows_length hE h i (hin i hi) _
    cases sel with
    | nil => exact absurd rfl hne
    | cons i sel =>
      have h0 := hlen i (by simp)
      simp only [List.map_cons, Spec.structOf, h0]
      rw [if_pos]
      intro c hc
      simp only [List.mem_map] at hc
      obtain ⟨i', hi', rfl⟩ := hc
      exact hlen i' (by simp [hi'])
  constructor
  · have hpos : ((List.range names.length).map RowExpr.Field.index).map (Spec.position names) = (List.range dtypes.length).map some := by
      rw [List.map_map, h.names]
      apply List.map_congr_left
      intro i hi
      simp only [List.mem_range] at hi
      simp [Spec.position, h.names, hi]
    obtain ⟨c1, c2, _⟩ := columns_of_written hE hF h hfin _ _ hpos
    have hne : List.range dtypes.length ≠ [] := by
      intro hh; have := congrArg List.length hh; simp only [List.length_range, List.length_nil] at this; have := h.shape.columns; omega
    have hden : Spec.denote env file (.columnL ls) (.struct names dtypes nl) =
        some ((List.range (batches.map StructBatch.len).sum).map (structRow ((List.range dtypes.length).map (Spec.projected meaning names dtypes batches)))) := by
      unfold FbLayout.columnL
      rw [C36_all_columns env file none ls none names dtypes nl hE.column h.names r3, Spec.table, c1, Option.bind_some]
      exact hst _ hne c2
    obtain ⟨bs, N, b1, b2, _⟩ := C35_batches env file (.columnL ls) (.struct names dtypes nl) _ ⟨r1, hden⟩ batch hb order hord
    refine ⟨bs, N, fun fuel hf => ?_, b2⟩
    simp only [readFile, o1, o3, Res.ok_bind, projectedDType, C30_dtype_flatbuffer_round_trip, o2, b1 fuel hf]
  · intro fields sel hne hpos
    obtain ⟨c1, c2, c3⟩ := columns_of_written hE hF h hfin _ _ hpos
    have htab : Spec.table env file ls names dtypes fields =
        some ((List.range (batches.map StructBatch.len).sum).map (structRow (sel.map (Spec.projected meaning names dtypes batches)))) := by
      rw [Spec.table, c1, Option.bind_some]
      exact hst _ hne c2
    obtain ⟨bs, N, b1, b2, _⟩ := C36_projection env file none ls none r1 hE.column names dtypes nl fields _ htab batch hb order hord
    refine ⟨bs, N, fun fuel hf => ?_, b2⟩
    have hproj : projectedDType (DType.struct names dtypes nl).toFb (.flat fields) =
        .ok (.struct (sel.map fun i => names.getD i []) (sel.map fun i => dtypes.getD i .null) nl) := by
      simp only [projectedDType, deserializeAndProject, DType.toFb, c3, Res.ok_bind, List.map_map]
      rfl
    simp only [readFile, o1, o3, Res.ok_bind, hproj, o2]
    have := b1 fuel hf
    simp only [FbLayout.columnL] at this ⊢
    simp only [this, Res.ok_bind]

/-! ## Missing: the empty stream -/

/-- A stream without arrays is written without columns … -/
theorem C34_empty_stream_written (F : FileCodec) (metaNode : List Nat → Ipc.Node) (dtype : DType) :
    ∃ w, LayoutWriter.new.writeStream F.msgs dtype [] = .ok w ∧ finalize F metaNode w = .ok (fileOf F [] dtype (.columnL []) 0) := by
  refine ⟨_, rfl, ?_⟩
  have h5 := Ipc.writeItem_eq F.msgs ⟨[]⟩ (.dtype dtype) rfl
  simp only [Ipc.Spec.writeItem] at h5
  have hb : Ipc.itemBytes F.msgs (.dtype dtype) = Ipc.frame F.msgs (Ipc.schemaMsg dtype) := by simp [Ipc.itemBytes, Ipc.itemMsg, Ipc.itemBody]
  rw [hb] at h5
  have hw1 : (⟨[] ++ Ipc.frame F.msgs (Ipc.schemaMsg dtype)⟩ : Ipc.Writer).pos % 64 = 0 := by
    have := Ipc.frame_aligned F.msgs (Ipc.schemaMsg dtype)
    simp only [Ipc.Writer.pos, List.length_append, List.length_nil] at this ⊢; omega
  have h5' : Ipc.Writer.writeDtype F.msgs ⟨[]⟩ dtype = .ok ⟨[] ++ Ipc.frame F.msgs (Ipc.schemaMsg dtype)⟩ := h5
  simp only [finalize, LayoutWriter.new, finishColumns, Ipc.Writer.new, Res.ok_bind, Res.ofOption_some, h5', writeTable_eq _ _ hw1, Ipc.Writer.pos, List.length_append, fileOf, List.length_nil]

/-- … and reading such a column layout as a struct with columns panics. -/
theorem C34_empty_stream_panics (env : Env α) (hcol : env.registered COLUMN = true) (file : Bytes) (names : List Str) (d : DType) (dtypes : List DType) (nl : Bool) (batch : Nat)
    (order : List Message → List Message) (fuel : Nat) (hf : 0 < fuel) :
    readAll env file (.columnL []) (DType.struct names (d :: dtypes) nl).toFb .all batch order fuel = .panic := by
  obtain ⟨k, rfl⟩ : ∃ k, fuel = k + 1 := ⟨fuel - 1, by omega⟩
  simp only [readAll]
  have hdepth : FbLayout.depth (.columnL []) = 0 + 1 := by simp [FbLayout.columnL, FbLayout.depth, FbLayout.depths]
  rw [hdepth]
  have h1 : readLayout env (0 + 1) (.columnL []) ⟨.all, batch⟩ ⟨[], .serialized (DType.struct names (d :: dtypes) nl).toFb .all⟩ =
      .ok (Node.column (.columnL []) ⟨.all, batch⟩ ⟨[], .serialized (DType.struct names (d :: dtypes) nl).toFb .all⟩) := by
    simp only [readLayout, Node.ofFb, FbLayout.columnL, FbLayout.encoding, hcol]
    simp [CHUNKED, FLAT, COLUMN]
    rfl
  rw [h1]
  have h2 : LazyDType.dtype (.serialized (DType.struct names (d :: dtypes) nl).toFb .all) = .ok (.struct names (d :: dtypes) nl) := by
    exact C30_dtype_flatbuffer_round_trip _
  have h3 : expandColumn (α := α) (readLayout env 0) (.columnL []) ⟨.all, batch⟩ ⟨[], .serialized (DType.struct names (d :: dtypes) nl).toFb .all⟩ = .panic := by
    simp only [expandColumn, columnDType, Res.ok_bind, h2, FbLayout.columnL, FbLayout.children, Res.ofOption_some, columnChildren, List.length_nil, List.length_cons]
    rfl
  have h4 : ∀ c, readNext env (k + 1) c (0 + 1) (Node.column (.columnL []) ⟨.all, batch⟩ ⟨[], .serialized (DType.struct names (d :: dtypes) nl).toFb .all⟩) =
      .panic := by
    intro c
    simp only [readNext, Node.next]
    rw [h3]
    rfl
  show Stream.collect _ _ _ _ _ = _
  rw [Stream.collect]
  have h5 : Stream.turn (fun c r => readNext env (k + 1) c (0 + 1) r) order file (Stream.new (Node.column (.columnL []) ⟨.all, batch⟩
      ⟨[], .serialized (DType.struct names (d :: dtypes) nl).toFb .all⟩) none) = .panic := by
    show Res.bind (readNext env (k + 1) _ (0 + 1) _) _ = _
    exact congrArg (fun x => Res.bind x _) (h4 _)
  rw [h5]
  rfl

end Vx.Layout
