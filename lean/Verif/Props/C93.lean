import Verif.Lemmas.WriteColumns
import Verif.Props.C34RoundTrip
/-!
# C93: a file of arrays reads back as the rows of the arrays

C34 ends at serialised trees (`meaning` is any function of them) and C92 starts from trees; here they meet: an array of any encodings, built by
the constructors, written with `write_array_columns` and read from the file.
-/
namespace Vx.Own
open Layout (Rows Row structRow FileCodec StructBatch LayoutWriter TableOk EnvOk finalize readFile)

variable {α : Type}

/-- An array that can be written: a struct array or chunks that are struct arrays, with columns; every array stored for a column survives its own
metadata and buffer, has a registered encoding and is small enough for a message; limits as in C34. -/
structure Spec.Storable (F : FileCodec) (M : OwnCodec) (ctx : Nat → Bool) (a : Arr) (names : List Str) (dtypes : List DType) (nl : Bool) : Prop where
  dtype : a.dtype = .struct names dtypes nl
  columns : 0 < dtypes.length ∧ dtypes.length ≤ 2 ^ 16
  nonempty : Spec.parts a ≠ []
  structs : ∀ p ∈ Spec.parts a, ∃ v, p.enc = .struct v
  stored : ∀ j < dtypes.length, ∀ c ∈ Spec.columnArrays a j, Keeps M c ∧ Ipc.Fits F.msgs (Ipc.batchMsg (toIpc M c) c.len) ∧ ctx (toIpc M c).encoding = true
  perColumn : ∀ j < dtypes.length, (Spec.columnArrays a j).length < 2 ^ 16
  tables : 1 + ((List.range dtypes.length).map fun j => 3 + (Spec.columnArrays a j).length).sum < 1000000

/-- No struct row of the table is null. -/
def Spec.NoNullRows (a : Arr) : Prop := ∀ p ∈ Spec.parts a, p.enc = .struct .nonNullable ∨ p.enc = .struct .allValid

/-- The rows of the struct arrays' fields side by side, whatever the validity of the struct arrays. -/
def Spec.fieldRows (rows : Arr → Rows α) (names : List Str) (a : Arr) : Rows α :=
  (Spec.parts a).flatMap fun p => (List.range p.len).map (structRow (names.zip (p.children.map rows)))

theorem fieldRows_eq {C : Compute} {rows : Arr → Rows α} (hR : Meaning C rows) {a : Arr} (h : Built C a) (hn : Spec.NoNullRows a) {names : List Str}
    {dtypes : List DType} {nl : Bool} (hd : a.dtype = .struct names dtypes nl) : Spec.fieldRows rows names a = rows a := by
  rw [hR.chunked a h, Spec.fieldRows]
  apply flatMap_congr'
  intro p hp
  obtain ⟨p1, p2⟩ := parts_built h p hp
  rcases hn p hp with e | e
  · exact (hR.struct p _ names dtypes nl p2 e (.inl rfl) (p1.trans hd)).symm
  · exact (hR.struct p _ names dtypes nl p2 e (.inr rfl) (p1.trans hd)).symm

section
variable {C : Compute} {F : FileCodec} {M : OwnCodec} {ctx : Nat → Bool} {a : Arr} {names : List Str} {dtypes : List DType} {nl : Bool}

theorem part_facts (h : Built C a) (hs : Spec.Storable F M ctx a names dtypes nl) : ∀ p ∈ Spec.parts a, Built C p ∧
    (fieldsOf p).map Arr.dtype = dtypes ∧ names.length = dtypes.length ∧ (∀ f ∈ fieldsOf p, f.len = p.len ∧ Built C f) ∧
    (∀ j, j < dtypes.length → p.children[j]? = (fieldsOf p)[j]?) ∧ (∃ v, p.enc = .struct v) := by
  intro p hp
  obtain ⟨p1, p2⟩ := parts_built h p hp
  obtain ⟨v, hv⟩ := hs.structs p hp
  obtain ⟨_, s2, names', nl', s3, s4, s5⟩ := structFields_eq p2 hv
  rw [p1, hs.dtype] at s3
  simp only [DType.struct.injEq] at s3
  obtain ⟨rfl, s3, rfl⟩ := s3
  refine ⟨p2, s3.symm, ?_, s2, ?_, v, hv⟩
  · rw [s4, s3, List.length_map]
  · intro j hj; exact s5 j (by rw [s3, List.length_map] at hj; exact hj)

theorem columnChunks_eq (h : Built C a) (hs : Spec.Storable F M ctx a names dtypes nl) (j : Nat) (hj : j < dtypes.length) :
    Layout.Spec.columnChunks ((Spec.parts a).map (batchSpec M)) j = (Spec.columnArrays a j).map fun c => (toIpc M c, c.len) := by
  unfold Layout.Spec.columnChunks Spec.columnArrays
  rw [List.flatMap_map, List.map_flatMap]
  apply flatMap_congr'
  intro p hp
  obtain ⟨_, _, _, _, p5, _⟩ := part_facts h hs p hp
  simp only [batchSpec, p5 j hj, List.getElem?_map]
  cases (fieldsOf p)[j]? <;> rfl

theorem table_ok (h : Built C a) (hs : Spec.Storable F M ctx a names dtypes nl) : TableOk F ctx names dtypes ((Spec.parts a).map (batchSpec M)) where
  shape := by
    refine ⟨hs.columns.1, by simpa using hs.nonempty, ?_⟩
    intro b hb
    simp only [List.mem_map] at hb
    obtain ⟨p, hp, rfl⟩ := hb
    obtain ⟨_, p2, _⟩ := part_facts h hs p hp
    simp only [batchSpec, List.length_map, ← p2]
  names := by
    obtain ⟨p, hp⟩ := List.exists_mem_of_ne_nil _ hs.nonempty
    exact (part_facts h hs p hp).2.2.1
  sums := by
    intro b hb f hf
    simp only [List.mem_map] at hb
    obtain ⟨p, hp, rfl⟩ := hb
    obtain ⟨_, _, _, p4, _⟩ := part_facts h hs p hp
    simp only [batchSpec, List.mem_map] at hf
    obtain ⟨x, hx, rfl⟩ := hf
    rw [List.map_map]
    exact (parts_len (p4 x hx).2).trans (p4 x hx).1
  chunks := by
    intro b hb f hf c hc
    simp only [List.mem_map] at hb
    obtain ⟨p, hp, rfl⟩ := hb
    obtain ⟨_, p2, _, p4, p5, _⟩ := part_facts h hs p hp
    simp only [batchSpec, List.mem_map] at hf
    obtain ⟨x, hx, rfl⟩ := hf
    simp only [List.mem_map] at hc
    obtain ⟨y, hy, rfl⟩ := hc
    obtain ⟨j, hj, hx'⟩ := List.getElem_of_mem hx
    have hjd : j < dtypes.length := by rw [← p2, List.length_map]; exact hj
    refine (hs.stored j hjd y ?_).2
    simp only [Spec.columnArrays, List.mem_flatMap]
    refine ⟨p, hp, ?_⟩
    rw [p5 j hjd, List.getElem?_eq_getElem hj, hx']
    exact hy
  columns := hs.columns.2
  perColumn := by
    intro j hj
    rw [columnChunks_eq h hs j hj, List.length_map]
    exact hs.perColumn j hj
  tables := by
    have : (List.range dtypes.length).map (fun j => 3 + (Layout.Spec.columnChunks ((Spec.parts a).map (batchSpec M)) j).length) =
        (List.range dtypes.length).map fun j => 3 + (Spec.columnArrays a j).length := by
      apply List.map_congr_left
      intro j hj
      rw [columnChunks_eq h hs j (List.mem_range.mp hj), List.length_map]
    rw [this]; exact hs.tables

theorem columnRows_eq (hM : M.Lawful) {rows : Arr → Rows α} (hR : Meaning C rows) (h : Built C a) (hs : Spec.Storable F M ctx a names dtypes nl)
    (j : Nat) (hj : j < dtypes.length) :
    Layout.Spec.columnRows (viewRows M rows) ((Spec.parts a).map (batchSpec M)) j (dtypes.getD j .null) =
      (Spec.parts a).flatMap fun p => ((p.children[j]?).map rows).getD [] := by
  unfold Layout.Spec.columnRows
  rw [columnChunks_eq h hs j hj, List.flatMap_map]
  have h1 : (Spec.columnArrays a j).flatMap (fun c => viewRows M rows (dtypes.getD j .null) (toIpc M c, c.len).2 (toIpc M c, c.len).1) =
      (Spec.columnArrays a j).flatMap rows := by
    apply flatMap_congr'
    intro c hc
    have hst := hs.stored j hj c hc
    simp only [Spec.columnArrays, List.mem_flatMap] at hc
    obtain ⟨p, hp, hc⟩ := hc
    obtain ⟨_, p2, _, p4, p5, _⟩ := part_facts h hs p hp
    have hjf : j < (fieldsOf p).length := by rw [← p2, List.length_map] at hj; exact hj
    rw [p5 j hj, List.getElem?_eq_getElem hjf] at hc
    have hfm : (fieldsOf p)[j] ∈ fieldsOf p := List.getElem_mem hjf
    obtain ⟨c1, c2⟩ := parts_built (p4 _ hfm).2 c (by simpa using hc)
    have hd : dtypes.getD j .null = c.dtype := by
      rw [c1, List.getD_eq_getElem?_getD]
      have : dtypes[j]? = some ((fieldsOf p)[j]).dtype := by rw [← p2, List.getElem?_map, List.getElem?_eq_getElem hjf]; rfl
      rw [this]; rfl
    rw [hd]
    exact viewRows_eq hM hR c2 hst.1
  rw [h1, Spec.columnArrays, List.flatMap_assoc]
  apply flatMap_congr'
  intro p hp
  obtain ⟨_, p2, _, p4, p5, _⟩ := part_facts h hs p hp
  have hjf : j < (fieldsOf p).length := by rw [← p2, List.length_map] at hj; exact hj
  rw [p5 j hj, List.getElem?_eq_getElem hjf]
  exact (hR.chunked _ (p4 _ (List.getElem_mem hjf)).2).symm

theorem fieldRows_select (hM : M.Lawful) {rows : Arr → Rows α} (hR : Meaning C rows) (h : Built C a) (hs : Spec.Storable F M ctx a names dtypes nl)
    (sel : List Nat) (hsel : ∀ i ∈ sel, i < dtypes.length) :
    (List.range a.len).map (structRow (sel.map (Layout.Spec.projected (viewRows M rows) names dtypes ((Spec.parts a).map (batchSpec M))))) =
      (Spec.fieldRows rows names a).map (Spec.pick sel) := by
  have e1 : sel.map (Layout.Spec.projected (viewRows M rows) names dtypes ((Spec.parts a).map (batchSpec M))) =
      sel.map fun i => (names.getD i [], (Spec.parts a).flatMap fun p => ((p.children[i]?).map rows).getD []) := by
    apply List.map_congr_left
    intro i hi
    simp only [Layout.Spec.projected, columnRows_eq hM hR h hs i (hsel i hi)]
  have hlen : ∀ p ∈ Spec.parts a, ∀ i < dtypes.length, (((p.children[i]?).map rows).getD []).length = p.len := by
    intro p hp i hi
    obtain ⟨_, p2, _, p4, p5, _⟩ := part_facts h hs p hp
    have hjf : i < (fieldsOf p).length := by rw [← p2, List.length_map] at hi; exact hi
    rw [p5 i hi, List.getElem?_eq_getElem hjf]
    have := p4 _ (List.getElem_mem hjf)
    exact (hR.length _ this.2).trans this.1
  rw [e1, ← parts_len h, rows_of_columns sel (fun i => names.getD i []) (fun i p => ((p.children[i]?).map rows).getD []) Arr.len (Spec.parts a)
    (fun p hp i hi => hlen p hp i (hsel i hi))]
  rw [Spec.fieldRows, List.map_flatMap]
  apply flatMap_congr'
  intro p hp
  obtain ⟨_, p2, p3, p4, p5, _⟩ := part_facts h hs p hp
  have hz : names.zip (p.children.map rows) = (List.range dtypes.length).map fun i => (names.getD i [], ((p.children[i]?).map rows).getD []) := by
    have hcl : dtypes.length ≤ p.children.length := by
      obtain ⟨k, hk⟩ : ∃ k, dtypes.length = k + 1 := ⟨dtypes.length - 1, by have := hs.columns.1; omega⟩
      have := p5 k (by omega)
      have hkf : k < (fieldsOf p).length := by rw [← p2, List.length_map] at hk; omega
      rw [List.getElem?_eq_getElem hkf] at this
      obtain ⟨h1, _⟩ := List.getElem?_eq_some_iff.mp this
      omega
    apply List.ext_getElem
    · simp only [List.length_zip, List.length_map, List.length_range]; omega
    · intro i hi1 hi2
      simp only [List.length_map, List.length_range] at hi2
      have hic : i < p.children.length := by omega
      have hin : i < names.length := by omega
      simp [hic, hin]
  rw [hz, List.map_map]
  apply List.map_congr_left
  intro k hk
  exact (pick_structRow dtypes.length k sel hsel _ _ (fun i hi => by rw [hlen p hp i hi]; exact List.mem_range.mp hk)).symm

end

/-- Whatever the validity of its struct arrays, a table is written, and read back as the rows of its fields: with all columns, and with any
projection (`sel` the positions of the requested columns) the requested fields of these rows, with the dtype of exactly these columns. -/
theorem C93_fields {C : Compute} (hC : C.Lawful) {M : OwnCodec} (hM : M.Lawful) {rows : Arr → Rows α} (hR : Meaning C rows) (F : FileCodec) (hF : F.Lawful)
    (metaNode : List Nat → Ipc.Node) (ctx : Nat → Bool) (env : Layout.Env α) (hE : EnvOk env F ctx (viewRows M rows)) (a : Arr) (h : Built C a)
    (names : List Str) (dtypes : List DType) (nl : Bool) (hs : Spec.Storable F M ctx a names dtypes nl) :
    ∃ w data ls file, writeArrayColumns C M F.msgs LayoutWriter.new a = .ok w ∧ finalize F metaNode w = .ok file ∧
      file = Layout.fileOf F data a.dtype (.columnL ls) a.len ∧
      (file.length < 2 ^ 64 → ∀ (init : Nat), Layout.tailLength F a.dtype (.columnL ls) a.len ≤ init → ∀ (batch : Nat), 0 < batch → ∀ (order : List Layout.Message → List Layout.Message), (∀ l, (order l).Perm l) →
        (∃ bs N', (∀ fuel, N' ≤ fuel → readFile F env init file file.length .all batch order fuel = .ok (a.dtype, bs)) ∧
          bs.flatten = Spec.fieldRows rows names a) ∧
        ∀ (fields : List RowExpr.Field) (sel : List Nat), sel ≠ [] → fields.map (Layout.Spec.position names) = sel.map some →
          ∃ bs N', (∀ fuel, N' ≤ fuel → readFile F env init file file.length (.flat fields) batch order fuel =
              .ok (.struct (sel.map fun i => names.getD i []) (sel.map fun i => dtypes.getD i .null) nl, bs)) ∧
            bs.flatten = (Spec.fieldRows rows names a).map (Spec.pick sel)) := by
  have hT := table_ok h hs
  obtain ⟨w, data, ls, file, h1, h2, h3, h4⟩ := Layout.C34_round_trip F hF metaNode ctx (viewRows M rows) env hE names dtypes nl _ hT
  have hsum : (((Spec.parts a).map (batchSpec M)).map StructBatch.len).sum = a.len := by
    rw [List.map_map, ← parts_len h]; rfl
  have hw : writeArrayColumns C M F.msgs LayoutWriter.new a = .ok w := by
    have hb : Res.mapM (batchOf C M) (Spec.parts a) = .ok ((Spec.parts a).map (batchSpec M)) := Res.mapM_ok (fun p hp => by
      obtain ⟨p1, _, _, _, _, v, hv⟩ := part_facts h hs p hp
      exact batchOf_eq hC M p1 hv)
    simp only [writeArrayColumns, streamOf_eq hC h, hb, Res.ok_bind, hs.dtype, h1]
  rw [hsum] at h3 h4
  rw [← hs.dtype] at h3 h4
  refine ⟨w, data, ls, file, hw, h2, h3, ?_⟩
  intro hsize init hinit batch hbt order hord
  obtain ⟨r1, r2⟩ := h4 hsize init hinit batch hbt order hord
  have hid : (Spec.fieldRows rows names a).map (Spec.pick (List.range dtypes.length)) = Spec.fieldRows rows names a := by
    have h0 := fieldRows_select hM hR h hs (List.range dtypes.length) (fun i hi => List.mem_range.mp hi)
    have : ∀ r ∈ Spec.fieldRows rows names a, Spec.pick (List.range dtypes.length) r = r := by
      intro r hr
      simp only [Spec.fieldRows, List.mem_flatMap, List.mem_map] at hr
      obtain ⟨p, hp, k, hk, rfl⟩ := hr
      simp only [structRow, Spec.pick]
      congr 1
      have hle : ((names.zip (p.children.map rows)).filterMap fun c => (c.2[k]?).map fun v => (c.1, v)).length ≤ dtypes.length := by
        refine Nat.le_trans (List.length_filterMap_le ..) ?_
        simp only [List.length_zip]
        have := (part_facts h hs p hp).2.2.1
        omega
      generalize ((names.zip (p.children.map rows)).filterMap fun c => (c.2[k]?).map fun v => (c.1, v)) = l at hle
      exact range_filterMap_get l _ hle
    exact (List.map_congr_left this).trans (List.map_id _)
  refine ⟨?_, ?_⟩
  · obtain ⟨bs, N', b1, b2⟩ := r1
    refine ⟨bs, N', fun fuel hf => b1 fuel hf, ?_⟩
    rw [b2, fieldRows_select hM hR h hs _ (fun i hi => List.mem_range.mp hi), hid]
  · intro fields sel hne hpos
    obtain ⟨bs, N', b1, b2⟩ := r2 fields sel hne hpos
    refine ⟨bs, N', b1, ?_⟩
    have hsel : ∀ i ∈ sel, i < dtypes.length := by
      intro i hi
      have : some i ∈ fields.map (Layout.Spec.position names) := by rw [hpos]; exact List.mem_map.mpr ⟨i, hi, rfl⟩
      simp only [List.mem_map] at this
      obtain ⟨f, _, hf⟩ := this
      rw [← hT.names]
      exact (Layout.position_resolve hf).2
    rw [b2, fieldRows_select hM hR h hs sel hsel]

/-- A table without null rows reads back as its own rows. -/
theorem C93_round_trip {C : Compute} (hC : C.Lawful) {M : OwnCodec} (hM : M.Lawful) {rows : Arr → Rows α} (hR : Meaning C rows) (F : FileCodec) (hF : F.Lawful)
    (metaNode : List Nat → Ipc.Node) (ctx : Nat → Bool) (env : Layout.Env α) (hE : EnvOk env F ctx (viewRows M rows)) (a : Arr) (h : Built C a)
    (hn : Spec.NoNullRows a) (names : List Str) (dtypes : List DType) (nl : Bool) (hs : Spec.Storable F M ctx a names dtypes nl) :
    ∃ w data ls file, writeArrayColumns C M F.msgs LayoutWriter.new a = .ok w ∧ finalize F metaNode w = .ok file ∧
      file = Layout.fileOf F data a.dtype (.columnL ls) a.len ∧
      (file.length < 2 ^ 64 → ∀ (init : Nat), Layout.tailLength F a.dtype (.columnL ls) a.len ≤ init → ∀ (batch : Nat), 0 < batch → ∀ (order : List Layout.Message → List Layout.Message), (∀ l, (order l).Perm l) →
        (∃ bs N', (∀ fuel, N' ≤ fuel → readFile F env init file file.length .all batch order fuel = .ok (a.dtype, bs)) ∧ bs.flatten = rows a) ∧
        ∀ (fields : List RowExpr.Field) (sel : List Nat), sel ≠ [] → fields.map (Layout.Spec.position names) = sel.map some →
          ∃ bs N', (∀ fuel, N' ≤ fuel → readFile F env init file file.length (.flat fields) batch order fuel =
              .ok (.struct (sel.map fun i => names.getD i []) (sel.map fun i => dtypes.getD i .null) nl, bs)) ∧
            bs.flatten = (rows a).map (Spec.pick sel)) := by
  rw [← fieldRows_eq hR h hn hs.dtype]
  exact C93_fields hC hM hR F hF metaNode ctx env hE a h names dtypes nl hs

/-- The validity of the struct arrays themselves is not written: two struct arrays of the same fields with different null rows (both nullable, so of
the same dtype) become the same file. -/
theorem C34_null_rows_lost (C : Compute) (M : OwnCodec) (msgs : Ipc.Codec) (w : LayoutWriter) (names : List Str) (fields : List Arr) (len : Nat) (v v' : Valid)
    (hv : v.nullable = true) (hv' : v'.nullable = true) (a b : Arr) (ha : (Call.struct names fields len v).run C = .ok a)
    (hb : (Call.struct names fields len v').run C = .ok b) : writeArrayColumns C M msgs w a = writeArrayColumns C M msgs w b := by
  have key : ∀ (v : Valid) (a : Arr), v.nullable = true → (Call.struct names fields len v).run C = .ok a →
      streamOf C a = .ok [a] ∧ structFields a = .ok fields ∧ a.len = len ∧ a.dtype = .struct names (fields.map Arr.dtype) true := by
    intro v a hv ha
    simp only [Call.run, Res.bind_eq_ok] at ha
    obtain ⟨_, _, _, g2, m, _, ha⟩ := ha
    cases ha
    have g2 := guard_ok g2
    simp only [List.all_eq_true, beq_iff_eq] at g2
    refine ⟨rfl, ?_, rfl, by rw [dtype_mk, hv]⟩
    simp only [structFields, enc_mk, dtype_mk, len_mk]
    rw [fieldSlots_eq _ _ _ g2]
    exact mapM_child_prefix [] fields v.intoArray _ rfl
  obtain ⟨a1, a2, a3, a4⟩ := key v a hv ha
  obtain ⟨b1, b2, b3, b4⟩ := key v' b hv' hb
  simp only [writeArrayColumns, a1, b1, Res.ok_bind, Res.mapM_cons, Res.mapM_nil, batchOf, a2, b2, a3, b3, a4, b4]

end Vx.Own
