import Verif.Lemmas.LayoutFinish
/-!
# C34: a written file can be opened and holds exactly what was written
-/
namespace Vx.Layout
open Ipc (Bytes Codec itemBytes streamOf byteStarts rowStarts frame)

variable {α : Type}

/-! ## Writing -/

/-- A stream of struct arrays of the same `k ≥ 1` columns, at least one of them. -/
structure Shape (k : Nat) (batches : List StructBatch) : Prop where
  columns : 0 < k
  nonempty : batches ≠ []
  fields : ∀ b ∈ batches, b.fields.length = k

theorem write_finished (F : FileCodec) (metaNode : List Nat → Ipc.Node) (dtype : DType) (k : Nat) (batches : List StructBatch) (h : Shape k batches) :
    ∃ w data ls rs, LayoutWriter.new.writeStream F.msgs dtype batches = .ok w ∧
      finalize F metaNode w = .ok (fileOf F data dtype (.columnL ls) (batches.map StructBatch.len).sum) ∧
      Finished F.msgs metaNode data ls (Spec.allColumns k batches) rs ∧ rs.Pairwise Disj ∧ 0 < data.length ∧ ls.length = k := by
  obtain ⟨w, h1, h2, h3, h4⟩ := writeBatches_spec (C := F.msgs) batches ⟨.new, 0, some dtype, []⟩ [] ⟨rfl, trivial, by simp⟩
  rw [mergeAll_nil k batches h.nonempty h.fields] at h4
  obtain ⟨more, ls, rs, metas, e1, e2, e3, e4, e5, e6, e7⟩ := finishColumns_spec (metaNode := metaNode) w.columns w.msgs _ h4.aligned h4.cols
  have hcl : w.columns.length = k := by rw [h4.cols.length]; simp [Spec.allColumns]
  have hne : w.columns ≠ [] := by intro hh; rw [hh] at hcl; have := h.columns; simp at hcl; omega
  refine ⟨w, w.msgs.out ++ more, ls, rs, ?_, ?_, e3, ?_, e7 hne, ?_⟩
  · simpa [LayoutWriter.writeStream, LayoutWriter.new] using h1
  · have h5 := Ipc.writeItem_eq F.msgs ⟨w.msgs.out ++ more⟩ (.dtype dtype) e2
    simp only [Ipc.Spec.writeItem] at h5
    have hb : itemBytes F.msgs (.dtype dtype) = frame F.msgs (Ipc.schemaMsg dtype) := by simp [itemBytes, Ipc.itemMsg, Ipc.itemBody]
    rw [hb] at h5
    have hw1 : (⟨w.msgs.out ++ more ++ frame F.msgs (Ipc.schemaMsg dtype)⟩ : Ipc.Writer).pos % 64 = 0 := by
      have := Ipc.frame_aligned F.msgs (Ipc.schemaMsg dtype)
      simp only [Ipc.Writer.pos, List.length_append] at e2 ⊢; omega
    have hd : w.dtype = some dtype := h3
    have hr : w.rowCount = (batches.map StructBatch.len).sum := by rw [h2]; simp
    simp only [finalize, e1, Res.ok_bind, hd, Res.ofOption_some, h5, writeTable_eq _ _ hw1, hr, Ipc.Writer.pos, List.length_append, fileOf]
  · rw [e4.pairwise_iff (fun h => Disj.symm h), List.pairwise_append]
    exact ⟨h4.disj, e5, fun a ha b hb => Or.inl (Nat.le_trans (h4.cols.mem a ha).2 (e6 b hb).1)⟩
  · have hl : ∀ {ls css rs}, Finished F.msgs metaNode (w.msgs.out ++ more) ls css rs → ls.length = css.length := by
      intro ls css rs h
      induction h with
      | nil => rfl
      | cons _ _ _ _ ih => simp [ih]
    rw [hl e3]; simp [Spec.allColumns]

theorem bytesAt_of_at {C : Codec} {out : Bytes} {p : Nat × Nat} {c : Chunk} (h : At C out p c) :
    Spec.bytesAt out (toRange p) = some (itemBytes C (.batch c.1 c.2)) := by
  have hin : (toRange p).start < (toRange p).stop ∧ (toRange p).stop ≤ out.length := ⟨h.1, h.2.1⟩
  unfold Spec.bytesAt
  rw [if_pos hin, ← h.2.2]
  rfl

/-- Two ranges have no byte in common. -/
def Spec.Disjoint (r s : ByteRange) : Prop := r.stop ≤ s.start ∨ s.stop ≤ r.start

/-- Writing succeeds. The file is data, schema, footer, postscript, end mark; the postscript's offsets are where the schema and the footer begin.
All byte ranges in the layout are non-empty, lie in the data part and are pairwise disjoint. The layout of column `j` has, after a metadata table, one flat
layout for every chunk of column `j` in order, and its range holds that chunk: reading it gives the array tree and the length that were written.
The metadata table of a column holds the chunks' first row numbers. -/
theorem C34_written_ranges (F : FileCodec) (hF : F.Lawful) (metaNode : List Nat → Ipc.Node) (dtype : DType) (k : Nat) (batches : List StructBatch)
    (h : Shape k batches) (ctx : Nat → Bool)
    (hchunks : ∀ b ∈ batches, ∀ f ∈ b.fields, ∀ c ∈ f, Ipc.Fits F.msgs (Ipc.batchMsg c.1 c.2) ∧ ctx c.1.encoding = true) :
    ∃ w data ls, LayoutWriter.new.writeStream F.msgs dtype batches = .ok w ∧
      finalize F metaNode w = .ok (fileOf F data dtype (.columnL ls) (batches.map StructBatch.len).sum) ∧ ls.length = k ∧
      (FbLayout.ranges (.columnL ls)).Pairwise Spec.Disjoint ∧
      (∀ r ∈ FbLayout.ranges (.columnL ls), r.start < r.stop ∧ r.stop ≤ data.length) ∧
      ∀ (j : Nat) (hj : j < ls.length), ∃ (table : FbLayout) (ranges : List ByteRange), ls[j] = .chunkedL (table :: ranges.map FbLayout.flatL) true ∧
        ranges.length = (Spec.columnChunks batches j).length ∧
        (∀ (i : Nat) (hi : i < ranges.length) (hc : i < (Spec.columnChunks batches j).length) (dt : DType), ∃ bytes view,
          Spec.bytesAt (fileOf F data dtype (.columnL ls) (batches.map StructBatch.len).sum) ranges[i] = some bytes ∧
          Ipc.arrayFromBytes F.msgs ctx dt bytes = .ok view ∧ view.len = (Spec.columnChunks batches j)[i].2 ∧
          Ipc.readTree view.buffers view.fb = .ok (Spec.columnChunks batches j)[i].1) ∧
        ∃ (d m : ByteRange), table = .inlineL [.flatL m] d ∧
          Spec.bytesAt (fileOf F data dtype (.columnL ls) (batches.map StructBatch.len).sum) m =
            some (itemBytes F.msgs (.batch (metaNode ((rowStarts 0 (Spec.columnChunks batches j)).take (Spec.columnChunks batches j).length))
              (Spec.columnChunks batches j).length)) := by
  obtain ⟨w, data, ls, rs, h1, h2, h3, h4, h5, h6⟩ := write_finished F metaNode dtype k batches h
  have hr : FbLayout.ranges (.columnL ls) = rs.map toRange := by
    simp only [FbLayout.columnL, FbLayout.ranges, Option.getD_none, List.nil_append]; exact h3.ranges
  refine ⟨w, data, ls, h1, h2, h6, ?_, ?_, ?_⟩
  · rw [hr, List.pairwise_map]; exact h4
  · rw [hr]
    intro r hrm
    simp only [List.mem_map] at hrm
    obtain ⟨p, hp, rfl⟩ := hrm
    exact h3.inside p hp
  · -- every column
    have hall : ∀ (j : Nat), j < k → ∀ c ∈ Spec.columnChunks batches j, Ipc.Fits F.msgs (Ipc.batchMsg c.1 c.2) ∧ ctx c.1.encoding = true := by
      intro j _ c hc
      simp only [Spec.columnChunks, List.mem_flatMap] at hc
      obtain ⟨b, hb, hc⟩ := hc
      cases hf : b.fields[j]? with
      | none => rw [hf] at hc; simp at hc
      | some f => rw [hf] at hc; exact hchunks b hb f (List.mem_of_getElem? hf) c (by simpa using hc)
    obtain ⟨more, hmore⟩ : ∃ more, fileOf F data dtype (.columnL ls) (batches.map StructBatch.len).sum = data ++ more := by
      refine ⟨frame F.msgs (Ipc.schemaMsg dtype) ++ (tableFrame (F.encFooter (.columnL ls) (batches.map StructBatch.len).sum) ++
        (F.encPs data.length (data.length + (frame F.msgs (Ipc.schemaMsg dtype)).length) ++ EOF)), ?_⟩
      simp only [fileOf, List.append_assoc]
    rw [hmore]
    have h3' := h3.mono more
    have hget : ∀ {ls css rs}, Finished F.msgs metaNode (data ++ more) ls css rs → ∀ (j : Nat) (hj : j < ls.length), ∃ (hj' : j < css.length), ∃ rg d m,
        ls[j] = colLayout rg d m ∧ Ats F.msgs (data ++ more) rg css[j] ∧
        At F.msgs (data ++ more) m (metaNode ((rowStarts 0 css[j]).take css[j].length), css[j].length) := by
      intro ls css rs hfin
      induction hfin with
      | nil => intro j hj; simp at hj
      | cons a1 a2 _ _ ih =>
        intro j hj
        cases j with
        | zero => exact ⟨by simp, _, _, _, rfl, a1, a2⟩
        | succ j =>
          obtain ⟨hj', rg, d, m, b1, b2, b3⟩ := ih j (by simpa using hj)
          exact ⟨by simpa using hj', rg, d, m, by simpa using b1, by simpa using b2, by simpa using b3⟩
    intro j hj
    obtain ⟨hj', rg, d, m, g1, g2, g3⟩ := hget h3' j hj
    have hcj : (Spec.allColumns k batches)[j] = Spec.columnChunks batches j := by simp [Spec.allColumns]
    rw [hcj] at g2 g3
    refine ⟨.inlineL [.flatL (toRange m)] (toRange d), rg.map toRange, ?_, ?_, ?_, toRange d, toRange m, rfl, ?_⟩
    · rw [g1, colLayout, List.map_map]; rfl
    · rw [List.length_map, g2.length]
    · intro i hi hc dt
      have hati : ∀ {ps cs}, Ats F.msgs (data ++ more) ps cs → ∀ (i : Nat) (hi : i < ps.length) (hc : i < cs.length), At F.msgs (data ++ more) ps[i] cs[i] := by
        intro ps
        induction ps with
        | nil => intro cs _ i hi; simp at hi
        | cons p ps ih =>
          intro cs hat i hi hc
          cases cs with
          | nil => simp at hc
          | cons c cs =>
            cases i with
            | zero => exact hat.1
            | succ i => exact ih hat.2 i (by simpa using hi) (by simpa using hc)
      have hat := hati g2 i (by simpa using hi) hc
      obtain ⟨hfit, henc⟩ := hall j (by omega) (Spec.columnChunks batches j)[i] (List.getElem_mem hc)
      obtain ⟨v, v1, v2, v3, v4, v5⟩ := Ipc.C33_reads_back F.msgs hF.msgs ctx dt (Spec.columnChunks batches j)[i].1 (Spec.columnChunks batches j)[i].2 hfit henc []
      refine ⟨_, v, ?_, v1, v3, v5⟩
      rw [List.getElem_map, bytesAt_of_at hat]
      simp [itemBytes, Ipc.itemMsg, Ipc.itemBody]
    · have := bytesAt_of_at g3
      simp only at this
      exact this

/-- Writing in several calls with the same dtype is the same as in one; with another dtype it is an error. -/
theorem C34_several_calls (C : Codec) (w : LayoutWriter) (dtype : DType) (xs ys : List StructBatch) :
    ((w.writeStream C dtype xs).bind fun w' => w'.writeStream C dtype ys) = w.writeStream C dtype (xs ++ ys) := by
  have hdt : ∀ (fs : List (List Chunk)) (w w' : LayoutWriter) (i : Nat), w.writeFields C i fs = .ok w' → w'.dtype = w.dtype := by
    intro fs
    induction fs with
    | nil => intro w w' i h; simp only [LayoutWriter.writeFields, Res.ok.injEq] at h; rw [h]
    | cons f fs ih =>
      intro w w' i h
      simp only [LayoutWriter.writeFields, Res.bind_eq_ok] at h
      obtain ⟨w1, h1, h2⟩ := h
      rw [ih w1 w' (i + 1) h2]
      unfold LayoutWriter.writeColumnChunks at h1
      split at h1
      · simp only [Res.bind_eq_ok] at h1
        obtain ⟨p, _, h1⟩ := h1
        simp only [Res.ok.injEq] at h1
        rw [← h1]
      · simp only [Res.bind_eq_ok] at h1
        obtain ⟨n, _, p, _, h1⟩ := h1
        simp only [Res.ok.injEq] at h1
        rw [← h1]
  have key : ∀ (xs : List StructBatch) (w : LayoutWriter), w.dtype = some dtype →
      ((w.writeBatches C xs).bind fun w' => w'.writeStream C dtype ys) = w.writeBatches C (xs ++ ys) := by
    intro xs
    induction xs with
    | nil => intro w hw; simp [LayoutWriter.writeBatches, Res.bind, LayoutWriter.writeStream, hw]
    | cons b bs ih =>
      intro w hw
      simp only [List.cons_append, LayoutWriter.writeBatches]
      cases hf : LayoutWriter.writeFields C { w with rowCount := w.rowCount + b.len } 0 b.fields with
      | ok w1 =>
        simp only [Res.ok_bind]
        exact ih w1 (by rw [hdt _ _ _ _ hf]; exact hw)
      | err => rfl
      | panic => rfl
  unfold LayoutWriter.writeStream
  cases hd : w.dtype with
  | none => exact key xs _ rfl
  | some d =>
    simp only
    split
    · next he => subst he; exact key xs w hd
    · rfl

theorem C34_other_dtype_rejected (C : Codec) (w : LayoutWriter) (d dtype : DType) (h : w.dtype = some d) (hne : d ≠ dtype) (bs : List StructBatch) :
    w.writeStream C dtype bs = .err := by
  simp [LayoutWriter.writeStream, h, hne]

/-! ## Opening -/

/-- How much of the end of a file must be in the first read: schema, footer, postscript and end mark. -/
def tailLength (F : FileCodec) (dtype : DType) (root : FbLayout) (rowCount : Nat) : Nat :=
  (frame F.msgs (Ipc.schemaMsg dtype)).length + (tableFrame (F.encFooter root rowCount)).length + 40

/-- Opening a written file with any initial read size that covers schema and footer finds exactly the layout and the schema that were written. -/
theorem C34_open (F : FileCodec) (hF : F.Lawful) (data : Bytes) (dtype : DType) (root : FbLayout) (rowCount init : Nat) (hdata : 0 < data.length)
    (htables : root.tables < 1000000) (hsize : (fileOf F data dtype root rowCount).length < 2 ^ 64) (hinit : tailLength F dtype root rowCount ≤ init) :
    ∃ d, readFooter F init (fileOf F data dtype root rowCount) (fileOf F data dtype root rowCount).length = .ok d ∧ d.layout F = .ok root ∧
      d.schema F = .ok dtype.toFb ∧ d.schemaOffset = data.length := by
  have hps : F.decPs (F.encPs data.length (data.length + (frame F.msgs (Ipc.schemaMsg dtype)).length)) =
      some (data.length, data.length + (frame F.msgs (Ipc.schemaMsg dtype)).length) ∧
      (F.encPs data.length (data.length + (frame F.msgs (Ipc.schemaMsg dtype)).length)).length = 32 := by
    simp only [fileOf, List.length_append] at hsize
    exact hF.ps _ _ hdata (by omega) (by omega) (by omega)
  obtain ⟨s4, hs4, hS⟩ := frame_split F.msgs (Ipc.schemaMsg dtype)
  obtain ⟨t4, ht4, hT⟩ := frame_split (⟨fun _ => F.encFooter root rowCount, fun _ => none⟩ : Codec) (.page 0 0)
  have hdecS : F.msgs.dec (Ipc.payload F.msgs (Ipc.schemaMsg dtype)) = some (Ipc.schemaMsg dtype) := hF.msgs.dec_enc _ _
  have hdecT : F.decFooter (Ipc.payload (⟨fun _ => F.encFooter root rowCount, fun _ => none⟩ : Codec) (.page 0 0)) = some (some root, rowCount) :=
    hF.footer root rowCount _ htables
  have hEOF : EOF.length = 8 := rfl
  unfold tailLength at hinit
  unfold fileOf at hsize ⊢
  obtain ⟨hps1, hps2⟩ := hps
  generalize hP : F.encPs data.length (data.length + (frame F.msgs (Ipc.schemaMsg dtype)).length) = P at *
  have hTe : tableFrame (F.encFooter root rowCount) = t4 ++ Ipc.payload (⟨fun _ => F.encFooter root rowCount, fun _ => none⟩ : Codec) (.page 0 0) := hT
  rw [hTe] at hinit ⊢
  rw [hS] at hps1 hinit ⊢
  generalize Ipc.payload F.msgs (Ipc.schemaMsg dtype) = S at *
  generalize Ipc.payload (⟨fun _ => F.encFooter root rowCount, fun _ => none⟩ : Codec) (.page 0 0) = T at *
  simp only [List.length_append] at hinit
  have hflen : (data ++ (s4 ++ S) ++ (t4 ++ T) ++ P ++ EOF).length = data.length + (4 + S.length) + (4 + T.length) + 32 + 8 := by
    simp only [List.length_append, hs4, ht4, hps2, hEOF]
  have hle : (data ++ (s4 ++ S) ++ (t4 ++ T) ++ P ++ EOF).length - min init (data ++ (s4 ++ S) ++ (t4 ++ T) ++ P ++ EOF).length ≤ data.length := by
    omega
  generalize hoff : (data ++ (s4 ++ S) ++ (t4 ++ T) ++ P ++ EOF).length - min init (data ++ (s4 ++ S) ++ (t4 ++ T) ++ P ++ EOF).length = off at *
  have hread : off + min init (data ++ (s4 ++ S) ++ (t4 ++ T) ++ P ++ EOF).length = (data ++ (s4 ++ S) ++ (t4 ++ T) ++ P ++ EOF).length := by omega
  have hbuf : ((data ++ (s4 ++ S) ++ (t4 ++ T) ++ P ++ EOF).drop off).take (min init (data ++ (s4 ++ S) ++ (t4 ++ T) ++ P ++ EOF).length) =
      data.drop off ++ (s4 ++ S) ++ (t4 ++ T) ++ P ++ EOF := by
    rw [List.take_of_length_le (by rw [List.length_drop]; omega)]
    simp only [List.append_assoc]
    rw [List.drop_append_of_le_length hle]
  generalize hN : min init (data ++ (s4 ++ S) ++ (t4 ++ T) ++ P ++ EOF).length = N at *
  have hx : (data.drop off).length = data.length - off := by simp
  generalize hxg : data.drop off = x at *
  have hNe : N = x.length + (4 + S.length) + (4 + T.length) + 40 := by omega
  refine ⟨⟨data.length, data.length + (s4 ++ S).length, x ++ (s4 ++ S) ++ (t4 ++ T) ++ P ++ EOF, off⟩, ?_, ?_, ?_, rfl⟩
  · unfold readFooter
    rw [if_neg (by omega)]
    simp only [hN]
    rw [Res.sub_of_le (by omega)]
    simp only [Res.ok_bind, hoff]
    rw [if_pos (by omega), hbuf]
    rw [Res.sub_of_le (by omega)]
    simp only [Res.ok_bind]
    have m1 : sliceBytes (x ++ (s4 ++ S) ++ (t4 ++ T) ++ P ++ EOF) (N - 8 + 4) (x ++ (s4 ++ S) ++ (t4 ++ T) ++ P ++ EOF).length = .ok MAGIC := by
      have := sliceBytes_mid (x ++ (s4 ++ S) ++ (t4 ++ T) ++ P ++ [1, 0, 0, 0]) MAGIC [] (N - 8 + 4) (x ++ (s4 ++ S) ++ (t4 ++ T) ++ P ++ EOF).length
        (by simp [hs4, ht4, hps2]; omega) (by simp [EOF]; try omega)
      simpa [EOF, List.append_assoc] using this
    have m2 : sliceBytes (x ++ (s4 ++ S) ++ (t4 ++ T) ++ P ++ EOF) (N - 8) (N - 8 + 2) = .ok [1, 0] := by
      have := sliceBytes_mid (x ++ (s4 ++ S) ++ (t4 ++ T) ++ P) [1, 0] ([0, 0] ++ MAGIC) (N - 8) (N - 8 + 2)
        (by simp [hs4, ht4, hps2]; omega) (by simp [hs4, ht4, hps2]; omega)
      simpa [EOF, List.append_assoc] using this
    have m3 : sliceBytes (x ++ (s4 ++ S) ++ (t4 ++ T) ++ P ++ EOF) (N - 8 - 32) (N - 8) = .ok P := by
      have := sliceBytes_mid (x ++ (s4 ++ S) ++ (t4 ++ T)) P EOF (N - 8 - 32) (N - 8)
        (by simp [hs4, ht4]; omega) (by simp [hs4, ht4, hps2]; omega)
      simpa [List.append_assoc] using this
    rw [m1]
    simp only [Res.ok_bind, ne_eq, not_true_eq_false, if_false, m2]
    rw [Res.sub_of_le (by omega)]
    simp only [Res.ok_bind, m3, hps1, Res.ofOption_some]
  · unfold Descriptor.layout
    simp only
    rw [Res.sub_of_le (by omega)]
    simp only [Res.ok_bind]
    rw [Res.sub_of_le (by simp [hs4, ht4, hps2, hEOF]; omega)]
    simp only [Res.ok_bind]
    have := sliceBytes_mid (x ++ (s4 ++ S) ++ t4) T (P ++ EOF) (data.length + (s4 ++ S).length - off + 4)
      ((x ++ (s4 ++ S) ++ (t4 ++ T) ++ P ++ EOF).length - 40) (by simp [hs4, ht4]; omega) (by simp [hs4, ht4, hps2, hEOF]; omega)
    have e : x ++ (s4 ++ S) ++ t4 ++ (T ++ (P ++ EOF)) = x ++ (s4 ++ S) ++ (t4 ++ T) ++ P ++ EOF := by simp [List.append_assoc]
    rw [e] at this
    rw [this]
    simp only [Res.ok_bind, hdecT, Res.ofOption_some]
  · unfold Descriptor.schema
    simp only
    rw [Res.sub_of_le (by omega)]
    simp only [Res.ok_bind]
    rw [Res.sub_of_le (by omega)]
    simp only [Res.ok_bind]
    have := sliceBytes_mid (x ++ s4) S ((t4 ++ T) ++ P ++ EOF) (data.length - off + 4)
      (data.length + (s4 ++ S).length - off) (by simp [hs4]; omega) (by simp [hs4]; omega)
    have e : x ++ s4 ++ (S ++ ((t4 ++ T) ++ P ++ EOF)) = x ++ (s4 ++ S) ++ (t4 ++ T) ++ P ++ EOF := by simp [List.append_assoc]
    rw [e] at this
    rw [this]
    simp only [Res.ok_bind, hdecS, Res.ofOption_some, Ipc.schemaMsg]

/-! ## Malformed files -/

/-- Files shorter than the end mark are rejected. -/
theorem C34_too_short (F : FileCodec) (init : Nat) (file : Bytes) (size : Nat) (h : size < 8) : readFooter F init file size = .err := by
  simp [readFooter, h]

theorem readFooter_tail (F : FileCodec) (init : Nat) (file : Bytes) (h8 : 8 ≤ file.length) (hi : 8 ≤ init) :
    readFooter F init file file.length =
      (let N := min init file.length
       let buf := file.drop (file.length - N)
       if file.drop (file.length - 4) ≠ MAGIC then .err else
       if (file.drop (file.length - 8)).take 2 ≠ [1, 0] then .err else do
       let psLoc ← Res.sub (N - 8) 32
       let psBytes ← sliceBytes buf psLoc (N - 8)
       let ps ← Res.ofOption (F.decPs psBytes)
       .ok ⟨ps.1, ps.2, buf, file.length - N⟩) := by
  simp only
  unfold readFooter
  rw [if_neg (by omega)]
  simp only
  rw [Res.sub_of_le (by omega)]
  simp only [Res.ok_bind]
  rw [if_pos (by omega)]
  rw [List.take_of_length_le (by rw [List.length_drop]; omega), Res.sub_of_le (by omega)]
  simp only [Res.ok_bind]
  have m1 : sliceBytes (file.drop (file.length - min init file.length)) (min init file.length - 8 + 4)
      (file.drop (file.length - min init file.length)).length = .ok (file.drop (file.length - 4)) := by
    unfold sliceBytes
    rw [if_pos ⟨by rw [List.length_drop]; omega, Nat.le_refl _⟩, List.take_of_length_le (by simp; try omega), List.drop_drop]
    congr 2; omega
  have m2 : sliceBytes (file.drop (file.length - min init file.length)) (min init file.length - 8) (min init file.length - 8 + 2) =
      .ok ((file.drop (file.length - 8)).take 2) := by
    unfold sliceBytes
    rw [if_pos ⟨by omega, by rw [List.length_drop]; omega⟩, List.drop_drop]
    congr 2
    · omega
    · congr 1; omega
  rw [m1]
  simp only [Res.ok_bind, m2]

/-- Files that do not end in the magic bytes are rejected, whatever their size. -/
theorem C34_bad_magic (F : FileCodec) (init : Nat) (file : Bytes) (hi : 8 ≤ init) (h : file.drop (file.length - 4) ≠ MAGIC) :
    readFooter F init file file.length = .err := by
  by_cases h8 : file.length < 8
  · exact C34_too_short F init file _ h8
  · rw [readFooter_tail F init file (by omega) hi]; simp [h]

/-- Files with another version are rejected. -/
theorem C34_bad_version (F : FileCodec) (init : Nat) (file : Bytes) (hi : 8 ≤ init) (h : (file.drop (file.length - 8)).take 2 ≠ [1, 0]) :
    readFooter F init file file.length = .err := by
  by_cases h8 : file.length < 8
  · exact C34_too_short F init file _ h8
  · rw [readFooter_tail F init file (by omega) hi]
    simp only
    split
    · rfl
    · rfl

/-- Reading the footer of a file of at least 40 bytes never panics. -/
theorem C34_no_panic_partial (F : FileCodec) (init : Nat) (file : Bytes) (hi : 40 ≤ init) (h : file.length < 8 ∨ 40 ≤ file.length) :
    readFooter F init file file.length ≠ .panic := by
  rcases h with h | h
  · rw [C34_too_short F init file _ h]; simp
  · rw [readFooter_tail F init file (by omega) (by omega)]
    simp only
    split
    · simp
    · split
      · simp
      · rw [Res.sub_of_le (by omega)]
        simp only [Res.ok_bind]
        unfold sliceBytes
        rw [if_pos ⟨by omega, by rw [List.length_drop]; omega⟩]
        simp only [Res.ok_bind]
        cases F.decPs _ <;> simp [Res.ofOption]

/-- What is missing: a file of 8 to 39 bytes with a valid end mark makes `read_footer` panic (the postscript would begin before the file). -/
theorem C34_short_file_panics (F : FileCodec) (pre : Bytes) (h : pre.length < 32) :
    readFooter F INITIAL_READ_SIZE (pre ++ EOF) (pre ++ EOF).length = .panic := by
  have hl : (pre ++ EOF).length = pre.length + 8 := by simp [EOF, MAGIC]
  rw [readFooter_tail F _ _ (by omega) (by simp [INITIAL_READ_SIZE])]
  simp only
  have e1 : (pre ++ EOF).drop ((pre ++ EOF).length - 4) = MAGIC := by
    rw [hl, show pre ++ EOF = (pre ++ [1, 0, 0, 0]) ++ MAGIC by simp [EOF]]
    have : pre.length + 8 - 4 = (pre ++ ([1, 0, 0, 0] : Bytes)).length := by simp
    rw [this, List.drop_left]
  have e2 : ((pre ++ EOF).drop ((pre ++ EOF).length - 8)).take 2 = [1, 0] := by
    rw [hl, Nat.add_sub_cancel, List.drop_left]; rfl
  rw [e1, e2]
  simp only [ne_eq, not_true_eq_false, if_false]
  have : min INITIAL_READ_SIZE (pre ++ EOF).length - 8 < 32 := by omega
  unfold Res.sub
  rw [if_neg (by omega)]
  rfl

/-- And a descriptor whose schema lies before the initial read (schema and footer longer than the initial read) makes the reader panic. -/
theorem C34_schema_outside_initial_read_panics (F : FileCodec) (d : Descriptor) (h : d.schemaOffset < d.initialReadOffset) :
    d.schema F = .panic := by
  unfold Descriptor.schema Res.sub
  rw [if_neg (by omega)]
  rfl

end Vx.Layout
