import Verif.Props.C34RoundTrip
import Verif.Props.C34Example
import Verif.Model.FileScan
/-!
# C101: an interrupted write is not taken for a file

A write can stop at any byte. What is left in the sink is then a prefix of the file that would have been written (`C101_append_only`). The file carries no
checksum and no length: the only thing that tells a complete file from a piece of one is the end mark.
-/
namespace Vx.Layout
open Ipc (Bytes Codec itemBytes frame)

variable {α : Type}

/-! ## Specification -/

namespace Crash

/-- The bytes `bs` have an end mark at position `i`: a version number 1 (two bytes, little endian), two bytes nobody reads, and "VRTX". -/
def Mark (bs : Bytes) (i : Nat) : Prop :=
  bs[i]? = some 1 ∧ bs[i + 1]? = some 0 ∧ bs[i + 4]? = some 86 ∧ bs[i + 5]? = some 82 ∧ bs[i + 6]? = some 84 ∧ bs[i + 7]? = some 88

/-- What a crash leaves: the first `k` bytes. -/
def left (bs : Bytes) (k : Nat) : Bytes := bs.take k

/-- What a crash can leave on a file system that had already extended the file: the first `k` bytes, then `z` zero bytes. -/
def torn (bs : Bytes) (k z : Nat) : Bytes := bs.take k ++ List.replicate z 0

end Crash
open Crash

/-! ## The sink is only appended to -/

theorem writeMessage_prefix {C : Codec} {w w' : Ipc.Writer} {m : Ipc.FbMsg} (h : w.writeMessage C m = .ok w') : w.out <+: w'.out := by
  simp only [Ipc.Writer.writeMessage, Res.bind_eq_ok] at h
  obtain ⟨l, _, p, _, z, _, h⟩ := h
  split at h
  · have := Res.ok.inj h
    subst this
    simp only [Ipc.Writer.writeAll, List.append_assoc]
    exact List.prefix_append _ _
  · exact absurd h (by simp)

theorem writeBuffers_prefix : ∀ (bs : List Bytes) (ends : List Nat) (w w' : Ipc.Writer) (cur : Nat), w.writeBuffers cur bs ends = .ok w' → w.out <+: w'.out
  | [], [], w, w', _, h => by have := Res.ok.inj h; subst this; exact List.prefix_refl _
  | b :: bs, e :: ends, w, w', cur, h => by
    simp only [Ipc.Writer.writeBuffers, Res.bind_eq_ok] at h
    obtain ⟨p, _, pad, _, z, _, h⟩ := h
    have := writeBuffers_prefix bs ends _ w' e h
    refine List.IsPrefix.trans ?_ this
    simp only [Ipc.Writer.writeAll, List.append_assoc]
    exact List.prefix_append _ _
  | [], _ :: _, _, _, _, h => by simp [Ipc.Writer.writeBuffers] at h
  | _ :: _, [], _, _, _, h => by simp [Ipc.Writer.writeBuffers] at h

theorem writeBatch_prefix {C : Codec} {w w' : Ipc.Writer} {n : Ipc.Node} {l : Nat} (h : w.writeBatch C n l = .ok w') : w.out <+: w'.out := by
  simp only [Ipc.Writer.writeBatch, Res.bind_eq_ok] at h
  obtain ⟨w1, h1, h2⟩ := h
  exact (writeMessage_prefix h1).trans (writeBuffers_prefix _ _ _ _ _ h2)

theorem writeChunks_prefix {C : Codec} : ∀ (cs : List (Ipc.Node × Nat)) (w : Ipc.Writer) (r : Nat) (p), w.writeChunks C r cs = .ok p → w.out <+: p.1.out
  | [], w, r, p, h => by have := Res.ok.inj h; subst this; exact List.prefix_refl _
  | (n, l) :: cs, w, r, p, h => by
    simp only [Ipc.Writer.writeChunks, Res.bind_eq_ok] at h
    obtain ⟨w1, h1, q, h2, h⟩ := h
    have := Res.ok.inj h
    subst this
    exact (writeBatch_prefix h1).trans (writeChunks_prefix cs w1 _ q h2)

theorem writeColumnChunks_prefix {C : Codec} {w w' : LayoutWriter} {cs : List (Ipc.Node × Nat)} {i : Nat} (h : w.writeColumnChunks C cs i = .ok w') :
    w.msgs.out <+: w'.msgs.out := by
  unfold LayoutWriter.writeColumnChunks at h
  split at h
  · simp only [Res.bind_eq_ok] at h
    obtain ⟨p, h1, h⟩ := h
    have := Res.ok.inj h
    subst this
    exact writeChunks_prefix _ _ _ _ h1
  · simp only [Res.bind_eq_ok] at h
    obtain ⟨n, _, p, h1, h⟩ := h
    have := Res.ok.inj h
    subst this
    exact writeChunks_prefix _ _ _ _ h1

theorem writeFields_prefix {C : Codec} : ∀ (fs : List (List (Ipc.Node × Nat))) (w w' : LayoutWriter) (i : Nat), w.writeFields C i fs = .ok w' →
    w.msgs.out <+: w'.msgs.out
  | [], w, w', i, h => by have := Res.ok.inj h; subst this; exact List.prefix_refl _
  | f :: fs, w, w', i, h => by
    simp only [LayoutWriter.writeFields, Res.bind_eq_ok] at h
    obtain ⟨w1, h1, h2⟩ := h
    exact (writeColumnChunks_prefix h1).trans (writeFields_prefix fs w1 w' _ h2)

theorem writeBatches_prefix {C : Codec} : ∀ (bs : List StructBatch) (w w' : LayoutWriter), w.writeBatches C bs = .ok w' → w.msgs.out <+: w'.msgs.out
  | [], w, w', h => by have := Res.ok.inj h; subst this; exact List.prefix_refl _
  | b :: bs, w, w', h => by
    simp only [LayoutWriter.writeBatches, Res.bind_eq_ok] at h
    obtain ⟨w1, h1, h2⟩ := h
    have := writeFields_prefix _ _ _ _ h1
    exact List.IsPrefix.trans this (writeBatches_prefix bs w1 w' h2)

theorem finishColumn_prefix {C : Codec} {metaNode : List Nat → Ipc.Node} {w : Ipc.Writer} {bo : BatchOffsets} {p} (h : finishColumn C metaNode w bo = .ok p) :
    w.out <+: p.1.out := by
  simp only [finishColumn, Res.bind_eq_ok] at h
  obtain ⟨c, _, l, _, h⟩ := h
  split at h
  · simp only [Res.bind_eq_ok] at h
    obtain ⟨w1, h1, w2, h2, m, _, d, _, h⟩ := h
    have := Res.ok.inj h
    subst this
    exact (writeMessage_prefix h1).trans (writeBatch_prefix h2)
  · exact absurd h (by simp)

theorem finishColumns_prefix {C : Codec} {metaNode : List Nat → Ipc.Node} : ∀ (bos : List BatchOffsets) (w : Ipc.Writer) (p),
    finishColumns C metaNode w bos = .ok p → w.out <+: p.1.out
  | [], w, p, h => by have := Res.ok.inj h; subst this; exact List.prefix_refl _
  | b :: bos, w, p, h => by
    simp only [finishColumns, Res.bind_eq_ok] at h
    obtain ⟨q, h1, r, h2, h⟩ := h
    have := Res.ok.inj h
    subst this
    exact (finishColumn_prefix h1).trans (finishColumns_prefix bos q.1 r h2)

/-- Whatever has been written when the writer has taken in any part of its input is a proper prefix of the file it would go on to write. -/
theorem C101_append_only (F : FileCodec) (metaNode : List Nat → Ipc.Node) (w0 w1 w2 : LayoutWriter) (d : DType) (xs ys : List StructBatch) (file : Bytes)
    (h1 : w0.writeStream F.msgs d xs = .ok w1) (h2 : w1.writeStream F.msgs d ys = .ok w2) (h3 : finalize F metaNode w2 = .ok file) :
    w0.msgs.out <+: w1.msgs.out ∧ w1.msgs.out <+: file ∧ w1.msgs.out.length + 8 ≤ file.length := by
  have key : ∀ {w w' : LayoutWriter} {bs}, w.writeStream F.msgs d bs = .ok w' → w.msgs.out <+: w'.msgs.out := by
    intro w w' bs h
    unfold LayoutWriter.writeStream at h
    split at h
    · have := writeBatches_prefix _ _ _ h; exact this
    · split at h
      · exact writeBatches_prefix _ _ _ h
      · exact absurd h (by simp)
  simp only [finalize, Res.bind_eq_ok] at h3
  obtain ⟨p, f1, dt, _, v1, f2, v2, f3, h3⟩ := h3
  have := Res.ok.inj h3
  subst this
  have hp : w1.msgs.out <+: v2.out := ((key h2).trans (finishColumns_prefix _ _ _ f1)).trans
    ((writeMessage_prefix f2).trans (writeMessage_prefix f3))
  refine ⟨key h1, ?_, ?_⟩
  · rw [List.append_assoc]; exact hp.trans (List.prefix_append _ _)
  · have := hp.length_le
    simp only [List.length_append, EOF, MAGIC, List.length_cons, List.length_nil]
    omega

/-! ## Cut files -/

theorem tail4 (bs : Bytes) (h : bs.length = 4) (m : bs = MAGIC) : bs[0]? = some 86 ∧ bs[1]? = some 82 ∧ bs[2]? = some 84 ∧ bs[3]? = some 88 := by
  subst m; decide

/-- A file that is not refused ends in a mark. -/
theorem opens_mark (F : FileCodec) (init : Nat) (file : Bytes) (hi : 8 ≤ init) (h : readFooter F init file file.length ≠ .err) :
    8 ≤ file.length ∧ Mark file (file.length - 8) := by
  by_cases h8 : file.length < 8
  · exact absurd (C34_too_short F init file _ h8) h
  have hm : file.drop (file.length - 4) = MAGIC := Classical.byContradiction fun hm => h (C34_bad_magic F init file hi hm)
  have hv : (file.drop (file.length - 8)).take 2 = [1, 0] := Classical.byContradiction fun hv => h (C34_bad_version F init file hi hv)
  refine ⟨by omega, ?_⟩
  have g : ∀ j, file[file.length - 4 + j]? = MAGIC[j]? := fun j => by rw [← hm, List.getElem?_drop]
  have g2 : ∀ j, j < 2 → file[file.length - 8 + j]? = ([1, 0] : Bytes)[j]? := fun j hj => by
    rw [← hv, List.getElem?_take_of_lt hj, List.getElem?_drop]
  have e : ∀ j, file.length - 8 + (4 + j) = file.length - 4 + j := fun j => by omega
  refine ⟨g2 0 (by omega), g2 1 (by omega), ?_, ?_, ?_, ?_⟩
  · rw [show file.length - 8 + 4 = file.length - 4 + 0 by omega, g]; rfl
  · rw [show file.length - 8 + 5 = file.length - 4 + 1 by omega, g]; rfl
  · rw [show file.length - 8 + 6 = file.length - 4 + 2 by omega, g]; rfl
  · rw [show file.length - 8 + 7 = file.length - 4 + 3 by omega, g]; rfl

theorem Crash.Mark.of_take {bs : Bytes} {k i : Nat} (h : Mark (bs.take k) i) : Mark bs i := by
  have g : ∀ {j : Nat} {v : UInt8}, (bs.take k)[j]? = some v → bs[j]? = some v := by
    intro j v hj
    by_cases hk : j < k
    · rwa [List.getElem?_take_of_lt hk] at hj
    · rw [List.getElem?_eq_none (by simp; omega)] at hj; simp at hj
  exact ⟨g h.1, g h.2.1, g h.2.2.1, g h.2.2.2.1, g h.2.2.2.2.1, g h.2.2.2.2.2⟩

/-- A crash at any byte of any file: what is left is refused, unless the eight bytes before the cut are an end mark. The size may be found out from the
source (`size = k`) or be what the caller believes the file to be (`size > k`: the read runs past the end). -/
theorem C101_cut_refused (F : FileCodec) (init : Nat) (hi : 8 ≤ init) (file : Bytes) (k : Nat) (hk : k ≤ file.length)
    (hm : ∀ i, i + 8 = k → ¬ Mark file i) (size : Nat) (hs : k ≤ size) : readFooter F init (left file k) size = .err := by
  have hl : (left file k).length = k := by simp [left, hk]
  rcases Nat.lt_or_eq_of_le hs with hlt | heq
  · unfold readFooter
    by_cases h8 : size < 8
    · rw [if_pos h8]
    · rw [if_neg h8]
      simp only
      rw [Res.sub_of_le (by omega)]
      simp only [Res.ok_bind]
      rw [if_neg (by rw [hl]; omega)]
      rfl
  · subst heq
    refine Classical.byContradiction fun h => ?_
    have := opens_mark F init (left file k) hi (by rw [hl]; exact h)
    rw [hl] at this
    exact hm (k - 8) (by omega) (Crash.Mark.of_take this.2)

/-- In a file with no end mark before its own, every crash point is found out; nothing can be read from what is left, with or without a filter. -/
theorem C101_every_crash_point (F : FileCodec) (init : Nat) (hi : 8 ≤ init) (file : Bytes) (hm : ∀ i, i + 8 < file.length → ¬ Mark file i) (k : Nat)
    (hk : k < file.length) (size : Nat) (hs : k ≤ size) :
    readFooter F init (left file k) size = .err ∧
    (∀ {α : Type} (env : Env α) (proj : Projection) (batch : Nat) (order : List Message → List Message) (fuel : Nat),
      readFile F env init (left file k) size proj batch order fuel = .err) ∧
    (∀ {V : Type} [LinearOrder V] (env : Env (RowExpr.Val V)) (proj : Projection) (batch : Nat) (kind : DType → Option DF.Ty) (renv : RowExpr.Env V)
      (walk : List RowExpr.Field → List RowExpr.Field) (e : RowExpr.Expr V) (order : List Message → List Message) (fuel : Nat),
      FileScan.readFileFiltered F env init (left file k) size proj batch kind renv walk e order fuel = .err) := by
  have h := C101_cut_refused F init hi file k (by omega) (fun i hik => hm i (by omega)) size hs
  refine ⟨h, fun env proj batch order fuel => ?_, fun env proj batch kind renv walk e order fuel => ?_⟩
  · unfold readFile
    rw [h]
    rfl
  · unfold FileScan.readFileFiltered
    rw [h]
    rfl

/-- If the file system had already extended the file, the missing end is zero bytes: refused too, with no condition on the data. -/
theorem C101_torn_refused (F : FileCodec) (init : Nat) (hi : 8 ≤ init) (file : Bytes) (k z : Nat) (hz : 0 < z) :
    readFooter F init (torn file k z) (torn file k z).length = .err := by
  refine Classical.byContradiction fun h => ?_
  have := opens_mark F init (torn file k z) hi h
  have hlast := this.2.2.2.2.2.2
  rw [show (torn file k z).length - 8 + 7 = (torn file k z).length - 1 by omega] at hlast
  obtain ⟨z', rfl⟩ : ∃ z', z = z' + 1 := ⟨z - 1, by omega⟩
  have e : torn file k (z' + 1) = (file.take k ++ List.replicate z' 0) ++ [0] := by
    simp [torn, List.replicate_succ', List.append_assoc]
  rw [e] at hlast
  simp at hlast

/-! ## What is not found out -/

/-- Bytes lost before the schema are not noticed on opening: two files of the same size that agree from the schema on have the same layout and schema. -/
theorem C101_hole_not_seen (F : FileCodec) (hF : F.Lawful) (data lost : Bytes) (hl : lost.length = data.length) (dtype : DType) (root : FbLayout)
    (rowCount init : Nat) (hdata : 0 < data.length) (htables : root.tables < 1000000) (hsize : (fileOf F data dtype root rowCount).length < 2 ^ 64)
    (hinit : tailLength F dtype root rowCount ≤ init) :
    ∃ d, readFooter F init (fileOf F lost dtype root rowCount) (fileOf F lost dtype root rowCount).length = .ok d ∧ d.layout F = .ok root ∧
      d.schema F = .ok dtype.toFb := by
  obtain ⟨d, h1, h2, h3, _⟩ := C34_open F hF lost dtype root rowCount init (by omega) htables
    (by simp only [fileOf, List.length_append, hl] at hsize ⊢; exact hsize) hinit
  exact ⟨d, h1, h2, h3⟩

/-- The end of a file with the given schema and layout whose data are the first `off` bytes. -/
def forged (F : FileCodec) (off : Nat) (dtype : DType) (root : FbLayout) (rowCount : Nat) : Bytes :=
  frame F.msgs (Ipc.schemaMsg dtype) ++ tableFrame (F.encFooter root rowCount) ++ F.encPs off (off + (frame F.msgs (Ipc.schemaMsg dtype)).length) ++ EOF

/-- The condition on the data cannot be dropped: for every schema and layout there is a table of one column and one chunk, whose file, cut at a certain
byte, opens with that schema and that layout instead of being refused. -/
theorem C101_data_can_forge (F : FileCodec) (hF : F.Lawful) (metaNode : List Nat → Ipc.Node) (dtype : DType) (root : FbLayout) (rowCount enc rows : Nat)
    (fdtype : DType) (htables : root.tables < 1000000) :
    ∃ buf w file k, LayoutWriter.new.writeStream F.msgs fdtype [⟨rows, [[(.mk enc [] [] (some buf) [], rows)]]⟩] = .ok w ∧
      finalize F metaNode w = .ok file ∧ k + 8 ≤ file.length ∧
      (file.length < 2 ^ 64 → ∀ init, tailLength F dtype root rowCount ≤ init →
        ∃ d, readFooter F init (left file k) k = .ok d ∧ d.layout F = .ok root ∧ d.schema F = .ok dtype.toFb) := by
  let L := (frame F.msgs (Ipc.schemaMsg dtype)).length + (tableFrame (F.encFooter root rowCount)).length + 40
  let msg := Ipc.batchMsg (.mk enc [] [] (some (List.replicate L 0)) []) rows
  let off := (frame F.msgs msg).length
  let buf := (forged F off dtype root rowCount ++ List.replicate L 0).take L
  have hbl : buf.length = L := by simp [buf]
  have hmsg : Ipc.batchMsg (.mk enc [] [] (some buf) []) rows = msg := by
    simp [msg, Ipc.batchMsg_eq, Ipc.Spec.preorder, Ipc.Spec.preorderAll, Ipc.batchBuffers, Ipc.writeArray, hbl, Ipc.padded]
  obtain ⟨w, data, ls, rs, h1, h2, h3, h4, h5, h6⟩ := write_finished F metaNode fdtype 1 [⟨rows, [[(.mk enc [] [] (some buf) [], rows)]]⟩]
    ⟨by omega, by simp, by simp⟩
  have h0 : LayoutWriter.new.writeStream F.msgs fdtype [] = .ok ⟨.new, 0, some fdtype, []⟩ := rfl
  have hw : w.msgs.out = frame F.msgs msg ++ (buf ++ List.replicate (Ipc.alignUp buf.length - buf.length) 0) := by
    have h7 := Ipc.writeItem_eq F.msgs .new (.batch (.mk enc [] [] (some buf) []) rows) rfl
    simp only [Ipc.Spec.writeItem] at h7
    simp only [LayoutWriter.writeStream, LayoutWriter.new, LayoutWriter.writeBatches, LayoutWriter.writeFields, LayoutWriter.writeColumnChunks,
      Ipc.Writer.writeChunks, List.getElem?_nil, h7, Res.ok_bind] at h1
    have := Res.ok.inj h1
    subst this
    simp [Ipc.Writer.new, itemBytes, Ipc.itemMsg, Ipc.itemBody, Ipc.Spec.preorder, Ipc.Spec.preorderAll, Ipc.padded, hmsg]
  obtain ⟨_, hp, hlen⟩ := C101_append_only F metaNode _ w w fdtype _ [] _ h1 (by
    have : w.dtype = some fdtype := by
      simp only [LayoutWriter.writeStream, LayoutWriter.new] at h1
      obtain ⟨w', g1, _, g3, _⟩ := writeBatches_spec (C := F.msgs) [⟨rows, [[(.mk enc [] [] (some buf) [], rows)]]⟩] ⟨.new, 0, some fdtype, []⟩ []
        ⟨rfl, trivial, by simp⟩
      have := Res.ok.inj (h1.symm.trans g1)
      subst this
      exact g3
    simp [LayoutWriter.writeStream, this, LayoutWriter.writeBatches]) h2
  generalize fileOf F data fdtype (.columnL ls) _ = file at h2 hp hlen ⊢
  obtain ⟨more, hmore⟩ := hp
  have hwl : w.msgs.out.length ≥ off + L := by rw [hw]; simp only [List.length_append, hbl]; omega
  refine ⟨buf, w, file, off + L, h1, h2, by omega, fun hsz init hinit => ?_⟩
  have hoff : 0 < off := by
    show 0 < (frame F.msgs msg).length
    have := Ipc.alignUp_ge (4 + (F.msgs.enc msg).length)
    rw [Ipc.frame_length]; omega
  have hps := (hF.ps off (off + (frame F.msgs (Ipc.schemaMsg dtype)).length) hoff (by omega) (by omega) (by simp only [L] at hwl; omega)).2
  have hfl : (forged F off dtype root rowCount).length = L := by
    simp only [forged, List.length_append, hps, L, EOF, MAGIC, List.length_cons, List.length_nil]
  have hb : buf = forged F off dtype root rowCount := by
    simp only [buf]
    rw [← hfl, List.take_left]
  have hcut : left file (off + L) = fileOf F (frame F.msgs msg) dtype root rowCount := by
    have e : file = fileOf F (frame F.msgs msg) dtype root rowCount ++ (List.replicate (Ipc.alignUp buf.length - buf.length) 0 ++ more) := by
      rw [← hmore, hw]
      conv => lhs; rw [hb]
      rw [← hb]
      simp only [hb, fileOf, forged, List.append_assoc, off]
    have el : (fileOf F (frame F.msgs msg) dtype root rowCount).length = off + L := by
      rw [← hfl]; simp only [fileOf, forged, List.length_append, off]; omega
    rw [left, e, ← el, List.take_left]
  have hcl : (fileOf F (frame F.msgs msg) dtype root rowCount).length = off + L := by
    rw [← hfl]; simp only [fileOf, forged, List.length_append, off]; omega
  obtain ⟨d, o1, o2, o3, _⟩ := C34_open F hF (frame F.msgs msg) dtype root rowCount init hoff htables (by omega) hinit
  rw [hcut, ← hcl]
  exact ⟨d, o1, o2, o3⟩

/-! ## The hypotheses can be met -/

namespace FileDemo

/-- The file of the example table of `C34`. -/
noncomputable def exampleFile : Bytes :=
  match Res.bind (LayoutWriter.new.writeStream codec.msgs (.struct names [u8, u8] false) batches) (finalize codec metaNode) with
  | .ok b => b
  | _ => []

theorem exampleFile_plain : (exampleFile.take (exampleFile.length - 4)).all (fun b => b != 86) = true ∧ 100 < exampleFile.length := by decide +kernel

/-- It has no end mark but its own: so every crash while writing it is found out. -/
theorem exampleFile_no_mark (i : Nat) (hi : i + 8 < exampleFile.length) : ¬ Mark exampleFile i := by
  intro h
  have h1 := List.all_eq_true.mp exampleFile_plain.1 86 (List.mem_of_getElem? (i := i + 4) (by
    rw [List.getElem?_take_of_lt (by omega)]; exact h.2.2.1))
  simp at h1

example : 100 < exampleFile.length ∧ ∀ k, k < exampleFile.length → readFooter codec INITIAL_READ_SIZE (left exampleFile k) k = .err :=
  ⟨exampleFile_plain.2, fun k hk => (C101_every_crash_point codec INITIAL_READ_SIZE (by decide) exampleFile exampleFile_no_mark k hk k (Nat.le_refl k)).1⟩

/-- The complete file does end in a mark. -/
example : Mark exampleFile (exampleFile.length - 8) := by unfold Mark; decide +kernel

/-- A column holding the forged end: the file cut there opens as a table of no columns. -/
example : ∃ buf w file k, LayoutWriter.new.writeStream codec.msgs (.struct ["a".toList] [u8] false) [⟨3, [[(.mk 1 [] [] (some buf) [], 3)]]⟩] = .ok w ∧
    finalize codec metaNode w = .ok file ∧ k + 8 ≤ file.length ∧ (file.length < 2 ^ 64 → ∀ init, tailLength codec (.struct [] [] false) (.columnL []) 7 ≤ init →
      ∃ d, readFooter codec init (left file k) k = .ok d ∧ d.layout codec = .ok (.columnL []) ∧ d.schema codec = .ok (DType.struct [] [] false).toFb) :=
  C101_data_can_forge codec codec_lawful metaNode (.struct [] [] false) (.columnL []) 7 1 3 _ (by decide)

end FileDemo

end Vx.Layout
