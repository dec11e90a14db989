import Verif.Props.C32
/-!
# C33: incremental buffer reader

The full claim says that truncated input gives an error; the code panics instead (`C33_truncated_panics`): it never returns an array.
-/
namespace Vx.Ipc
open Vx.Ipc.Spec

/-- The length of a message fits its `u32` prefix. -/
def Fits (C : Codec) (m : FbMsg) : Prop := alignUp (4 + (C.enc m).length) ≤ 2 ^ 32

theorem getU32_frame {C : Codec} {m : FbMsg} (h : Fits C m) (rest : Bytes) : getU32 (frame C m ++ rest) = .ok (payload C m).length := by
  have h2 := alignUp_mod (4 + (C.enc m).length)
  have h3 := alignUp_ge (4 + (C.enc m).length)
  have h1 : (alignUp (4 + (C.enc m).length) - 4) % 2 ^ 32 = (payload C m).length := by
    rw [payload_length]; unfold Fits at h; omega
  have h4 : (payload C m).length < 2 ^ 32 := by rw [payload_length]; unfold Fits at h; omega
  rw [frame, h1, List.append_assoc, getU32_le32 _ h4]

theorem frame_take4 (C : Codec) (m : FbMsg) (rest : Bytes) :
    (frame C m ++ rest).take 4 = le32 ((alignUp (4 + (C.enc m).length) - 4) % 2 ^ 32) := by
  rw [frame]; simp [le32]

theorem frame_drop4 (C : Codec) (m : FbMsg) (rest : Bytes) : (frame C m ++ rest).drop 4 = payload C m ++ rest := by
  rw [frame]; simp [le32]

theorem getU32_take4 {C : Codec} {m : FbMsg} (h : Fits C m) (rest : Bytes) :
    getU32 ((frame C m ++ rest).take 4) = .ok (payload C m).length := by
  rw [frame_take4]
  have h2 := alignUp_mod (4 + (C.enc m).length)
  have h3 := alignUp_ge (4 + (C.enc m).length)
  have h1 : (alignUp (4 + (C.enc m).length) - 4) % 2 ^ 32 = (payload C m).length := by
    rw [payload_length]; unfold Fits at h; omega
  have h4 : (payload C m).length < 2 ^ 32 := by rw [payload_length]; unfold Fits at h; omega
  have := getU32_le32 _ h4 []
  rw [List.append_nil] at this
  rw [h1, this]

theorem dec_payload {C : Codec} (hC : C.Lawful) (m : FbMsg) : C.dec (payload C m) = some m := hC.dec_enc m _

/-- What the reader asks for, in order: the length, the message, all buffers at once; then it is finished and holds exactly the buffers
that were written. -/
theorem C33_asks (C : Codec) (hC : C.Lawful) (n : Node) (len : Nat) (hf : Fits C (batchMsg n len)) (junk : Bytes) :
    ∃ r1 r2 r3 r4 : BufReader,
      BufReader.new.read C junk = .ok (some 4, r1) ∧
      r1.read C ((frame C (batchMsg n len)).take 4) = .ok (some (payload C (batchMsg n len)).length, r2) ∧
      r2.read C (payload C (batchMsg n len)) = .ok (some (padded (preorder n)).length, r3) ∧
      r3.read C (padded (preorder n)) = .ok (none, r4) ∧
      r4.buffers = preorder n ∧ (∀ bytes, r4.read C bytes = .err) := by
  have h1 := getU32_take4 hf []
  rw [List.append_nil] at h1
  have h2 := dec_payload hC (batchMsg n len)
  have h3 := splitBuffers_eq (preorder n) 0
  rw [Nat.zero_add] at h3
  refine ⟨⟨.readingLength, none, []⟩, ⟨.readingFb, none, []⟩, ⟨.readingBuffers, some (payload C (batchMsg n len)), []⟩,
    ⟨.finished, some (payload C (batchMsg n len)), preorder n⟩, rfl, ?_, ?_, ?_, rfl, fun _ => rfl⟩
  · simp [BufReader.read, h1]
  · simp only [BufReader.read, rootUnchecked, h2, Res.unwrap_some, Res.ok_bind]
    rw [batchMsg_eq]
    simp [FbMsg.asBatch]
  · simp only [BufReader.read, BufReader.asBatch, rootUnchecked, Res.ofOption_some, Res.ok_bind, h2, Res.unwrap_some]
    rw [batchMsg_eq]
    simp [FbMsg.asBatch, h3]

theorem feed_some {C : Codec} {r r' : BufReader} {buf rb : Bytes} {u : Nat} (h : r.read C rb = .ok (some u, r')) :
    feed C r buf rb = (splitTo u buf).bind (fun p => feed C r' p.2 p.1) := by
  rw [feed]
  split
  · rename_i h'; rw [h] at h'; simp only [Res.ok.injEq, Prod.mk.injEq, Option.some.injEq] at h'; rw [h'.1, h'.2]
  · rename_i h'; rw [h] at h'; simp at h'
  · rename_i h'; rw [h] at h'; simp at h'
  · rename_i h'; rw [h] at h'; simp at h'

theorem feed_none {C : Codec} {r r' : BufReader} {buf rb : Bytes} (h : r.read C rb = .ok (none, r')) : feed C r buf rb = .ok r' := by
  rw [feed]
  split
  · rename_i h'; rw [h] at h'; simp at h'
  · rename_i h'; rw [h] at h'; simp only [Res.ok.injEq, Prod.mk.injEq] at h'; rw [h'.2]
  · rename_i h'; rw [h] at h'; simp at h'
  · rename_i h'; rw [h] at h'; simp at h'

theorem splitTo_append (a b : Bytes) : splitTo a.length (a ++ b) = .ok (a, b) := by
  rw [splitTo, if_pos (by simp)]; simp

theorem splitTo_len {n : Nat} (a b : Bytes) (h : a.length = n) : splitTo n (a ++ b) = .ok (a, b) := by
  rw [← h, splitTo_append]

/-- Driving the reader over the bytes of a written batch (with anything behind them) ends with exactly the buffers that were written, and
the array it builds shows exactly the tree that was written. -/
theorem C33_reads_back (C : Codec) (hC : C.Lawful) (ctx : Nat → Bool) (dtype : DType) (n : Node) (len : Nat)
    (hf : Fits C (batchMsg n len)) (hctx : ctx n.encoding = true) (extra : Bytes) :
    ∃ v, arrayFromBytes C ctx dtype (frame C (batchMsg n len) ++ (padded (preorder n) ++ extra)) = .ok v ∧
      v.buffers = preorder n ∧ v.len = len ∧ v.dtype = dtype ∧ readTree v.buffers v.fb = .ok n := by
  obtain ⟨r1, r2, r3, r4, h1, h2, h3, h4, h5, h6⟩ := C33_asks C hC n len hf []
  have hr4 : feed C .new (frame C (batchMsg n len) ++ (padded (preorder n) ++ extra)) [] = .ok r4 := by
    have hsp : frame C (batchMsg n len) ++ (padded (preorder n) ++ extra) =
        (frame C (batchMsg n len)).take 4 ++ (payload C (batchMsg n len) ++ (padded (preorder n) ++ extra)) := by
      have := frame_drop4 C (batchMsg n len) []
      rw [List.append_nil, List.append_nil] at this
      rw [← this, ← List.append_assoc ((frame C (batchMsg n len)).take 4), List.take_append_drop]
    have hl4 : ((frame C (batchMsg n len)).take 4).length = 4 := by simp [frame, le32]
    rw [feed_some h1, hsp, splitTo_len _ _ hl4]
    simp only [Res.bind]
    rw [feed_some h2, splitTo_append]
    simp only [Res.bind]
    rw [feed_some h3, splitTo_append]
    simp only [Res.bind]
    rw [feed_none h4]
  have hfb : r4.fbMsg = some (payload C (batchMsg n len)) := by
    have e1 : r1 = ⟨.readingLength, none, []⟩ := by simp [BufReader.new, BufReader.read] at h1; exact h1.symm
    subst e1
    simp only [BufReader.read, Res.bind_eq_ok] at h2
    obtain ⟨_, _, h2⟩ := h2
    simp only [Res.ok.injEq, Prod.mk.injEq] at h2
    rw [← h2.2] at h3
    simp only [BufReader.read, Res.bind_eq_ok] at h3
    obtain ⟨_, _, _, _, h3⟩ := h3
    simp only [Res.ok.injEq, Prod.mk.injEq] at h3
    rw [← h3.2] at h4
    simp only [BufReader.read, Res.bind_eq_ok] at h4
    obtain ⟨_, _, _, _, h4⟩ := h4
    simp only [Res.ok.injEq, Prod.mk.injEq] at h4
    rw [← h4.2]
  have hw : (writeArray 0 n).encoding = n.encoding := by cases n; rfl
  refine ⟨⟨writeArray 0 n, len, dtype, preorder n⟩, ?_, rfl, rfl, rfl, ?_⟩
  · rw [arrayFromBytes, hr4]
    simp only [Res.bind, BufReader.intoArray, BufReader.asBatch, hfb, Res.ofOption_some, Res.ok_bind, rootUnchecked, dec_payload hC,
      Res.unwrap_some]
    rw [batchMsg_eq]
    simp [FbMsg.asBatch, View.tryNew, hw, hctx, h5]
  · have := C32_tree_round_trip n
    rwa [buffersOf_eq] at this

/-- Any proper prefix makes the reader panic (`split_to` out of bounds) rather than return an error; no array is ever returned. -/
theorem C33_truncated_panics (C : Codec) (hC : C.Lawful) (ctx : Nat → Bool) (dtype : DType) (n : Node) (len : Nat)
    (hf : Fits C (batchMsg n len)) (k : Nat) (hk : k < (frame C (batchMsg n len) ++ padded (preorder n)).length) :
    arrayFromBytes C ctx dtype ((frame C (batchMsg n len) ++ padded (preorder n)).take k) = .panic := by
  obtain ⟨r1, r2, r3, r4, h1, h2, h3, h4, h5, h6⟩ := C33_asks C hC n len hf []
  have hsp : frame C (batchMsg n len) ++ padded (preorder n) =
      (frame C (batchMsg n len)).take 4 ++ (payload C (batchMsg n len) ++ padded (preorder n)) := by
    have := frame_drop4 C (batchMsg n len) []
    rw [List.append_nil, List.append_nil] at this
    rw [← this, ← List.append_assoc ((frame C (batchMsg n len)).take 4), List.take_append_drop]
  have hl4 : ((frame C (batchMsg n len)).take 4).length = 4 := by simp [frame, le32]
  have hfeed : feed C .new ((frame C (batchMsg n len) ++ padded (preorder n)).take k) [] = .panic := by
    rw [hsp] at hk ⊢
    simp only [List.length_append, hl4] at hk
    rw [feed_some h1]
    by_cases hk4 : k < 4
    · rw [splitTo, if_neg (by simp; omega)]; rfl
    · rw [List.take_append, List.take_of_length_le (by omega), splitTo_len _ _ hl4, hl4]
      simp only [Res.bind]
      rw [feed_some h2]
      by_cases hkp : k - 4 < (payload C (batchMsg n len)).length
      · rw [splitTo, if_neg (by simp; omega)]; rfl
      · rw [List.take_append, List.take_of_length_le (by omega), splitTo_append]
        simp only [Res.bind]
        rw [feed_some h3, splitTo, if_neg (by simp; omega)]; rfl
  rw [arrayFromBytes, hfeed]; rfl

/-! Non-vacuity: a lawful codec for which the example tree fits. -/
theorem exampleFits : Fits Demo.codec (batchMsg exampleNode 10) := by
  rw [batchMsg_eq]
  have : (Demo.codec.enc (FbMsg.batch (some (writeArray 0 exampleNode)) 10 (batchBuffers 0 (preorder exampleNode)).1
      (padded (preorder exampleNode)).length)).length < 1000 := by
    show (Demo.unary _).length < 1000
    decide +kernel
  have := alignUp_lt (4 + (Demo.codec.enc (FbMsg.batch (some (writeArray 0 exampleNode)) 10 (batchBuffers 0 (preorder exampleNode)).1
      (padded (preorder exampleNode)).length)).length)
  unfold Fits
  omega

example : ∃ v, arrayFromBytes Demo.codec (fun _ => true) .null
    (frame Demo.codec (batchMsg exampleNode 10) ++ (padded (preorder exampleNode) ++ [])) = .ok v ∧ v.buffers = [[1, 2], [3], [4, 5, 6]] := by
  obtain ⟨v, h1, h2, _⟩ := C33_reads_back Demo.codec Demo.codec_lawful (fun _ => true) .null exampleNode 10 exampleFits rfl []
  exact ⟨v, h1, h2⟩

end Vx.Ipc
