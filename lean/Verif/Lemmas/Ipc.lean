import Verif.Spec.Ipc
import Verif.Props.C30
/-! # Lemmas about IPC framing -/
namespace Vx.Ipc
open Vx.Ipc.Spec

/-! ## Trees -/

theorem preorderAll_append (xs ys : List Node) : preorderAll (xs ++ ys) = preorderAll xs ++ preorderAll ys := by
  induction xs with
  | nil => rfl
  | cons x xs ih => simp [preorderAll, ih, List.append_assoc]

theorem traverse_buffers (stack : List Node) : (traverse stack).filterMap Node.buffer = preorderAll stack := by
  induction stack using traverse.induct with
  | case1 => simp [traverse, preorderAll]
  | case2 e m s b cs stack ih =>
    rw [traverse, preorderAll, preorder, List.append_assoc, ← preorderAll_append, ← ih]
    cases b with
    | none => rw [List.filterMap_cons_none rfl]; rfl
    | some b => simp [Node.buffer]

theorem buffersOf_eq (n : Node) : buffersOf n = preorder n := by
  rw [buffersOf, traverse_buffers]; simp [preorderAll]

mutual
theorem preorder_length : ∀ n : Node, (preorder n).length = nbuffers n
  | .mk _ _ _ b cs => by
    rw [preorder, nbuffers, List.length_append, preorderAll_length cs]
    cases b <;> simp; omega
theorem preorderAll_length : ∀ ns : List Node, (preorderAll ns).length = nbuffersAll ns
  | [] => rfl
  | c :: cs => by rw [preorderAll, nbuffersAll, List.length_append, preorder_length c, preorderAll_length cs]
end

mutual
/-- Reading the serialised form against a buffer list that has the tree's buffers at `start` gives the tree back. -/
theorem readTree_write : ∀ (n : Node) (pre post : List Bytes), readTree (pre ++ preorder n ++ post) (writeArray pre.length n) = .ok n
  | .mk e m s b cs, pre, post => by
    cases b with
    | none =>
      have h := readTrees_write cs pre post
      simp [readTree, writeArray, preorder, View.getBuffer] at h ⊢
      rw [h]; rfl
    | some b =>
      have h := readTrees_write cs (pre ++ [b]) post
      have h0 : (pre ++ b :: (preorderAll cs ++ post))[pre.length]? = some b := by simp
      simp [readTree, writeArray, preorder, View.getBuffer, Res.bind] at h ⊢
      rw [h]; rfl
theorem readTrees_write : ∀ (ns : List Node) (pre post : List Bytes),
    readTrees (pre ++ preorderAll ns ++ post) (writeChildren pre.length ns) = .ok ns
  | [], pre, post => rfl
  | c :: cs, pre, post => by
    have h1 := readTree_write c pre (preorderAll cs ++ post)
    have h2 := readTrees_write cs (pre ++ preorder c) post
    rw [List.length_append, preorder_length] at h2
    simp only [writeChildren, readTrees, preorderAll, List.append_assoc] at h1 h2 ⊢
    rw [h1]
    simp only [Res.ok_bind]
    rw [h2]; rfl
end

mutual
theorem indices_write : ∀ (n : Node) (start : Nat), indices (writeArray start n) = List.range' start (nbuffers n)
  | .mk e m s b cs, start => by
    cases b with
    | none => simp [writeArray, indices, nbuffers, indicesAll_write cs]
    | some b =>
      simp [writeArray, indices, nbuffers, indicesAll_write cs, List.range'_succ]
theorem indicesAll_write : ∀ (ns : List Node) (start : Nat), indicesAll (writeChildren start ns) = List.range' start (nbuffersAll ns)
  | [], start => rfl
  | c :: cs, start => by
    rw [writeChildren, indicesAll, indices_write c, indicesAll_write cs, nbuffersAll, ← List.range'_append_1]
end

/-- A subtree's buffers are a contiguous segment. -/
theorem writeChildren_get : ∀ (cs : List Node) (pre post : List Bytes) (i : Nat) (c : Node), cs[i]? = some c →
    ∃ pre' post', (writeChildren pre.length cs)[i]? = some (writeArray pre'.length c) ∧ pre ++ preorderAll cs ++ post = pre' ++ preorder c ++ post'
  | [], _, _, i, c, h => by simp at h
  | d :: cs, pre, post, 0, c, h => by
    simp at h; subst h
    exact ⟨pre, preorderAll cs ++ post, by simp [writeChildren], by simp [preorderAll]⟩
  | d :: cs, pre, post, i + 1, c, h => by
    simp at h
    obtain ⟨pre', post', h1, h2⟩ := writeChildren_get cs (pre ++ preorder d) post i c h
    refine ⟨pre', post', ?_, ?_⟩
    · rw [List.length_append, preorder_length] at h1
      simpa [writeChildren] using h1
    · rw [← h2]; simp [preorderAll]

theorem writeChildren_length (cs : List Node) (o : Nat) : (writeChildren o cs).length = cs.length := by
  induction cs generalizing o with
  | nil => rfl
  | cons c cs ih => simp [writeChildren, ih]

/-! ## Alignment -/

theorem and_not_add_and {w : Nat} (x y : BitVec w) : (x &&& ~~~y) + (x &&& y) = x := by
  rw [BitVec.add_eq_or_of_and_eq_zero]
  · ext i hi; simp; cases x[i] <;> cases y[i] <;> simp
  · ext i hi; simp; cases x[i] <;> cases y[i] <;> simp

/-- The rounding of the code, on 64-bit words, is `alignUp`. -/
theorem alignUp_bits (n : BitVec 64) (h : n.toNat + 63 < 2 ^ 64) : ((n + 63#64) &&& ~~~63#64).toNat = alignUp n.toNat := by
  have h1 := congrArg BitVec.toNat (and_not_add_and (n + 63#64) 63#64)
  have h2 : ((n + 63#64) &&& 63#64).toNat = (n.toNat + 63) % 64 := by
    rw [BitVec.toNat_and, BitVec.toNat_add_of_lt (by simpa using h)]
    have := Nat.and_two_pow_sub_one_eq_mod (n.toNat + 63) 6
    simpa using this
  have h3 : (n + 63#64).toNat = n.toNat + 63 := by rw [BitVec.toNat_add_of_lt (by simpa using h)]; rfl
  have h4 : ((n + 63#64) &&& ~~~63#64).toNat ≤ (n + 63#64).toNat := by
    rw [BitVec.toNat_and]; exact Nat.and_le_left
  rw [BitVec.toNat_add, h2, h3] at h1
  rw [h3] at h4
  unfold alignUp ALIGNMENT
  generalize ((n + 63#64) &&& ~~~63#64).toNat = a at *
  omega

theorem alignUp_ge (n : Nat) : n ≤ alignUp n := by unfold alignUp ALIGNMENT; omega
theorem alignUp_lt (n : Nat) : alignUp n < n + 64 := by unfold alignUp ALIGNMENT; omega
theorem alignUp_mod (n : Nat) : alignUp n % 64 = 0 := by unfold alignUp ALIGNMENT; omega
theorem alignUp_pad (n : Nat) : (alignUp n - n) % 2 ^ 16 = alignUp n - n := by
  have := alignUp_lt n; have := alignUp_ge n; omega

/-! ## Framing -/

theorem getU32_le32 (n : Nat) (h : n < 2 ^ 32) (rest : Bytes) : getU32 (le32 n ++ rest) = .ok n := by
  simp only [le32, List.cons_append, List.nil_append, getU32, UInt8.toNat_ofNat']
  congr 1
  omega

/-- The bytes of one message without its length. -/
def payload (C : Codec) (m : FbMsg) : Bytes := C.enc m ++ List.replicate (alignUp (4 + (C.enc m).length) - (4 + (C.enc m).length)) 0

/-- The bytes of one message: length, table, padding. -/
def frame (C : Codec) (m : FbMsg) : Bytes := le32 ((alignUp (4 + (C.enc m).length) - 4) % 2 ^ 32) ++ payload C m

theorem payload_length (C : Codec) (m : FbMsg) : (payload C m).length = alignUp (4 + (C.enc m).length) - 4 := by
  have := alignUp_ge (4 + (C.enc m).length)
  simp [payload]; omega

theorem frame_length (C : Codec) (m : FbMsg) : (frame C m).length = alignUp (4 + (C.enc m).length) := by
  have := alignUp_ge (4 + (C.enc m).length)
  rw [frame, List.length_append, payload_length]; simp [le32]; omega

theorem frame_aligned (C : Codec) (m : FbMsg) : (frame C m).length % 64 = 0 := by rw [frame_length]; exact alignUp_mod _

theorem zeros_pad (n : Nat) : zeros (alignUp n - n) = .ok (List.replicate (alignUp n - n) 0) := by
  have := alignUp_lt n; have := alignUp_ge n
  rw [zeros, if_pos (by omega)]

theorem writeMessage_eq (C : Codec) (w : Writer) (m : FbMsg) (hw : w.pos % 64 = 0) :
    w.writeMessage C m = .ok ⟨w.out ++ frame C m⟩ := by
  have h1 := alignUp_ge (4 + (C.enc m).length)
  unfold Writer.writeMessage
  simp only [Res.sub_of_le (show 4 ≤ alignUp (4 + (C.enc m).length) by omega), Res.sub_of_le h1, zeros_pad, Res.ok_bind]
  have hout : (((w.writeAll (le32 ((alignUp (4 + (C.enc m).length) - 4) % 2 ^ 32))).writeAll (C.enc m)).writeAll
      (List.replicate (alignUp (4 + (C.enc m).length) - (4 + (C.enc m).length)) 0)) = ⟨w.out ++ frame C m⟩ := by
    simp [Writer.writeAll, frame, payload, List.append_assoc]
  rw [hout, if_pos]
  have := frame_aligned C m
  simp only [Writer.pos, ALIGNMENT, List.length_append] at hw ⊢
  omega

/-- Buffers one after the other, each padded to the alignment. -/
def padded : List Bytes → Bytes
  | [] => []
  | b :: bs => b ++ List.replicate (alignUp b.length - b.length) 0 ++ padded bs

theorem padded_length_cons (b : Bytes) (bs : List Bytes) : (padded (b :: bs)).length = alignUp b.length + (padded bs).length := by
  have := alignUp_ge b.length
  simp [padded]; omega

theorem padded_aligned (bs : List Bytes) : (padded bs).length % 64 = 0 := by
  induction bs with
  | nil => rfl
  | cons b bs ih => rw [padded_length_cons]; have := alignUp_mod b.length; omega

theorem bufferOffsets_drop (o : Nat) (b : Bytes) (bs : List Bytes) :
    (bufferOffsets o (b :: bs)).drop 1 = (o + alignUp b.length) :: (bufferOffsets (o + alignUp b.length) bs).drop 1 := by
  cases bs <;> simp [bufferOffsets]

theorem writeBuffers_eq (bs : List Bytes) : ∀ (w : Writer) (o : Nat),
    w.writeBuffers o bs ((bufferOffsets o bs).drop 1) = .ok ⟨w.out ++ padded bs⟩ := by
  induction bs with
  | nil => intro w o; simp [bufferOffsets, Writer.writeBuffers, padded]
  | cons b bs ih =>
    intro w o
    have h1 := alignUp_ge b.length
    rw [bufferOffsets_drop, Writer.writeBuffers]
    simp only [Res.sub_of_le (show o ≤ o + alignUp b.length by omega), Res.ok_bind, show o + alignUp b.length - o = alignUp b.length by omega,
      Res.sub_of_le h1, zeros_pad, ih]
    simp [Writer.writeAll, padded, List.append_assoc]

theorem batchBuffers_total (bs : List Bytes) : ∀ o, (batchBuffers o bs).2 = o + (padded bs).length := by
  induction bs with
  | nil => intro o; simp [batchBuffers, padded]
  | cons b bs ih => intro o; rw [padded_length_cons]; simp [batchBuffers, ih]; omega

theorem batchBuffers_head (o : Nat) (b : Bytes) (bs : List Bytes) :
    (batchBuffers o (b :: bs)).1 = ⟨o, alignUp b.length - b.length⟩ :: (batchBuffers (o + alignUp b.length) bs).1 := by
  simp only [batchBuffers, alignUp_pad]

/-- Splitting the padded buffers by the entries of the batch message gives the buffers. -/
theorem splitBuffers_eq (bs : List Bytes) : ∀ o, splitBuffers (o + (padded bs).length) (padded bs) (batchBuffers o bs).1 = .ok bs := by
  induction bs with
  | nil => intro o; rfl
  | cons b bs ih =>
    intro o
    have h1 := alignUp_ge b.length
    rw [batchBuffers_head, padded_length_cons, splitBuffers]
    have hnext : nextOffset (o + (alignUp b.length + (padded bs).length)) (batchBuffers (o + alignUp b.length) bs).1 =
        o + alignUp b.length := by
      cases bs with
      | nil => simp [batchBuffers, padded, nextOffset]
      | cons c cs => rw [batchBuffers_head]; rfl
    simp only [hnext]
    have e1 : Res.sub (o + alignUp b.length) o = .ok (alignUp b.length) := by rw [Res.sub_of_le (by omega)]; congr 1; omega
    have e2 : Res.sub (alignUp b.length) (alignUp b.length - b.length) = .ok b.length := by
      rw [Res.sub_of_le (by omega)]; congr 1; omega
    have e3 : splitTo b.length (padded (b :: bs)) = .ok (b, List.replicate (alignUp b.length - b.length) 0 ++ padded bs) := by
      rw [splitTo, if_pos (by rw [padded_length_cons]; omega)]
      simp [padded, List.append_assoc]
    have e4 : splitTo (alignUp b.length - b.length) (List.replicate (alignUp b.length - b.length) 0 ++ padded bs) =
        .ok (List.replicate (alignUp b.length - b.length) 0, padded bs) := by
      rw [splitTo, if_pos (by simp)]
      simp [List.drop_append]
    have e5 := ih (o + alignUp b.length)
    rw [show o + alignUp b.length + (padded bs).length = o + (alignUp b.length + (padded bs).length) by omega] at e5
    simp only [e1, e2, e3, e4, e5, Res.ok_bind]

theorem batchMsg_eq (n : Node) (l : Nat) :
    batchMsg n l = .batch (some (writeArray 0 n)) l (batchBuffers 0 (preorder n)).1 (padded (preorder n)).length := by
  simp only [batchMsg, buffersOf_eq, batchBuffers_total]; simp

/-! ## Items -/

def itemMsg : Item → FbMsg
  | .dtype d => schemaMsg d
  | .batch n l => batchMsg n l
  | .page b => pageMsg b

def itemBody : Item → Bytes
  | .dtype _ => []
  | .batch n _ => padded (preorder n)
  | .page b => padded [b]

def itemBytes (C : Codec) (i : Item) : Bytes := frame C (itemMsg i) ++ itemBody i

def streamOf (C : Codec) (is : List Item) : Bytes := is.flatMap (itemBytes C)

theorem itemBytes_aligned (C : Codec) (i : Item) : (itemBytes C i).length % 64 = 0 := by
  have h1 := frame_aligned C (itemMsg i)
  have h2 : (itemBody i).length % 64 = 0 := by
    cases i with
    | dtype d => rfl
    | batch n l => exact padded_aligned _
    | page b => exact padded_aligned _
  rw [itemBytes, List.length_append]; omega

theorem streamOf_aligned (C : Codec) (is : List Item) : (streamOf C is).length % 64 = 0 := by
  induction is with
  | nil => rfl
  | cons i is ih =>
    have := itemBytes_aligned C i
    simp only [streamOf, List.flatMap_cons, List.length_append] at ih ⊢; omega

theorem writeItem_eq (C : Codec) (w : Writer) (i : Item) (hw : w.pos % 64 = 0) : writeItem C w i = .ok ⟨w.out ++ itemBytes C i⟩ := by
  cases i with
  | dtype d => simp [writeItem, Writer.writeDtype, writeMessage_eq C w _ hw, itemBytes, itemMsg, itemBody]
  | batch n l =>
    simp only [writeItem, Writer.writeBatch, writeMessage_eq C w _ hw, Res.ok_bind, buffersOf_eq, writeBuffers_eq, itemBytes, itemMsg,
      itemBody, List.append_assoc]
  | page b =>
    have h1 := alignUp_ge b.length
    simp only [writeItem, Writer.writePage, writeMessage_eq C w _ hw, Res.ok_bind, Res.sub_of_le h1, zeros_pad, itemBytes, itemMsg,
      itemBody, padded, Writer.writeAll, List.append_assoc, List.append_nil]

theorem writeItems_eq (C : Codec) (is : List Item) : ∀ (w : Writer), w.pos % 64 = 0 →
    writeItems C w is = .ok ⟨w.out ++ streamOf C is⟩ := by
  induction is with
  | nil => intro w _; simp [writeItems, streamOf]
  | cons i is ih =>
    intro w hw
    rw [writeItems, writeItem_eq C w i hw]
    simp only [Res.bind]
    rw [ih]
    · simp [streamOf, List.append_assoc]
    · have := itemBytes_aligned C i
      simp only [Writer.pos, List.length_append] at hw ⊢; omega

end Vx.Ipc
