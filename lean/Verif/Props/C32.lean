import Verif.Lemmas.IpcCodec
import Verif.Lemmas.Ipc
/-!
# C32: array tree serialisation preserves structure and buffers
-/
namespace Vx.Ipc
open Vx.Ipc.Spec

/-- Every buffer of the tree gets its own number: the numbers in the serialised tree are `0, 1, …`, each exactly once, and the buffers are
stored in that order. -/
theorem C32_buffer_numbers (n : Node) :
    indices (writeArray 0 n) = List.range (buffersOf n).length ∧ (indices (writeArray 0 n)).Nodup := by
  rw [indices_write, buffersOf_eq, preorder_length, ← List.range_eq_range']
  exact ⟨rfl, List.nodup_range⟩

/-- The buffers of a tree are written parents first, children left to right, whatever the stack-based traversal does internally. -/
theorem C32_buffer_order (n : Node) : buffersOf n = preorder n := buffersOf_eq n

/-- Reading a serialised tree through views gives exactly the tree: every encoding, metadata, statistics, buffer and child. -/
theorem C32_tree_round_trip (n : Node) : readTree (buffersOf n) (writeArray 0 n) = .ok n := by
  have := readTree_write n [] []
  simpa [buffersOf_eq] using this

/-- Serialisation loses nothing: different trees have different serialised forms. -/
theorem C32_injective (n m : Node) (h1 : writeArray 0 n = writeArray 0 m) (h2 : buffersOf n = buffersOf m) : n = m := by
  have := C32_tree_round_trip n
  rw [h1, h2, C32_tree_round_trip m] at this
  simpa using this.symm

theorem viewAt_write : ∀ (path : List (Nat × DType × Nat)) (n : Node) (pre post : List Bytes) (len : Nat) (dt : DType) (c : Node),
    nodeAt n (path.map (·.1)) = some c →
    ∃ v, viewAt ⟨writeArray pre.length n, len, dt, pre ++ preorder n ++ post⟩ path = .ok v ∧
      v.fb.encoding = c.encoding ∧ v.fb.metadata = some c.metadata ∧ v.fb.stats = some c.stats ∧ v.buffer = .ok c.buffer ∧
      v.nchildren = c.children.length
  | [], .mk e m s b cs, pre, post, len, dt, c, h => by
    simp [nodeAt] at h
    subst h
    refine ⟨_, rfl, rfl, rfl, rfl, ?_, ?_⟩
    · cases b with
      | none => rfl
      | some b => simp [View.buffer, View.getBuffer, writeArray, FbArray.bufferIndex, preorder, Node.buffer, Res.bind]
    · simp [View.nchildren, writeArray, FbArray.children, writeChildren_length, Node.children]
  | (i, d, l) :: path, .mk e m s b cs, pre, post, len, dt, c, h => by
    simp only [List.map_cons, nodeAt, Node.children] at h
    cases hc : cs[i]? with
    | none => rw [hc] at h; simp at h
    | some ch =>
      rw [hc] at h
      simp only [Option.bind_some] at h
      obtain ⟨pre', post', h1, h2⟩ := writeChildren_get cs (pre ++ b.toList) post i ch hc
      obtain ⟨v, hv, rest⟩ := viewAt_write path ch pre' post' l d c h
      refine ⟨v, ?_, rest⟩
      have hlen : (pre ++ b.toList).length = pre.length + if b.isSome then 1 else 0 := by cases b <;> simp
      rw [hlen] at h1
      simp only [viewAt, View.child, writeArray, FbArray.children, h1, Res.ofOption_some, Res.ok_bind, Res.bind]
      rw [← hv, ← h2, preorder]
      simp only [List.append_assoc]

/-- Reading by position: following any path of child positions through the views reaches exactly the array written at that path — its
encoding, metadata, statistics, own buffer and number of children — whatever its siblings look like. -/
theorem C32_read_by_position (n : Node) (len : Nat) (dt : DType) (path : List (Nat × DType × Nat)) (c : Node)
    (h : nodeAt n (path.map (·.1)) = some c) :
    ∃ v, viewAt ⟨writeArray 0 n, len, dt, buffersOf n⟩ path = .ok v ∧
      v.fb.encoding = c.encoding ∧ v.fb.metadata = some c.metadata ∧ v.fb.stats = some c.stats ∧ v.buffer = .ok c.buffer ∧
      v.nchildren = c.children.length := by
  have := viewAt_write path n [] [] len dt c h
  simpa [buffersOf_eq] using this

theorem viewAt_none : ∀ (path : List (Nat × DType × Nat)) (n : Node) (start len : Nat) (dt : DType) (bufs : List Bytes),
    nodeAt n (path.map (·.1)) = none → viewAt ⟨writeArray start n, len, dt, bufs⟩ path = .err
  | [], n, start, len, dt, bufs, h => by simp [nodeAt] at h
  | (i, d, l) :: path, .mk e m s b cs, start, len, dt, bufs, h => by
    simp only [List.map_cons, nodeAt, Node.children] at h
    cases hc : cs[i]? with
    | none =>
      have hlen : cs.length ≤ i := by simpa using hc
      have : (writeChildren (start + if b.isSome then 1 else 0) cs)[i]? = none := by simp [writeChildren_length, hlen]
      simp [viewAt, View.child, writeArray, FbArray.children, this, Res.bind]
    | some ch =>
      rw [hc] at h
      simp only [Option.bind_some] at h
      obtain ⟨pre', post', h1, h2⟩ := writeChildren_get cs (List.replicate (start + if b.isSome then 1 else 0) []) [] i ch hc
      simp only [List.length_replicate] at h1
      simp only [viewAt, View.child, writeArray, FbArray.children, h1, Res.ofOption_some, Res.ok_bind, Res.bind]
      exact viewAt_none path ch _ l d bufs h

/-- …and a path that does not exist is refused with an error, never answered with another array. -/
theorem C32_no_such_child (n : Node) (len : Nat) (dt : DType) (path : List (Nat × DType × Nat))
    (h : nodeAt n (path.map (·.1)) = none) : viewAt ⟨writeArray 0 n, len, dt, buffersOf n⟩ path = .err :=
  viewAt_none path n 0 len dt _ h

/-! Non-vacuity: a tree with buffers at different depths; the right child of the root is read by position. -/
def exampleNode : Node := .mk 1 [9] [] (some [1, 2]) [.mk 2 [] [] none [.mk 3 [] [] (some [3]) []], .mk 4 [7] [] (some [4, 5, 6]) []]

example : buffersOf exampleNode = [[1, 2], [3], [4, 5, 6]] := by rw [C32_buffer_order]; rfl
example : (nodeAt exampleNode [1]).map Node.buffer = some (some [4, 5, 6]) := by rfl
example : nodeAt exampleNode [0, 1] = none := by rfl
example : indices (writeArray 0 exampleNode) = [0, 1, 2] := by rfl

end Vx.Ipc
