import Verif.Props.C03Canon
/-!
# C05: take commutes with decoding

`take(array, indices)` on a tree of encoded arrays of any depth.
-/
namespace Vx.Tree
open Vx.Spec (InBounds)

variable {L : Type} {env : BEnv L} {leafRows : L → List SV} {ok : L → Prop} {f : Bool}

/-- **C05.** For every tree of arrays, however deep, and every list of in-range indices - unsorted, repeated, empty - `take` succeeds, keeps the
type, and row `k` of the result is row `indices[k]` of the array, nulls included. The result is again such a tree, so takes can be repeated.

Missing from the full statement: the empty list on trees with chunked arrays (`C05_chunked_empty`), and the shapes outside `Bulk` - run-end arrays,
zigzag arrays and validities that do not decode (see `Props/C03Canon.lean`) and sparse arrays over chunked values (`C05_sparse_chunked`). -/
theorem C05_take_partial (hl : LeafLaws env.toEnv leafRows ok) (lb : LeafBulk env leafRows ok) (a : Arr L) (hw : WF env.toEnv leafRows ok a)
    (hb : Bulk env.toEnv leafRows env.temporal f a) (is : List Nat) (hi : ∀ i ∈ is, i < (rows env.toEnv leafRows a).length)
    (hne : is ≠ [] ∨ chunkFree a = true) :
    ∃ b, a.take env is = .ok b ∧ len env.toEnv b = is.length ∧ dtype env.toEnv b = dtype env.toEnv a ∧
      (∀ k : Nat, (rows env.toEnv leafRows b)[k]? = is[k]? >>= fun i => (rows env.toEnv leafRows a)[i]?) ∧
      WF env.toEnv leafRows ok b ∧ Bulk env.toEnv leafRows env.temporal f b ∧ (chunkFree a = true → chunkFree b = true) := by
  obtain ⟨b, h1, h2, h3, h4, _, h5⟩ := (blaws hl lb (depth a)).take f a is hw hb (Nat.le_refl _) hi hne
  exact ⟨b, h1, by rw [len_eq hl b h2, h5, Spec.take_length hi], h4.dtype, fun k => by rw [h5, take_getElem? hi], h2, h3, h4.chunkFree⟩

/-- **C05 (in terms of decoding).** Decoding what `take` returns gives the taken rows of the decoded array. -/
theorem C05_take_canonical_partial (hl : LeafLaws env.toEnv leafRows ok) (lb : LeafBulk env leafRows ok) (a : Arr L) (hw : WF env.toEnv leafRows ok a)
    (hn : Nice env.toEnv leafRows a) (is : List Nat) (hi : ∀ i ∈ is, i < (rows env.toEnv leafRows a).length)
    (hne : is ≠ [] ∨ chunkFree a = true) :
    ∃ b k vals v k' vals' v', a.take env is = .ok b ∧ a.canon env = .ok (.flat k vals v) ∧ b.canon env = .ok (.flat k' vals' v') ∧ k' = k ∧
      rows env.toEnv leafRows (.flat k' vals' v') = Spec.take (rows env.toEnv leafRows (.flat k vals v)) is := by
  obtain ⟨b, h1, h2, h3, h4, _, h5⟩ := (blaws hl lb (depth a)).take false a is hw (Nice.bulk a hn) (Nat.le_refl _) hi hne
  obtain ⟨k, vals, v, c1, c2, c3, _⟩ := C03_canonical_partial hl lb a hw hn
  obtain ⟨k', vals', v', d1, d2, d3, _⟩ := C03_canonical_partial hl lb b h2 (h4.nice hn)
  refine ⟨b, k, vals, v, k', vals', v', h1, c1, d1, ?_, by rw [d2, c2, h5]⟩
  rw [h4.dtype, ← c3] at d3
  have e1 := (kind_of_dtype (rfl : k.dtype v.nullable = _)).1
  have e2 := (kind_of_dtype d3).1
  rw [e1] at e2
  exact (Option.some.inj e2).symm

/-- Take repeatedly. -/
def takeAll (env : BEnv L) (a : Arr L) : List (List Nat) → Res (Arr L)
  | [] => .ok a
  | is :: l => do
    let b ← a.take env is
    takeAll env b l

/-- Index lists that are non-empty and fit one after the other, for an array of `n` rows. -/
def TakesFit : Nat → List (List Nat) → Prop
  | _, [] => True
  | n, is :: l => is ≠ [] ∧ (∀ i ∈ is, i < n) ∧ TakesFit is.length l

/-- **C05 (takes of takes).** Any sequence of takes yields exactly the rows obtained by taking from the list of rows the same way. -/
theorem C05_sequence_partial (hl : LeafLaws env.toEnv leafRows ok) (lb : LeafBulk env leafRows ok) : ∀ (l : List (List Nat)) (a : Arr L),
    WF env.toEnv leafRows ok a → Bulk env.toEnv leafRows env.temporal f a → TakesFit (rows env.toEnv leafRows a).length l →
    ∃ b, takeAll env a l = .ok b ∧ rows env.toEnv leafRows b = l.foldl Spec.take (rows env.toEnv leafRows a)
  | [], a, _, _, _ => ⟨a, rfl, rfl⟩
  | is :: l, a, hw, hb, ⟨h1, h2, h3⟩ => by
    obtain ⟨b, b1, b2, b3, b4, _, b5⟩ := (blaws hl lb (depth a)).take f a is hw hb (Nat.le_refl _) h2 (Or.inl h1)
    have hlen : (rows env.toEnv leafRows b).length = is.length := by rw [b5, Spec.take_length h2]
    obtain ⟨c, c1, c2⟩ := C05_sequence_partial hl lb l b b2 b3 (by rw [hlen]; exact h3)
    have hb1 : a.take env is = .ok b := b1
    exact ⟨c, by simp only [takeAll, hb1, Res.ok_bind, c1], by rw [c2, b5]; rfl⟩

/-! ### A concrete tree -/

theorem exTree_Bulk (f : Bool) : Bulk noLeaves noRows noLeavesB.temporal f exTree :=
  ⟨⟨⟨⟨trivial, rfl⟩, exRuns_Nice, trivial⟩, trivial⟩, trivial, trivial⟩

/-- Chunked structs of dictionary and run-end columns: unsorted, repeated indices across the chunk boundary. -/
example : ∃ b, exTree.take noLeavesB [4, 1, 0, 1, 2] = .ok b ∧
    rows noLeaves noRows b = [.null, .list [.null, i32 (-3)], .list [i32 7, i32 (-4)], .list [.null, i32 (-3)], .null] := by
  obtain ⟨b, h1, _, _, _, _, h5⟩ := (blaws noLeavesB_laws noLeavesB_ok (depth exTree)).take false exTree [4, 1, 0, 1, 2] exTree_WF (exTree_Bulk false)
    (Nat.le_refl _) (by show ∀ i ∈ _, i < (rows noLeaves noRows exTree).length; rw [exTree_rows]; decide) (.inl (by simp))
  exact ⟨b, h1, by
    have : rows noLeavesB.toEnv noRows b = Spec.take (rows noLeaves noRows exTree) [4, 1, 0, 1, 2] := h5
    exact this.trans (by rw [exTree_rows]; rfl)⟩

example : ∃ b, takeAll noLeavesB exTree [[4, 1, 0], [2, 2], [1]] = .ok b ∧ rows noLeaves noRows b = [.list [i32 7, i32 (-4)]] := by
  obtain ⟨b, h1, h2⟩ := C05_sequence_partial (f := false) noLeavesB_laws noLeavesB_ok [[4, 1, 0], [2, 2], [1]] exTree exTree_WF (exTree_Bulk false)
    (by show TakesFit (rows noLeaves noRows exTree).length _; rw [exTree_rows]; simp [TakesFit])
  exact ⟨b, h1, by
    have : rows noLeavesB.toEnv noRows b = [[4, 1, 0], [2, 2], [1]].foldl Spec.take (rows noLeaves noRows exTree) := h2
    exact this.trans (by rw [exTree_rows]; rfl)⟩

/-! ### What is missing -/

/-- Taking nothing from a chunked array crashes. -/
theorem C05_chunked_empty : exChunks.take noLeavesB [] = .panic := by rfl

/-- So does taking, from a sparse array over chunked values, only rows that hold the fill value. -/
theorem C05_sparse_chunked :
    let a : Arr Empty := .sparse [0] (.chunked (.prim .i32 false) [.flat (.prim .i32) [i32 7] .nonNullable]) 2 0 (i32 0)
    rows noLeaves noRows a = [i32 7, i32 0] ∧ a.take noLeavesB [1] = .panic := by
  refine ⟨rfl, ?_⟩
  have : (shadow [0] 2 0).takePlan [1] = .ok [] := by decide +kernel
  simp [Arr.take, depth, bulks, bstep, takeFn, this, depths, depthV, Chunked.take, strictIdx, idx]

/-- Indices out of range: a null array reports an error, a constant array returns rows for them. -/
theorem C05_out_of_range (n : Nat) (x : SV) (dt : DType) (is : List Nat) (h : ∃ i ∈ is, n ≤ i) :
    (Arr.null n : Arr L).take env is = .err ∧ (Arr.const dt x n : Arr L).take env is = .ok (.const dt x is.length) := by
  constructor
  · obtain ⟨i, h1, h2⟩ := h
    have : is.any (fun i => decide (n ≤ i)) = true := List.any_eq_true.mpr ⟨i, h1, by simpa using h2⟩
    simp [Arr.take, depth, bulks, bstep, takeFn, this]
  · rfl

end Vx.Tree
