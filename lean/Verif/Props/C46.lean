import Verif.Props.C32
/-!
# C46: writing an array that was itself read from a stream

An array read from a stream is a view. The serialiser finds a view's children through its encoding's visitor, not through its child
list. Every encoding's visitor visits all children in order except `StructArray`'s (vortex-array/src/array/struct_/mod.rs:180-190) and
`DeltaArray`'s (encodings/fastlanes/src/delta/mod.rs:238-243): they leave out the validity.
-/
namespace Vx.Ipc
open Vx.Ipc.Spec

/-- A visitor that visits every child of every array, in order. -/
def VisitsAll (visits : FbArray → List Nat) : Prop := ∀ a : FbArray, visits a = List.range a.children.length

theorem pick_range : ∀ (cs : List Node) (k : Nat), pick cs (List.range' k (cs.length - k)) = .ok (cs.drop k) := by
  intro cs k
  induction h : cs.length - k generalizing k with
  | zero => simp [pick, List.drop_eq_nil_of_le (show cs.length ≤ k by omega)]
  | succ n ih =>
    rw [List.range'_succ, pick, List.getElem?_eq_getElem (show k < cs.length by omega), ih (k + 1) (by omega)]
    simp

mutual
theorem visible_eq (visits : FbArray → List Nat) (hv : VisitsAll visits) (bufs : List Bytes) :
    ∀ (a : FbArray) (n : Node), readTree bufs a = .ok n → visible visits bufs a = .ok n
  | .mk e m s i cs, n, h => by
    simp only [readTree, Res.bind_eq_ok] at h
    obtain ⟨b, hb, cs', hcs, m', hm, s', hs, h⟩ := h
    have hlen : cs.length = cs'.length := readTrees_length bufs cs cs' hcs
    have hp := pick_range cs' 0
    simp only [Nat.sub_zero, List.drop_zero, ← List.range_eq_range'] at hp
    have e1 : m = some m' := by cases m <;> simp_all
    have e2 : s = some s' := by cases s <;> simp_all
    subst e1 e2
    have hvis : visits (.mk e (some m') (some s') i cs) = List.range cs'.length := by rw [hv, FbArray.children, hlen]
    simp only [visible, hb, Res.ok_bind, visibles_eq visits hv bufs cs cs' hcs, hvis, hp, Res.unwrap_some]
    exact h
theorem visibles_eq (visits : FbArray → List Nat) (hv : VisitsAll visits) (bufs : List Bytes) :
    ∀ (cs : List FbArray) (ns : List Node), readTrees bufs cs = .ok ns → visibles visits bufs cs = .ok ns
  | [], ns, h => by simpa [readTrees, visibles] using h
  | c :: cs, ns, h => by
    simp only [readTrees, Res.bind_eq_ok] at h
    obtain ⟨c', hc, cs', hcs, h⟩ := h
    simp only [visibles, visible_eq visits hv bufs c c' hc, visibles_eq visits hv bufs cs cs' hcs, Res.ok_bind]
    exact h
theorem readTrees_length (bufs : List Bytes) : ∀ (cs : List FbArray) (ns : List Node), readTrees bufs cs = .ok ns → cs.length = ns.length
  | [], ns, h => by simp [readTrees] at h; simp [h]
  | c :: cs, ns, h => by
    simp only [readTrees, Res.bind_eq_ok] at h
    obtain ⟨c', hc, cs', hcs, h⟩ := h
    simp only [Res.ok.injEq] at h
    rw [← h]; simp [readTrees_length bufs cs cs' hcs]
end

/-- For encodings whose visitor visits every child, writing a view writes the same tree again: reading the second message gives the same
encodings, metadata, statistics, buffers and children. -/
theorem C46_reserialise_partial (visits : FbArray → List Nat) (hv : VisitsAll visits) (n : Node) :
    ∃ n', visible visits (buffersOf n) (writeArray 0 n) = .ok n' ∧ readTree (buffersOf n') (writeArray 0 n') = .ok n :=
  ⟨n, visible_eq visits hv _ _ _ (C32_tree_round_trip n), C32_tree_round_trip n⟩

/-- The visitor of `StructArray`: the fields, not the validity. (`structCode` is the struct encoding; the number of fields is the number of
children without the validity, here one less than all children, for a struct that has a validity array.) -/
def structVisits (structCode : Nat) (a : FbArray) : List Nat :=
  if a.encoding = structCode then List.range (a.children.length - 1) else List.range a.children.length

/-- The defect: a nullable struct that was read from a stream is written without its validity array, and the reader of the second stream
finds no child at the validity's position although the metadata (unchanged) says there is one. -/
theorem C46_struct_validity_lost (structCode : Nat) (m s : Bytes) (fields : List Node) (validity : Node) (bufs : List Bytes)
    (fs : List FbArray) (v : FbArray) (hf : visibles (structVisits structCode) bufs fs = .ok fields)
    (hv : visible (structVisits structCode) bufs v = .ok validity) :
    ∃ n', visible (structVisits structCode) bufs (.mk structCode (some m) (some s) none (fs ++ [v])) = .ok n' ∧ n'.metadata = m ∧
      n'.children = fields ∧
      ∀ d l, viewAt ⟨writeArray 0 n', l, d, buffersOf n'⟩ [(fields.length, d, l)] = .err := by
  have happ : ∀ (xs : List FbArray) (ys : List Node), visibles (structVisits structCode) bufs xs = .ok ys →
      visibles (structVisits structCode) bufs (xs ++ [v]) = .ok (ys ++ [validity]) ∧ xs.length = ys.length := by
    intro xs
    induction xs with
    | nil =>
      intro ys h
      have : ys = [] := by simpa [visibles] using h.symm
      subst this
      simp [visibles, hv]
    | cons x xs ih =>
      intro ys h
      simp only [visibles, Res.bind_eq_ok] at h
      obtain ⟨c', hc, cs', hcs, h⟩ := h
      simp only [Res.ok.injEq] at h
      obtain ⟨h1, h2⟩ := ih cs' hcs
      rw [← h]
      simp [visibles, hc, h1, h2]
  obtain ⟨h1, h2⟩ := happ fs fields hf
  have hp : ∀ (rest : List Node) (k : Nat), pick (fields ++ rest) (List.range' k (fields.length - k)) = .ok (fields.drop k) := by
    intro rest k
    induction h : fields.length - k generalizing k with
    | zero => simp [pick, List.drop_eq_nil_of_le (show fields.length ≤ k by omega)]
    | succ n ih =>
      rw [List.range'_succ, pick, List.getElem?_append_left (show k < fields.length by omega),
        List.getElem?_eq_getElem (show k < fields.length by omega), ih (k + 1) (by omega)]
      simp
  have hpick : pick (fields ++ [validity]) (List.range fields.length) = .ok fields := by
    have := hp [validity] 0
    simpa [← List.range_eq_range'] using this
  refine ⟨.mk structCode m s none fields, ?_, rfl, rfl, ?_⟩
  · simp [visible, View.getBuffer, h1, structVisits, FbArray.encoding, FbArray.children, h2, hpick]
  · intro d l
    exact C32_no_such_child _ l d _ (by simp [nodeAt, Node.children])

/-! Non-vacuity -/
example : VisitsAll (fun a => List.range a.children.length) := fun _ => rfl
example : visibles (structVisits 7) [[1]] [.mk 3 (some []) (some []) (some 0) []] = .ok [.mk 3 [] [] (some [1]) []] := by rfl

end Vx.Ipc
