import Verif.Spec.TreeDisplay
import Verif.Props.C114
namespace Vx.Own
open Vx

mutual
/-- Every array of the tree is placed once, in order. -/
theorem placed_nodes (k : Nat) (w : Option Arr) : ∀ a : Arr, (placed k w a).map (·.2.1) = nodes a
  | .mk e d l b cs => by
    rw [placed, nodes, List.map_cons, placedAll_nodes (k + 1) _ cs]
theorem placedAll_nodes (k : Nat) (w : Option Arr) : ∀ cs : List Arr, (placedAll k w cs).map (·.2.1) = nodesAll cs
  | [] => rfl
  | c :: cs => by rw [placedAll, nodesAll, List.map_append, placed_nodes k w c, placedAll_nodes k w cs]
end

/-- What `nbytes` says of an array that was built. -/
def counted (size : Enc → List Nat → Nat) (a : Arr) : Nat := ((nodes (trim a)).map (valueBytes size)).sum

/-- The bytes of the buffers shown. -/
def shownBytes (size : Enc → List Nat → Nat) (x : Arr) : Nat := if showsBuffer x.enc then size x.enc x.data else 0

/-- What a line says of an array placed in the tree. -/
def says (f : Arr → Nat) (p : Nat × Arr × Arr) : Nat × Enc × DType × Nat × Nat × Nat :=
  (p.1, p.2.1.enc, p.2.1.dtype, p.2.1.len, f p.2.1, f p.2.2)

theorem ownLines_arrays (size : Enc → List Nat → Nat) (k : Nat) (e : Enc) (d : DType) (l n t : Nat) (b : List Nat) :
    (ownLines size k e d l n t b).filterMap arrayLine = [(k, e, d, l, n, t)] := by
  unfold ownLines
  split <;> rfl

theorem ownLines_buffers (size : Enc → List Nat → Nat) (k : Nat) (e : Enc) (d : DType) (l n t : Nat) (b : List Nat) (cs : List Arr) :
    ((ownLines size k e d l n t b).map bufferBytes).sum = shownBytes size (.mk e d l b cs) := by
  unfold ownLines shownBytes
  simp only [Arr.enc, Arr.data]
  split <;> simp_all [bufferBytes]

mutual
theorem display_built {C : Compute} (hC : C.Lawful) (size : Enc → List Nat → Nat) : ∀ (a : Arr) (k : Nat) (w : Option Arr), Built C a → Whole a →
    ∃ ls, display C size k (w.map (counted size)) a = .ok (ls, w.map (counted size)) ∧
      ls.filterMap arrayLine = (placed k w a).map (says (counted size)) ∧
      (ls.map bufferBytes).sum = ((nodes a).map (shownBytes size)).sum
  | .mk e d l b cs, k, w, h, hw => by
    have hb := built_children h
    have hv := (built_visits hC h).2.1
    have hn := nbytes_built hC size _ h
    have he : hidesValidity e = false := hw (.mk e d l b cs) (by rw [nodes]; exact List.mem_cons_self ..)
    have hs : shown e cs = cs := by simp [shown, he]
    rw [hs] at hv
    simp only [children_mk] at hb
    have hm : Res.mapM (fun s => expect ((Arr.mk e d l b cs).child s.idx s.dtype s.len)) (slotsOf 0 cs) = .ok cs :=
      mapM_child_shown [] cs [] _ (by simp [children_mk])
    have hg : (w.map (counted size)).getD (counted size (.mk e d l b cs)) = counted size (w.getD (.mk e d l b cs)) := by cases w <;> rfl
    have hin : (match e with
        | .chunked _ => none
        | _ => some (counted size (w.getD (.mk e d l b cs)))) =
        (if startsAnew e then none else some (w.getD (.mk e d l b cs))).map (counted size) := by cases e <;> rfl
    obtain ⟨ls, h1, h2, h3⟩ := displayAll_built hC size cs [] (k + 1) (if startsAnew e then none else some (w.getD (.mk e d l b cs))) hb
      (fun x hx => hw x (by rw [nodes]; exact List.mem_cons_of_mem _ hx))
    rw [List.nil_append, List.length_nil] at h1
    refine ⟨ownLines size k e d l (counted size (.mk e d l b cs)) (counted size (w.getD (.mk e d l b cs))) b ++ ls, ?_, ?_, ?_⟩
    · rw [display, hn]
      simp only [Res.ok_bind, hv, hm]
      change (displayAll C size (k + 1) (slotsOf 0 cs) 0 (match e with
        | .chunked _ => none
        | _ => some ((w.map (counted size)).getD (counted size (.mk e d l b cs)))) cs >>= fun r =>
          Res.ok (ownLines size k e d l (counted size (.mk e d l b cs)) ((w.map (counted size)).getD (counted size (.mk e d l b cs))) b ++ r.1,
            w.map (counted size))) = _
      rw [hg, hin, h1]
      rfl
    · rw [List.filterMap_append, ownLines_arrays, h2, placed]
      rfl
    · rw [List.map_append, List.sum_append, ownLines_buffers size k e d l _ _ b cs, h3, nodes, List.map_cons, List.sum_cons]
theorem displayAll_built {C : Compute} (hC : C.Lawful) (size : Enc → List Nat → Nat) : ∀ (cs pre : List Arr) (k : Nat) (w : Option Arr),
    (∀ x ∈ cs, Built C x) → (∀ x ∈ nodesAll cs, hidesValidity x.enc = false) →
    ∃ ls, displayAll C size k (slotsOf 0 (pre ++ cs)) pre.length (w.map (counted size)) cs = .ok (ls, w.map (counted size)) ∧
      ls.filterMap arrayLine = (placedAll k w cs).map (says (counted size)) ∧
      (ls.map bufferBytes).sum = ((nodesAll cs).map (shownBytes size)).sum
  | [], pre, k, w, _, _ => ⟨[], rfl, rfl, rfl⟩
  | c :: cs, pre, k, w, h, hw => by
    obtain ⟨l1, g1, g2, g3⟩ := display_built hC size c k w (h c (List.mem_cons_self ..))
      (fun x hx => hw x (by rw [nodesAll]; exact List.mem_append_left _ hx))
    obtain ⟨l2, k1, k2, k3⟩ := displayAll_built hC size cs (pre ++ [c]) k w (fun x hx => h x (List.mem_cons_of_mem _ hx))
      (fun x hx => hw x (by rw [nodesAll]; exact List.mem_append_right _ hx))
    rw [List.length_append, List.length_singleton, List.append_assoc, List.singleton_append] at k1
    have hf := find_at false pre c cs
    simp only [Bool.false_eq_true, if_false, Bool.false_and] at hf
    refine ⟨l1 ++ l2, ?_, ?_, ?_⟩
    · rw [displayAll, hf]
      simp only [g1, Res.ok_bind, k1]
    · rw [List.filterMap_append, g2, k2, placedAll, List.map_append]
    · rw [List.map_append, List.sum_append, g3, k3, nodesAll, List.map_append, List.sum_append]
end

/-! ### Shares -/

theorem bytesOf_mk (size : Enc → List Nat → Nat) (e : Enc) (d : DType) (l : Nat) (b : List Nat) (cs : List Arr) :
    ((nodesAll cs).map (valueBytes size)).sum ≤ bytesOf size (.mk e d l b cs) := by
  rw [bytesOf, nodes, List.map_cons, List.sum_cons]
  omega

mutual
theorem placed_le (size : Enc → List Nat → Nat) : ∀ (a : Arr) (k : Nat) (w : Option Arr), bytesOf size a ≤ bytesOf size (w.getD a) →
    ∀ p ∈ placed k w a, bytesOf size p.2.1 ≤ bytesOf size p.2.2
  | .mk e d l b cs, k, w, hw, p, hp => by
    rw [placed] at hp
    rcases List.mem_cons.mp hp with rfl | hp
    · exact hw
    · refine placedAll_le size cs (k + 1) _ (fun r hr => ?_) p hp
      have h1 := bytesOf_mk size e d l b cs
      cases hs : startsAnew e with
      | true => rw [hs] at hr; simp at hr
      | false =>
        rw [hs] at hr
        simp only [Bool.false_eq_true, if_false, Option.some.injEq] at hr
        subst hr
        omega
theorem placedAll_le (size : Enc → List Nat → Nat) : ∀ (cs : List Arr) (k : Nat) (w : Option Arr),
    (∀ r, w = some r → ((nodesAll cs).map (valueBytes size)).sum ≤ bytesOf size r) →
    ∀ p ∈ placedAll k w cs, bytesOf size p.2.1 ≤ bytesOf size p.2.2
  | [], _, _, _, p, hp => by rw [placedAll] at hp; cases hp
  | c :: cs, k, w, hw, p, hp => by
    have hsum : ((nodesAll (c :: cs)).map (valueBytes size)).sum = bytesOf size c + ((nodesAll cs).map (valueBytes size)).sum := by
      rw [nodesAll, List.map_append, List.sum_append, bytesOf]
    rw [placedAll, List.mem_append] at hp
    rcases hp with hp | hp
    · refine placed_le size c k w ?_ p hp
      cases w with
      | none => exact Nat.le_refl _
      | some r => have := hw r rfl; simp only [Option.getD_some]; omega
    · exact placedAll_le size cs k w (fun r hr => by have := hw r hr; omega) p hp
end

mutual
/-- What a share refers to is in the tree itself. -/
theorem placed_mem : ∀ (a : Arr) (k : Nat) (w : Option Arr), ∀ p ∈ placed k w a, p.2.2 ∈ nodes a ∨ w = some p.2.2
  | .mk e d l b cs, k, w, p, hp => by
    rw [placed] at hp
    rcases List.mem_cons.mp hp with rfl | hp
    · cases w with
      | none => left; rw [nodes]; exact List.mem_cons_self ..
      | some r => right; rfl
    · rcases placedAll_mem cs (k + 1) _ p hp with h | h
      · left; rw [nodes]; exact List.mem_cons_of_mem _ h
      · cases hs : startsAnew e with
        | true => rw [hs] at h; simp at h
        | false =>
          rw [hs] at h
          simp only [Bool.false_eq_true, if_false, Option.some.injEq] at h
          cases w with
          | none => left; rw [nodes, ← h]; exact List.mem_cons_self ..
          | some r => right; rw [← h]; rfl
theorem placedAll_mem : ∀ (cs : List Arr) (k : Nat) (w : Option Arr), ∀ p ∈ placedAll k w cs, p.2.2 ∈ nodesAll cs ∨ w = some p.2.2
  | [], _, _, p, hp => by rw [placedAll] at hp; cases hp
  | c :: cs, k, w, p, hp => by
    rw [placedAll, List.mem_append] at hp
    rw [nodesAll, List.mem_append]
    rcases hp with hp | hp
    · rcases placed_mem c k w p hp with h | h
      · exact .inl (.inl h)
      · exact .inr h
    · rcases placedAll_mem cs k w p hp with h | h
      · exact .inl (.inr h)
      · exact .inr h
end

mutual
theorem nodes_trans : ∀ (a x y : Arr), x ∈ nodes a → y ∈ nodes x → y ∈ nodes a
  | .mk e d l b cs, x, y, hx, hy => by
    rw [nodes] at hx
    rcases List.mem_cons.mp hx with rfl | hx
    · exact hy
    · rw [nodes]; exact List.mem_cons_of_mem _ (nodesAll_trans cs x y hx hy)
theorem nodesAll_trans : ∀ (cs : List Arr) (x y : Arr), x ∈ nodesAll cs → y ∈ nodes x → y ∈ nodesAll cs
  | [], _, _, hx, _ => by rw [nodesAll] at hx; cases hx
  | c :: cs, x, y, hx, hy => by
    rw [nodesAll, List.mem_append] at hx ⊢
    rcases hx with hx | hx
    · exact .inl (nodes_trans c x y hx hy)
    · exact .inr (nodesAll_trans cs x y hx hy)
end

theorem counted_of_mem (size : Enc → List Nat → Nat) {a x : Arr} (h : Counted a) (hx : x ∈ nodes a) : counted size x = bytesOf size x := by
  unfold counted bytesOf
  rw [trim_counted x (fun y hy => h y (nodes_trans a x y hx hy))]

/-! ### Buffers -/

/-- An array that has bytes of its own shows them. -/
theorem run_shows {C : Compute} {c : Call} {e : Enc} {d : DType} {l : Nat} {b : List Nat} {cs : List Arr} (h : c.run C = .ok (.mk e d l b cs))
    (he : showsBuffer e = false) : b = [] := by
  cases c with
  | null | constant => cases h; rfl
  | sparse ind val len off fill fillOk =>
    simp only [Call.run, Res.bind_eq_ok] at h
    obtain ⟨_, h1, _, h2, _, h3, h⟩ := h
    split at h
    · simp only [Res.bind_eq_ok] at h
      obtain ⟨_, _, _, _, _, _, h⟩ := h; cases h; rfl
    · cases h; rfl
  | _ =>
    simp only [Call.run, Res.bind_eq_ok, Res.ok.injEq, Arr.mk.injEq] at h
    grind [showsBuffer]

mutual
theorem built_nodes {C : Compute} : ∀ a : Arr, Built C a → ∀ x ∈ nodes a, Built C x
  | .mk e d l b cs, h, x, hx => by
    have hb := built_children h
    simp only [children_mk] at hb
    rw [nodes] at hx
    rcases List.mem_cons.mp hx with rfl | hx
    · exact h
    · exact built_nodesAll cs hb x hx
theorem built_nodesAll {C : Compute} : ∀ cs : List Arr, (∀ x ∈ cs, Built C x) → ∀ x ∈ nodesAll cs, Built C x
  | [], _, x, hx => by rw [nodesAll] at hx; cases hx
  | c :: cs, h, x, hx => by
    rw [nodesAll, List.mem_append] at hx
    rcases hx with hx | hx
    · exact built_nodes c (h c (List.mem_cons_self ..)) x hx
    · exact built_nodesAll cs (fun y hy => h y (List.mem_cons_of_mem _ hy)) x hx
end

end Vx.Own
