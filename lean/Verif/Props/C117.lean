import Verif.Lemmas.CompressCost
import Verif.Props.C41
/-! # C117: compression is no deeper than configured -/
namespace Vx.Tree

variable {L : Type} {env : BEnv L} {ch : Choice L} {lc : L → Nat}

/-- **C117.** Whatever is compressed, whatever statistics, samples, sizes and chunks make the search choose or reuse: on no path into the output do the
costs of the encodings add up to more than `max_cost`, beyond what was already nested in the input. -/
theorem C117_max_cost_partial (hs : CostLaws ch lc) (fuel : Nat) (ctx : Ctx) (a b : Arr L) (t : Option CTree) (hd : ctx.depth ≤ ch.maxCost)
    (hr : Rechunkable env.toEnv a) (h : compress env ch fuel ctx a none = .ok (b, t)) :
    ctx.depth + nestCost ch.cost lc b ≤ ch.maxCost + nestCost ch.cost lc a :=
  (compress_c hs fuel ctx a none b t h hd (by simp)).2 hr

/-- The tree that is kept for reuse is within the limit, so that reusing it is. -/
theorem C117_tree (hs : CostLaws ch lc) (fuel : Nat) (ctx : Ctx) (a b : Arr L) (t : CTree) (hd : ctx.depth ≤ ch.maxCost)
    (h : compress env ch fuel ctx a none = .ok (b, some t)) : ctx.depth + t.cost ch.cost ≤ ch.maxCost := by
  have := (compress_c hs fuel ctx a none b (some t) h hd (by simp)).1.2
  simpa [CTree.costO] using this

/-- Reusing a tree that is within the limit, on any array, is within the limit. -/
theorem C117_reuse_partial (hs : CostLaws ch lc) (fuel : Nat) (ctx : Ctx) (a b : Arr L) (s : CTree) (t : Option CTree)
    (hd : ctx.depth + s.cost ch.cost ≤ ch.maxCost) (hr : Rechunkable env.toEnv a) (h : compress env ch fuel ctx a (some s) = .ok (b, t)) :
    ctx.depth + nestCost ch.cost lc b ≤ ch.maxCost + nestCost ch.cost lc a ∧ ∀ x, t = some x → ctx.depth + x.cost ch.cost ≤ ch.maxCost := by
  have hf : Fit ch ctx.depth (some s) := ⟨by omega, by simpa [CTree.costO] using hd⟩
  obtain ⟨q1, q2⟩ := compress_c hs fuel ctx a (some s) b t h hf.1 (fun _ _ _ => hf)
  refine ⟨q2 hr, fun x hx => ?_⟩
  subst hx
  simpa [CTree.costO] using q1.2

theorem stdCost_weight : stdCost = weight := by funext i; cases i <;> rfl

/-- From data in which nothing is compressed, and from the top, with the costs and the default limit of the code: at most three costly encodings, of
which delta counts twice, are nested. -/
theorem C117_default_partial (hc : ch.cost = stdCost) (hm : ch.maxCost = stdMaxCost) (hf : ∀ a, ch.can .for a = true → ∃ k xs v, a = .flat k xs v)
    (hl : ∀ i a like l, ch.leafEnc i a like = .ok (some l) → lc l ≤ weight i) (fuel : Nat) (compressors : List CId) (a b : Arr L) (t : Option CTree)
    (ha : nestCost weight lc a = 0) (hr : Rechunkable env.toEnv a) (h : compress env ch fuel (.new compressors) a none = .ok (b, t)) :
    nestCost weight lc b ≤ 3 := by
  have hw : ch.cost = weight := by rw [hc, stdCost_weight]
  have := C117_max_cost_partial (lc := lc) ⟨by rw [hc]; rfl, by rw [hc]; rfl, by rw [hc]; rfl, by rw [hc]; rfl, hf, by rw [hw]; exact hl⟩
    fuel (.new compressors) a b t (by simp [Ctx.new]) hr h
  rw [hw, hm, ha] at this
  simpa [Ctx.new, stdMaxCost] using this

/-- With a limit of nothing, nothing that costs is added. -/
theorem C117_zero_partial (hs : CostLaws ch lc) (hm : ch.maxCost = 0) (fuel : Nat) (ctx : Ctx) (a b : Arr L) (t : Option CTree) (hd : ctx.depth = 0)
    (hr : Rechunkable env.toEnv a) (h : compress env ch fuel ctx a none = .ok (b, t)) : nestCost ch.cost lc b ≤ nestCost ch.cost lc a := by
  have := C117_max_cost_partial hs fuel ctx a b t (by omega) hr h
  omega

/-! ### Examples -/

/-- The search of C41 with the costs of the code, and a limit. -/
def costChoice (m : Nat) : Choice Empty := { exChoice with cost := stdCost, maxCost := m, can := fun i a => match i, a with
  | .for, .flat (.prim p) _ _ => p.isInt
  | .for, _ => false
  | i, a => exChoice.can i a }

def noCost : Empty → Nat := nofun

theorem costChoice_laws (m : Nat) : CostLaws (costChoice m) noCost where
  sparse := rfl
  constant := rfl
  chunked := rfl
  struct := rfl
  takesFor a h := by
    cases a with
    | flat k xs v => exact ⟨k, xs, v, rfl⟩
    | _ => simp [costChoice] at h
  leaf i a like l h := by simp [costChoice, exChoice] at h

/-- With a limit of two, run-end and frame of reference are nested in the column of C41, and no more fits. -/
example : ∃ b t, compress noLeavesB (costChoice 2) 8 (.new [.runEnd, .for, .zigzag, .dict]) exColumn none = .ok (b, t) ∧
    nestCost stdCost noCost b = 2 ∧ nestCost stdCost noCost exColumn = 0 ∧ Rechunkable noLeavesB.toEnv exColumn := by
  refine ⟨_, _, rfl, rfl, rfl, ?_⟩
  exact ⟨⟨trivial, trivial, trivial, trivial⟩, rfl, rfl, rfl, trivial⟩

/-- The bound is reached: with a limit of one only run-end is. -/
example : ∃ b t, compress noLeavesB (costChoice 1) 8 (.new [.runEnd, .for, .zigzag, .dict]) exColumn none = .ok (b, t) ∧ nestCost stdCost noCost b = 1 :=
  ⟨_, _, rfl, rfl⟩

end Vx.Tree
