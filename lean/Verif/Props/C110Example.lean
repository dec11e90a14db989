import Verif.Props.C110
import Verif.Props.C34Example
/-! # C110: the hypotheses can be met -/
namespace Vx.Damage.Demo
open Ipc (Bytes Codec FbMsg FbBuffer FbArray)
open Layout (FbLayout)

/-- A file with one column `a` of bytes, its data replaced by three zeros. -/
noncomputable def broken : Bytes := Layout.fileOf Layout.FileDemo.codec [0, 0, 0] (.struct [['a']] [.prim .u8 false] false) (.columnL [.flatL ⟨0, 3⟩]) 3

theorem broken_small : broken.length < 2 ^ 64 := by
  have : broken.length < 100000 := by unfold broken; decide +kernel
  omega

example : Openable Layout.FileDemo.codec (Layout.tailLength Layout.FileDemo.codec (.struct [['a']] [.prim .u8 false] false) (.columnL [.flatL ⟨0, 3⟩]) 3) broken broken.length
    (.flat [.index 0, .name ['b']]) :=
  C110_damaged_data _ Layout.FileDemo.codec_lawful [0, 0, 0] [['a']] [.prim .u8 false] false _ 3 _ (by decide) (by decide) broken_small (Nat.le_refl _) rfl
    (by intro h; cases h) _ (by
      intro p hp i hi
      cases hp
      simp only [List.mem_cons, List.not_mem_nil, or_false, RowExpr.Field.index.injEq] at hi
      rcases hi with rfl | h
      · decide
      · cases h)

/-- A verifier that knows one message: a batch with two buffers in three bytes. -/
def tiny : Codec where
  enc _ := [7]
  dec
    | [7] => some (.batch (some (.mk 1 (some []) (some []) (some 1) [])) 3 [⟨0, 1⟩, ⟨2, 0⟩] 3)
    | _ => none

theorem tiny_order (src : Bytes) : TablesInOrder tiny src := by
  intro msg _ a l bs total h
  simp only [tiny] at h
  split at h
  · cases h; simp [InOrder]
  · cases h

/-- A block in order, and one that is cut off. -/
example : BlockOk tiny [1, 0, 0, 0, 7, 5, 0, 6] :=
  ⟨by decide, by decide, _, rfl, by intro a l bs total h; cases h; exact ⟨by decide, by simp [InOrder]⟩⟩
example : Ipc.arrayFromBytes tiny (fun _ => true) .null [1, 0, 0, 0, 7, 5, 0] = .panic := by
  rw [C110_block_panics_iff]
  rintro ⟨_, _, m, hm, h⟩
  cases hm
  have := (h _ _ _ _ rfl).1
  simp [prefixLen] at this

example : Begins [1, 0, 0, 0, 7, 5, 0] := ⟨by decide, by decide⟩
/-- A stream cut off in the buffers: an error. -/
example : (Ipc.Reader.tryNew tiny [1, 0, 0, 0, 7, 5, 0]).bind (fun r => r.session tiny (fun _ => true) [.chunk .null]) = .err := rfl
/-- A whole one: an answer. -/
example : ∃ r, (Ipc.Reader.tryNew tiny [1, 0, 0, 0, 7, 5, 0, 6]).bind (fun r => r.session tiny (fun _ => true) [.chunk .null, .page]) = .ok r := ⟨_, rfl⟩
example : IndicesOk 2 (.mk 1 (some []) (some []) (some 1) []) := by simp [IndicesOk, IndicesOks]

end Vx.Damage.Demo
