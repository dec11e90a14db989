import Verif.Props.C102
import Verif.Props.C93Example
/-! # C102: the hypotheses can be met -/
namespace Vx.Store.FileDemo
open Own
open Layout (Rows Row FileCodec LayoutWriter EnvOk finalize readFile)
open Vx.Tree (TVal Kind Codec WF WFs WFV LeafLaws noLeavesB noRows exChoice exCtx compress Good i32 u32v)
open Ipc (Bytes)

/-- Metadata of the encodings of the example. -/
def mc : MetaCodec where
  id
    | .prim .nonNullable => 1
    | .struct .nonNullable => 2
    | .runEnd .nonNullable .u64 _ 0 => 3
    | .zigzag => 4
    | .dict .u64 _ => 5
    | .varbinview .nonNullable [_] => 6
    | _ => 0
  ser
    | .runEnd _ _ n _ => [UInt8.ofNat n]
    | .dict _ n => [UInt8.ofNat n]
    | .varbinview _ [n] => [UInt8.ofNat n]
    | _ => []
  de
    | 1, _ => some (.prim .nonNullable)
    | 2, _ => some (.struct .nonNullable)
    | 3, [n] => some (.runEnd .nonNullable .u64 n.toNat 0)
    | 4, _ => some .zigzag
    | 5, [n] => some (.dict .u64 n.toNat)
    | 6, [n] => some (.varbinview .nonNullable [n.toNat])
    | _, _ => none

def M : OwnCodec := leCodec mc
def sc : Scalars := ⟨fun _ => 0, fun _ _ => none⟩
def S : Leaves Empty := ⟨nofun, fun _ => none⟩

theorem S_laws : StoreLaws plain S noLeavesB.toEnv (fun _ => True) := ⟨nofun, nofun, nofun, nofun, nofun⟩
theorem sorted : SortedOk plain := fun _ _ => rfl

def long : List UInt8 := [1, 2, 3, 4, 5, 6, 7, 8, 9, 10, 11, 12, 13, 14, 15]
def names : List Str := [['a'], ['b']]
/-- A table with a column of numbers in runs and a column of two strings, one too long to be inlined. -/
def table : Tree.Arr Empty := .struct names [.flat (.prim .i32) [i32 7, i32 7, i32 (-2), i32 (-2)] .nonNullable,
  .flat .utf8 [.str long, .str [65], .str [65], .str long] .nonNullable] 4 .nonNullable

def colA : Tree.Arr Empty := .runEnd [2, 4] (.mapped .zigzag (.flat (.prim .u32) [u32v 14, u32v 3] .nonNullable)) .nonNullable 0 4
def colB : Tree.Arr Empty := .dict (.runEnd [1, 3, 4] (.flat (.prim .u64) [.prim ⟨.u64, 0⟩, .prim ⟨.u64, 1⟩, .prim ⟨.u64, 0⟩] .nonNullable) .nonNullable 0 4)
  (.flat .utf8 [.str long, .str [65]] .nonNullable)

/-- What the compressor makes of it: run-end with zigzag values; a dictionary with run-end codes. -/
theorem table_compressed : ∃ b t, compress noLeavesB exChoice 8 exCtx table none = .ok (b, t) ∧ b = .struct names [colA, colB] 4 .nonNullable := ⟨_, _, rfl, rfl⟩

theorem table_good : Good noLeavesB.toEnv noRows (fun _ => True) table := by
  have h4 : ∀ (P : SV → Prop) (a b c d : SV), P a → P b → P c → P d → ∀ x ∈ [a, b, c, d], P x := by
    intro P a b c d h1 h2 h3 h4 x hx
    simp only [List.mem_cons, List.not_mem_nil, or_false] at hx
    rcases hx with rfl | rfl | rfl | rfl <;> assumption
  refine ⟨⟨rfl, ⟨⟨h4 _ _ _ _ _ rfl rfl rfl rfl, trivial⟩, ⟨h4 _ _ _ _ _ rfl rfl rfl rfl, trivial⟩, trivial⟩, ?_, trivial⟩, ?_, ?_⟩
  · intro c hc
    simp only [Tree.rowsEach, List.mem_cons, List.not_mem_nil, or_false] at hc
    rcases hc with rfl | rfl <;> rfl
  · exact ⟨⟨trivial, trivial, trivial⟩, trivial⟩
  · exact ⟨⟨⟨trivial, trivial⟩, ⟨trivial, trivial⟩, trivial⟩, trivial⟩

/-- The compressed table. -/
def packed : Tree.Arr Empty := .struct names [colA, colB] 4 .nonNullable

theorem packed_fits : Fits sc noLeavesB.toEnv packed := by
  have h : ∀ x ∈ [1, 3, 4], x < 2 ^ 64 := by decide
  have h' : ∀ x ∈ [2, 4], x < 2 ^ 64 := by decide
  refine ⟨⟨⟨⟨⟨trivial, fun h => ?_⟩, trivial⟩, trivial, h'⟩, ⟨⟨⟨trivial, fun h => ?_⟩, trivial, h⟩, ⟨trivial, fun _ => by decide⟩⟩, trivial⟩, trivial⟩
  · rcases h with h | h <;> cases h
  · rcases h with h | h <;> cases h

/-- A struct array whose children are of registered encodings, stored as bytes. -/
theorem packed_meta : Everywhere (MetaOk mc) (phys sc S noLeavesB.toEnv packed) :=
  ⟨rfl, ⟨rfl, ⟨rfl, trivial⟩, ⟨rfl, ⟨rfl, trivial⟩, trivial⟩, trivial⟩,
    ⟨rfl, ⟨rfl, ⟨rfl, trivial⟩, ⟨rfl, trivial⟩, trivial⟩, ⟨rfl, ⟨rfl, trivial⟩, ⟨rfl, trivial⟩, trivial⟩, trivial⟩, trivial⟩

theorem packed_wf : WF noLeavesB.toEnv noRows (fun _ => True) packed := by
  obtain ⟨b, t, h, rfl⟩ := table_compressed
  exact (Tree.C41_compress_partial Tree.noLeavesB_laws Tree.noLeavesB_ok Tree.exChoice_laws 8 exCtx table _ none t table_good h).1

/-- The bytes say it all: two messages cannot be confused. -/
example : ∃ a, readIpc M (Tree.dtype noLeavesB.toEnv packed) 4 (toIpc M (phys sc S noLeavesB.toEnv packed)) = .ok a ∧ view sc S a = some packed :=
  C102_bytes plain_lawful sorted Tree.noLeavesB_laws.len S_laws nofun mc packed packed_wf packed_fits packed_meta

noncomputable abbrev F : FileCodec := Layout.FileDemo.codec
noncomputable def fenv : Layout.Env SV := Layout.fileEnv F.msgs (fun _ => true) (viewRows M (storedRows sc S noLeavesB.toEnv noRows)) (fun _ => true)

theorem fenv_ok : EnvOk fenv F (fun _ => true) (viewRows M (storedRows sc S noLeavesB.toEnv noRows)) := ⟨rfl, rfl, rfl, rfl, fun d l n => by
  unfold viewRows
  split
  · split
    · assumption
    · simp
  · simp⟩

theorem storable : Spec.Storable F M (fun _ => true) (phys sc S noLeavesB.toEnv packed) names [.prim .i32 false, .utf8 false] false where
  dtype := rfl
  columns := by decide
  nonempty := by intro h; cases h
  structs := by
    intro p hp
    rw [show Spec.parts (phys sc S noLeavesB.toEnv packed) = [phys sc S noLeavesB.toEnv packed] from rfl, List.mem_singleton] at hp
    subst hp
    exact ⟨_, rfl⟩
  stored := by
    obtain ⟨_, m1, m2, _⟩ := packed_meta
    obtain ⟨_, b1, b2, _⟩ := phys_buffers (sc := sc) S_laws nofun packed packed_wf packed_fits
    intro j hj c hc
    have hj' : j = 0 ∨ j = 1 := by simp only [List.length_cons, List.length_nil] at hj; omega
    rcases hj' with rfl | rfl
    · have : c = phys sc S noLeavesB.toEnv colA := List.mem_singleton.mp hc
      subst this
      refine ⟨keeps_le mc _ b1 m1, Own.FileDemo.fits _ _ ?_, rfl⟩
      rw [Ipc.batchMsg_eq]; show (Ipc.Demo.unary _).length < 1000; decide +kernel
    · have : c = phys sc S noLeavesB.toEnv colB := List.mem_singleton.mp hc
      subst this
      refine ⟨keeps_le mc _ b2 m2, Own.FileDemo.fits _ _ ?_, rfl⟩
      rw [Ipc.batchMsg_eq]; show (Ipc.Demo.unary _).length < 1000; decide +kernel
  perColumn := by decide +kernel
  tables := by decide +kernel

/-- All hypotheses of the end-to-end theorem hold of it. -/
example : ∃ w file, writeArrayColumns plain M F.msgs LayoutWriter.new (phys sc S noLeavesB.toEnv packed) = .ok w ∧
    finalize F Layout.FileDemo.metaNode w = .ok file := by
  obtain ⟨b, t, h, rfl⟩ := table_compressed
  obtain ⟨w, _, _, file, h1, h2, _⟩ := Tree.C102_compressed_file plain_lawful sorted Tree.noLeavesB_laws Tree.noLeavesB_ok Tree.noLeavesB_laws.len S_laws Tree.exChoice_laws (leCodec_lawful mc) F
    Layout.FileDemo.codec_lawful Layout.FileDemo.metaNode (fun _ => true) fenv fenv_ok 8 exCtx table _ none t table_good h packed_wf packed_fits trivial names
    [.prim .i32 false, .utf8 false] false storable
  exact ⟨w, file, h1, h2⟩

/-- A constant of 32 bits is kept as a flexbuffer. -/
example : Kept (flexScalars exFloats exWidth .w64 (fun _ => 0) (fun _ => some (Flex.storeField exFloats exWidth .w64 (i32 (-2))))) (.prim .i32 false) (i32 (-2)) := by
  rfl

end Vx.Store.FileDemo
