import Verif.Props.C102Leaves
import Verif.Props.C102Example
/-! # C102 with the real encoders: the hypotheses can be met -/
namespace Vx.Store.LeafDemo
open Own
open Vx.Tree

deriving instance DecidableEq for Own.Enc

/-- Metadata of the encodings of the example. -/
def mc : MetaCodec where
  id
    | .prim .nonNullable => 1
    | .struct .nonNullable => 2
    | .prim .allValid => 3
    | .bitPacked .allValid 2 0 true => 4
    | .sparse 0 1 0 => 5
    | .fsst 0 true .i32 => 6
    | .varbin .allValid .i32 4 => 7
    | .alprd .u16 true 16 [0x3F80] => 8
    | .roaringBool => 9
    | .dateTimeParts .i64 .i64 .i64 => 10
    | _ => 0
  ser _ := []
  de
    | 1, _ => some (.prim .nonNullable)
    | 2, _ => some (.struct .nonNullable)
    | 3, _ => some (.prim .allValid)
    | 4, _ => some (.bitPacked .allValid 2 0 true)
    | 5, _ => some (.sparse 0 1 0)
    | 6, _ => some (.fsst 0 true .i32)
    | 7, _ => some (.varbin .allValid .i32 4)
    | 8, _ => some (.alprd .u16 true 16 [0x3F80])
    | 9, _ => some .roaringBool
    | 10, _ => some (.dateTimeParts .i64 .i64 .i64)
    | _, _ => none

/-- Metadata that keeps nulls. -/
def sc : Scalars := ⟨fun _ => 0, fun d _ => if d.isNullable then some .null else none⟩
theorem nulls : NullsKept sc := fun _ => rfl

mutual
def metaB : Own.Arr → Bool
  | .mk e _ _ _ cs => decide (mc.de (mc.id e) (mc.ser e) = some e) && metasB cs
def metasB : List Own.Arr → Bool
  | [] => true
  | c :: cs => metaB c && metasB cs
end

mutual
theorem metaB_ok : ∀ a : Own.Arr, metaB a = true → Everywhere (MetaOk mc) a
  | .mk e d l b cs, h => by
    simp only [metaB, Bool.and_eq_true, decide_eq_true_eq] at h
    exact ⟨h.1, metasB_ok cs h.2⟩
theorem metasB_ok : ∀ cs : List Own.Arr, metasB cs = true → Everywheres (MetaOk mc) cs
  | [], _ => trivial
  | c :: cs, h => by
    simp only [metasB, Bool.and_eq_true] at h
    exact ⟨metaB_ok c h.1, metasB_ok cs h.2⟩
end

/-- All columns are leaves of less than ten rows. -/
def shortB : List (Tree.Arr RLeaf) → Bool
  | [] => true
  | .leaf l :: cs => decide (leafLen l < 10) && shortB cs
  | _ => false

def checkB : Tree.Arr RLeaf → Bool
  | .struct names fs n .nonNullable => shortB fs && metaB (phys sc (realLeaves sc plainTrained.unit) (leafEnv plainOutside).toEnv (.struct names fs n .nonNullable))
  | _ => false

theorem shortB_ok : ∀ fs : List (Tree.Arr RLeaf), shortB fs = true → AllLeavess (fun l => leafLen l < 2 ^ 64) fs ∧ Fitss sc (leafEnv plainOutside).toEnv fs
  | [], _ => ⟨trivial, trivial⟩
  | .leaf l :: cs, h => by
    simp only [shortB, Bool.and_eq_true, decide_eq_true_eq] at h
    obtain ⟨h1, h2⟩ := shortB_ok cs h.2
    exact ⟨⟨Nat.lt_trans h.1 (by decide), h1⟩, trivial, h2⟩
  | .flat .. :: _, h | .null _ :: _, h | .const .. :: _, h | .chunked .. :: _, h | .struct .. :: _, h | .ext .. :: _, h | .sparse .. :: _, h | .dict .. :: _, h
  | .runEnd .. :: _, h | .mapped .. :: _, h | .alpP .. :: _, h => by simp [shortB] at h

theorem checked : ((compress (leafEnv plainOutside) realChoice 5 realCtx realTable none).bind (fun r => .ok (checkB r.1))) = .ok true := by decide +kernel

theorem plain_good : Good (leafEnv plainOutside).toEnv (leafRows plainOutside) (fun _ => False) realTable := by
  refine ⟨?_, realTable_good.regular, realTable_good.comp⟩
  simp [realTable, WF, WFs, WFV, Kind.has, Kind.dtype, tickSV, TVal.nullable, dtype, rows, rowsEach, maskOf, masked]

theorem checkB_ok (b : Tree.Arr RLeaf) (h : checkB b = true) : AllLeaves (fun l => leafLen l < 2 ^ 64) b ∧ Store.Fits sc (leafEnv plainOutside).toEnv b ∧
    metaB (phys sc (realLeaves sc plainTrained.unit) (leafEnv plainOutside).toEnv b) = true := by
  unfold checkB at h
  split at h
  · simp only [Bool.and_eq_true] at h
    obtain ⟨s1, s2⟩ := shortB_ok _ h.1
    exact ⟨⟨s1, trivial⟩, ⟨s2, trivial⟩, h.2⟩
  · cases h

theorem no_symbols : ∀ like a c, plainTrained.fsst like a = .ok c → ∀ s ∈ c.1, s.length ≤ 8 := by
  intro _ _ c hc s hs
  obtain rfl := Res.ok.inj hc
  exact absurd hs (List.not_mem_nil)

theorem both {r : Res (α × β)} {f : α → γ} {g : α → δ} {y : γ} {z : δ} (h1 : (r.bind fun q => .ok (f q.1)) = .ok y) (h2 : (r.bind fun q => .ok (g q.1)) = .ok z) :
    ∃ b t, r = .ok (b, t) ∧ f b = y ∧ g b = z := by
  cases r with
  | ok q => exact ⟨q.1, q.2, rfl, Res.ok.inj h1, Res.ok.inj h2⟩
  | err => cases h1
  | panic => cases h1

theorem demo : ∃ b t, compress (leafEnv plainOutside) realChoice 5 realCtx realTable none = .ok (b, t) ∧ shape b = [1, 2, 3, 4, 5] ∧ checkB b = true :=
  both realTable_compressed checked

/-- The table of C90 with its five columns in five encodings – bit-packed with a patch, FSST, ALP-RD with an exception, roaring, date-time parts – meets every
hypothesis, and is read back from its bytes. -/
example : ∃ b t a, compress (leafEnv plainOutside) realChoice 5 realCtx realTable none = .ok (b, t) ∧ shape b = [1, 2, 3, 4, 5] ∧
    readIpc (leCodec mc) (dtype (leafEnv plainOutside).toEnv b) (rows (leafEnv plainOutside).toEnv (leafRows plainOutside) b).length
        (toIpc (leCodec mc) (phys sc (realLeaves sc plainTrained.unit) (leafEnv plainOutside).toEnv b)) = .ok a ∧
      view sc (realLeaves sc plainTrained.unit) a = some b := by
  obtain ⟨b, t, hc, h, g⟩ := demo
  obtain ⟨g1, g2, g3⟩ := checkB_ok b g
  obtain ⟨w1, _⟩ := C90_compress_partial plainOutside_lawful plainTrained_lawful realChoice_ok 5 realCtx realTable b none t realTable_good hc
  have hl := C102_plain_fits plainOutside_lawful plainTrained_lawful no_symbols realChoice_ok 5 realCtx realTable b none t plain_good hc g1
  obtain ⟨a, r1, r2⟩ := C102_all_encodings (sc := sc) (unitOf := plainTrained.unit) plainOutside_lawful plain_lawful FileDemo.sorted nulls mc
    b w1 hl g2 (metaB_ok _ g3)
  exact ⟨b, t, a, hc, h, r1, r2⟩

/-- The encoders' limits: a delta array and a roaring array fit, a symbol of nine bytes would not. -/
example : ¬ LeafFits plainTrained.unit (.fsst .utf8 ⟨false, [[1, 2, 3, 4, 5, 6, 7, 8, 9]], ⟨false, [0], [], .nonNullable⟩, []⟩) := by
  simp [LeafFits]

end Vx.Store.LeafDemo
