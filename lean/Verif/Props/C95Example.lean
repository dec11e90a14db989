import Verif.Props.C95Zero
import Verif.Props.C94Example
/-!
# C95: the hypotheses can be met

`vortex.io.read(f, ["b"], 10 < column("a"))` on a file with the rows `(10, 20)`, `(11, 21)`, `(12, 22)`.
-/
namespace Vx.Py.Demo
open Vx.Layout Vx.Layout.FileDemo
open Vx.FileScan
open Vx.FileScan.Demo (file_ok)
open Vx.RowExpr (Val Op)
open Vx.DF (DExpr SqlV Ty Typed)
open Ipc (Bytes)

/-- The values of the file's columns, seen as of type `τ`. -/
def val (τ : Ty) (n : Nat) : Val Nat :=
  match τ with
  | .prim t => .prim (t + 1) (some n)
  | .bool => .bool (some (n % 2 == 1))

/-- Columns of type `u8` have type `τ`; `i64` is type 1. -/
def kind (τ : Ty) : DType → Option Ty
  | .prim .u8 _ => some τ
  | .prim .i64 _ => some (.prim 1)
  | _ => none

def vals (τ : Ty) (d : DType) (l : Nat) (n : Ipc.Node) : Rows (Val Nat) :=
  (List.range l).map fun i => match n with
    | .mk _ _ _ b _ => .leaf (val ((kind τ d).getD τ) ((b.getD []).getD i 0).toNat)

noncomputable def reader (τ : Ty) : Reader Nat where
  codec := codec
  env := fileEnv codec.msgs (fun _ => true) (vals τ) (fun _ => true)
  init := 1000000
  kind := kind τ
  renv := RowExpr.stdEnv
  walk := List.reverse
  order := List.reverse

theorem val_hasTy (τ : Ty) (n : Nat) : FileScan.Spec.HasTy τ (val τ n) := by cases τ <;> exact ⟨_, rfl⟩

theorem reader_ok (τ : Ty) : ReaderOk (reader τ) (fun _ => true) (vals τ) where
  codec := codec_lawful
  env := ⟨rfl, rfl, rfl, rfl, fun d l n => by simp [vals]⟩
  typed := by
    intro d σ hd l n r hr
    have hd' : kind τ d = some σ := hd
    simp only [vals, List.mem_map] at hr
    obtain ⟨i, _, rfl⟩ := hr
    cases n
    rw [hd']
    exact ⟨_, rfl, val_hasTy σ _⟩
  masks := RowExpr.stdEnv_truthful
  walk := fun l f => List.mem_reverse
  order := fun l => List.reverse_perm l

theorem ok (τ : Ty) : ∃ file, FileOk (reader τ) metaNode (fun _ => true) names [u8, u8] false batches file := by
  obtain ⟨file, h⟩ := file_ok
  exact ⟨file, h.written, h.table, h.size, h.tail⟩

/-- Naturals as integers; floats by their bits. -/
def conv : Conv Nat where
  ofInt := Int.toNat
  ofFloat := fun _ b => b.toNat
  ofStr := fun s => s.length
  ofBytes := fun b => b.length
  intToFloat := fun z => if z.natAbs < 1024 then some (BitVec.ofInt 64 z) else none

/-- `10 < column("a")` when the columns are `i64`s: Python builds `column("a") > 10`. -/
def filter : Src := .op (.value (.int 10)) .lt (.column "a".toList)

theorem filter_ok : Spec.FilterOk conv (kind (.prim 1)) (vals (.prim 1)) names [u8, u8] batches 65536 filter where
  builds := by decide
  typed := .cmp _ _ _ (.prim 1) rfl (.litPrim _ _) (.col _ _ rfl)
  cols := by decide
  nulls := by
    intro c hc
    left
    have : c = Spec.sqlOf conv (kind (.prim 1)) filter := by simpa [filter, Spec.sqlOf, Spec.sqlOp, FileScan.Spec.conjuncts] using hc
    subst this
    decide
  gap := by
    intro j hj
    have : FileScan.Spec.rowCount batches = 3 := by decide
    omega

/-- The read returns `b = 21` and `b = 22`. -/
example : ∃ file, FileOk (reader (.prim 1)) metaNode (fun _ => true) names [u8, u8] false batches file ∧
    ∃ N, ∀ fuel, N ≤ fuel → read (reader (.prim 1)) conv (some [.str "b".toList]) (some filter) fuel file =
      .ok (.struct ["b".toList] [u8] false, [.struct [("b".toList, .leaf (.prim 2 (some 21)))], .struct [("b".toList, .leaf (.prim 2 (some 22)))]]) := by
  obtain ⟨file, hf⟩ := ok (.prim 1)
  refine ⟨file, hf, ?_⟩
  obtain ⟨N, h⟩ := C95_read_partial (reader_ok (.prim 1)) hf conv (some [.str "b".toList]) [1]
    (.cons (.inl ⟨_, rfl, by decide⟩) .nil) (by decide) (some filter) (by
      intro s hs; cases hs; exact filter_ok)
  refine ⟨N, fun fuel hfu => ?_⟩
  rw [h fuel hfu]
  rfl

/-- With batches of two rows, by position. -/
example : ∃ file, FileOk (reader (.prim 1)) metaNode (fun _ => true) names [u8, u8] false batches file ∧
    ∃ N, ∀ fuel, N ≤ fuel → toArray (reader (.prim 1)) conv (some ["b".toList, "a".toList]) (some 2) none fuel file =
      .ok (.struct ["b".toList, "a".toList] [u8, u8] false, FileScan.Spec.answer (vals (.prim 1)) names [u8, u8] [1, 0] [] batches) := by
  obtain ⟨file, hf⟩ := ok (.prim 1)
  refine ⟨file, hf, ?_⟩
  obtain ⟨N, h⟩ := C95_to_array_partial (reader_ok (.prim 1)) hf conv (some ["b".toList, "a".toList]) [1, 0]
    (.cons (.inl ⟨_, rfl, by decide⟩) (.cons (.inl ⟨_, rfl, by decide⟩) .nil)) (by decide) (some 2) (by decide) none (by simp)
  refine ⟨N, fun fuel hfu => ?_⟩
  rw [h fuel hfu]
  rfl

/-- With a batch size of 0 the three rows are gone. -/
example : ∃ file, toArray (reader (.prim 1)) conv none (some 0) none 5 file = .ok (.struct names [u8, u8] false, []) := by
  obtain ⟨file, hf⟩ := ok (.prim 1)
  exact ⟨file, C95_batch_size_zero (reader_ok (.prim 1)) hf (by decide) conv 4⟩

/-- The same filter on `u8` columns fails. -/
example : ∃ file N, ∀ fuel, N ≤ fuel → read (reader (.prim 0)) conv none (some (.op (.column "a".toList) .gt (.value (.int 10)))) fuel file = .err := by
  obtain ⟨file, hf⟩ := ok (.prim 0)
  exact ⟨file, C95_mistyped (reader_ok (.prim 0)) hf conv none [0, 1] rfl (by decide) "a".toList (.prim 0) 1 rfl rfl (by decide) .gt rfl (by decide) 10
    (by decide) (by decide)⟩

/-- And `column("a") == True` on boolean columns. -/
example : ∃ file N, ∀ fuel, N ≤ fuel → read (reader .bool) conv none (some (.op (.column "a".toList) .eq (.value (.bool true)))) fuel file = .err := by
  obtain ⟨file, hf⟩ := ok .bool
  exact ⟨file, C95_true_column (reader_ok .bool) hf conv none [0, 1] rfl (by decide) "a".toList 1 rfl rfl true (by decide)⟩

end Vx.Py.Demo
