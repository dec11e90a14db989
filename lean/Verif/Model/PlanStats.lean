import Verif.Model.DataFusion
import Verif.Model.Stats
/-!
# The statistics a table scan reports to the query planner

vortex-datafusion/src/statistics.rs, vortex-datafusion/src/lib.rs:185-199 and 309-311, vortex-array/src/array/chunked/variants.rs:66-83,
vortex-datafusion/src/memory.rs:80-142, persistent/provider.rs:59-120.

DataFusion may answer a query from statistics marked exact without reading a row. The number of bytes of an array (`nbytes`) and the
conversion of a scalar are parameters.
-/
namespace Vx.DF

/-- `Precision` of datafusion_common. -/
inductive Precision (α : Type) where
  | exact (a : α)
  | inexact (a : α)
  | absent
  deriving DecidableEq, Repr

/-- `ColumnStatistics` of datafusion_common. -/
structure ColumnStatistics (S : Type) where
  nullCount : Precision Nat
  maxValue : Precision S
  minValue : Precision S
  distinctCount : Precision Nat
  deriving DecidableEq, Repr

/-- `Statistics` of datafusion_common. -/
structure Statistics (S : Type) where
  numRows : Precision Nat
  totalByteSize : Precision Nat
  columns : List (ColumnStatistics S)
  deriving DecidableEq, Repr

/-- A column of the table as an array: the column of every chunk, and the statistics stored with the array. -/
structure ChunkedCol (V : Type) where
  chunks : List (RCol V)
  stats : StatsSet V

/-- `ChunkedArray::field`, chunked/variants.rs:66-83: the field of every chunk, then the type of the field, then a new array with no
statistics (`try_new`, chunked/mod.rs:52-79). `ncols` is the number of fields in the table's type. -/
def chunkedField (ncols : Nat) (table : List (Chunk V)) (i : Nat) : Option (ChunkedCol V) := do
  let cols ← table.mapM (fun c => (c.cols[i]?).map (·.2))
  if i < ncols then some ⟨cols, {}⟩ else none

/-- `.map(Precision::Exact).unwrap_or(Precision::Absent)`, statistics.rs:27-28, 36-37, 45-46 -/
def precision : Option α → Precision α
  | some a => .exact a
  | none => .absent

/-- `ScalarValue::try_from(n).vortex_expect(...)` under `map`, statistics.rs:32-35 -/
def convStat (conv : Option V → Res S) : Option (Option V) → Res (Option S)
  | none => .ok none
  | some n => match conv n with
    | .ok s => .ok (some s)
    | .err => .panic
    | .panic => .panic

/-- The closure of statistics.rs:21-48. -/
def columnStats (conv : Option V → Res S) (a : ChunkedCol V) : Res (ColumnStatistics S) := do
  let mx ← convStat conv a.stats.max
  let mn ← convStat conv a.stats.min
  .ok ⟨precision a.stats.nullCount, precision mx, precision mn, .absent⟩

/-- `chunked_array_df_stats`, statistics.rs:8-57 -/
def dfStats (nbytes : ChunkedCol V → Nat) (conv : Option V → Res S) (ncols : Nat) (table : List (Chunk V)) (proj : List Nat) :
    Res (Statistics S) := do
  let cols ← Res.mapM (fun i => do
    let a ← Res.ofOption (chunkedField ncols table i)
    let c ← columnStats conv a
    .ok (nbytes a, c)) proj
  .ok ⟨.exact ((table.map (·.n)).sum), .exact ((cols.map (·.1)).sum), cols.map (·.2)⟩

/-- The statistics of the plan a table scan makes: `VortexScanExec` without filters (lib.rs:185-199, 309-311), the default of
DataFusion's `ExecutionPlan` for the filtering plan (plans.rs; unknown), memory.rs:80-142. -/
def planStats (nbytes : ChunkedCol V → Nat) (conv : Option V → Res S) (ncols : Nat) (projection : Option (List Nat)) (filters : List (DExpr V))
    (table : List (Chunk V)) : Res (Statistics S) :=
  let proj := projection.getD (List.range ncols)
  match conjunction filters with
  | some _ => .ok ⟨.absent, .absent, proj.map (fun _ => ⟨.absent, .absent, .absent, .absent⟩)⟩
  | none => dfStats nbytes conv ncols table proj

end Vx.DF
