import Verif.Model.PlanStats
/-!
# What it means that reported statistics are true of a result

Stated on the rows of the batches a scan returns.
-/
namespace Vx.DF

/-- A value that is not null: a typed value or a boolean. -/
abbrev Cell (V : Type) := (Nat × V) ⊕ Bool

/-- The rows of a column, a null as `none`. -/
def RCol.cells : RCol V → List (Option (Cell V))
  | .prims ty vs => vs.map (fun x => if x.2 then some (.inl (ty, x.1)) else none)
  | .bools bs => bs.map (fun x => if x.2 then some (.inr x.1) else none)
  | .nulls n => List.replicate n none

/-- Column `j` of a result, all batches together. -/
def column (out : List (Chunk V)) (j : Nat) : List (Option (Cell V)) :=
  out.flatMap (fun c => ((c.cols[j]?).map (fun x => x.2.cells)).getD [])

/-- The statistics `s` are true of the batches `out`: whatever is marked exact is so. `rep` says which value a reported scalar stands for,
`le` is the order of the values. -/
structure StatsTrue (rep : S → Cell V) (le : Cell V → Cell V → Prop) (s : Statistics S) (out : List (Chunk V)) : Prop where
  rows : ∀ n, s.numRows = .exact n → n = (out.map (·.n)).sum
  nulls : ∀ j cs n, s.columns[j]? = some cs → cs.nullCount = .exact n → n = ((column out j).filter Option.isNone).length
  max : ∀ j cs x, s.columns[j]? = some cs → cs.maxValue = .exact x →
    some (rep x) ∈ column out j ∧ ∀ y, some y ∈ column out j → le y (rep x)
  min : ∀ j cs x, s.columns[j]? = some cs → cs.minValue = .exact x →
    some (rep x) ∈ column out j ∧ ∀ y, some y ∈ column out j → le (rep x) y
  distinct : ∀ j cs n, s.columns[j]? = some cs → cs.distinctCount = .exact n →
    ∃ ds : List (Cell V), ds.Nodup ∧ ds.length = n ∧ ∀ y, y ∈ ds ↔ some y ∈ column out j

end Vx.DF
