import Verif.Model.StatsMerge
import Verif.Model.Dict
import Verif.Model.RunEnd
/-!
# Statistics that encoded arrays claim about themselves and their children
encodings/dict/src/stats.rs, encodings/runend/src/compress.rs, vortex-array/src/array/constant/mod.rs, vortex-array/src/array/null/mod.rs,
encodings/roaring/src/integer/mod.rs
-/
namespace Vx.EncStats

/-- `DictArray::compute_statistics`: encodings/dict/src/stats.rs:9-47, whatever statistic is asked for. `cs` and `vs` are what the codes and
the values answer. -/
def dict (cs : StatsSet κ) (vs : StatsSet α) : StatsSet α where
  runCount := cs.runCount
  min := vs.min
  max := vs.max
  isConstant := cs.isConstant
  nullCount := cs.nullCount
  isSorted := if vs.isSorted.getD false then cs.isSorted else none
  isStrictSorted := if vs.isSorted.getD false then cs.isStrictSorted else none

/-- The statistics `runend_encode` sets on the values: encodings/runend/src/compress.rs:25-47. `s` are those the array has when it is
encoded, `n` the number of runs. -/
def runEndValues (s : StatsSet α) (n : Nat) : StatsSet α where
  runCount := some n
  isConstant := some (n == 1)
  min := s.min
  max := s.max
  isSorted := s.isSorted
  isStrictSorted := s.isStrictSorted

/-- … and on the ends: compress.rs:49-65. -/
def runEndEnds (ends : List Nat) (len : Nat) : StatsSet Nat where
  isConstant := some (ends.length == 1)
  isSorted := some true
  isStrictSorted := some true
  min := ends.head?.map some
  max := if ends.isEmpty then none else some (some len)

/-- `ConstantArray::new`: vortex-array/src/array/constant/mod.rs:36-50. -/
def constantNew (v : Option α) : StatsSet α where
  max := some v
  min := some v
  isConstant := some true
  isSorted := some true
  runCount := some 1

/-- `NullArray`: vortex-array/src/array/null/mod.rs:28-35, 56-60, with `StatsSet::nulls` for the null type (stats/statsset.rs:32-61). -/
def nullArray (n : Nat) : StatsSet α := StatsSet.nullsOther n

/-- `RoaringIntArray::compute_statistics`: encodings/roaring/src/integer/mod.rs:134-147, for the histograms and the run count; other
statistics are not computed. The values are widened to `u32` whatever the type of the array. The set built in `try_new` (lines 52-58) is
not stored in the array (line 67). -/
def roaringInt (values : List (BitVec 32)) : StatsSet (BitVec 32) := primStats (intElem false 32) ⟨values, .nonNullable⟩

end Vx.EncStats
