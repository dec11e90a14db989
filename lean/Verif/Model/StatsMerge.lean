import Verif.Model.Stats
/-! # Merging statistics (vortex-array/src/stats/statsset.rs:90-239) and the statistics of a chunked array -/

namespace Vx

/-- Order of statistic scalars of one dtype up to nullability: vortex-scalar/src/lib.rs:109-117 with the derived `PartialOrd` of
`ScalarValue` (vortex-scalar/src/value.rs:17-27), in which `Null` is the greatest value. `key` orders the values. -/
def statLt (key : α → Int) : Option α → Option α → Bool
  | some x, some y => decide (key x < key y)
  | some _, none => true
  | none, _ => false

/-- `<=` of the same order. -/
def statLe (key : α → Int) : Option α → Option α → Bool
  | some x, some y => decide (key x ≤ key y)
  | some _, none => true
  | none, some _ => false
  | none, none => true

namespace StatsSet

/-- `merge_ordered`, statsset.rs:122-132; `replace other own` is the closure. -/
def mergeOrdered (replace : Option α → Option α → Bool) (own other : Option (Option α)) : Option (Option α) :=
  match own, other with
  | some o, some v => if replace v o then some v else some o
  | _, _ => none

/-- `merge_is_constant`, statsset.rs:134-143; `minEq` is `self.get(Min) == other.get(Min)` (an `Option<&Scalar>` comparison). -/
def mergeIsConstant (minEq : Bool) (own other : Option Bool) : Option Bool :=
  match own with
  | some c =>
    match other with
    | some c' => if c && c' && minEq then some c else some false
    | none => some false
  | none => none

/-- `merge_sortedness_stat`, statsset.rs:153-176; `cmp` compares own `Max` with the other's `Min`. -/
def mergeSorted (cmp : Option α → Option α → Bool) (ownMax otherMin : Option (Option α)) (own other : Option Bool) : Option Bool :=
  match own, other with
  | some a, some b =>
    match ownMax, otherMin with
    | some m, some m' => if a && b && cmp m m' then some a else some false
    | _, _ => none
  | _, _ => none

/-- `merge_scalar_stat`, statsset.rs:186-197. -/
def mergeCount (own other : Option Nat) : Option Nat :=
  match own, other with
  | some a, some b => some (a + b)
  | _, _ => none

/-- `merge_freq_stat`, statsset.rs:207-227; `zip_eq` panics on different lengths. -/
def mergeFreq (own other : Option (List Nat)) : Res (Option (List Nat)) :=
  match own, other with
  | some a, some b => if a.length = b.length then .ok (some (List.zipWith (· + ·) a b)) else .panic
  | _, _ => .ok none

/-- `merge_run_count`, statsset.rs:229-242. -/
def mergeRunCount (own other : Option Nat) : Option Nat :=
  match own, other with
  | some a, some b => some (a + b + 1)
  | _, _ => none

/-- `StatsSet::merge`, statsset.rs:90-107. The statistics are merged in declaration order of the enum
(vortex-array/src/stats/mod.rs:20-31), so `IsConstant`, `IsSorted` and `IsStrictSorted` still see the own `Max`/`Min` from before
the merge. -/
def merge [DecidableEq α] (key : α → Int) (s o : StatsSet α) : Res (StatsSet α) := do
  let bw ← mergeFreq s.bitWidthFreq o.bitWidthFreq
  let tz ← mergeFreq s.tzFreq o.tzFreq
  .ok {
    bitWidthFreq := bw
    tzFreq := tz
    isConstant := mergeIsConstant (decide (s.min = o.min)) s.isConstant o.isConstant
    isSorted := mergeSorted (statLe key) s.max o.min s.isSorted o.isSorted
    isStrictSorted := mergeSorted (statLt key) s.max o.min s.isStrictSorted o.isStrictSorted
    max := mergeOrdered (fun v own => statLt key own v) s.max o.max
    min := mergeOrdered (fun v own => statLt key v own) s.min o.min
    runCount := mergeRunCount s.runCount o.runCount
    trueCount := mergeCount s.trueCount o.trueCount
    nullCount := mergeCount s.nullCount o.nullCount }

/-- Statistics of a chunked array: `reduce` of the chunks' statistics, vortex-array/src/array/chunked/stats.rs:6-22. -/
def reduceMerge [DecidableEq α] (key : α → Int) : List (StatsSet α) → Res (StatsSet α)
  | [] => .ok {}
  | s :: ss => ss.foldlM (merge key) s

end StatsSet
end Vx
