import Verif.Model.Primitive
/-! # Statistics: the statistics set, and computing it for primitive and boolean arrays

vortex-array/src/stats/statsset.rs, vortex-array/src/array/primitive/stats.rs, vortex-array/src/array/bool/stats.rs -/

namespace Vx

/-- `StatsSet`, vortex-array/src/stats/statsset.rs:12-15: a finite map from the ten statistics to scalars. A missing statistic is
`none`; for `Min`/`Max` the scalar may itself be null (`some none`). -/
structure StatsSet (α : Type) where
  min : Option (Option α) := none
  max : Option (Option α) := none
  isConstant : Option Bool := none
  isSorted : Option Bool := none
  isStrictSorted : Option Bool := none
  runCount : Option Nat := none
  trueCount : Option Nat := none
  nullCount : Option Nat := none
  bitWidthFreq : Option (List Nat) := none
  tzFreq : Option (List Nat) := none
  deriving DecidableEq, Repr

/-- The operations of `NativePType` and `BitWidth` used by the accumulator: vortex-dtype/src/ptype.rs:53-98 and
vortex-array/src/array/primitive/stats.rs:84-129. `natEq` is Rust's `==`, which differs from `isEq` on floats. -/
structure Elem (α : Type) where
  cmp : α → α → Ordering
  isEq : α → α → Bool
  natEq : α → α → Bool
  isNan : α → Bool
  bits : Nat
  bitWidth : α → Nat
  tz : α → Nat

/-- `BITS - leading_zeros`, primitive/stats.rs:92-94: the number of bits up to the highest set bit. -/
def bitLen (n : Nat) : Nat := if n = 0 then 0 else Nat.log2 n + 1

/-- `PrimInt::trailing_zeros`: position of the lowest set bit, or the width for zero. -/
def trailingZeros (x : BitVec w) : Nat := ((List.range w).find? (fun i => x.getLsbD i)).getD w

/-- Integer values of a type, by signedness. -/
def intKey (signed : Bool) (x : BitVec w) : Int := if signed then x.toInt else (x.toNat : Int)

/-- The integer instances: vortex-dtype/src/ptype.rs:60-78, primitive/stats.rs:89-110. -/
def intElem (signed : Bool) (w : Nat) : Elem (BitVec w) where
  cmp a b := compare (intKey signed a) (intKey signed b)
  isEq a b := a == b
  natEq a b := a == b
  isNan _ := false
  bits := w
  bitWidth x := bitLen x.toNat
  tz x := trailingZeros x

/-- `StatsAccumulator`, primitive/stats.rs:131-143. -/
structure Acc (α : Type) where
  prev : α
  min : α
  max : α
  isSorted : Bool
  isStrictSorted : Bool
  runCount : Nat
  nullCount : Nat
  nanCount : Nat
  bitWidths : List Nat
  tz : List Nat
  len : Nat

/-- `v[i] += n` (Rust panics when `i` is out of range; the indices used are at most the bit width, see `LawfulElem`). -/
def bump (l : List Nat) (i n : Nat) : List Nat := l.modify i (· + n)

namespace Acc

variable (E : Elem α)

/-- primitive/stats.rs:146-163 -/
def new (x : α) : Acc α where
  prev := x
  min := x
  max := x
  isSorted := true
  isStrictSorted := true
  runCount := 1
  nullCount := 0
  nanCount := if E.isNan x then 1 else 0
  bitWidths := bump (List.replicate (E.bits + 1) 0) (E.bitWidth x) 1
  tz := bump (List.replicate (E.bits + 1) 0) (E.tz x) 1
  len := 1

/-- primitive/stats.rs:165-170 -/
def nNulls (a : Acc α) (n : Nat) : Acc α :=
  { a with
    nullCount := a.nullCount + n
    bitWidths := bump a.bitWidths 0 n
    tz := bump a.tz E.bits n
    len := a.len + n }

/-- primitive/stats.rs:184-207 -/
def next (a : Acc α) (x : α) : Acc α :=
  { prev := x
    bitWidths := bump a.bitWidths (E.bitWidth x) 1
    tz := bump a.tz (E.tz x) 1
    len := a.len + 1
    nanCount := if E.isNan x then a.nanCount + 1 else a.nanCount
    nullCount := a.nullCount
    isStrictSorted := if E.isEq x a.prev then false else a.isStrictSorted
    isSorted := if E.isEq x a.prev then a.isSorted else if E.cmp x a.prev = .lt then false else a.isSorted
    runCount := if E.isEq x a.prev then a.runCount else a.runCount + 1
    min := if E.cmp x a.min = .lt then x else a.min
    max := if E.cmp x a.min = .lt then a.max else if E.cmp x a.max = .gt then x else a.max }

/-- primitive/stats.rs:172-182 -/
def nullableNext (a : Acc α) : Option α → Acc α
  | some x => a.next E x
  | none => a.nNulls E 1

/-- primitive/stats.rs:209-227 -/
def finish (a : Acc α) : StatsSet α where
  min := some (some a.min)
  max := some (some a.max)
  nullCount := some a.nullCount
  isConstant := some ((E.natEq a.min a.max && a.nullCount == 0 && a.nanCount == 0) || a.nullCount == a.len)
  bitWidthFreq := some a.bitWidths
  tzFreq := some a.tz
  isSorted := some a.isSorted
  isStrictSorted := some (a.isSorted && a.isStrictSorted)
  runCount := some a.runCount

end Acc

/-- `StatsSet::nulls` for a primitive dtype, statsset.rs:32-63. -/
def StatsSet.nullsPrim (bits n : Nat) : StatsSet α where
  min := some none
  max := some none
  isConstant := some true
  isSorted := some true
  isStrictSorted := some (decide (n < 2))
  runCount := some 1
  nullCount := some n
  bitWidthFreq := some (List.replicate (bits + 1) 0)
  tzFreq := some (List.replicate (bits + 1) bits)

/-- `compute_statistics` on a slice of values, primitive/stats.rs:37-46. -/
def statsSlice (E : Elem α) : List α → StatsSet α
  | [] => {}
  | x :: xs => (xs.foldl (Acc.next E) (Acc.new E x)).finish E

/-- `NullableValues::compute_statistics`, primitive/stats.rs:50-82: skip the leading nulls, start from the first valid value. -/
def statsNullable (E : Elem α) (vals : List α) (valid : List Bool) : StatsSet α :=
  if vals.isEmpty then {}
  else
    match valid.findIdx? (fun b => b) with
    | some k =>
      match vals[k]? with
      | some first =>
        let acc := (Acc.new E first).nNulls E k
        let rest := ((vals.zip valid).drop (k + 1)).map (fun p => if p.2 then some p.1 else none)
        (rest.foldl (Acc.nullableNext E) acc).finish E
      | none => {}
    | none => StatsSet.nullsPrim E.bits vals.length

/-- `ArrayStatisticsCompute for PrimitiveArray`, primitive/stats.rs:21-35. -/
def primStats (E : Elem α) (a : PArr α) : StatsSet α :=
  match a.validity.toLogical a.len with
  | .allValid _ => statsSlice E a.vals
  | .allInvalid n => StatsSet.nullsPrim E.bits n
  | .array bits => statsNullable E a.vals bits

/-- `trailing_zeros`, vortex-array/src/stats/mod.rs:178-189 (`find_or_first`). -/
def trailingZerosStat (s : StatsSet α) : Nat :=
  let freq := s.tzFreq.getD [0]
  (freq.findIdx? (fun v => decide (0 < v))).getD 0

/-! ## Boolean arrays -/

/-- `BoolStatsAccumulator`, vortex-array/src/array/bool/stats.rs:69-76. -/
structure BoolAcc where
  prev : Bool
  isSorted : Bool
  runCount : Nat
  nullCount : Nat
  trueCount : Nat
  len : Nat
  deriving DecidableEq, Repr

namespace BoolAcc

/-- bool/stats.rs:79-88 -/
def new (x : Bool) : BoolAcc := ⟨x, true, 1, 0, if x then 1 else 0, 1⟩

/-- bool/stats.rs:90-93 -/
def nNulls (a : BoolAcc) (n : Nat) : BoolAcc := { a with nullCount := a.nullCount + n, len := a.len + n }

/-- bool/stats.rs:105-118 -/
def next (a : BoolAcc) (x : Bool) : BoolAcc :=
  { a with
    len := a.len + 1
    trueCount := if x then a.trueCount + 1 else a.trueCount
    isSorted := if !x && a.prev then false else a.isSorted
    runCount := if x != a.prev then a.runCount + 1 else a.runCount
    prev := if x != a.prev then x else a.prev }

/-- bool/stats.rs:95-103 -/
def nullableNext (a : BoolAcc) : Option Bool → BoolAcc
  | some x => a.next x
  | none => a.nNulls 1

/-- bool/stats.rs:120-139 -/
def finish (a : BoolAcc) : StatsSet Bool where
  min := some (some (a.trueCount == a.len))
  max := some (some (decide (0 < a.trueCount)))
  isConstant := some ((a.nullCount == 0 && (a.trueCount == a.len || a.trueCount == 0)) || a.nullCount == a.len)
  isSorted := some a.isSorted
  isStrictSorted := some (a.isSorted && (decide (a.len < 2) || (a.len == 2 && a.trueCount == 1)))
  runCount := some a.runCount
  trueCount := some a.trueCount

end BoolAcc

/-- `StatsSet::nulls` for `DType::Bool`, statsset.rs:32-63. -/
def StatsSet.nullsBool (n : Nat) : StatsSet Bool where
  min := some none
  max := some none
  isConstant := some true
  isSorted := some true
  isStrictSorted := some (decide (n < 2))
  runCount := some 1
  nullCount := some n
  trueCount := some 0

/-- bool/stats.rs:30-59 -/
def statsNullableBools (vals valid : List Bool) : StatsSet Bool :=
  match valid.findIdx? (fun b => b) with
  | some k =>
    match vals[k]? with
    | some first =>
      let acc := (BoolAcc.new first).nNulls k
      let rest := ((vals.zip valid).drop (k + 1)).map (fun p => if p.2 then some p.1 else none)
      (rest.foldl BoolAcc.nullableNext acc).finish
    | none => {}
  | none => StatsSet.nullsBool vals.length

/-- `ArrayStatisticsCompute for BoolArray` and `for BooleanBuffer`, bool/stats.rs:12-28, 61-67. -/
def boolStats (a : PArr Bool) : StatsSet Bool :=
  match a.vals with
  | [] => {}
  | x :: xs =>
    match a.validity.toLogical a.len with
    | .allValid _ => (xs.foldl BoolAcc.next (BoolAcc.new x)).finish
    | .allInvalid n => StatsSet.nullsBool n
    | .array bits => statsNullableBools a.vals bits

/-! ## Strings and binaries -/

/-- `VarBinAccumulator`, vortex-array/src/array/varbin/stats.rs:44-53. The element type stands for byte strings. -/
structure VbAcc (α : Type) where
  min : α
  max : α
  isSorted : Bool
  isStrictSorted : Bool
  last : α
  nullCount : Nat
  runs : Nat
  len : Nat

namespace VbAcc

/-- varbin/stats.rs:56-67 -/
def new (x : α) : VbAcc α := ⟨x, x, true, true, x, 0, 1, 1⟩

/-- varbin/stats.rs:79-82 -/
def nNulls (a : VbAcc α) (n : Nat) : VbAcc α := { a with len := a.len + n, nullCount := a.nullCount + n }

/-- varbin/stats.rs:84-106; `cmp` is the byte-string comparison. -/
def next (cmp : α → α → Ordering) (a : VbAcc α) (x : α) : VbAcc α :=
  let a1 : VbAcc α := { a with
    len := a.len + 1
    min := if cmp x a.min = .lt then x else a.min
    max := if cmp x a.min = .lt then a.max else if cmp x a.max = .gt then x else a.max }
  match cmp x a.last with
  | .lt => { a1 with isSorted := false, isStrictSorted := false, last := x, runs := a.runs + 1 }
  | .eq => { a1 with isStrictSorted := false }
  | .gt => { a1 with last := x, runs := a.runs + 1 }

/-- varbin/stats.rs:69-77 -/
def nullableNext (cmp : α → α → Ordering) (a : VbAcc α) : Option α → VbAcc α
  | some x => a.next cmp x
  | none => a.nNulls 1

/-- varbin/stats.rs:108-121 -/
def finish [DecidableEq α] (a : VbAcc α) : StatsSet α where
  min := some (some a.min)
  max := some (some a.max)
  runCount := some a.runs
  isSorted := some a.isSorted
  isStrictSorted := some a.isStrictSorted
  isConstant := some ((decide (a.min = a.max) && a.nullCount == 0) || a.nullCount == a.len)
  nullCount := some a.nullCount

end VbAcc

/-- `StatsSet::nulls` for a dtype without extra statistics (utf8, binary), statsset.rs:32-63. -/
def StatsSet.nullsOther (n : Nat) : StatsSet α where
  min := some none
  max := some none
  isConstant := some true
  isSorted := some true
  isStrictSorted := some (decide (n < 2))
  runCount := some 1
  nullCount := some n

/-- `compute_stats`, varbin/stats.rs:22-42: consume leading nulls from the iterator, then accumulate. -/
def varbinStatsFrom [DecidableEq α] (cmp : α → α → Ordering) (leading : Nat) : List (Option α) → StatsSet α
  | [] => StatsSet.nullsOther leading
  | none :: rest => varbinStatsFrom cmp (leading + 1) rest
  | some x :: rest => (rest.foldl (VbAcc.nullableNext cmp) ((VbAcc.new x).nNulls leading)).finish

/-- varbin/stats.rs:13-20 and varbinview/stats.rs:9-16. -/
def varbinStats [DecidableEq α] (cmp : α → α → Ordering) (rows : List (Option α)) : StatsSet α :=
  if rows.isEmpty then {} else varbinStatsFrom cmp 0 rows

/-- `ArrayStatisticsCompute for ConstantArray`, constant/stats.rs:9-21: `asBool` is the scalar as a boolean, if it is one. -/
def constantStats (asBool : Option Bool) (n : Nat) : StatsSet α where
  isConstant := some true
  trueCount := asBool.map (fun b => if b then n else 0)

end Vx
