import Verif.Model.Flex
/-!
# Statistics of an array read from a message
vortex-array/src/stats/{mod,flatbuffers,statsset}.rs, vortex-array/src/view.rs, vortex-scalar/src/{bool,primitive,list}.rs
-/
namespace Vx.StoredStats
open Vx.Flex

/-- `enum Stat`: vortex-array/src/stats/mod.rs:19-31 -/
inductive Stat where
  | bitWidthFreq | trailingZeroFreq | isConstant | isSorted | isStrictSorted | max | min | runCount | trueCount | nullCount
  deriving DecidableEq, Repr

/-- `StatsSet` with its scalars: vortex-array/src/stats/statsset.rs:12-15. -/
abbrev SMap := Stat → Option Scalar

/-- `StatsSet::set`: statsset.rs:86-88 -/
def SMap.set (m : SMap) (s : Stat) (v : Scalar) : SMap := fun t => if t = s then some v else m t

/-- `bool::try_from(&Scalar)`: vortex-scalar/src/bool.rs:42-65 -/
def asBool (s : Scalar) : Res Bool :=
  match s.dtype, s.value with
  | .bool _, .bool b => .ok b
  | _, _ => .err

/-- `u64::try_from(&Scalar)`: vortex-scalar/src/primitive.rs:20-43, 52-62, 128-138. The type must be primitive, and is asserted to be `u64`. -/
def asU64 (F : FloatOps) (s : Scalar) : Res (BitVec 64) :=
  match s.dtype with
  | .prim q _ => (SV.readPrim F q s.value).bind (fun
    | none => if q = .u64 then .err else .panic
    | some p => match p with
      | ⟨.u64, b⟩ => .ok b
      | _ => .panic)
  | _ => .err

/-- `usize::try_from(&Scalar)`: primitive.rs:155-163, 187-203; only the value is looked at. -/
def asUsize (F : FloatOps) (s : Scalar) : Res (BitVec 64) :=
  match s.value with
  | .prim p => match p.readAs F .u64 with
    | some ⟨.u64, b⟩ => .ok b
    | _ => .err
  | _ => .err

/-- `Vec<T>::try_from(&Scalar)`: vortex-scalar/src/list.rs:80-104; the elements of a null are none. -/
def asVec (conv : Scalar → Res β) (s : Scalar) : Res (List β) :=
  match s.dtype with
  | .list e _ => match s.value with
    | .null => .ok []
    | .list vs => Res.mapM (fun v => conv ⟨e, v⟩) vs
    | _ => .err
  | _ => .err

/-- `unwrap_or_else(|err| vortex_panic!(…))`. -/
def orPanic : Res β → Res β
  | .err => .panic
  | r => r

/-- `get_as`: vortex-array/src/stats/mod.rs:75-91. The answer of `get` is the first argument. -/
def getAs (conv : Scalar → Res β) : Option Scalar → Res (Option β)
  | none => .ok none
  | some s => (orPanic (conv s)).bind (fun x => .ok (some x))

/-- `get_as_cast::<u64>`: stats/mod.rs:92-105. Null scalars are dropped, others cast. -/
def getAsCast (F : FloatOps) : Option Scalar → Res (Option (BitVec 64))
  | none => .ok none
  | some s => if s.value.isNull then .ok none else
    (orPanic ((s.cast F (.prim .u64 false)).bind (asU64 F))).bind (fun x => .ok (some x))

/-- `table ArrayStats`: vortex-flatbuffers/flatbuffers/vortex-array/array.fbs:17-28. A scalar value is held as what reading it back gives. -/
structure FbStats where
  min : Option SV
  max : Option SV
  isSorted : Option Bool
  isStrictSorted : Option Bool
  isConstant : Option Bool
  runCount : Option (BitVec 64)
  trueCount : Option (BitVec 64)
  nullCount : Option (BitVec 64)
  bitWidthFreq : Option (List (BitVec 64))
  trailingZeroFreq : Option (List (BitVec 64))

/-- `impl WriteFlatBuffer for &dyn Statistics`: vortex-array/src/stats/flatbuffers.rs:7-47. -/
def write (F : FloatOps) (W : List Val → Width) (m : SMap) : Res FbStats := do
  let tz ← getAs (asVec (asU64 F)) (m .trailingZeroFreq)
  let bw ← getAs (asVec (asU64 F)) (m .bitWidthFreq)
  let srt ← getAs asBool (m .isSorted)
  let strict ← getAs asBool (m .isStrictSorted)
  let const ← getAs asBool (m .isConstant)
  let rc ← getAsCast F (m .runCount)
  let tc ← getAsCast F (m .trueCount)
  let nc ← getAsCast F (m .nullCount)
  .ok { min := (m .min).map (fun s => storeRoot F W s.value), max := (m .max).map (fun s => storeRoot F W s.value),
        isSorted := srt, isStrictSorted := strict, isConstant := const,
        runCount := rc, trueCount := tc, nullCount := nc,
        bitWidthFreq := bw, trailingZeroFreq := tz }

/-- `bool::into`, `u64::into` and `Scalar::list` of `u64`. -/
def boolScalar (b : Bool) : Scalar := ⟨.bool false, .bool b⟩
def u64v (b : BitVec 64) : SV := .prim ⟨.u64, b⟩
def u64Scalar (b : BitVec 64) : Scalar := ⟨.prim .u64 false, u64v b⟩
def u64List (bs : List (BitVec 64)) : Scalar := ⟨.list (.prim .u64 false) false, .list (bs.map u64v)⟩

/-- `<ArrayView as Statistics>::get`: vortex-array/src/view.rs:186-232; `none` for the table is a message without statistics. -/
def viewGet (dtype : DType) (fb : Option FbStats) (s : Stat) : Option Scalar :=
  match fb with
  | none => none
  | some fb => match s with
    | .max => fb.max.map (fun v => ⟨dtype, v⟩)
    | .min => fb.min.map (fun v => ⟨dtype, v⟩)
    | .isConstant => fb.isConstant.map boolScalar
    | .isSorted => fb.isSorted.map boolScalar
    | .isStrictSorted => fb.isStrictSorted.map boolScalar
    | .runCount => fb.runCount.map u64Scalar
    | .trueCount => fb.trueCount.map u64Scalar
    | .nullCount => fb.nullCount.map u64Scalar
    | .bitWidthFreq => fb.bitWidthFreq.map u64List
    | .trailingZeroFreq => fb.trailingZeroFreq.map u64List

/-- `all::<Stat>()`: the variants in order. -/
def allStats : List Stat :=
  [.bitWidthFreq, .trailingZeroFreq, .isConstant, .isSorted, .isStrictSorted, .max, .min, .runCount, .trueCount, .nullCount]

/-- `to_set`: view.rs:237-245 -/
def viewToSet (dtype : DType) (fb : Option FbStats) : SMap :=
  allStats.foldl (fun m s => match viewGet dtype fb s with
    | some v => m.set s v
    | none => m) (fun _ => none)

/-- `compute`: view.rs:253-263. `cs` is the encoding's `compute_statistics`; an error is no answer. -/
def viewCompute (dtype : DType) (fb : Option FbStats) (cs : Stat → Res SMap) (s : Stat) : Res (Option Scalar) :=
  match viewGet dtype fb s with
  | some v => .ok (some v)
  | none => match cs s with
    | .ok m => .ok (m s)
    | .err => .ok none
    | .panic => .panic

end Vx.StoredStats
