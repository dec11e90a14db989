import Verif.Model.TreeCompare
import Verif.Model.TreeStruct
import Verif.Model.FilterBy
/-!
# Boolean operators, expressions and row filters over encoded arrays

`and` / `or` (vortex-array/src/compute/boolean.rs) on arrays of any encoding, `VortexExpr::evaluate` (vortex-expr/src), `RowFilter::evaluate`
(vortex-serde/src/layouts/read/filtering.rs) on a struct array whose columns have any encoding, and the decoding step of the file stream
that filters a batch by the mask (vortex-serde/src/layouts/read/stream.rs:126-150).

Simplifications: arrow's `and` / `or` are a trusted contract; a constant array always carries `IsConstant` (constant/mod.rs:47-53 sets it); the statistics
an array already carries are a parameter (`CEnv.isConst`, `cached`); `Select` and `Identity` are not predicates and are left out here.
-/
namespace Vx.Tree
open RowExpr (Field)

/-- One row of arrow's `and` (`both = true`) or `or`: null if either side is null (trusted contract, arrow_arith::boolean, not the Kleene variants). -/
def arrowBool (both : Bool) (x y : SV) : SV :=
  if x.isNull || y.isNull then .null else .bool (if both then isTrue x && isTrue y else isTrue x || isTrue y)

/-- `ScalarValue::as_bool`, vortex-scalar/src/value.rs -/
def asBool : SV → Res (Option Bool)
  | .bool b => .ok (some b)
  | .null => .ok none
  | _ => .err

def isBooleanType : DType → Bool
  | .bool _ => true
  | _ => false

section
variable (env : CEnv L)

/-- `AndFn` / `OrFn` for `BoolArray`, bool/compute/boolean.rs:11-38 -/
def boolImpl (both : Bool) (l r : Arr L) : Res (Arr L) := do
  let xs ← arrowRows env (bulks env.toBEnv (depth l)) l
  let ys ← arrowRows env (bulks env.toBEnv (depth r)) r
  fromArrowBools (List.zipWith (arrowBool both) xs ys)

/-- The scalar of two constants, constant/compute.rs:155-161 -/
def constBools (both : Bool) (dt : DType) (n : Nat) : Option Bool → Option Bool → Arr L
  | some a, some b => .const (.bool true) (.bool (if both then a && b else a || b)) n
  | _, _ => .const (dt.withNullability true) .null n

/-- `constant_array_bool_impl`, constant/compute.rs:145-171: the other side must be known to be constant or a plain boolean array. -/
def constImpl (both : Bool) (dt : DType) (x : SV) (n : Nat) (other : Arr L) : Res (Arr L) :=
  if known env other then do
    let a ← asBool x
    let y ← Arr.scalarAt env.toEnv other 0
    let b ← asBool y
    .ok (constBools both dt n a b)
  else match other with
    | .flat .bool vals v => boolImpl env both (.flat .bool vals v) (.const dt x n)
    | _ => .err

/-- `lhs.and().map(|l| l.and(rhs))`: only plain boolean and constant arrays have one. -/
def ownBool (both : Bool) (l r : Arr L) : Option (Res (Arr L)) :=
  match l with
  | .flat .bool vals v => some (boolImpl env both (.flat .bool vals v) r)
  | .const dt x n => some (constImpl env both dt x n r)
  | _ => none

/-- `into_bool()` of the left side, then its own operator, compute/boolean.rs:33-36, 59-62 -/
def decodeBool (both : Bool) (l r : Arr L) : Res (Arr L) := do
  match ← (bulks env.toBEnv (depth l)).canon l with
  | .flat .bool vals v => boolImpl env both (.flat .bool vals v) r
  | _ => .err

/-- `and(lhs, rhs)` (`both = true`) and `or(lhs, rhs)`, compute/boolean.rs:13-63 -/
def Arr.boolOp (both : Bool) (l r : Arr L) : Res (Arr L) :=
  if len env.toEnv l ≠ len env.toEnv r then .err
  else if !isBooleanType (dtype env.toEnv l) || !isBooleanType (dtype env.toEnv r) then .err
  else match ownBool env both l r with
    | some res => res
    | none =>
      match ownBool env both r l with
      | some res => res
      | none => decodeBool env both l r

end

/-! ## Expressions -/

/-- vortex-expr/src/{column,literal,binary}.rs -/
inductive TExpr where
  | col (f : Field)
  | lit (dt : DType) (x : SV)
  | bin (l : TExpr) (op : RowExpr.Op) (r : TExpr)

/-- The comparison an operator stands for, vortex-expr/src/binary.rs:45-51; `And` and `Or` are none. -/
def cmpOp : RowExpr.Op → Option Op
  | .eq => some .eq
  | .neq => some .notEq
  | .lt => some .lt
  | .lte => some .lte
  | .gt => some .gt
  | .gte => some .gte
  | .and => none
  | .or => none

/-- binary.rs:45-54 -/
def applyOp (env : CEnv L) (op : RowExpr.Op) (l r : Arr L) : Res (Arr L) :=
  match cmpOp op with
  | some o => l.compare env o r
  | none => Arr.boolOp env (decide (op = .and)) l r

/-- `VortexExpr::evaluate`: column.rs:43-51, literal.rs:25-27, binary.rs:41-55 -/
def TExpr.eval (env : CEnv L) (batch : Arr L) : TExpr → Res (Arr L)
  | .col f => evalColumn f batch
  | .lit dt x => .ok (.const dt x (len env.toEnv batch))
  | .bin l op r => do
    let x ← l.eval env batch
    let y ← r.eval env batch
    applyOp env op x y

/-- `split_conjunction`, vortex-expr/src/lib.rs:41-57 -/
def TExpr.split : TExpr → List TExpr
  | .bin l op r => if op = .and then l.split ++ r.split else [.bin l op r]
  | e => [e]

/-! ## Row filters -/

section
variable (env : CEnv L) (cached : Arr L → Option Nat)

/-- The count of a plain boolean array, bool/stats.rs:12-28: nothing for an empty one, an error (no statistic) if the validity does not decode. -/
def plainCount (vals : List SV) (v : TVal (Arr L)) : Option Nat :=
  if vals.length = 0 then none
  else match logicalV (bulks env.toBEnv (depthV v)) v vals.length with
    | .ok lv => some ((List.zipWith (fun x b => isTrue x && b) vals lv.intoBools).count true)
    | _ => none

mutual
/-- `statistics().compute_true_count()`: what is cached, or bool/stats.rs:12-28, constant/stats.rs:9-19 (nothing for a null), chunked/stats.rs:4-20. The
other encodings are taken to compute nothing. -/
def tcount (a : Arr L) : Option Nat :=
  match cached a with
  | some n => some n
  | none => match a with
    | .flat .bool vals v => plainCount env vals v
    | .const _ (.bool b) n => some (if b then n else 0)
    | .chunked _ (c :: cs) => tcounts (tcount c) cs
    | _ => none
/-- The `reduce` of chunked/stats.rs:13-18 with `merge_scalar_stat`, stats/statsset.rs:184-195 -/
def tcounts : Option Nat → List (Arr L) → Option Nat
  | acc, [] => acc
  | acc, c :: cs => tcounts (Pred.mergeCount acc (tcount c)) cs
end

/-- `null_as_false`, vortex-serde/src/layouts/read/mod.rs:74-86 -/
def nullsFalse (vals : List SV) (v : TVal (Arr L)) : Res (Arr L) :=
  match v with
  | .nonNullable => .ok (.flat .bool vals .nonNullable)
  | .allValid => .ok (.flat .bool vals .nonNullable)
  | .allInvalid => .ok (.flat .bool (List.replicate vals.length (.bool false)) .nonNullable)
  | .array w => do
    let bits ← bitsOf (bulks env.toBEnv (depth w)) w
    .ok (.flat .bool (List.zipWith (fun x b => .bool (isTrue x && b)) vals bits) .nonNullable)

/-- `null_as_false(mask.into_bool()?)`, filtering.rs:42 -/
def finishMask (mask : Arr L) : Res (Arr L) := do
  match ← (bulks env.toBEnv (depth mask)).canon mask with
  | .flat .bool vals v => nullsFalse env vals v
  | _ => .err

/-- The loop of `RowFilter::evaluate`, filtering.rs:33-42 -/
def maskLoop (batch : Arr L) : Arr L → List TExpr → Res (Arr L)
  | mask, [] => finishMask env mask
  | mask, e :: es =>
    if (tcount env cached mask).getD 0 = 0 then .ok (.const (.bool false) (.bool false) (len env.toEnv batch))
    else do
      let m ← e.eval env batch
      let mask' ← Arr.boolOp env true m mask
      maskLoop batch mask' es

/-- `RowFilter::evaluate` on the conjuncts, filtering.rs:27-44 (`vortex_expect` on an empty list). -/
def evalConjuncts (batch : Arr L) : List TExpr → Res (Arr L)
  | [] => .panic
  | e :: es => do
    let m ← e.eval env batch
    maskLoop env cached batch m es

/-- `RowFilter::new(expr).evaluate(batch)` -/
def rowFilter (e : TExpr) (batch : Arr L) : Res (Arr L) := evalConjuncts env cached batch e.split

/-- The predicate array `filter` is given: a plain boolean array that starts at a byte, or a constant (see `Model/FilterBy`).
Simplification: a bare boolean column as the whole filter may start inside a byte; that case is `C103_bit_offset`. -/
def maskPred : Arr L → Option Pred
  | .flat .bool vals _ => some (.plain ⟨vals.map isTrue, 0, vals.length⟩)
  | .const _ x n => some (.const (isTrue x) n)
  | _ => none

/-- One batch of a filtered scan, stream.rs:126-150: the mask comes from the columns of the filter, nothing is returned for a batch without
a true row. -/
def scanBatch (stat : Pred.Known) (lf : L → Pred → Res (Arr L)) (e : TExpr) (filterCols batch : Arr L) : Res (Option (Arr L)) := do
  let mask ← rowFilter env cached e filterCols
  if (tcount env cached mask).getD 0 = 0 then .ok none
  else match maskPred mask with
    | some p => do
      let out ← batch.filterBy env.toBEnv stat lf p
      .ok (some out)
    | none => .err

end
end Vx.Tree
