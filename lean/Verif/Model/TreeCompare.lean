import Verif.Model.TreeBulk
import Verif.Model.Compare
/-!
# Trees of encoded arrays: `compare`

The entry point `compare` (vortex-array/src/compute/compare.rs:80-119) and `MaybeCompareFn::maybe_compare` / `CompareFn::compare` of the
encodings that have one, on arrays of any encoding.

Simplifications: the arrow kernels are a trusted contract (null if either side is null, else the total order on the values); arrow's own
test that both operands have the same arrow type is left out, since `compare` has already compared the vortex types; an extension array
reaches arrow only with a temporal type whose storage needs no cast (an error otherwise), as in `TreeBulk`.
-/
namespace Vx

namespace PValue

def isNaN : PValue → Bool
  | ⟨.f16, a⟩ => fmt16.isNaN a
  | ⟨.f32, a⟩ => Spec.f32.isNaN a
  | ⟨.f64, a⟩ => Spec.f64.isNaN a
  | _ => false

/-- Is it a floating-point zero, of either sign? -/
def isZero : PValue → Bool
  | ⟨.f16, a⟩ => fmt16.isZero a
  | ⟨.f32, a⟩ => Spec.f32.isZero a
  | ⟨.f64, a⟩ => Spec.f64.isZero a
  | _ => false

/-- `PartialOrd` of the Rust number types, behind the operators of compute/compare.rs:61-70: NaN is unordered, the two zeros are equal. -/
def native (p q : PValue) : Option Ordering :=
  if p.isNaN || q.isNaN then none else if p.isZero && q.isZero then some .eq else p.partialCmp q

end PValue

namespace Tree

/-- What comparing needs besides: the cached `IsConstant` statistic of an array, ALP's `encode_single` (`none`: the value is an
exception, encodings/alp/src/alp/mod.rs:156-172) and the comparison of a leaf encoding that has one (FSST,
encodings/fsst/src/compute.rs:37-93). -/
structure CEnv (L : Type) extends BEnv L where
  isConst : Arr L → Bool
  alpEnc : Nat → Nat → PValue → Option PValue
  leafCmp : Op → L → Arr L → Option (Res (Arr L))

/-- `vortex_expect`: an error becomes a panic. -/
def orPanic : Res α → Res α
  | .err => .panic
  | r => r

/-- `scalar_cmp`, compute/compare.rs:121-137 -/
def scalarCmp (op : Op) (dx : DType) (x : SV) (dy : DType) (y : SV) : SV :=
  if x.isNull || y.isNull then .null
  else .bool (match op with
    | .eq => Scalar.eq ⟨dx, x⟩ ⟨dy, y⟩
    | .notEq => !(Scalar.eq ⟨dx, x⟩ ⟨dy, y⟩)
    | op => op.holds (Scalar.partialCmp ⟨dx, x⟩ ⟨dy, y⟩))

/-- One row of an arrow comparison kernel (trusted contract): floats are compared by their total order. -/
def arrowRow (op : Op) (x y : SV) : SV :=
  if x.isNull || y.isNull then .null else .bool (op.holds (SV.cmp x y))

/-- `Array::from_arrow(&array, true)` of a boolean arrow array, arrow/array.rs:168-204. -/
def fromArrowBools (rs : List SV) : Res (Arr L) := do
  let w ← arrowNulls true (rs.map (fun r => !r.isNull))
  .ok (.flat .bool (rs.map (fun r => .bool (isTrue r))) w)

/-- The native operator on two stored values of the same number type (values of another kind do not occur in a number array). -/
def nativeOp (op : Op) : SV → SV → Bool
  | .prim p, .prim q => op.holds (p.native q)
  | _, _ => false

/-- `Validity::into_nullable`, validity.rs:216-221 -/
def intoNullable : TVal α → TVal α
  | .nonNullable => .allValid
  | v => v

/-- The bits of a validity child that must be a plain `BoolArray`: `BoolArray::try_from`, validity.rs:203-204 -/
def plainBits : Arr L → Res (List Bool)
  | .flat .bool vals _ => .ok (vals.map isTrue)
  | _ => .err

/-- `Validity::and`, validity.rs:184-214 -/
def andV (v w : TVal (Arr L)) : Res (TVal (Arr L)) :=
  match v, w with
  | .nonNullable, .nonNullable => .ok .nonNullable
  | .allInvalid, _ => .ok .allInvalid
  | _, .allInvalid => .ok .allInvalid
  | .array a, .allValid => .ok (.array a)
  | .array a, .nonNullable => .ok (.array a)
  | .nonNullable, .array a => .ok (.array a)
  | .allValid, .array a => .ok (.array a)
  | .nonNullable, .allValid => .ok .allValid
  | .allValid, .nonNullable => .ok .allValid
  | .allValid, .allValid => .ok .allValid
  | .array a, .array b => do
    let x ← plainBits a
    let y ← plainBits b
    .ok (ofValidity (Validity.ofBooleanBuffer (List.zipWith (· && ·) x y)))

section
variable (env : CEnv L)

/-- `BoolArray::try_new`, bool/mod.rs:99-125: the validity must have the array's length. -/
def mkBool (bits : List Bool) (v : TVal (Arr L)) : Res (Arr L) := do
  checkV env.toEnv v bits.length
  .ok (.flat .bool (bits.map SV.bool) v)

/-- Is it known to be constant? constant/compute.rs:108-112, alp/compute.rs:97-101 -/
def known : Arr L → Bool
  | .const _ _ _ => true
  | a => env.isConst a

/-- The rows arrow sees: `into_canonical()?.into_arrow()?` (canonical.rs:84-350). Struct arrays become arrow structs, which the comparison
kernels refuse (an error here). -/
def arrowRows (o : Bulks L) (a : Arr L) : Res (List SV) := do
  match ← o.canon a with
  | .flat _ vals v => do
    let lv ← logicalV o v vals.length
    .ok (masked vals lv.intoBools)
  | .null n => .ok (List.replicate n .null)
  | .ext id m s =>
    match env.temporal id m with
    | none => .err
    | some (p, _) => do
      let f ← asFlat (← o.canon s)
      if f.1 = .prim p then do
        let lv ← logicalV o f.2.2 f.2.1.length
        .ok (masked f.2.1 lv.intoBools)
      else .err
  | _ => .err
where
  /-- null where the validity is off -/
  masked (vals : List SV) (m : List Bool) : List SV := List.zipWith (fun x b => if b then x else .null) vals m

/-- Primitive against a constant, primitive/compute/compare.rs:40-67; a null constant is an error. -/
def primConst (op : Op) (vals : List SV) (v : TVal (Arr L)) (x : SV) : Res (Arr L) :=
  match x with
  | .prim _ => mkBool env (vals.map (fun y => nativeOp op y x)) (intoNullable v)
  | .null => .err
  | _ => .panic

/-- Primitive against primitive, primitive/compute/compare.rs:18-34 -/
def primPrim (op : Op) (vals : List SV) (v : TVal (Arr L)) (ws : List SV) (w : TVal (Arr L)) : Res (Arr L) := do
  let bits ← Compare.applyPredicate (nativeOp op) vals ws
  let u ← andV v w
  mkBool env bits (intoNullable u)

/-- VarBin and VarBinView against a constant, varbin/compute/compare.rs:27-70, varbinview/compute.rs:89-127: arrow's kernel with a
one-element right side. -/
def bytesConst (o : Bulks L) (op : Op) (a : Arr L) (x : SV) : Res (Arr L) := do
  let rs ← arrowRows env o a
  fromArrowBools (rs.map (fun r => arrowRow op r x))

/-- The loop of `CompareFn for ChunkedArray`, chunked/compute/mod.rs:62-68 -/
def compareChunks (cmp : Arr L → Arr L → Res (Arr L)) (r : Arr L) : Nat → List (Arr L) → Res (List (Arr L))
  | _, [] => .ok []
  | i, c :: cs => do
    let s ← Arr.slice env.toEnv r i (i + len env.toEnv c)
    let b ← cmp c s
    let bs ← compareChunks cmp r (i + len env.toEnv c) cs
    .ok (b :: bs)

/-- `vec![false; len]` with all rows valid, alp/compute.rs:111-116, 139 -/
def allFalse (n : Nat) : Arr L := .flat .bool (List.replicate n (.bool false)) .allValid

/-- `alp_scalar_compare`, alp/compute.rs:124-144 -/
def alpScalar (cmp : Arr L → Arr L → Res (Arr L)) (e f : Nat) (enc : Arr L) (patches : Option (Arr L)) (q : PValue) : Res (Arr L) :=
  match env.alpEnc e f q with
  | some i => cmp enc (.const (.prim i.pt false) (.prim i) (len env.toEnv enc))
  | none =>
    match patches with
    | some p => cmp p (.const (.prim q.pt false) (.prim q) (len env.toEnv enc))
    | none => .ok (allFalse (len env.toEnv enc))

/-- `MaybeCompareFn for ALPArray` against something known to be constant, alp/compute.rs:95-121 -/
def alpKnown (cmp : Arr L → Arr L → Res (Arr L)) (e f : Nat) (enc : Arr L) (patches : Option (Arr L)) (r : Arr L) : Res (Arr L) := do
  match ← orPanic (Arr.scalarAt env.toEnv r 0) with
  | .prim q =>
    if q.pt = .f32 ∨ q.pt = .f64 then alpScalar env cmp e f enc patches q else .ok (allFalse (len env.toEnv enc))
  | .null => .ok (allFalse (len env.toEnv enc))
  | _ => .panic

/-- `MaybeCompareFn for ConstantArray` against something known to be constant, constant/compute.rs:113-119 -/
def constKnown (op : Op) (dt : DType) (x : SV) (n : Nat) (r : Arr L) : Res (Arr L) := do
  let y ← orPanic (Arr.scalarAt env.toEnv r 0)
  .ok (.const (.bool true) (scalarCmp op dt x (dtype env.toEnv r) y) n)

/-- `lhs.compare(right, operator)` of each encoding: constant/compute.rs:106-121, primitive/compute/compare.rs:12-38,
varbin/compute/compare.rs:16-25, varbinview/compute.rs:79-87, chunked/compute/mod.rs:57-72, extension/compute.rs:38-57,
alp/compute.rs:95-121, fsst/compute.rs:37-48; the other encodings have none. -/
def own (cmp : Op → Arr L → Arr L → Res (Arr L)) (op : Op) (l r : Arr L) : Option (Res (Arr L)) :=
  match l with
  | .const dt x n => if known env r then some (constKnown env op dt x n r) else none
  | .flat (.prim _) vals v =>
    match r with
    | .const _ x _ => some (primConst env op vals v x)
    | .flat (.prim _) ws w => some (primPrim env op vals v ws w)
    | _ => none
  | .flat .bool _ _ => none
  | .flat k vals v =>
    match r with
    | .const _ x _ => some (bytesConst env (bulks env.toBEnv (depth l)) op (.flat k vals v) x)
    | _ => none
  | .chunked _ cs => some (do
      let out ← compareChunks env (cmp op) r 0 cs
      mkChunked env.toEnv (.bool true) out)
  | .ext _ _ s =>
    match r with
    | .const _ x n => some (cmp op s (.const (dtype env.toEnv s) x n))
    | .ext _ _ t => some (cmp op s t)
    | _ => none
  | .mapped (.alp e f) enc => if known env r then some (alpKnown env (cmp op) e f enc none r) else none
  | .alpP e f enc patches => if known env r then some (alpKnown env (cmp op) e f enc (some patches) r) else none
  | .leaf l => env.leafCmp op l r
  | _ => none

/-- Both sides to arrow, compute/compare.rs:106-118 -/
def viaArrow (op : Op) (l r : Arr L) : Res (Arr L) := do
  let xs ← arrowRows env (bulks env.toBEnv (depth l)) l
  let ys ← arrowRows env (bulks env.toBEnv (depth r)) r
  fromArrowBools (List.zipWith (arrowRow op) xs ys)

def isConstArr : Arr L → Bool
  | .const _ _ _ => true
  | _ => false

/-- compute/compare.rs:80-119; the fuel bounds the nesting of calls. -/
def compareF : Nat → Op → Arr L → Arr L → Res (Arr L)
  | 0, _, _, _ => .panic
  | n + 1, op, l, r =>
    if len env.toEnv l ≠ len env.toEnv r then .err
    else if !(dtype env.toEnv l).eqIgnoreNullability (dtype env.toEnv r) then .err
    else if isConstArr l && !isConstArr r then compareF n op.swap r l
    else match own env (compareF n) op l r with
      | some res => res
      | none =>
        match own env (compareF n) op.swap r l with
        | some res => res
        | none => viaArrow env op l r

end

/-- `compare(left, right, operator)` -/
def Arr.compare (env : CEnv L) (op : Op) (l r : Arr L) : Res (Arr L) := compareF env (2 * (depth l + depth r) + 2) op l r

end Tree
end Vx
