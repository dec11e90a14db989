import Verif.Model.PyScalar
import Verif.Spec.Scalar
/-! # What a Python object says about a Vortex value -/
namespace Vx.PyScalar.Spec
open Vx.PyScalar

/-- The `float` of a number of a float type; the widenings are exact in IEEE arithmetic. -/
def asDouble (F : FloatOps) : (p : PType) → BitVec p.bits → BitVec 64
  | .f64, b => b
  | .f32, b => F.f2f .f32 .f64 b
  | .f16, b => F.f2f .f32 .f64 (F.f2f .f16 .f32 b)
  | _, _ => 0

mutual
/-- `x` is the plain Python object for the value `v` of type `d`: `None`, the same boolean, number, text or bytes, the list of the elements' objects, or
the dict from the field names to the fields' objects. -/
def Shows (F : FloatOps) (d : DType) (v : SV) (x : Obj) : Prop :=
  match v with
  | .null => x = .none
  | .bool b => x = .bool b
  | .prim p => x = if p.pt.isFloat then .float (asDouble F p.pt p.bits) else .int p.toInt
  | .buffer bs => x = .bytes bs
  | .str bs => x = .str bs
  | .list vs => match d with
    | .list e _ => ∃ xs, x = .list xs ∧ ShowsAll F e vs xs
    | .struct ns ds _ => ∃ xs, x = .dict ns xs ∧ ShowsFields F ds vs xs
    | _ => False
def ShowsAll (F : FloatOps) (d : DType) (vs : List SV) (xs : List Obj) : Prop :=
  match vs with
  | [] => xs = []
  | v :: vs => ∃ y ys, xs = y :: ys ∧ Shows F d v y ∧ ShowsAll F d vs ys
def ShowsFields (F : FloatOps) (ds : List DType) (vs : List SV) (xs : List Obj) : Prop :=
  match vs with
  | [] => xs = []
  | v :: vs => ∃ d ds' y ys, ds = d :: ds' ∧ xs = y :: ys ∧ Shows F d v y ∧ ShowsFields F ds' vs ys
end

mutual
/-- Struct types have as many names as fields, all different, at every depth. -/
def Distinct : DType → Prop
  | .struct ns ds _ => ns.Nodup ∧ ns.length = ds.length ∧ DistinctAll ds
  | .list e _ => Distinct e
  | _ => True
def DistinctAll : List DType → Prop
  | [] => True
  | d :: ds => Distinct d ∧ DistinctAll ds
end

mutual
/-- `x` becomes `y` when the user calls `into_python()` on every view in it until none is left. -/
inductive Unwraps (F : FloatOps) : Obj → Obj → Prop where
  | none : Unwraps F .none .none
  | bool (b : Bool) : Unwraps F (.bool b) (.bool b)
  | int (z : Int) : Unwraps F (.int z) (.int z)
  | float (x : BitVec 64) : Unwraps F (.float x) (.float x)
  | str (bs : List UInt8) : Unwraps F (.str bs) (.str bs)
  | bytes (bs : List UInt8) : Unwraps F (.bytes bs) (.bytes bs)
  | list {xs ys : List Obj} : UnwrapsAll F xs ys → Unwraps F (.list xs) (.list ys)
  | dict {ks : List Str} {xs ys : List Obj} : UnwrapsAll F xs ys → Unwraps F (.dict ks xs) (.dict ks ys)
  | view {x x' y : Obj} : intoPython F false x = .ok x' → Unwraps F x' y → Unwraps F x y
inductive UnwrapsAll (F : FloatOps) : List Obj → List Obj → Prop where
  | nil : UnwrapsAll F [] []
  | cons {x y : Obj} {xs ys : List Obj} : Unwraps F x y → UnwrapsAll F xs ys → UnwrapsAll F (x :: xs) (y :: ys)
end

end Vx.PyScalar.Spec
