import Verif.Model.Scalar
/-! # Which values belong to a type -/
namespace Vx.Spec

mutual
/-- `v` is a value of type `d`, in canonical form: null only if nullable; primitives of exactly that width and sort; one value per struct
field; list elements of the element type. Extension types do not record their storage type: any non-null storage is allowed. -/
def HasType (d : DType) (v : SV) : Prop :=
  match v with
  | .null => d.isNullable = true
  | .bool _ => match d with
    | .bool _ | .ext _ _ _ => True
    | _ => False
  | .prim p => match d with
    | .prim q _ => p.pt = q
    | .ext _ _ _ => True
    | _ => False
  | .buffer _ => match d with
    | .binary _ | .ext _ _ _ => True
    | _ => False
  | .str _ => match d with
    | .utf8 _ | .ext _ _ _ => True
    | _ => False
  | .list vs => match d with
    | .struct _ ds _ => HaveTypes ds vs
    | .list e _ => AllHaveType e vs
    | _ => False
def HaveTypes (ds : List DType) (vs : List SV) : Prop :=
  match vs with
  | [] => ds = []
  | v :: vs => match ds with
    | [] => False
    | d :: ds => HasType d v ∧ HaveTypes ds vs
def AllHaveType (d : DType) (vs : List SV) : Prop :=
  match vs with
  | [] => True
  | v :: vs => HasType d v ∧ AllHaveType d vs
end

end Vx.Spec
