import Verif.Model.ALP
import Verif.Model.Compare
/-! # Comparing an ALP array with a constant (encodings/alp/src/alp/compute.rs:95-149)

`fcmp` is the IEEE comparison of floats, `icmp` that of the encoded integers, `acmp` arrow's (total) order of floats. -/

namespace Vx.ALP

/-- `encode_single`, alp/mod.rs:143-150 -/
def encodeSingle (enc1 : F → I) (dec : I → F) (fcmp : F → F → Option Ordering) (v : F) : Option I :=
  if fcmp (dec (enc1 v)) v = some .eq then some (enc1 v) else none

/-- `BoolArray::from_vec(vec![false; len], AllValid)` -/
def allFalse (n : Nat) : PArr Bool := ⟨List.replicate n false, .allValid⟩

/-- `alp_scalar_compare`, compute.rs:124-149. The encoded child is primitive. The sparse patches have no comparison kernel, so they are
compared by arrow in canonical form (`dflt` is the float the canonical array is filled with). -/
def scalarCompare (dflt : F) (enc1 : F → I) (dec : I → F) (fcmp : F → F → Option Ordering) (icmp : I → I → Option Ordering)
    (acmp : F → F → Option Ordering) (a : Arr F I) (v : F) (op : Op) : Res (PArr Bool) :=
  match encodeSingle enc1 dec fcmp v with
  | some e => Compare.primConst icmp op a.encoded (some e)
  | none => match a.patches with
    | some p => do
      let q ← p.canonicalPrim dflt
      .ok (Compare.arrowCmp ⟨fcmp, acmp, acmp, fun _ _ => false⟩ op q.rows (List.replicate a.encoded.len (some v)))
    | none => .ok (allFalse a.encoded.len)

/-- `MaybeCompareFn for ALPArray` against a constant, compute.rs:95-122: a null constant gives all false. -/
def compareConst (dflt : F) (enc1 : F → I) (dec : I → F) (fcmp : F → F → Option Ordering) (icmp : I → I → Option Ordering)
    (acmp : F → F → Option Ordering) (a : Arr F I) (v : Option F) (op : Op) : Res (PArr Bool) :=
  match v with
  | some v => scalarCompare dflt enc1 dec fcmp icmp acmp a v op
  | none => .ok (allFalse a.encoded.len)

end Vx.ALP
