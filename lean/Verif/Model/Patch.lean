import Verif.Model.Sparse
/-! # Patching a primitive array (vortex-array/src/array/primitive/mod.rs:168-185) -/

namespace Vx

/-- The assignment loop `own_values[idx] = value`; out of range panics. -/
def setLoop (vals : List α) : List (Nat × α) → Res (List α)
  | [] => .ok vals
  | (i, x) :: ps => if i < vals.length then setLoop (vals.set i x) ps else .panic

/-- `PrimitiveArray::patch`, primitive/mod.rs:168-185; `zip_eq` panics on a length mismatch; the validity is not touched. -/
def PArr.patch (a : PArr α) (positions : List Nat) (values : List α) : Res (PArr α) := do
  Res.assert (positions.length == values.length)
  let v ← setLoop a.vals (positions.zip values)
  .ok ⟨v, a.validity⟩

/-- `patch_decoded` (encodings/alp/src/alp/compress.rs:79-95, encodings/fastlanes/src/bitpacking/compress.rs): apply sparse patches. -/
def PArr.patchSparse (a : PArr α) (p : Sparse α) : Res (PArr α) := do
  let is ← p.resolvedIndices
  a.patch is p.values.vals

end Vx
