import Verif.Model.StoredBytes
/-! # C102: what must hold of each array of a tree for its bytes to say what it is -/
namespace Vx.Store
open Own

mutual
/-- Every array of the tree. -/
def Everywhere (P : Own.Arr → Prop) : Own.Arr → Prop
  | .mk e d l b cs => P (.mk e d l b cs) ∧ Everywheres P cs
def Everywheres (P : Own.Arr → Prop) : List Own.Arr → Prop
  | [] => True
  | c :: cs => Everywhere P c ∧ Everywheres P cs
end

/-- The numbers of the buffer are of the width of its elements; encodings without a buffer have none. -/
def BufferOk (a : Own.Arr) : Prop :=
  if hasBuffer a.enc then ∀ x ∈ a.data, x < 256 ^ elemWidth a.enc a.dtype else a.data = []

/-- The metadata is read as what was written. -/
def MetaOk (mc : MetaCodec) (a : Own.Arr) : Prop := mc.de (mc.id a.enc) (mc.ser a.enc) = some a.enc

end Vx.Store
