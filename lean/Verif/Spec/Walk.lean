import Verif.Model.SelfDescribe
/-! # What a walk over an array should show -/
namespace Vx.Own
open Vx

mutual
/-- An array and everything in it, parents before children. -/
def nodes : Arr → List Arr
  | .mk e d l b cs => .mk e d l b cs :: nodesAll cs
def nodesAll : List Arr → List Arr
  | [] => []
  | c :: cs => nodes c ++ nodesAll cs
end

/-- The arrays whose validity bitmap a visitor is not shown: nullable structs and delta arrays. -/
def hidesValidity : Enc → Bool
  | .struct .array => true
  | .delta .array _ _ => true
  | _ => false

/-- No array in the tree hides a validity bitmap. -/
def Whole (a : Arr) : Prop := ∀ x ∈ nodes a, hidesValidity x.enc = false

/-- The bytes of all buffers in the tree. -/
def totalBytes (size : Enc → List Nat → Nat) (a : Arr) : Nat := ((nodes a).map (fun x => size x.enc x.data)).sum

/-- The array is not bit-packed. -/
def NotPacked : Enc → Prop
  | .bitPacked .. => False
  | _ => True

/-- No array in the tree is bit-packed. -/
def Unpacked (a : Arr) : Prop := ∀ x ∈ nodes a, NotPacked x.enc

/-- The arrays that leave their validity bitmap out of their size: those that do not show it, and bit-packed arrays. -/
def uncountedValidity : Enc → Bool
  | .struct .array => true
  | .delta .array _ _ => true
  | .bitPacked .array _ _ _ => true
  | _ => false

/-- The bits of the values of a bit-packed array, in bytes, and the buffer of any other. -/
def valueBytes (size : Enc → List Nat → Nat) (x : Arr) : Nat :=
  match x.enc with
  | .bitPacked _ width _ _ => (width * x.len + 7) / 8
  | e => size e x.data

/-- No array in the tree leaves its bitmap out. -/
def Counted (a : Arr) : Prop := ∀ x ∈ nodes a, uncountedValidity x.enc = false

end Vx.Own
