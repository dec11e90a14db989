import Verif.Spec.Walk
import Verif.Model.TreeDisplay
/-! # What a printed tree should show -/
namespace Vx.Own
open Vx

/-- The whole a share refers to starts anew below chunked arrays. -/
def startsAnew : Enc → Bool
  | .chunked _ => true
  | _ => false

mutual
/-- Every array in a tree, parents first: its depth, and the array its share refers to, which is the root, or the chunk it is in. -/
def placed (depth : Nat) (whole : Option Arr) : Arr → List (Nat × Arr × Arr)
  | .mk e d l b cs =>
    (depth, .mk e d l b cs, whole.getD (.mk e d l b cs)) ::
      placedAll (depth + 1) (if startsAnew e then none else some (whole.getD (.mk e d l b cs))) cs
def placedAll (depth : Nat) (whole : Option Arr) : List Arr → List (Nat × Arr × Arr)
  | [] => []
  | c :: cs => placed depth whole c ++ placedAll depth whole cs
end

/-- The lines of arrays, with what they say. -/
def arrayLine : Line → Option (Nat × Enc × DType × Nat × Nat × Nat)
  | .array i e d l n t => some (i, e, d, l, n, t)
  | _ => none

/-- The bytes of a line that shows a buffer. -/
def bufferBytes : Line → Nat
  | .buffer _ n => n
  | _ => 0

/-- The size of an array: the bits of packed values, and all other buffers, in the tree. -/
def bytesOf (size : Enc → List Nat → Nat) (a : Arr) : Nat := ((nodes a).map (valueBytes size)).sum

end Vx.Own
