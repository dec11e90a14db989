import Verif.Model.Stats
import Verif.Model.SearchSorted
/-! # Frame-of-reference encoding (encodings/fastlanes/src/for) -/

namespace Vx.FoR

/-- Rust `>>` on a fixed-width integer: arithmetic for signed types, logical for unsigned. -/
def shr (signed : Bool) (x : BitVec w) (s : Nat) : BitVec w := if signed then x.sshiftRight s else x >>> s

/-- `compress_primitive` on one value, compress.rs:62-84. -/
def compressVal (signed : Bool) (min : BitVec w) (shift : Nat) (v : BitVec w) : BitVec w :=
  if 0 < shift then shr signed (v - min) shift else v - min

/-- `decompress_primitive` on one value, compress.rs:100-117, and the arithmetic of `scalar_at_unchecked`, compute.rs:77-83. -/
def decompressVal (min : BitVec w) (shift : Nat) (e : BitVec w) : BitVec w :=
  if 0 < shift then (e <<< shift) + min else e + min

/-- What `for_compress` produces: a `FoRArray`, or one of the degenerate forms chosen when every valid value is zero. -/
inductive Encoded (w : Nat) where
  | forArr (enc : PArr (BitVec w)) (reference : BitVec w) (shift : Nat)
  | constant (value : Option (BitVec w)) (len : Nat)
  | sparseZero (indices : List Nat) (len : Nat)
  deriving DecidableEq, Repr

/-- `set_indices` of a boolean buffer (arrow): positions of the set bits, ascending. -/
def setIdx (bits : List Bool) : List Nat := (List.range bits.length).filter (fun i => bits[i]?.getD false)

/-- `for_compress`, compress.rs:13-60: shift and minimum come from the array statistics; `Min` missing or null is an error;
`assert!(shift < bit_width)` at line 67. -/
def forCompress (signed : Bool) (a : PArr (BitVec w)) : Res (Encoded w) := do
  let st := primStats (intElem signed w) a
  let shift := trailingZerosStat st
  let min ← Res.ofOption st.min
  if shift = w then
    match a.validity.toLogical a.len with
    | .allValid l => .ok (.constant (some 0#w) l)
    | .allInvalid l => .ok (.constant none l)
    | .array bits => .ok (.sparseZero (setIdx bits) a.len)
  else do
    let m ← Res.ofOption min
    Res.assert (decide (shift < w))
    .ok (.forArr (a.map (compressVal signed m shift)) m shift)

/-- `decompress`, compress.rs:86-98. -/
def decompress (enc : PArr (BitVec w)) (reference : BitVec w) (shift : Nat) : PArr (BitVec w) :=
  enc.map (decompressVal reference shift)

/-- The rows of the result. The constant array repeats its scalar; the sparse array has zero at the listed indices and null
elsewhere (their canonicalisation is modelled in `Verif.Model.Sparse`; here only the meaning is used). -/
def Encoded.rows : Encoded w → List (Option (BitVec w))
  | .forArr enc r s => (decompress enc r s).rows
  | .constant v n => List.replicate n v
  | .sparseZero is n => (List.range n).map (fun i => if i ∈ is then some 0#w else none)

/-- `scalar_at` on a `FoRArray`: outer checks of compute/unary/scalar_at.rs:12-27, then compute.rs:61-84. -/
def scalarAt (enc : PArr (BitVec w)) (reference : BitVec w) (shift : Nat) (i : Nat) : Res (Option (BitVec w)) := do
  let e ← enc.scalarAt i
  .ok (e.map (fun (x : BitVec w) => (x <<< shift) + reference))

/-- `PrimitiveArray::search_sorted` on an unsigned child: array/primitive/compute/search_sorted.rs:13-28. -/
def primSearch (key : α → Int) (a : PArr α) (v : α) (side : Side) : Res SearchResult :=
  match a.validity with
  | .nonNullable | .allValid => searchSlice (fun x y => compare (key x) (key y)) a.vals v side
  | .allInvalid => .ok (.notFound 0)
  | .array _ => searchNullsLast (fun x y => compare (key x) (key y)) a.rows v side

/-- `search_sorted_typed`, compute.rs:106-163, for a probe already cast to the array's type. The encoded child is searched as
unsigned integers. -/
def searchSorted (signed : Bool) (enc : PArr (BitVec w)) (reference : BitVec w) (shift : Nat) (v : BitVec w) (side : Side) :
    Res SearchResult :=
  if intKey signed v < intKey signed reference then .ok (.notFound 0)
  else
    let encoded := shr signed (v - reference) shift
    let decoded := (encoded <<< shift) + reference
    let representable := decoded == v
    let side' := if representable then side else .left
    let target := if representable then encoded else encoded + 1#w
    do
      let r ← primSearch (intKey false) enc target side'
      match r with
      | .found i => if representable then .ok (.found i) else .ok (.notFound i)
      | .notFound i => .ok (.notFound i)

end Vx.FoR
