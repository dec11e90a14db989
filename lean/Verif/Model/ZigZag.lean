import Verif.Model.Primitive
/-! # ZigZag encoding (encodings/zigzag) -/

namespace Vx.ZigZag

/-- `ZigZag::encode` of the external crate `zigzag` 0.1.0 (used at encodings/zigzag/src/compress.rs:32):
`(v << 1) ^ (v >> (BITS - 1))` with arithmetic shift right. Written from the crate's documented definition; the crate is
outside /repo. -/
def encode (x : BitVec w) : BitVec w := (x <<< 1) ^^^ (x.sshiftRight (w - 1))

/-- `ZigZag::decode`: `(u >> 1) ^ -(u & 1)` (encodings/zigzag/src/compress.rs:56, compute.rs:31). -/
def decode (u : BitVec w) : BitVec w := (u >>> 1) ^^^ (-(u &&& 1#w))

/-- Physical types that can occur, as far as zigzag cares (encodings/zigzag/src/compress.rs:12-21, 37-46). -/
inductive Kind where
  | signed
  | unsigned
  | float
  deriving DecidableEq, Repr

/-- `zigzag_encode`, compress.rs:10-23: signed only; validity kept. The result is the (unsigned) encoded child. -/
def zigzagEncode (k : Kind) (a : PArr (BitVec w)) : Res (PArr (BitVec w)) :=
  match k with
  | .signed => .ok (a.map encode)
  | _ => .err

/-- `zigzag_decode`, compress.rs:35-47; also `IntoCanonical for ZigZagArray`, array.rs:99-103. -/
def zigzagDecode (k : Kind) (a : PArr (BitVec w)) : Res (PArr (BitVec w)) :=
  match k with
  | .unsigned => .ok (a.map decode)
  | _ => .err

/-- `scalar_at` on a `ZigZagArray`: the checks of compute/unary/scalar_at.rs:12-27, then compute.rs:22-41. -/
def scalarAt (enc : PArr (BitVec w)) (i : Nat) : Res (Option (BitVec w)) :=
  if i ≥ enc.len then .err else do
    let v ← enc.validity.isValid i
    if !v then .ok none else do
      let x ← idx enc.vals i
      .ok (some (decode x))

/-- `slice` on a `ZigZagArray`: compute.rs:68-72. -/
def slice (enc : PArr (BitVec w)) (s e : Nat) : Res (PArr (BitVec w)) := enc.slice s e

end Vx.ZigZag
