import Verif.Model.Primitive
/-! # Delta encoding (encodings/fastlanes/src/delta) and forward filling

The 1024-value kernels (`Transpose`, `Delta` of the external `fastlanes` crate) are a parameter `Kern` with the contract `Kern.Lawful`. -/

namespace Vx

/-- The loop of forward filling, vortex-array/src/array/primitive/compute/fill.rs:32-42 -/
def fillLoop (last : α) : List α → List Bool → List α
  | v :: vs, b :: bs => (if b then v else last) :: fillLoop (if b then v else last) vs bs
  | _, _ => []

/-- `FillForwardFn for PrimitiveArray`, fill.rs:10-45; `d` is the type's default. -/
def PArr.fillForward (d : α) (a : PArr α) : PArr α :=
  if a.validity.nullable = false then a
  else match a.validity.toLogical a.vals.length with
    | .allValid _ => ⟨a.vals, .allValid⟩
    | .allInvalid _ => ⟨List.replicate a.vals.length d, .allValid⟩
    | .array bits => ⟨fillLoop d a.vals bits, .allValid⟩

namespace Delta

/-- `fastlanes::{Transpose, Delta}` for element width `T`, on 1024 values; the second argument of `delta` and `undelta` are the bases. -/
structure Kern (T : Nat) where
  transpose : List (BitVec T) → List (BitVec T)
  untranspose : List (BitVec T) → List (BitVec T)
  delta : List (BitVec T) → List (BitVec T) → List (BitVec T)
  undelta : List (BitVec T) → List (BitVec T) → List (BitVec T)

/-- `T::LANES` -/
@[irreducible] def lanes (T : Nat) : Nat := 1024 / T

/-- The contract: lengths are 1024, the two pairs of kernels are inverse to each other (for any bases). -/
structure Kern.Lawful (k : Kern T) : Prop where
  transpose_len : ∀ xs, xs.length = 1024 → (k.transpose xs).length = 1024
  delta_len : ∀ xs bs, xs.length = 1024 → bs.length = lanes T → (k.delta xs bs).length = 1024
  undelta_len : ∀ xs bs, xs.length = 1024 → bs.length = lanes T → (k.undelta xs bs).length = 1024
  untranspose_len : ∀ xs, xs.length = 1024 → (k.untranspose xs).length = 1024
  untranspose_transpose : ∀ xs, xs.length = 1024 → k.untranspose (k.transpose xs) = xs
  undelta_delta : ∀ xs bs, xs.length = 1024 → bs.length = lanes T → k.undelta (k.delta xs bs) bs = xs

/-- The scalar loop over the remainder, compress.rs:85-94 -/
def scalarDeltas (base : BitVec T) : List (BitVec T) → List (BitVec T)
  | [] => []
  | x :: xs => (x - base) :: scalarDeltas x xs

/-- compress.rs:157-164 -/
def scalarSums (base : BitVec T) : List (BitVec T) → List (BitVec T)
  | [] => []
  | d :: ds => (d + base) :: scalarSums (d + base) ds

/-- Value `i * n ..` of a list, `n` of them. -/
def block (xs : List α) (n i : Nat) : List α := (xs.drop (i * n)).take n

/-- `compress_primitive`, compress.rs:44-104: (bases, deltas) -/
def compressPrim (k : Kern T) (xs : List (BitVec T)) : List (BitVec T) × List (BitVec T) :=
  let n := xs.length / 1024
  let full := (List.range n).map (fun i => let t := k.transpose (block xs 1024 i); (t.take (lanes T), k.delta t (t.take (lanes T))))
  let rest := xs.drop (n * 1024)
  match rest with
  | [] => (full.flatMap (·.1), full.flatMap (·.2))
  | x :: _ => (full.flatMap (·.1) ++ [x], full.flatMap (·.2) ++ scalarDeltas x rest)

/-- `decompress_primitive`, compress.rs:122-169 -/
def decompressPrim (k : Kern T) (bases deltas : List (BitVec T)) : Res (List (BitVec T)) := do
  let n := deltas.length / 1024
  let full ← Res.mapM (fun i => do
    Res.assert (decide ((i + 1) * lanes T ≤ bases.length))
    .ok (k.untranspose (k.undelta (block deltas 1024 i) (block bases (lanes T) i)))) (List.range n)
  if deltas.length % 1024 > 0 then do
    Res.assert (bases.length == n * lanes T + 1)
    let base ← idx bases (n * lanes T)
    .ok (full.flatten ++ scalarSums base (deltas.drop (n * 1024)))
  else .ok full.flatten

/-- A delta array, mod.rs:27-31 with its children. -/
structure Arr (T : Nat) where
  bases : PArr (BitVec T)
  deltas : PArr (BitVec T)
  validity : Validity
  offset : Nat
  len : Nat
  deriving DecidableEq, Repr

/-- `bases_len`, mod.rs:221-225 -/
def basesLen (T deltasLen : Nat) : Nat := deltasLen / 1024 * lanes T + (if deltasLen % 1024 > 0 then 1 else 0)

/-- `try_new`, mod.rs:95-158. The dtype comparison is that of the nullabilities (the widths agree by typing). -/
def tryNew (bases deltas : PArr (BitVec T)) (validity : Validity) (offset len : Nat) : Res (Arr T) := do
  Res.guard (decide (offset < 1024))
  Res.guard (decide (offset + len ≤ deltas.len))
  Res.guard (bases.validity.nullable == deltas.validity.nullable)
  validity.checkLen len
  Res.guard (bases.len == basesLen T deltas.len)
  Res.guard (decide (deltas.len % 1024 = 0) == decide (basesLen T deltas.len % lanes T = 0))
  .ok ⟨bases, deltas, validity, offset, len⟩

/-- `delta_compress`, compress.rs:18-42 -/
def compress (k : Kern T) (a : PArr (BitVec T)) : PArr (BitVec T) × PArr (BitVec T) :=
  let p := compressPrim k (a.fillForward 0).vals
  let v := if a.validity.nullable then Validity.allValid else .nonNullable
  (⟨p.1, v⟩, ⟨p.2, v⟩)

/-- `try_from_delta_compress_parts`, mod.rs:86-93 -/
def fromParts (bases deltas : PArr (BitVec T)) (validity : Validity) : Res (Arr T) := tryNew bases deltas validity 0 deltas.len

/-- `DeltaCompressor::compress` without compressing the children further, vortex-sampling-compressor/src/compressors/delta.rs:36-63. -/
def encode (k : Kern T) (a : PArr (BitVec T)) : Res (Arr T) :=
  let p := compress k a
  fromParts p.1 p.2 a.validity

/-- `try_from_primitive_array`, mod.rs:76-84 -/
def fromPrimitive (k : Kern T) (a : PArr (BitVec T)) : Res (Arr T) :=
  let p := compress k a
  fromParts p.1 p.2 .nonNullable

/-- `PrimitiveArray::from_vec` unwraps: it panics when the validity has another length. -/
def fromVec (vals : List α) (v : Validity) : Res (PArr α) :=
  match v.checkLen vals.length with
  | .ok _ => .ok ⟨vals, v⟩
  | _ => .panic

/-- `delta_decompress`, compress.rs:106-120 -/
def decompress (k : Kern T) (a : Arr T) : Res (PArr (BitVec T)) := do
  let xs ← decompressPrim k a.bases.vals a.deltas.vals
  let d ← fromVec xs a.validity
  d.slice a.offset (a.offset + a.len)

/-- compute.rs:37-74 behind the bounds check of vortex-array/src/compute/slice.rs:22-47 -/
def slice (a : Arr T) (s e : Nat) : Res (Arr T) :=
  if s > a.len then .err
  else if e > a.len then .err
  else if s > e then .err
  else do
    let ps := s + a.offset
    let pe := e + a.offset
    let c0 := ps / 1024
    let c1 := (pe + 1023) / 1024
    let bl := basesLen T a.deltas.len
    let b ← a.bases.slice (min (c0 * lanes T) bl) (min (c1 * lanes T) bl)
    let d ← a.deltas.slice (min (c0 * 1024) a.deltas.len) (min (c1 * 1024) a.deltas.len)
    let v ← a.validity.slice s e
    tryNew b d v (ps % 1024) (e - s)

/-- vortex-array/src/compute/unary/scalar_at.rs:12-27 over compute.rs:21-25 -/
def scalarAt (k : Kern T) (a : Arr T) (i : Nat) : Res (Option (BitVec T)) :=
  if i ≥ a.len then .err else do
    let v ← a.validity.isValid i
    if !v then .ok none else do
      let b ← slice a i (i + 1)
      let p ← decompress k b
      p.scalarAt 0

end Delta
end Vx
