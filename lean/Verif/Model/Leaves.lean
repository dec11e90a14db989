import Verif.Model.TreeBulk
import Verif.Model.BitPack
import Verif.Model.Roaring
import Verif.Model.Delta
import Verif.Model.ALPRD
import Verif.Model.FSST
import Verif.Model.DateTimeParts
/-!
# Leaf encodings of the array tree
Bit-packed, delta, ALP-RD, FSST, roaring and date-time-parts arrays as leaves of the tree of encoded arrays: what they provide to the entry
points of vortex-array/src/compute. Their kernels are the ones of `BitPack`, `Delta`, `ALPRD`, `FSST`, `Roaring` and `DateTimeParts`, with
children held decoded. `scalar_at` of the last five is modelled behind the entry point's checks, which it repeats without effect.
-/
namespace Vx.Tree

/-- A leaf encoding with its data. A bit-packed array has an unsigned type (encodings/fastlanes/src/bitpacking/mod.rs:64-68). -/
inductive RLeaf where
  | bitPacked (p : PType) (a : BitPack.Arr p.bits)
  | roaringBool (a : Roaring.BArr)
  | delta (p : PType) (a : Delta.Arr p.bits)
  | alpRd (p : PType) (a : ALPRD.Arr p.bits)
  | fsst (k : Kind) (a : FSST.Arr)
  | roaringInt (p : PType) (a : Roaring.IArr)
  | dateTime (id : Str) (m : Option (List UInt8)) (a : DateTimeParts.Arr)

/-- What is outside the model: the fastlanes kernels, the ALP decoding, the chunk selectivity test and the temporal metadata. -/
structure Outside where
  fl : (T : Nat) → BitPack.FL T
  kern : (T : Nat) → Delta.Kern T
  alpDec : Nat → Nat → PValue → PValue
  manySet : Nat → Nat → Bool
  temporal : Str → Option (List UInt8) → Option (PType × Option (List UInt8))

/-- A primitive array as a tree. -/
def ofPrim (p : PType) (b : PArr (BitVec p.bits)) : Arr L := .flat (.prim p) (b.vals.map (fun x => .prim ⟨p, x⟩)) (ofValidity b.validity)

/-- A boolean array as a tree. -/
def ofBool (b : PArr Bool) : Arr L := .flat .bool (b.vals.map .bool) (ofValidity b.validity)

/-- A byte string as a string or binary scalar. -/
def bytesSV (k : Kind) (bs : List (BitVec 8)) : SV :=
  match k with
  | .binary => .buffer (bs.map (fun b => ⟨b⟩))
  | _ => .str (bs.map (fun b => ⟨b⟩))

/-- A timestamp as an `i64` scalar. -/
def tickSV (t : Int) : SV := .prim ⟨.i64, BitVec.ofInt 64 t⟩

/-- A non-null scalar; the entry point has seen that the row is valid. -/
def nonNullSV (f : α → SV) (r : Res (Option α)) : Res SV := do
  match ← r with
  | some x => .ok (f x)
  | none => .err

/-- `ScalarAtFn` of a bit-packed array, encodings/fastlanes/src/bitpacking/compute/scalar_at.rs:9-23 (no bounds or null check: those are
the entry point's). -/
def packedScalar (fl : BitPack.FL T) (a : BitPack.Arr T) (i : Nat) : Res (BitVec T) := do
  match ← BitPack.patchAt a.patches i with
  | some x => .ok x
  | none => BitPack.unpackSingle fl a.packed a.w (i + a.offset)

def leafLen : RLeaf → Nat
  | .bitPacked _ a => a.len
  | .roaringBool a => a.len
  | .delta _ a => a.len
  | .alpRd _ a => a.left.len
  | .fsst _ a => a.codes.len
  | .roaringInt _ a => a.len
  | .dateTime _ _ a => a.days.len

/-- bitpacking/mod.rs:64-68, boolean/mod.rs:64-70; delta: the bases' type, delta/mod.rs:118; ALP-RD: the left parts' nullability,
alp_rd/array.rs:57-63; roaring integers are not nullable, integer/mod.rs:36-69; the others carry their type. -/
def leafDtype : RLeaf → DType
  | .bitPacked p a => .prim p a.validity.nullable
  | .roaringBool _ => .bool false
  | .delta p a => .prim p a.bases.validity.nullable
  | .alpRd p a => .prim p a.left.validity.nullable
  | .fsst k a => k.dtype a.nullable
  | .roaringInt p _ => .prim p false
  | .dateTime id m a => .ext id m a.nullable

/-- bitpacking/mod.rs:196-204, boolean/mod.rs:103-112, delta/mod.rs:246-254, alp_rd/array.rs:237-246, fsst/src/array.rs (the codes'),
integer/mod.rs:105-114, datetime-parts/src/array.rs (the days') -/
def leafIsValid : RLeaf → Nat → Res Bool
  | .bitPacked _ a, i => a.validity.isValid i
  | .roaringBool _, _ => .ok true
  | .delta _ a, i => a.validity.isValid i
  | .alpRd _ a, i => a.left.validity.isValid i
  | .fsst _ a, i => a.codes.validity.isValid i
  | .roaringInt _ _, _ => .ok true
  | .dateTime _ _ a, i => (DateTimeParts.validity a).isValid i

/-- bitpacking/compute/scalar_at.rs:9-23, boolean/compute.rs:21-29, delta/compute.rs:21-25, alp_rd/compute/scalar_at.rs:8-34,
fsst/src/compute.rs:123-141, integer/compute.rs:20-39, datetime-parts/src/compute.rs:51-85 -/
def leafScalar (x : Outside) : RLeaf → Nat → Res SV
  | .bitPacked p a, i => do
    let v ← packedScalar (x.fl p.bits) a i
    .ok (.prim ⟨p, v⟩)
  | .roaringBool a, i => .ok (.bool (a.bitmap.contains (i % Roaring.u32)))
  | .delta p a, i => nonNullSV (fun v => .prim ⟨p, v⟩) (Delta.scalarAt (x.kern p.bits) a i)
  | .alpRd p a, i => nonNullSV (fun v => .prim ⟨p, v⟩) (ALPRD.scalarAt a i)
  | .fsst k a, i => nonNullSV (bytesSV k) (FSST.scalarAt a i)
  | .roaringInt p a, i => do
    let v ← Roaring.iScalarAt a i
    .ok (.prim ⟨p, BitVec.ofNat p.bits v⟩)
  | .dateTime _ _ a, i => nonNullSV tickSV (DateTimeParts.scalarAt a i)

/-- bitpacking/compute/slice.rs:10-43, boolean/compute.rs:31-44, delta/compute.rs:37-74, alp_rd/compute/slice.rs:8-25,
fsst/src/compute.rs:96-108, integer/compute.rs:41-58, datetime-parts/src/compute.rs:39-49 -/
def leafSlice : RLeaf → Nat → Nat → Res (Arr RLeaf)
  | .bitPacked p a, s, e => do
    let b ← BitPack.slice a s e
    .ok (.leaf (.bitPacked p b))
  | .roaringBool a, s, e => do
    let b ← Roaring.bSlice a s e
    .ok (.leaf (.roaringBool b))
  | .delta p a, s, e => do
    let b ← Delta.slice a s e
    .ok (.leaf (.delta p b))
  | .alpRd p a, s, e => do
    let b ← ALPRD.slice a s e
    .ok (.leaf (.alpRd p b))
  | .fsst k a, s, e => do
    let b ← FSST.slice a s e
    .ok (.leaf (.fsst k b))
  | .roaringInt p a, s, e => do
    let b ← Roaring.iSlice a s e
    .ok (.leaf (.roaringInt p b))
  | .dateTime id m a, s, e => do
    let b ← DateTimeParts.slice a s e
    .ok (.leaf (.dateTime id m b))

/-- The strings of a decoded string column, with its validity (the conversion to views keeps them: property C97). The conversion makes text of
bytes if it does not fail (varbin/flatten.rs:10-18, `C97_fsst_binary_becomes_text`); it is an error here. -/
def stringsOf (k : Kind) (v : VarBin.Arr) : Res (Arr RLeaf) := do
  let rs ← VarBin.iter v
  if k = .binary then .err else .ok (.flat k (rs.map (fun r => bytesSV k (r.getD []))) (ofValidity v.validity))

/-- bitpacking/mod.rs:186-194 (`unpack`, compress.rs:174-203), boolean/mod.rs:129-141, delta/compress.rs:106-120, alp_rd/array.rs:173-234,
fsst/src/canonical.rs:7-64, integer/mod.rs:116-124, datetime-parts/src/compute.rs:95-129 -/
def leafCanon (x : Outside) : RLeaf → Res (Arr RLeaf)
  | .bitPacked p a => do
    let b ← BitPack.unpack (x.fl p.bits) a
    .ok (ofPrim p b)
  | .roaringBool a => do
    let b ← Roaring.bIntoCanonical a
    .ok (ofBool b)
  | .delta p a => do
    let b ← Delta.decompress (x.kern p.bits) a
    .ok (ofPrim p b)
  | .alpRd p a => do
    let b ← ALPRD.decode a
    .ok (ofPrim p b)
  | .fsst k a => do
    let v ← FSST.intoVarBin a
    stringsOf k v
  | .roaringInt p a => .ok (ofPrim p ⟨(Roaring.iIntoCanonical a).map (BitVec.ofNat p.bits), .nonNullable⟩)
  | .dateTime id m a => do
    let b ← DateTimeParts.decode a
    .ok (.ext id m (.flat (.prim .i64) (b.vals.map tickSV) (ofValidity b.validity)))

/-- bitpacking/mod.rs:201-204, boolean/mod.rs:109-112, delta/mod.rs:251-254, alp_rd/array.rs:243-246, integer/mod.rs:111-114; FSST and
date-time parts pass on their child's. -/
def leafValid : RLeaf → Res LogicalValidity
  | .bitPacked _ a => .ok (a.validity.toLogical a.len)
  | .roaringBool a => .ok (.allValid a.len)
  | .delta _ a => .ok (a.validity.toLogical a.len)
  | .alpRd _ a => .ok (a.left.validity.toLogical a.left.len)
  | .fsst _ a => .ok (a.codes.validity.toLogical a.codes.len)
  | .roaringInt _ a => .ok (.allValid a.len)
  | .dateTime _ _ a => .ok (a.days.validity.toLogical a.days.len)

/-- bitpacking/compute/take.rs:20-44, alp_rd/compute/take.rs:8-25, fsst/src/compute.rs:110-122, datetime-parts/src/compute.rs:27-37; roaring
and delta arrays register no take, so vortex-array/src/compute/take.rs:15-40 decodes first. -/
def leafTake (x : Outside) : RLeaf → List Nat → Res (Arr RLeaf)
  | .bitPacked p a, is => do
    let b ← BitPack.take (x.fl p.bits) a is
    .ok (ofPrim p b)
  | .roaringBool a, is => do
    let b ← Roaring.bIntoCanonical a
    let c ← b.take is
    .ok (ofBool c)
  | .delta p a, is => do
    let b ← Delta.decompress (x.kern p.bits) a
    let c ← b.take is
    .ok (ofPrim p c)
  | .alpRd p a, is => do
    let b ← ALPRD.take a is
    .ok (.leaf (.alpRd p b))
  | .fsst k a, is => do
    let b ← FSST.take a is
    .ok (.leaf (.fsst k b))
  | .roaringInt p a, is => do
    let c ← (PArr.mk ((Roaring.iIntoCanonical a).map (BitVec.ofNat p.bits)) .nonNullable).take is
    .ok (ofPrim p c)
  | .dateTime id m a, is => do
    let b ← DateTimeParts.take a is
    .ok (.leaf (.dateTime id m b))

/-- Filtering decoded data through arrow, vortex-array/src/compute/filter.rs:42-52. -/
def leafArrow (k : Kind) (f : α → SV) (nullable : Bool) (b : PArr α) (m : List Bool) : Res (Arr RLeaf) := do
  let w ← arrowNulls nullable (pick (b.validity.toLogical b.vals.length).intoBools m)
  .ok (.flat k (pick (b.vals.map f) m) w)

/-- ALP-RD (alp_rd/compute/filter.rs:8-24) and FSST (fsst/src/compute.rs:147-158) register a filter; for the others
vortex-array/src/compute/filter.rs:42-52 decodes and goes through arrow. -/
def leafFilter (x : Outside) : RLeaf → List Bool → Res (Arr RLeaf)
  | .bitPacked p a, m => do
    let b ← BitPack.unpack (x.fl p.bits) a
    leafArrow (.prim p) (fun x => .prim ⟨p, x⟩) a.validity.nullable b m
  | .roaringBool a, m => do
    let b ← Roaring.bIntoCanonical a
    leafArrow .bool .bool false b m
  | .delta p a, m => do
    let b ← Delta.decompress (x.kern p.bits) a
    leafArrow (.prim p) (fun x => .prim ⟨p, x⟩) a.bases.validity.nullable b m
  | .alpRd p a, m => do
    let b ← ALPRD.filter a m
    .ok (.leaf (.alpRd p b))
  | .fsst k a, m => do
    let b ← FSST.filter a ⟨m, 0, m.length⟩
    .ok (.leaf (.fsst k b))
  | .roaringInt p a, m =>
    leafArrow (.prim p) (fun x => .prim ⟨p, x⟩) false ⟨(Roaring.iIntoCanonical a).map (BitVec.ofNat p.bits), .nonNullable⟩ m
  | .dateTime id m a, bits => do
    let b ← DateTimeParts.decode a
    match x.temporal id m with
    | some (.i64, m') => do
      let t ← leafArrow (.prim .i64) tickSV a.nullable b bits
      .ok (.ext id m' t)
    | _ => .err

/-- The environment of the tree with these leaves. -/
def leafEnv (x : Outside) : BEnv RLeaf where
  len := leafLen
  dtype := leafDtype
  isValid := leafIsValid
  scalar := leafScalar x
  scalarU := leafScalar x
  slice := leafSlice
  alpDec := x.alpDec
  take := leafTake x
  filter := leafFilter x
  canon := leafCanon x
  valid := leafValid
  manySet := x.manySet
  temporal := x.temporal

end Vx.Tree
