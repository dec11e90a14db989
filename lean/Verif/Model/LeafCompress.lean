import Verif.Model.Leaves
import Verif.Model.Compress
/-!
# The compressors of the leaf encodings (vortex-sampling-compressor/src/compressors)

The bodies of the compressors that `Model/Compress.lean` leaves open. What they learn from statistics and samples (bit widths, symbol
tables, ALP-RD dictionaries, sortedness) is a parameter. The children of the encoded array (deltas, codes, patches, validity ...) are held
as they come out of the encoder: the recursive compression of children is not modelled for these encodings.
-/
namespace Vx.Tree

/-- What these compressors learn from the data or from the compression tree they are given. -/
structure Trained where
  /-- `find_bit_width`, bitpacked.rs:28-36 -/
  width : CId → Arr RLeaf → Res Nat
  /-- `compute_is_strict_sorted` and the maximum, roaring_int.rs:31-42 -/
  strictSorted : Arr RLeaf → Bool
  /-- the encoder in the tree's metadata, or a new one, alp_rd.rs:55-64 -/
  rd : Option CTree → Arr RLeaf → Res ALPRD.Encoder
  /-- the compressor in the tree's metadata, or a new one: symbol table and compression function, fsst.rs:66-76 -/
  fsst : Option CTree → Arr RLeaf → Res (List (List (BitVec 8)) × (List (BitVec 8) → List (BitVec 8)))
  /-- the size check, fsst.rs:62-64 -/
  tooSmall : Arr RLeaf → Bool
  /-- the time unit of a timestamp type, date_time_parts.rs:28-38 -/
  unit : Str → Option (List UInt8) → Option DateTimeParts.TimeUnit

/-- The stored values of a plain array under a reading `f`, with its validity read out. -/
def flatArr (f : SV → α) (vals : List SV) (v : TVal (Arr L)) (lv : LogicalValidity) : PArr α :=
  ⟨vals.map f, if v.nullable then lv.intoValidity else .nonNullable⟩

/-- The bytes of a stored string. -/
def bytesOf : SV → List (BitVec 8)
  | .str bs => bs.map (·.toBitVec)
  | .buffer bs => bs.map (·.toBitVec)
  | _ => []

/-- A stored boolean. -/
def boolOf : SV → Bool
  | .bool b => b
  | _ => false

/-- A stored timestamp. -/
def tickOf (x : SV) : Int := (rawBits .i64 x).toInt

/-- bitpacked.rs:54-71, behind the test for primitive arrays -/
def canPack (t : Trained) (i : CId) (p : PType) (a : Arr RLeaf) : Bool :=
  isUnsigned p && match t.width i a with
    | .ok w => decide (w ≠ p.bits)
    | _ => false

/-- `can_compress`: bitpacked.rs:54-71, alp_rd.rs:34-45, fsst.rs:39-54, roaring_bool.rs:26-44, roaring_int.rs:24-45, delta.rs:24-35,
date_time_parts.rs:27-38. -/
def canLeaf (x : Outside) (t : Trained) : CId → Arr RLeaf → Bool
  | .bitPacked, .flat (.prim p) vals v => canPack t .bitPacked p (.flat (.prim p) vals v)
  | .bitPackedNoPatches, .flat (.prim p) vals v => canPack t .bitPackedNoPatches p (.flat (.prim p) vals v)
  | .alpRd, .flat (.prim p) _ _ => decide (p = .f32 ∨ p = .f64)
  | .fsst, .flat k _ _ => decide (k = .utf8)
  | .roaringBool, .flat k vals v => decide (k = .bool) && !v.nullable && decide (vals.length < Roaring.u32)
  | .roaringInt, a =>
    (match dtype (leafEnv x).toEnv a with
    | .prim p false => isUnsigned p
    | _ => false) && t.strictSorted a
  | .delta, .flat (.prim p) _ _ => isUnsigned p
  | .dateTimeParts, .ext id m _ => (t.unit id m).isSome
  | _, _ => false

/-- bitpacked.rs:73-123 (`allow` is `allow_patches`) -/
def encPacked (x : Outside) (t : Trained) (i : CId) (allow : Bool) (p : PType) (vals : List SV) (v : TVal (Arr RLeaf)) : Res (Option RLeaf) := do
  let lv ← readV (leafEnv x) v vals.length
  let a := flatArr (rawBits p) vals v lv
  let freq ← Res.ofOption (primStats (intElem false p.bits) a).bitWidthFreq
  let w ← t.width i (.flat (.prim p) vals v)
  Res.assert (allow || decide (BitPack.countExceptions w freq = 0))
  if w = p.bits then .ok none
  else do
    let b ← BitPack.encode (x.fl p.bits) a w
    .ok (some (.bitPacked p b))

/-- `compress`: bitpacked.rs:73-123, alp_rd.rs:47-75, fsst.rs:56-121, roaring_bool.rs:46-56, roaring_int.rs:47-57, delta.rs:37-63,
date_time_parts.rs:40-75 (with split_temporal, encodings/datetime-parts/src/compress.rs:18-54: a storage other than `i64` is not
modelled). The result `none` is "left as it is". -/
def encLeaf (x : Outside) (t : Trained) (i : CId) (a : Arr RLeaf) (like : Option CTree) : Res (Option RLeaf) :=
  match i, a with
  | .bitPacked, .flat (.prim p) vals v => encPacked x t .bitPacked true p vals v
  | .bitPackedNoPatches, .flat (.prim p) vals v => encPacked x t .bitPackedNoPatches false p vals v
  | .alpRd, .flat (.prim p) vals v => do
    let lv ← readV (leafEnv x) v vals.length
    let e ← t.rd like a
    let b ← ALPRD.encode e (flatArr (rawBits p) vals v lv)
    .ok (some (.alpRd p b))
  | .fsst, .flat k vals v =>
    if t.tooSmall a then .ok none
    else do
      let c ← t.fsst like a
      let lv ← readV (leafEnv x) v vals.length
      let b ← FSST.compressIter c.1 c.2 v.nullable ((optRows vals lv).map (Option.map bytesOf))
      .ok (some (.fsst k b))
  | .roaringBool, .flat .bool vals v => do
    let lv ← readV (leafEnv x) v vals.length
    let b ← Roaring.bEncode (flatArr boolOf vals v lv)
    .ok (some (.roaringBool b))
  | .roaringInt, a => do
    let c ← a.canon (leafEnv x)
    match c with
    | .flat (.prim p) vals _ => do
      let b ← Roaring.iEncode p.bits (vals.map (fun y => (rawBits p y).toNat))
      .ok (some (.roaringInt p b))
    | _ => .err
  | .delta, .flat (.prim p) vals v => do
    let lv ← readV (leafEnv x) v vals.length
    let b ← Delta.encode (x.kern p.bits) (flatArr (rawBits p) vals v lv)
    .ok (some (.delta p b))
  | .dateTimeParts, .ext id m s => do
    let u ← Res.ofOption (t.unit id m)
    let c ← s.canon (leafEnv x)
    match c with
    | .flat (.prim .i64) vals v => do
      let lv ← readV (leafEnv x) v vals.length
      let b ← DateTimeParts.encode u (flatArr tickOf vals v lv)
      .ok (some (.dateTime id m b))
    | _ => .err
  | _, _ => .err

end Vx.Tree
