import Verif.Model.Stored
import Verif.Model.StoredBytes
import Verif.Model.Leaves
/-!
# Bit-packed, delta, ALP-RD, FSST, roaring and date-time-parts arrays as the arrays that are stored

`storeLeaf` is what each constructor is given (the calls of `Own.Call.run`), `loadLeaf` what a reader makes of encoding, metadata, buffer and children.

Simplifications: children are plain arrays (the compressor may compress them further; what is read is then what they decode to); a roaring bitmap is the
list of its members (the crate's own format is not modelled).
-/
namespace Vx.Store
open Own
open Vx.Tree (Kind RLeaf)

/-! ## Children -/

/-- A plain bit buffer. -/
def boolBits (bits : List Bool) : Own.Arr := .mk (.bool .nonNullable 0) (.bool false) bits.length (packBits (bits.map .bool)) []

/-- The validity a constructor is given. -/
def validOf : Validity → Valid
  | .nonNullable => .nonNullable
  | .allValid => .allValid
  | .allInvalid => .allInvalid
  | .array bits => .array (boolBits bits)

def metaOf : Validity → VMeta
  | .nonNullable => .nonNullable
  | .allValid => .allValid
  | .allInvalid => .allInvalid
  | .array _ => .array

/-- A primitive array of words of `w` bits: vortex-array/src/array/primitive/mod.rs:43-69 -/
def primArr (p : PType) (a : PArr (BitVec w)) : Own.Arr :=
  .mk (.prim (metaOf a.validity)) (.prim p a.validity.nullable) a.vals.length (a.vals.map BitVec.toNat) (validOf a.validity).intoArray

/-- A fill value as a scalar. -/
def fillSV (p : PType) : Option (BitVec p.bits) → SV
  | none => .null
  | some x => .prim ⟨p, x⟩

/-- A sparse array: array/sparse/mod.rs:46-92 -/
def sparseArr (sc : Scalars) (p : PType) (s : Sparse (BitVec p.bits)) : Own.Arr :=
  .mk (.sparse s.offset s.indices.length (sc.num (fillSV p s.fill))) (.prim p s.values.validity.nullable) s.len []
    [numbers .u64 s.indices, primArr p s.values]

/-- A byte-string array with `i32` offsets: array/varbin/mod.rs:48-82 -/
def varbinArr (v : VarBin.Arr) : Own.Arr :=
  .mk (.varbin (metaOf v.validity) .i32 v.bytes.length) (.binary v.nullable) v.len []
    ([numbers .i32 v.offsets, numbers .u8 (v.bytes.map BitVec.toNat)] ++ (validOf v.validity).intoArray)

/-- A symbol of up to eight bytes as one number, and its length apart: encodings/fsst/src/compress.rs:116-123 (`transmute` of the symbols to `u64`) -/
def symNum (s : List (BitVec 8)) : Nat := fromLe (s.map fun b => ⟨b⟩)

/-- The type of the right parts: encodings/alp/src/alp_rd/array.rs:137-144 -/
def rightType : PType → PType
  | .f32 => .u32
  | _ => .u64

/-! ## Storing -/

/-- bitpacking/mod.rs:54-131, roaring/src/{boolean,integer}/mod.rs, delta/mod.rs:88-155, alp_rd/array.rs:33-92, fsst/src/array.rs:43-102,
datetime-parts/src/array.rs:34-78 -/
def storeLeaf (sc : Scalars) : RLeaf → Own.Arr
  | .bitPacked p a => .mk (.bitPacked (metaOf a.validity) a.w a.offset a.patches.isSome) (.prim p a.validity.nullable) a.len (a.packed.map BitVec.toNat)
      (optList (a.patches.map (sparseArr sc p)) ++ (validOf a.validity).intoArray)
  | .roaringBool a => .mk .roaringBool (.bool false) a.len a.bitmap []
  | .delta p a => .mk (.delta (metaOf a.validity) a.deltas.vals.length a.offset) (.prim p a.bases.validity.nullable) a.len []
      ([primArr p a.bases, primArr p a.deltas] ++ (validOf a.validity).intoArray)
  | .alpRd p a => .mk (.alprd .u16 a.exc.isSome a.rbw (a.dict.map BitVec.toNat)) (.prim p a.left.validity.nullable) a.left.len []
      ([primArr .u16 a.left, primArr (rightType p) a.right] ++ optList (a.exc.map (sparseArr sc .u16)))
  | .fsst k a => .mk (.fsst a.syms.length a.codes.nullable .i32) (k.dtype a.nullable) a.codes.len []
      [numbers .u64 (a.syms.map symNum), numbers .u8 (a.syms.map List.length), varbinArr a.codes, numbers .i32 (a.lens.map BitVec.toNat)]
  | .roaringInt p a => .mk (.roaringInt p) (.prim p false) a.bitmap.length a.bitmap []
  | .dateTime id m a => .mk (.dateTimeParts .i64 .i64 .i64) (.ext id m a.nullable) a.days.len []
      [primArr .i64 ⟨a.days.vals.map (BitVec.ofInt 64), a.days.validity⟩, primArr .i64 ⟨a.seconds.vals.map (BitVec.ofInt 64), a.seconds.validity⟩,
        primArr .i64 ⟨a.subsecond.vals.map (BitVec.ofInt 64), a.subsecond.validity⟩]

/-! ## Reading -/

/-- A value of a bit buffer. -/
def bitOf : SV → Bool
  | .bool b => b
  | _ => false

/-- `ValidityMetadata::to_validity`: vortex-array/src/validity.rs:38-50 -/
def loadV (m : VMeta) (kid : Option Own.Arr) : Option Validity :=
  match m with
  | .nonNullable => some .nonNullable
  | .allValid => some .allValid
  | .allInvalid => some .allInvalid
  | .array => match kid with
    | some a => match a.enc with
      | .bool .nonNullable off => some (.array ((unpackBits a.data off a.len).map bitOf))
      | _ => none
    | none => none

/-- array/primitive/mod.rs:88-131 -/
def loadPrim (w : Nat) (a : Own.Arr) : Option (PArr (BitVec w)) :=
  match a.enc with
  | .prim m => (loadV m a.children[0]?).map fun v => ⟨a.data.map (BitVec.ofNat w), v⟩
  | _ => none

def fillOf (w : Nat) : SV → Option (BitVec w)
  | .null => none
  | x => some (BitVec.ofNat w (numOf x))

/-- array/sparse/mod.rs:94-131 -/
def loadSparse (sc : Scalars) (w : Nat) (a : Own.Arr) : Option (Sparse (BitVec w)) :=
  match a.enc, a.children with
  | .sparse off _ fill, [ind, val] => do
    let is ← content ind
    let vs ← loadPrim w val
    let f ← sc.read a.dtype fill
    some ⟨is, vs, a.len, off, fillOf w f⟩
  | _, _ => none

/-- array/varbin/mod.rs:84-140 -/
def loadVarbin (a : Own.Arr) : Option VarBin.Arr :=
  match a.enc, a.children with
  | .varbin m _ _, offs :: bytes :: rest => do
    let os ← content offs
    let bs ← content bytes
    let v ← loadV m rest[0]?
    some ⟨a.dtype.isNullable, os, bs.map (BitVec.ofNat 8), v⟩
  | _, _ => none

/-- The first `n` bytes of a symbol. -/
def symBytes (n x : Nat) : List (BitVec 8) := (leBytes n x).map UInt8.toBitVec

/-- `patches`, the first child if there is one: bitpacking/mod.rs:146-160, alp_rd/array.rs:146-160 -/
def loadPatches (sc : Scalars) (w : Nat) (there : Bool) (kid : Option Own.Arr) : Option (Option (Sparse (BitVec w))) :=
  if there then (kid.bind (loadSparse sc w)).map some else some none

/-- The accessors of each encoding (those of `Own.accessors`); `unitOf` reads the time unit in the extension metadata
(vortex-datetime-dtype/src/temporal.rs). -/
def loadLeaf (sc : Scalars) (unitOf : Str → Option (List UInt8) → Option DateTimeParts.TimeUnit) (a : Own.Arr) : Option RLeaf :=
  match a.enc, a.dtype with
  | .bitPacked m w off there, .prim p _ => do
    let ps ← loadPatches sc p.bits there a.children[0]?
    let v ← loadV m a.children[there.toNat]?
    some (.bitPacked p ⟨a.data.map (BitVec.ofNat 8), v, ps, w, a.len, off⟩)
  | .roaringBool, _ => some (.roaringBool ⟨a.data, a.len⟩)
  | .delta m _ off, .prim p _ => do
    let bases ← a.children[0]?.bind (loadPrim p.bits)
    let deltas ← a.children[1]?.bind (loadPrim p.bits)
    let v ← loadV m a.children[2]?
    some (.delta p ⟨bases, deltas, v, off, a.len⟩)
  | .alprd _ there rbw dict, .prim p _ => do
    let left ← a.children[0]?.bind (loadPrim 16)
    let right ← a.children[1]?.bind (loadPrim p.bits)
    let ex ← loadPatches sc 16 there a.children[2]?
    some (.alpRd p ⟨left, dict.map (BitVec.ofNat 16), right, rbw, ex⟩)
  | .fsst _ _ _, d => do
    let k ← match d with
      | .utf8 _ => some Kind.utf8
      | .binary _ => some Kind.binary
      | _ => none
    let nums ← a.children[0]?.bind content
    let lens ← a.children[1]?.bind content
    let codes ← a.children[2]?.bind loadVarbin
    let us ← a.children[3]?.bind content
    some (.fsst k ⟨d.isNullable, List.zipWith symBytes lens nums, codes, us.map (BitVec.ofNat 32)⟩)
  | .roaringInt p, _ => some (.roaringInt p ⟨a.data, p.bits⟩)
  | .dateTimeParts _ _ _, .ext id m n => do
    let u ← unitOf id m
    let d ← a.children[0]?.bind (loadPrim 64)
    let s ← a.children[1]?.bind (loadPrim 64)
    let t ← a.children[2]?.bind (loadPrim 64)
    some (.dateTime id m ⟨u, n, ⟨d.vals.map BitVec.toInt, d.validity⟩, ⟨s.vals.map BitVec.toInt, s.validity⟩, ⟨t.vals.map BitVec.toInt, t.validity⟩⟩)
  | _, _ => none

/-- Storing and loading the leaf encodings. -/
def realLeaves (sc : Scalars) (unitOf : Str → Option (List UInt8) → Option DateTimeParts.TimeUnit) : Leaves RLeaf := ⟨storeLeaf sc, loadLeaf sc unitOf⟩

end Vx.Store
