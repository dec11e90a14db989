import Verif.Model.SelfDescribe
import Verif.Spec.Tree
/-!
# Trees of encoded arrays as the arrays that are stored

`Model/Tree.lean` has arrays as the compute functions see them (logical values in the leaves), `Model/SelfDescribe.lean` as the constructors make them and
the serialiser writes them (encoding, metadata, numbers in a buffer, children, each with its type and length). This file connects the two: `phys` is
the stored array of a tree – the buffers its constructors are given – and `view` what a reader makes of a stored array from its encoding, metadata,
buffer and children.

Simplifications: a canonical byte-string array is stored as a `VarBinViewArray` with one data buffer; run ends and sparse indices are plain `u64` arrays;
a scalar in the metadata is a number (`Scalars`); other encodings are stored as `Leaves` says.
-/
namespace Vx.Store
open Own
open Vx.Tree (TVal Kind Codec)

variable {L : Type}

/-- Scalars in metadata: how one is written, and how it is read at a given type (`Scalar::new(dtype, value)` and then the typed accessors):
vortex-scalar/src/serde/serde.rs, vortex-array/src/array/constant/mod.rs:70-74, array/sparse/mod.rs:111-120, encodings/fastlanes/src/for/mod.rs:68-76.
The flexbuffer form is Model/Flex.lean. -/
structure Scalars where
  num : SV → Nat
  read : DType → Nat → Option SV

/-- Storing and loading the encodings that are not spelled out in `Tree.Arr`. -/
structure Leaves (L : Type) where
  store : L → Own.Arr
  load : Own.Arr → Option L

/-! ## Buffers -/

/-- One byte of a bit buffer, least significant bit first: arrow's `BooleanBuffer` (array/bool/mod.rs:59-83). -/
def byteOf (b0 b1 b2 b3 b4 b5 b6 b7 : Bool) : Nat :=
  b0.toNat + 2 * b1.toNat + 4 * b2.toNat + 8 * b3.toNat + 16 * b4.toNat + 32 * b5.toNat + 64 * b6.toNat + 128 * b7.toNat

/-- The `i`-th value as a bit; nothing beyond the end is set. -/
def bitAt (xs : List SV) (i : Nat) : Bool :=
  match xs[i]? with
  | some (.bool b) => b
  | _ => false

/-- The bit buffer of boolean values: `BoolArray::from_vec`, array/bool/mod.rs:84-89 -/
def packBits (xs : List SV) : List Nat :=
  (List.range ((xs.length + 7) / 8)).map fun j => byteOf (bitAt xs (8 * j)) (bitAt xs (8 * j + 1)) (bitAt xs (8 * j + 2)) (bitAt xs (8 * j + 3))
    (bitAt xs (8 * j + 4)) (bitAt xs (8 * j + 5)) (bitAt xs (8 * j + 6)) (bitAt xs (8 * j + 7))

/-- `boolean_buffer()`: array/bool/mod.rs:43-49, a `BooleanBuffer` of `len` bits from bit `offset` on -/
def unpackBits (bytes : List Nat) (offset len : Nat) : List SV :=
  (List.range len).map fun i => .bool ((bytes.getD ((offset + i) / 8) 0).testBit ((offset + i) % 8))

/-- The stored number of a primitive value. -/
def numOf : SV → Nat
  | .prim p => p.bits.toNat
  | _ => 0

/-- `maybe_null_slice::<T>()`: array/primitive/mod.rs:116-131 -/
def primOf (p : PType) (n : Nat) : SV := .prim ⟨p, BitVec.ofNat p.bits n⟩

/-- The bytes of a byte string. -/
def bytesOf : SV → List Nat
  | .str bs => bs.map UInt8.toNat
  | .buffer bs => bs.map UInt8.toNat
  | _ => []

def strOf (k : Kind) (bs : List Nat) : SV :=
  match k with
  | .binary => .buffer (bs.map UInt8.ofNat)
  | _ => .str (bs.map UInt8.ofNat)

/-- `u32::to_le_bytes`, `from_le_bytes` -/
def le32 (n : Nat) : List Nat := [n % 256, n / 256 % 256, n / 65536 % 256, n / 16777216 % 256]
def get32 : List Nat → Nat
  | [a, b, c, d] => a + 256 * b + 65536 * c + 16777216 * d
  | _ => 0

/-- One view of 16 bytes: array/varbinview/mod.rs:112-133 (`BinaryView::new_inlined`, `new_view`); `off` is where the value's bytes are in the buffer. -/
def viewOf (off : Nat) (bs : List Nat) : List Nat :=
  if bs.length ≤ 12 then le32 bs.length ++ (bs ++ List.replicate (12 - bs.length) 0)
  else le32 bs.length ++ (bs.take 4 ++ (le32 0 ++ le32 off))

/-- The views and the data buffer of byte strings, as the builder makes them (one buffer): array/varbinview/mod.rs:362-397,486-502, arrow's `GenericByteViewBuilder` -/
def buildViews (buf : List Nat) : List (List Nat) → List Nat × List Nat
  | [] => ([], buf)
  | bs :: rest =>
    let r := buildViews (if bs.length ≤ 12 then buf else buf ++ bs) rest
    (viewOf buf.length bs ++ r.1, r.2)

/-- `bytes_at`: array/varbinview/mod.rs:441-458 -/
def readView (bufs : List (List Nat)) (view : List Nat) : Option (List Nat) :=
  let n := get32 (view.take 4)
  if n ≤ 12 then some ((view.drop 4).take n)
  else match bufs[get32 ((view.drop 8).take 4)]? with
    | some b => if get32 ((view.drop 12).take 4) + n ≤ b.length then some ((b.drop (get32 ((view.drop 12).take 4))).take n) else none
    | none => none

/-- All rows: views are 16 bytes each (array/varbinview/mod.rs:304-315). -/
def readViews (bufs : List (List Nat)) : Nat → List Nat → Option (List (List Nat))
  | 0, _ => some []
  | n + 1, views => do
    let v ← readView bufs (views.take 16)
    let rest ← readViews bufs n (views.drop 16)
    some (v :: rest)

/-! ## From the tree to the stored array -/

/-- A non-nullable primitive array of given numbers: `PrimitiveArray::from_vec`, array/primitive/mod.rs:72-80 -/
def numbers (p : PType) (xs : List Nat) : Own.Arr := .mk (.prim .nonNullable) (.prim p false) xs.length xs []

def vmeta : TVal α → VMeta
  | .nonNullable => .nonNullable
  | .allValid => .allValid
  | .allInvalid => .allInvalid
  | .array _ => .array

/-- Row offsets of the chunks: array/chunked/mod.rs:53-60 -/
def chunkOffsets (acc : Nat) : List Nat → List Nat
  | [] => [acc]
  | l :: ls => acc :: chunkOffsets (acc + l) ls

/-- `PType::try_from(codes.dtype())`: encodings/dict/src/array.rs:42 -/
def codeType : DType → PType
  | .prim p _ => p
  | _ => .u8

section
variable (sc : Scalars) (S : Leaves L) (env : Tree.Env L)

mutual
/-- The array the constructors make (each cited at `Own.Call.run`). -/
def phys : Tree.Arr L → Own.Arr
  | .leaf l => S.store l
  | .flat k vals v =>
    match k with
    | .prim p => .mk (.prim (vmeta v)) (.prim p v.nullable) vals.length (vals.map numOf) (physV v)
    | .bool => .mk (.bool (vmeta v) 0) (.bool v.nullable) vals.length (packBits vals) (physV v)
    | k => .mk (.varbinview (vmeta v) [(buildViews [] (vals.map bytesOf)).2.length]) (k.dtype v.nullable) vals.length []
        (numbers .u8 (buildViews [] (vals.map bytesOf)).1 :: (numbers .u8 (buildViews [] (vals.map bytesOf)).2 :: physV v))
  | .null n => .mk .null .null n [] []
  | .const dt x n => .mk (.constant (sc.num x)) dt n [] []
  | .chunked dt cs => .mk (.chunked cs.length) dt (Tree.lens env cs) [] (numbers .u64 (chunkOffsets 0 ((physs cs).map Arr.len)) :: physs cs)
  | .struct names fs n v => .mk (.struct (vmeta v)) (.struct names (Tree.dtypes env fs) v.nullable) n [] (physs fs ++ physV v)
  | .ext id m s => .mk (.ext (Tree.dtype env s)) (.ext id m (Tree.dtype env s).isNullable) (Tree.len env s) [] [phys s]
  | .sparse is values n off fill => .mk (.sparse off is.length (sc.num fill)) (Tree.dtype env values) n [] [numbers .u64 is, phys values]
  | .dict codes values => .mk (.dict (codeType (Tree.dtype env codes)) (Tree.len env values)) (Tree.dtype env values) (Tree.len env codes) []
      [phys values, phys codes]
  | .runEnd ends values v off n => .mk (.runEnd (vmeta v) .u64 ends.length off) (Tree.dtype env values) n [] ([numbers .u64 ends, phys values] ++ physV v)
  | .mapped c enc =>
    let d := (c.outType (Tree.dtype env enc)).getD .null
    match c with
    | .for p r s => .mk (.for (sc.num (.prim ⟨p, r⟩)) s) d (Tree.len env enc) [] [phys enc]
    | .zigzag => .mk .zigzag d (Tree.len env enc) [] [phys enc]
    | .alp e f => .mk (.alp (e, f)) d (Tree.len env enc) [] [phys enc]
  | .alpP e f enc patches => .mk (.alp (e, f)) (((Codec.alp e f).outType (Tree.dtype env enc)).getD .null) (Tree.len env enc) [] [phys enc, phys patches]
def physs : List (Tree.Arr L) → List Own.Arr
  | [] => []
  | c :: cs => phys c :: physs cs
def physV : TVal (Tree.Arr L) → List Own.Arr
  | .array a => [phys a]
  | _ => []
end

end

/-! ## From the stored array to the tree -/

/-- The numbers of a plain non-nullable child. -/
def content (a : Own.Arr) : Option (List Nat) :=
  match a.enc with
  | .prim .nonNullable => some a.data
  | _ => none

/-- `ValidityMetadata::to_validity`: vortex-array/src/validity.rs:38-50 -/
def viewV (m : VMeta) (kid : Option (Option (Tree.Arr L))) : Option (TVal (Tree.Arr L)) :=
  match m with
  | .nonNullable => some .nonNullable
  | .allValid => some .allValid
  | .allInvalid => some .allInvalid
  | .array => match kid with
    | some (some a) => some (.array a)
    | _ => none

def allSome : List (Option α) → Option (List α)
  | [] => some []
  | some x :: xs => (allSome xs).map (x :: ·)
  | none :: _ => none

/-- One level: the array and what has been made of its children (accessors cited at `Own.accessors`). -/
def viewNode (sc : Scalars) (S : Leaves L) (a : Own.Arr) (kids : List (Option (Tree.Arr L))) : Option (Tree.Arr L) :=
  match a.enc with
  | .prim m => match a.dtype with
    | .prim p _ => (viewV m kids[0]?).map fun v => .flat (.prim p) (a.data.map (primOf p)) v
    | _ => none
  | .bool m off => (viewV m kids[0]?).map fun v => .flat .bool (unpackBits a.data off a.len) v
  | .varbinview m lens => do
    let k ← match a.dtype with
      | .utf8 _ => some Kind.utf8
      | .binary _ => some Kind.binary
      | _ => none
    let views ← (a.children[0]?).bind content
    let bufs ← allSome (((a.children.drop 1).take lens.length).map content)
    let rows ← readViews bufs a.len views
    let v ← viewV m kids[lens.length + 1]?
    some (.flat k (rows.map (strOf k)) v)
  | .null => some (.null a.len)
  | .constant x => (sc.read a.dtype x).map fun v => .const a.dtype v a.len
  | .chunked _ => (allSome kids.tail).map fun cs => .chunked a.dtype cs
  | .struct m => match a.dtype with
    | .struct names ds _ => do
      let fs ← allSome (kids.take ds.length)
      let v ← viewV m kids[ds.length]?
      some (.struct names fs a.len v)
    | _ => none
  | .ext _ => match a.dtype, kids with
    | .ext id md _, [some s] => some (.ext id md s)
    | _, _ => none
  | .sparse off _ fill => match a.children, kids with
    | [ind, _], [_, some values] => do
      let is ← content ind
      let f ← sc.read a.dtype fill
      some (.sparse is values a.len off f)
    | _, _ => none
  | .dict _ _ => match kids with
    | [some values, some codes] => some (.dict codes values)
    | _ => none
  | .runEnd m _ _ off => match a.children, kids with
    | ends :: _, _ :: some values :: rest => do
      let es ← content ends
      let v ← viewV m rest[0]?
      some (.runEnd es values v off a.len)
    | _, _ => none
  | .for r s => match a.dtype, kids with
    | .prim p n, [some enc] => match sc.read (.prim p n) r with
      | some (.prim q) => if h : q.pt = p then some (.mapped (.for p (h ▸ q.bits) s) enc) else none
      | _ => none
    | _, _ => none
  | .zigzag => match kids with
    | [some enc] => some (.mapped .zigzag enc)
    | _ => none
  | .alp ef => match kids with
    | [some enc] => some (.mapped (.alp ef.1 ef.2) enc)
    | [some enc, some patches] => some (.alpP ef.1 ef.2 enc patches)
    | _ => none
  | _ => (S.load a).map .leaf

mutual
/-- What a reader makes of a stored array. -/
def view (sc : Scalars) (S : Leaves L) : Own.Arr → Option (Tree.Arr L)
  | .mk e d l b cs => viewNode sc S (.mk e d l b cs) (views sc S cs)
def views (sc : Scalars) (S : Leaves L) : List Own.Arr → List (Option (Tree.Arr L))
  | [] => []
  | c :: cs => view sc S c :: views sc S cs
end

end Vx.Store
