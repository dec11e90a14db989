import Verif.Model.DType
/-!
# Arrays describe their own children

A serialised array stores no logical type and no length for its children (vortex-array/src/view.rs, vortex-flatbuffers array.fbs): each
encoding's accessors rebuild them from the parent's type, the parent's length and the encoding's metadata, and pass them to
`child(index, dtype, len)`. In memory `child` asserts that they are the child's own (vortex-array/src/data.rs:82-104); on a view of
serialised bytes they are simply believed (view.rs:113-139). This file models the constructors (which children, in which order, which
metadata, which checks) and the accessors of every encoding.

Simplifications: scalars kept in metadata (constant value, sparse fill value, frame-of-reference value) are opaque numbers; a buffer is the
list of the numbers in it; statistics are left out; the content of a child is read through `Compute` (only for chunk offsets, last run ends
and last sparse indices).
-/
namespace Vx.Own
open Vx

/-- `ValidityMetadata`: vortex-array/src/validity.rs:28-36 -/
inductive VMeta where
  | nonNullable | allValid | allInvalid | array
  deriving DecidableEq, Repr

/-- An encoding together with its metadata struct. -/
inductive Enc where
  | null                                                          -- vortex-array/src/array/null/mod.rs:19
  | constant (value : Nat)                                        -- array/constant/mod.rs:19-22
  | bool (v : VMeta) (offset : Nat)                               -- array/bool/mod.rs:22-27
  | byteBool (v : VMeta)                                          -- encodings/bytebool/src/array.rs:18-22
  | prim (v : VMeta)                                              -- array/primitive/mod.rs:30-33
  | struct (v : VMeta)                                            -- array/struct_/mod.rs:19-22
  | ext (storage : DType)                                         -- array/extension/mod.rs:19-22
  | chunked (nchunks : Nat)                                       -- array/chunked/mod.rs:33-36
  | sparse (offset indicesLen fill : Nat)                         -- array/sparse/mod.rs:21-28
  | varbin (v : VMeta) (offsets : PType) (bytesLen : Nat)         -- array/varbin/mod.rs:33-38
  | varbinview (v : VMeta) (bufferLens : List Nat)                -- array/varbinview/mod.rs:180-187
  | dict (codes : PType) (valuesLen : Nat)                        -- encodings/dict/src/array.rs:21-25
  | runEnd (v : VMeta) (ends : PType) (runs offset : Nat)         -- encodings/runend/src/array.rs:23-29
  | runEndBool (start : Bool) (v : VMeta) (ends : PType) (runs offset : Nat) -- encodings/runend-bool/src/array.rs:21-28
  | alp (exponents : Nat × Nat)                                   -- encodings/alp/src/alp/array.rs:20-23
  | alprd (left : PType) (exceptions : Bool) (rightWidth : Nat) (dict : List Nat) -- encodings/alp/src/alp_rd/array.rs:17-24
  | bitPacked (v : VMeta) (width offset : Nat) (patches : Bool)   -- encodings/fastlanes/src/bitpacking/mod.rs:24-30
  | delta (v : VMeta) (deltasLen offset : Nat)                    -- encodings/fastlanes/src/delta/mod.rs:22-28
  | for (reference shift : Nat)                                   -- encodings/fastlanes/src/for/mod.rs:20-24
  | zigzag                                                        -- encodings/zigzag/src/array.rs:24
  | fsst (symbols : Nat) (codesNullable : Bool) (lengths : PType) -- encodings/fsst/src/array.rs:21-26
  | dateTimeParts (days seconds subseconds : PType)               -- encodings/datetime-parts/src/array.rs:21-27
  | roaringBool                                                   -- encodings/roaring/src/boolean/mod.rs:26
  | roaringInt (ptype : PType)                                    -- encodings/roaring/src/integer/mod.rs:26-29

/-- `ArrayData`: vortex-array/src/data.rs:13-22 (without statistics). -/
inductive Arr where
  | mk (enc : Enc) (dtype : DType) (len : Nat) (data : List Nat) (children : List Arr)

namespace Arr
def enc : Arr → Enc | mk e _ _ _ _ => e
def dtype : Arr → DType | mk _ d _ _ _ => d
def len : Arr → Nat | mk _ _ l _ _ => l
def data : Arr → List Nat | mk _ _ _ b _ => b
def children : Arr → List Arr | mk _ _ _ _ cs => cs
end Arr

/-- What the serialised form keeps of an array: `fb::Array` (vortex-flatbuffers/flatbuffers/vortex-array/array.fbs) – neither dtype nor
length. -/
inductive Node where
  | mk (enc : Enc) (data : List Nat) (children : List Node)

mutual
/-- `IPCArray::write_flatbuffer`: vortex-serde/src/messages.rs:104-163, at the level of trees (C32 has the buffers and bytes). -/
def erase : Arr → Node
  | .mk e _ _ b cs => .mk e b (eraseAll cs)
def eraseAll : List Arr → List Node
  | [] => []
  | c :: cs => erase c :: eraseAll cs
end

/-- `ArrayData::child`: vortex-array/src/data.rs:82-104. A missing child is an error; a child of another dtype or length a failed
`assert_eq!`. -/
def Arr.child (a : Arr) (idx : Nat) (dtype : DType) (len : Nat) : Res Arr :=
  match a.children[idx]? with
  | none => .err
  | some c => do
    Res.assert (decide (c.dtype = dtype))
    Res.assert (decide (c.len = len))
    .ok c

/-- `vortex_expect`: an error becomes a panic. -/
def expect : Res α → Res α
  | .err => .panic
  | r => r

/-- The computations on child arrays that constructors and accessors use: reading a row as an unsigned number, in memory and on a view, and
`compute_is_strict_sorted`. -/
structure Compute where
  memAt : Arr → Nat → Res Nat
  viewAt : DType → Nat → Node → Nat → Res Nat
  strict : Arr → Option Bool

abbrev u64 : DType := .prim .u64 false
/-- `DType::BYTES`, `DType::IDX`, `Validity::DTYPE`: vortex-dtype/src/dtype.rs:36-39, vortex-array/src/validity.rs:67 -/
abbrev bytesD : DType := .prim .u8 false
abbrev boolD : DType := .bool false

/-- Rows of a non-nullable primitive array are the numbers in its buffer. -/
structure Compute.Lawful (C : Compute) : Prop where
  mem : ∀ (xs : List Nat) (i : Nat) (h : i < xs.length), C.memAt (.mk (.prim .nonNullable) u64 xs.length xs []) i = .ok xs[i]
  view : ∀ (xs : List Nat) (i : Nat) (h : i < xs.length), C.viewAt u64 xs.length (.mk (.prim .nonNullable) xs []) i = .ok xs[i]

/-! ## Accessors -/

/-- One `child(idx, dtype, len)` request. -/
structure Slot where
  idx : Nat
  dtype : DType
  len : Nat
  deriving DecidableEq

/-- `ValidityMetadata::to_validity` with the accessor's child index: vortex-array/src/validity.rs:38-50 -/
def vslot (v : VMeta) (idx len : Nat) : List Slot :=
  match v with
  | .array => [⟨idx, boolD, len⟩]
  | _ => []

/-- `PType::is_unsigned_int`, `to_unsigned`: vortex-dtype/src/ptype.rs -/
def unsigned : PType → Bool
  | .u8 | .u16 | .u32 | .u64 => true
  | _ => false

/-- vortex-dtype/src/ptype.rs:224-232 -/
def toUnsigned : PType → PType
  | .i8 => .u8
  | .i16 => .u16
  | .i32 => .u32
  | .i64 => .u64
  | p => p

/-- vortex-dtype/src/ptype.rs:214-222 -/
def toSigned : PType → PType
  | .u8 => .i8
  | .u16 => .i16
  | .u32 => .i32
  | .u64 => .i64
  | p => p

/-- `StructArray::field(idx)` for every field: array/struct_/mod.rs:150-156 -/
def fieldSlots (len : Nat) : Nat → List DType → List Slot
  | _, [] => []
  | i, d :: ds => ⟨i, d, len⟩ :: fieldSlots len (i + 1) ds

/-- `ChunkedArray::chunk(idx)`: array/chunked/mod.rs:75-86. `at` reads the chunk offsets. -/
def chunkSlot (dtype : DType) (at_ : Nat → Res Nat) (idx : Nat) : Res Slot := do
  let start ← at_ idx
  let stop ← at_ (idx + 1)
  let l ← Res.sub stop start
  .ok ⟨idx + 1, dtype, l⟩

/-- `VarBinViewArray::buffer(idx)` for every buffer: array/varbinview/mod.rs:316-325 -/
def bufferSlots : Nat → List Nat → List Slot
  | _, [] => []
  | i, l :: ls => ⟨i, bytesD, l⟩ :: bufferSlots (i + 1) ls

/-- `DeltaArray::lanes`: encodings/fastlanes/src/delta/mod.rs:171-183; panics unless the type is an unsigned integer. -/
def lanes : DType → Res Nat
  | .prim p _ => if unsigned p then .ok (1024 / p.bits) else .panic
  | _ => .panic

/-- `DeltaArray::bases_len`: delta/mod.rs:199-203 -/
def basesLen (dtype : DType) (deltasLen : Nat) : Res Nat := do
  let l ← lanes dtype
  .ok (deltasLen / 1024 * l + (if deltasLen % 1024 > 0 then 1 else 0))

/-- `ALPArray::encoded_dtype`: encodings/alp/src/alp/array.rs:112-124 -/
def alpEncoded : DType → Res DType
  | .prim .f32 n => .ok (.prim .i32 n)
  | .prim .f64 n => .ok (.prim .i64 n)
  | _ => .panic

/-- The `child` requests of all accessors of an array, by encoding, in increasing child order. `nch` is `nchildren()`; `offs n i` reads row `i` of child 0
requested as `n` non-nullable `u64`s. -/
def accessors (offs : Nat → Nat → Res Nat) (nch : Nat) (e : Enc) (d : DType) (len : Nat) : Res (List Slot) :=
  match e with
  | .null | .constant _ | .roaringBool | .roaringInt _ => .ok []
  -- array/bool/mod.rs:51-57, array/primitive/mod.rs:93-99, encodings/bytebool/src/array.rs:31-37
  | .bool v _ | .byteBool v | .prim v => .ok (vslot v 0 len)
  -- array/struct_/mod.rs:31-37,150-156
  | .struct v =>
    match d with
    | .struct _ ds _ => .ok (fieldSlots len 0 ds ++ vslot v ds.length len)
    | _ => .panic
  -- array/extension/mod.rs:42-46
  | .ext s => .ok [⟨0, s, len⟩]
  -- array/chunked/mod.rs:75-97
  | .chunked n => do
    let cs ← Res.mapM (chunkSlot d (offs (n + 1))) (List.range n)
    .ok (⟨0, u64, n + 1⟩ :: cs)
  -- array/sparse/mod.rs:96-109
  | .sparse _ il _ => .ok [⟨0, u64, il⟩, ⟨1, d, il⟩]
  -- array/varbin/mod.rs:84-126
  | .varbin v op bl => .ok ([⟨0, .prim op false, len + 1⟩, ⟨1, bytesD, bl⟩] ++ vslot v 2 len)
  -- array/varbinview/mod.rs:304-357
  | .varbinview v bls => .ok (⟨0, bytesD, len * 16⟩ :: (bufferSlots 1 bls ++ vslot v (bls.length + 1) len))
  -- encodings/dict/src/array.rs:51-64
  | .dict cp vl => .ok [⟨0, d, vl⟩, ⟨1, .prim cp false, len⟩]
  -- encodings/runend/src/array.rs:128-168
  | .runEnd v ep n _ => .ok ([⟨0, .prim ep false, n⟩, ⟨1, d, n⟩] ++ vslot v 2 len)
  -- encodings/runend-bool/src/array.rs:96-114
  | .runEndBool _ v ep n _ => .ok (⟨0, .prim ep false, n⟩ :: vslot v 1 len)
  -- encodings/alp/src/alp/array.rs:83-131
  | .alp _ => do
    let ed ← alpEncoded d
    .ok (⟨0, ed, len⟩ :: (if nch > 1 then [⟨1, d.withNullability true, len⟩] else []))
  -- encodings/alp/src/alp_rd/array.rs:103-165
  | .alprd lp ex _ _ =>
    match d with
    | .prim p n => .ok ([⟨0, .prim lp n, len⟩, ⟨1, .prim (if p = .f32 then .u32 else .u64) false, len⟩] ++
        (if ex then [⟨2, .prim lp true, len⟩] else []))
    | _ => .panic
  -- encodings/fastlanes/src/bitpacking/mod.rs:158-188
  | .bitPacked v _ _ hp => .ok ((if hp then [⟨0, d.withNullability true, len⟩] else []) ++ vslot v (if hp then 1 else 0) len)
  -- encodings/fastlanes/src/delta/mod.rs:157-207
  | .delta v dl _ => do
    let bl ← basesLen d dl
    .ok ([⟨0, d, bl⟩, ⟨1, d, dl⟩] ++ vslot v 2 len)
  -- encodings/fastlanes/src/for/mod.rs:56-66,85-93
  | .for _ _ =>
    match d with
    | .prim p n => .ok [⟨0, if p.isSigned then .prim (toUnsigned p) n else d, len⟩]
    | _ => .panic
  -- encodings/zigzag/src/array.rs:56-64
  | .zigzag =>
    match d with
    | .prim p n => .ok [⟨0, .prim (toUnsigned p) n, len⟩]
    | _ => .panic
  -- encodings/fsst/src/array.rs:105-148
  | .fsst n cn ul => .ok [⟨0, u64, n⟩, ⟨1, bytesD, n⟩, ⟨2, .binary cn, len⟩, ⟨3, .prim ul false, len⟩]
  -- encodings/datetime-parts/src/array.rs:80-100
  | .dateTimeParts p q r => .ok [⟨0, .prim p d.isNullable, len⟩, ⟨1, .prim q false, len⟩, ⟨2, .prim r false, len⟩]

/-- Read the chunk offsets of an in-memory array. -/
def memOffs (C : Compute) (a : Arr) (n i : Nat) : Res Nat := do
  let c ← expect (a.child 0 u64 n)
  C.memAt c i

/-- All the accessors of an in-memory array, called one after the other. -/
def openAll (C : Compute) (a : Arr) : Res (List Arr) := do
  let slots ← accessors (memOffs C a) a.children.length a.enc a.dtype a.len
  Res.mapM (fun s => expect (a.child s.idx s.dtype s.len)) slots

/-- Read the chunk offsets of a view: `ArrayView::child` (view.rs:113-139) believes the requested type and length. -/
def viewOffs (C : Compute) (cs : List Node) (n i : Nat) : Res Nat := do
  let c ← Res.unwrap cs[0]?
  C.viewAt u64 n c i

mutual
/-- Read a serialised array with the given type and length: every accessor of the view gives a child view with the requested type and length
(view.rs:113-139), which is read in the same way. A child no accessor asks for cannot be read. -/
def readBack (C : Compute) (d : DType) (len : Nat) : Node → Res Arr
  | .mk e b cs => do
    let slots ← accessors (viewOffs C cs) cs.length e d len
    let cs' ← readAll C slots 0 cs
    .ok (.mk e d len b cs')
def readAll (C : Compute) (slots : List Slot) (i : Nat) : List Node → Res (List Arr)
  | [] => .ok []
  | c :: cs => do
    let s ← Res.ofOption (slots.find? (·.idx == i))
    let c' ← readBack C s.dtype s.len c
    let cs' ← readAll C slots (i + 1) cs
    .ok (c' :: cs')
end

/-! ## Constructors -/

/-- `Validity`: vortex-array/src/validity.rs:52-64 -/
inductive Valid where
  | nonNullable | allValid | allInvalid
  | array (a : Arr)

namespace Valid
/-- `to_metadata`: validity.rs:69-87 – checks the length, not the type, of a validity array. -/
def toMetadata (v : Valid) (length : Nat) : Res VMeta :=
  match v with
  | nonNullable => .ok .nonNullable
  | allValid => .ok .allValid
  | allInvalid => .ok .allInvalid
  | array a => if a.len = length then .ok .array else .err

/-- `into_array`: validity.rs:90-95 -/
def intoArray : Valid → List Arr
  | array a => [a]
  | _ => []

/-- `nullability`: validity.rs:104-109 -/
def nullable : Valid → Bool
  | nonNullable => false
  | _ => true
end Valid

/-- `DType::is_unsigned_int` &c.: vortex-dtype/src/dtype.rs:89-103 -/
def isUnsignedD : DType → Bool
  | .prim p _ => unsigned p
  | _ => false
def isIntD : DType → Bool
  | .prim p _ => p.isInt
  | _ => false
def isFloatD : DType → Bool
  | .prim p _ => p.isFloat
  | _ => false

/-- `PType::try_from(&DType)`: vortex-dtype/src/ptype.rs (error unless primitive) -/
def ptypeOf : DType → Res PType
  | .prim p _ => .ok p
  | _ => .err

/-- Running sums starting with 0: array/chunked/mod.rs:53-60; `+=` on `u64` is overflow-checked. -/
def offsetsFrom (acc : Nat) : List Nat → Res (List Nat)
  | [] => .ok [acc]
  | l :: ls => do
    Res.assert (decide (acc + l < 2 ^ 64))
    let rest ← offsetsFrom (acc + l) ls
    .ok (acc :: rest)

def optList : Option Arr → List Arr
  | some a => [a]
  | none => []

/-- A constructor call. `run` is the code, citations there. -/
inductive Call where
  | null (len : Nat)
  | constant (dtype : DType) (value len : Nat)
  | bool (bytes : List Nat) (offset len : Nat) (v : Valid)
  | byteBool (bytes : List Nat) (v : Valid)
  | prim (p : PType) (xs : List Nat) (v : Valid)
  | struct (names : List Str) (fields : List Arr) (len : Nat) (v : Valid)
  | ext (id : Str) (metadata : Option (List UInt8)) (storage : Arr)
  | chunked (chunks : List Arr) (dtype : DType)
  | sparse (indices values : Arr) (len offset fill : Nat) (fillOk : Bool)
  | varbin (offsets bytes : Arr) (dtype : DType) (v : Valid)
  | varbinview (views : Arr) (buffers : List Arr) (dtype : DType) (v : Valid)
  | dict (codes values : Arr)
  | runEnd (ends values : Arr) (v : Valid) (offset len : Nat)
  | runEndBool (ends : Arr) (start : Bool) (v : Valid) (len offset : Nat)
  | alp (encoded : Arr) (exponents : Nat × Nat) (patches : Option Arr)
  | alprd (dtype : DType) (left : Arr) (dict : List Nat) (right : Arr) (rightWidth : Nat) (exceptions : Option Arr)
  | bitPacked (packed : List Nat) (p : PType) (v : Valid) (patches : Option Arr) (width len offset : Nat)
  | delta (bases deltas : Arr) (v : Valid) (offset len : Nat)
  | for (child : Arr) (refDType : DType) (refNull : Bool) (reference shift : Nat)
  | zigzag (encoded : Arr)
  | fsst (dtype : DType) (symbols symbolLengths codes uncompressedLengths : Arr)
  | dateTimeParts (dtype : DType) (days seconds subsecond : Arr)
  | roaringBool (bitmap : List Nat) (len : Nat)
  | roaringInt (bitmap : List Nat) (p : PType)

def isSparse (a : Arr) : Bool := match a.enc with | .sparse .. => true | _ => false
def isVarBin (a : Arr) : Bool := match a.enc with | .varbin .. => true | _ => false
/-- Number of indices of an array that must be sparse: `SparseArray::try_from(..)?.indices().is_empty()`. -/
def sparseIndices (a : Arr) : Res Nat := match a.enc with | .sparse _ il _ => .ok il | _ => .err

/-- The dtype of an ALP array by its encoded integers: encodings/alp/src/alp/array.rs:37-41 -/
def alpDType : DType → Res DType
  | .prim .i32 n => .ok (.prim .f32 n)
  | .prim .i64 n => .ok (.prim .f64 n)
  | _ => .err

/-- The first run end, read only when there is an offset (otherwise the check `first ≤ offset` is not made):
encodings/runend/src/array.rs:62-67 -/
def firstEnd (C : Compute) (ends : Arr) (off : Nat) : Res Nat :=
  if off ≠ 0 ∧ ends.len > 0 then C.memAt ends 0 else .ok (off + 1)

/-- The constructors. -/
def Call.run (C : Compute) : Call → Res Arr
  -- `NullArray::new`: vortex-array/src/array/null/mod.rs:28-37
  | .null len => .ok (.mk .null .null len [] [])
  -- `ConstantArray::new`: array/constant/mod.rs:37-68
  | .constant d value len => .ok (.mk (.constant value) d len [] [])
  -- `BoolArray::try_new`: array/bool/mod.rs:59-83 (of a `BooleanBuffer`: bytes, bit offset and length)
  | .bool bytes off len v => do
    let m ← v.toMetadata len
    .ok (.mk (.bool m (off % 8)) (.bool v.nullable) len (bytes.drop (off / 8)) v.intoArray)
  -- `ByteBoolArray::try_new`: encodings/bytebool/src/array.rs:39-55
  | .byteBool bytes v => do
    let m ← v.toMetadata bytes.length
    .ok (.mk (.byteBool m) (.bool v.nullable) bytes.length bytes v.intoArray)
  -- `PrimitiveArray::new`: array/primitive/mod.rs:43-69 (`vortex_expect("Invalid validity")`)
  | .prim p xs v => do
    let m ← expect (v.toMetadata xs.length)
    .ok (.mk (.prim m) (.prim p v.nullable) xs.length xs v.intoArray)
  -- `StructArray::try_new`: array/struct_/mod.rs:46-85
  | .struct names fields len v => do
    Res.guard (names.length == fields.length)
    Res.guard (fields.all (fun f => f.len == len))
    let m ← v.toMetadata len
    .ok (.mk (.struct m) (.struct names (fields.map Arr.dtype) v.nullable) len [] (fields ++ v.intoArray))
  -- `ExtensionArray::new`: array/extension/mod.rs:28-40
  | .ext i md s => .ok (.mk (.ext s.dtype) (.ext i md s.dtype.isNullable) s.len [] [s])
  -- `ChunkedArray::try_new`: array/chunked/mod.rs:46-73
  | .chunked chunks d => do
    Res.guard (chunks.all (fun c => decide (c.dtype = d)))
    let offs ← offsetsFrom 0 (chunks.map Arr.len)
    let n ← Res.sub offs.length 1
    let l ← Res.unwrap offs.getLast?
    .ok (.mk (.chunked n) d l [] (.mk (.prim .nonNullable) u64 offs.length offs [] :: chunks))
  -- `SparseArray::try_new_with_offset`: array/sparse/mod.rs:46-92
  | .sparse ind val len off fill fillOk => do
    Res.guard (decide (ind.dtype = u64))
    Res.guard fillOk
    Res.guard (ind.len == val.len)
    if ind.len > 0 then do
      let last ← C.memAt ind (ind.len - 1)
      let r ← Res.sub last off
      Res.guard (decide (r < len))
      .ok (.mk (.sparse off ind.len fill) val.dtype len [] [ind, val])
    else .ok (.mk (.sparse off ind.len fill) val.dtype len [] [ind, val])
  -- `VarBinArray::try_new`: array/varbin/mod.rs:48-82
  | .varbin offs bytes d v => do
    Res.guard (isIntD offs.dtype && !offs.dtype.isNullable)
    let op ← expect (ptypeOf offs.dtype)
    Res.guard (decide (bytes.dtype = bytesD))
    Res.guard (match d with | .binary _ | .utf8 _ => true | _ => false)
    Res.guard (d.isNullable != !v.nullable)
    let l ← Res.sub offs.len 1
    let m ← v.toMetadata l
    .ok (.mk (.varbin m op bytes.len) d l [] ([offs, bytes] ++ v.intoArray))
  -- `VarBinViewArray::try_new`: array/varbinview/mod.rs:217-262
  | .varbinview views bufs d v => do
    Res.guard (decide (views.dtype = bytesD))
    Res.guard (bufs.all (fun b => decide (b.dtype = bytesD)))
    Res.guard (match d with | .binary _ | .utf8 _ => true | _ => false)
    Res.guard (d.isNullable != !v.nullable)
    Res.guard (bufs.all (fun b => decide (b.len < 2 ^ 32)))
    let m ← v.toMetadata (views.len / 16)
    .ok (.mk (.varbinview m (bufs.map Arr.len)) d (views.len / 16) [] (views :: (bufs ++ v.intoArray)))
  -- `DictArray::try_new`: encodings/dict/src/array.rs:34-49
  | .dict codes values => do
    Res.guard (isUnsignedD codes.dtype && !codes.dtype.isNullable)
    let cp ← expect (ptypeOf codes.dtype)
    .ok (.mk (.dict cp values.len) values.dtype codes.len [] [values, codes])
  -- `RunEndArray::with_offset_and_length`: encodings/runend/src/array.rs:47-91 (`try_new` calls it with offset 0 and the last end as length)
  | .runEnd ends values v off len => do
    Res.guard (values.dtype.isNullable == v.nullable)
    let first ← firstEnd C ends off
    Res.guard (decide (off < first))
    Res.guard (isUnsignedD ends.dtype && !ends.dtype.isNullable)
    Res.guard ((C.strict ends).getD true)
    let m ← v.toMetadata len
    let ep ← ptypeOf ends.dtype
    .ok (.mk (.runEnd m ep ends.len off) values.dtype len [] ([ends, values] ++ v.intoArray))
  -- `RunEndBoolArray::with_offset_and_size`: encodings/runend-bool/src/array.rs:42-81
  | .runEndBool ends start v len off => do
    Res.guard ((C.strict ends).getD true)
    Res.guard (isUnsignedD ends.dtype && !ends.dtype.isNullable)
    Res.guard (decide (ends.len > 0))
    let ep ← ptypeOf ends.dtype
    let m ← v.toMetadata len
    .ok (.mk (.runEndBool start m ep ends.len off) (.bool v.nullable) len [] (ends :: v.intoArray))
  -- `ALPArray::try_new`: encodings/alp/src/alp/array.rs:32-73
  | .alp enc ex patches => do
    let d ← alpDType enc.dtype
    Res.guard ((optList patches).all (fun p => p.len == enc.len))
    Res.guard ((optList patches).all (fun p => p.dtype.eqIgnoreNullability d && p.dtype.isNullable))
    .ok (.mk (.alp ex) d enc.len [] (enc :: optList patches))
  -- `ALPRDArray::try_new`: encodings/alp/src/alp_rd/array.rs:33-92
  | .alprd d left dct right rw exc => do
    Res.guard (isFloatD d)
    Res.guard (right.len == left.len)
    Res.guard (isUnsignedD left.dtype)
    Res.guard (d.isNullable == left.dtype.isNullable)
    let lp ← expect (ptypeOf left.dtype)
    Res.guard (isUnsignedD right.dtype && !right.dtype.isNullable)
    Res.guard ((optList exc).all isSparse)
    Res.assert (decide (dct.length ≤ 8))
    .ok (.mk (.alprd lp exc.isSome rw dct) d left.len [] ([left, right] ++ optList exc))
  -- `BitPackedArray::try_new_from_offset`: encodings/fastlanes/src/bitpacking/mod.rs:54-131
  | .bitPacked packed p v patches width len off => do
    Res.guard (unsigned p)
    Res.guard (decide (width ≤ 64))
    Res.guard (decide (off ≤ 1023))
    Res.guard (packed.length == (len + off + 1023) / 1024 * (128 * width))
    let _ ← Res.mapM (fun (q : Arr) => do
      Res.guard (q.len == len)
      let n ← sparseIndices q
      Res.guard (n != 0)) (optList patches)
    let m ← v.toMetadata len
    .ok (.mk (.bitPacked m width off patches.isSome) (.prim p v.nullable) len packed (optList patches ++ v.intoArray))
  -- `DeltaArray::try_new`: encodings/fastlanes/src/delta/mod.rs:88-155; `delta.bases()` is an accessor call, whose `assert_eq!` on the length
  -- comes before the `vortex_bail!`
  | .delta bases deltas v off len => do
    Res.guard (decide (off < 1024))
    Res.guard (decide (off + len ≤ deltas.len))
    Res.guard (decide (bases.dtype = deltas.dtype))
    let m ← v.toMetadata len
    let l ← lanes bases.dtype
    let bl ← basesLen bases.dtype deltas.len
    Res.assert (bases.len == bl)
    Res.guard ((deltas.len % 1024 == 0) == (bl % l == 0))
    .ok (.mk (.delta m deltas.len off) bases.dtype len [] ([bases, deltas] ++ v.intoArray))
  -- `FoRArray::try_new`: encodings/fastlanes/src/for/mod.rs:33-54 (a non-null scalar casts to its own type with any nullability)
  | .for child rd rnull r shift => do
    Res.guard (!rnull)
    .ok (.mk (.for r shift) (rd.withNullability child.dtype.isNullable) child.len [] [child])
  -- `ZigZagArray::try_new`: encodings/zigzag/src/array.rs:34-47
  | .zigzag enc => do
    Res.guard (isUnsignedD enc.dtype)
    let p ← ptypeOf enc.dtype
    .ok (.mk .zigzag (.prim (toSigned p) enc.dtype.isNullable) enc.len [] [enc])
  -- `FSSTArray::try_new`: encodings/fsst/src/array.rs:43-102
  | .fsst d sym slen codes ulen => do
    Res.guard (decide (sym.dtype = u64))
    Res.guard (decide (slen.dtype = bytesD))
    Res.guard (decide (sym.len ≤ 255))
    Res.guard (sym.len == slen.len)
    Res.guard (ulen.len == codes.len)
    Res.guard (isIntD ulen.dtype && !ulen.dtype.isNullable)
    Res.guard (isVarBin codes)
    Res.guard (match codes.dtype with | .binary _ => true | _ => false)
    let up ← ptypeOf ulen.dtype
    .ok (.mk (.fsst sym.len codes.dtype.isNullable up) d codes.len [] [sym, slen, codes, ulen])
  -- `DateTimePartsArray::try_new`: encodings/datetime-parts/src/array.rs:34-78
  | .dateTimeParts d days secs sub => do
    Res.guard (isIntD days.dtype && (d.isNullable == days.dtype.isNullable))
    Res.guard (isIntD secs.dtype && !secs.dtype.isNullable)
    Res.guard (isIntD sub.dtype && !sub.dtype.isNullable)
    Res.guard (days.len == secs.len && days.len == sub.len)
    let p ← ptypeOf days.dtype
    let q ← ptypeOf secs.dtype
    let r ← ptypeOf sub.dtype
    .ok (.mk (.dateTimeParts p q r) d days.len [] [days, secs, sub])
  -- `RoaringBoolArray::try_new`: encodings/roaring/src/boolean/mod.rs:37-67
  | .roaringBool bitmap len => do
    Res.guard (decide (bitmap.length ≤ len))
    .ok (.mk .roaringBool (.bool false) len bitmap [])
  -- `RoaringIntArray::try_new`: encodings/roaring/src/integer/mod.rs:39-70
  | .roaringInt bitmap p => do
    Res.guard (unsigned p)
    Res.guard (bitmap.all (fun x => decide (x < 2 ^ p.bits)))
    .ok (.mk (.roaringInt p) (.prim p false) bitmap.length bitmap [])

end Vx.Own
