import Verif.Model.Stored
import Verif.Model.WriteColumns
import Verif.Model.Flex
/-!
# The bytes of one stored array

The buffer of an array in little-endian bytes (`PrimitiveArray::new` takes the memory of the Rust vector, array/primitive/mod.rs:43-80; on the
little-endian targets the project supports that is what is here) and its metadata through a metadata codec (flexbuffers of a serde struct,
vortex-array/src/metadata.rs:29-60; taken as a contract).
-/
namespace Vx.Store
open Own
open Ipc (Bytes)

/-- How an encoding's id and metadata are written. -/
structure MetaCodec where
  id : Enc → Nat
  ser : Enc → Bytes
  de : Nat → Bytes → Option Enc

/-- `to_le_bytes` of a number of `k` bytes -/
def leBytes : Nat → Nat → Bytes
  | 0, _ => []
  | k + 1, n => UInt8.ofNat (n % 256) :: leBytes k (n / 256)

/-- `from_le_bytes` -/
def fromLe : Bytes → Nat
  | [] => 0
  | b :: bs => b.toNat + 256 * fromLe bs

/-- `PType::byte_width` of the elements of a buffer: array/primitive/mod.rs:116-131; bits, packed lanes and byte-booleans are bytes. The members of a
roaring bitmap are 32-bit numbers here (the crate's compressed format is not modelled). -/
def elemWidth (e : Enc) (d : DType) : Nat :=
  match e, d with
  | .prim _, .prim p _ => p.bits / 8
  | .roaringBool, _ => 4
  | .roaringInt _, _ => 4
  | _, _ => 1

/-- Which encodings have a buffer: array/primitive/mod.rs:56-66, array/bool/mod.rs:70-80, encodings/bytebool/src/array.rs:44-54,
encodings/fastlanes/src/bitpacking/mod.rs:110-131, encodings/roaring/src/{boolean,integer}/mod.rs -/
def hasBuffer : Enc → Bool
  | .prim _ | .bool _ _ | .byteBool _ | .bitPacked _ _ _ _ | .roaringBool | .roaringInt _ => true
  | _ => false

/-- The memory of a buffer, and `buffer.typed_data::<T>()`: vortex-buffer/src/lib.rs:60-80 -/
def toBytes (w : Nat) (xs : List Nat) : Bytes := xs.flatMap (leBytes w)
def ofBytes (w : Nat) : Nat → Bytes → List Nat
  | 0, _ => []
  | n + 1, bs => fromLe (bs.take w) :: ofBytes w n (bs.drop w)

/-- Storing and reading one array's own part. -/
def leCodec (mc : MetaCodec) : OwnCodec where
  ser a := (mc.id a.enc, mc.ser a.enc, [], if hasBuffer a.enc then some (toBytes (elemWidth a.enc a.dtype) a.data) else none)
  de d _ id md buf := (mc.de id md).map fun e =>
    (e, match buf with
      | some b => ofBytes (elemWidth e d) (b.length / elemWidth e d) b
      | none => [])
  at_ _ _ n i := match n with
    | .mk _ _ _ b _ => Res.ofOption ((ofBytes 8 ((b.getD []).length / 8) (b.getD []))[i]?)

/-- Scalars in metadata in their flexbuffer form: written as a field of width `w` and read at their type (Model/Flex.lean); `code` is the value in the
flexbuffer as a number. -/
def flexScalars (F : FloatOps) (W : List Flex.Val → Flex.Width) (w : Flex.Width) (code : SV → Nat) (decode : Nat → Option SV) : Scalars where
  num v := code (Flex.storeField F W w v)
  read d n := (decode n).bind fun v => match Flex.readAt F d v with
    | .ok x => some x
    | _ => none

end Vx.Store
