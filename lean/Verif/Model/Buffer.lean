import Verif.Basic
import Verif.Model.Scalar
/-!
# Buffers (vortex-buffer/src/lib.rs, io_buf.rs)

A buffer is a view into an allocation: the allocation's bytes, an offset and a length. `arrow_buffer::Buffer` and `bytes::Bytes` are modelled by their
documented behaviour. Positions are natural numbers (`usize` without the 64-bit limit; the saturating addition in arrow's check never wraps).
-/
namespace Vx.Buf

/-- The two variants: vortex-buffer/src/lib.rs:29-36 -/
inductive Kind
  | arrow
  | bytes
  deriving DecidableEq, Repr

/-- A buffer. -/
structure Buffer where
  kind : Kind
  base : List UInt8
  off : Nat
  len : Nat
  deriving DecidableEq, Repr

namespace Buffer

/-- The view lies inside the allocation. -/
def WF (b : Buffer) : Prop := b.off + b.len ≤ b.base.length

instance (b : Buffer) : Decidable b.WF := inferInstanceAs (Decidable (_ ≤ _))

/-- `as_slice`: lib.rs:88-93 -/
def asSlice (b : Buffer) : List UInt8 := (b.base.drop b.off).take b.len

/-- `From<Vec<T>>`, `From<&[u8]>` (lib.rs:134-146) and `From<Bytes>` (lib.rs:148-152): the whole allocation. -/
def ofBytes (k : Kind) (l : List UInt8) : Buffer := ⟨k, l, 0, l.length⟩

/-- `slice`: lib.rs:67-84.
* arrow: `end - start` underflows (panic; without overflow checks the wrapped length fails the next check), then `slice_with_length` asserts
  `offset + length <= self.len`;
* bytes: an empty range (`start >= end`) truncates a clone to nothing, otherwise `Bytes::slice` asserts `end <= len`. -/
def slice (b : Buffer) (s e : Nat) : Res Buffer :=
  match b.kind with
  | .arrow => do
    let n ← Res.sub e s
    Res.assert (decide (s + n ≤ b.len))
    .ok { b with off := b.off + s, len := n }
  | .bytes =>
    if e ≤ s then .ok { b with len := 0 }
    else if e ≤ b.len then .ok { b with off := b.off + s, len := e - s }
    else .panic

/-- `into_arrow`: lib.rs:113-118; a `Bytes` buffer is copied. -/
def intoArrow (b : Buffer) : Buffer := match b.kind with
  | .arrow => b
  | .bytes => ofBytes .arrow b.asSlice

/-- `PartialEq`: lib.rs:166-170 -/
def eq (a b : Buffer) : Bool := decide (a.asSlice = b.asSlice)

/-- `PartialOrd`: lib.rs:174-178 -/
def cmp (a b : Buffer) : Ordering := SV.cmpBytes a.asSlice b.asSlice

end Buffer

/-! ## Owned slices handed to I/O (io_buf.rs) -/

/-- A buffer wrapped in any number of `slice_owned` calls: io_buf.rs:28-37, 42-46 (no bounds are checked). -/
inductive IoBuf
  | buf (b : Buffer)
  | slice (t : IoBuf) (s e : Nat)

namespace IoBuf

/-- `read_ptr`, as an offset into the allocation: io_buf.rs:107-109, 125-127 -/
def readPtr : IoBuf → Nat
  | buf b => b.off
  | slice t s _ => t.readPtr + s

/-- The allocation behind it. -/
def base : IoBuf → List UInt8
  | buf b => b.base
  | slice t _ _ => t.base

/-- `bytes_init`: io_buf.rs:112-114, 130-132 -/
def bytesInit : IoBuf → Res Nat
  | buf b => .ok b.len
  | slice _ s e => Res.sub e s

/-- What `as_slice` exposes: bytes, or undefined behaviour (a read outside the allocation). -/
inductive Exposed
  | bytes (l : List UInt8)
  | undefined
  deriving DecidableEq

/-- `from_raw_parts(read_ptr, bytes_init)`: io_buf.rs:117-119, 135-138 -/
def asSlice (t : IoBuf) : Res Exposed := do
  let n ← t.bytesInit
  .ok (if t.readPtr + n ≤ t.base.length then .bytes ((t.base.drop t.readPtr).take n) else .undefined)

end IoBuf
end Vx.Buf
