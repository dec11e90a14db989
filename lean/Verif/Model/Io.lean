import Verif.Model.Buffer
/-!
# Storage adapters (vortex-serde/src/io)

Reading at a position, reading in sequence, and writing: read.rs, offset.rs, object_store.rs, tokio.rs, futures.rs, monoio.rs, write.rs.

Contracts: `read_exact`, `read_exact_at` and `write_all` of the operating system and the runtimes move exactly the bytes asked for or
fail; an object store's `get_range` is a parameter of the model (`Spec/Io.lean` states its contract: a range past the end may be refused
or cut short, as stores differ); `WriteMultipart` of the object_store crate stores the concatenation of what it was given when it is
finished. `usize` and `u64` are 64 bits; `checks` tells whether arithmetic overflow panics (debug builds) or wraps (release builds).
The asynchronous polling is not modelled: an operation is one step.
-/
namespace Vx.Io
open Vx.Buf (Buffer)

/-- The number of values of `usize` and `u64`. -/
def word : Nat := 18446744073709551616

/-- `a + b` on 64 bits. -/
def add64 (checks : Bool) (a b : Nat) : Res Nat :=
  if a + b < word then .ok (a + b) else if checks then .panic else .ok (a + b - word)

/-- `a - b` on 64 bits. -/
def sub64 (checks : Bool) (a b : Nat) : Res Nat :=
  if b ≤ a then .ok (a - b) else if checks then .panic else .ok (a + word - b)

/-- `dst.copy_from_slice(src)`: the lengths must agree. -/
def copyFrom (n : Nat) (src : List UInt8) : Res (List UInt8) := if src.length = n then .ok src else .panic

/-- The implementations of `VortexReadAt`. `object` holds the result of `get_range(start..end)` and of `head`. -/
inductive Src where
  | slice (bs : List UInt8)
  | vec (bs : List UInt8)
  | buffer (b : Buffer)
  | file (bs : List UInt8)
  | object (get : Nat → Nat → Res (List UInt8)) (head : Res Nat)
  | arc (s : Src)
  | ref (s : Src)
  | offset (s : Src) (off : Nat)

/-- `[u8]`, read.rs:113-125: the bounds check, then `self[pos..][..len]`. -/
def readSlice (checks : Bool) (bs : List UInt8) (pos n : Nat) : Res (List UInt8) := do
  let e ← add64 checks n pos
  if bs.length < e then .err
  else if bs.length < pos then .panic
  else if (bs.drop pos).length < n then .panic
  else copyFrom n ((bs.drop pos).take n)

/-- `Buffer`, read.rs:132-147 -/
def readBuffer (checks : Bool) (b : Buffer) (pos n : Nat) : Res (List UInt8) := do
  let e ← add64 checks n pos
  if b.len < e then .err
  else do
    let e' ← add64 checks pos n
    let c ← b.slice pos e'
    copyFrom n c.asSlice

/-- tokio's `File`, tokio.rs:58-62: `read_exact_at`. -/
def readFile (bs : List UInt8) (pos n : Nat) : Res (List UInt8) :=
  if n = 0 then .ok [] else if pos + n ≤ bs.length then .ok ((bs.drop pos).take n) else .err

/-- `ObjectStoreReadAt`, object_store.rs:72-80 -/
def readObject (checks : Bool) (get : Nat → Nat → Res (List UInt8)) (pos n : Nat) : Res (List UInt8) := do
  let e ← add64 checks pos n
  let bs ← get pos e
  copyFrom n bs

/-- `read_at_into` at `pos` into a buffer of `n` bytes: read.rs:36-48 (`Arc`), 80-91 (`&R`), 98-110 (`Vec`), offset.rs:21-28 (offset). -/
def readAt (checks : Bool) : Src → Nat → Nat → Res (List UInt8)
  | .slice bs, pos, n => readSlice checks bs pos n
  | .vec bs, pos, n => readSlice checks bs pos n
  | .buffer b, pos, n => readBuffer checks b pos n
  | .file bs, pos, n => readFile bs pos n
  | .object get _, pos, n => readObject checks get pos n
  | .arc s, pos, n => readAt checks s pos n
  | .ref s, pos, n => readAt checks s pos n
  | .offset s off, pos, n => do
    let p ← add64 checks pos off
    readAt checks s p n

/-- `size`: read.rs, tokio.rs:64-70, object_store.rs:82-95 (an error panics), offset.rs:34-36. -/
def size (checks : Bool) : Src → Res Nat
  | .slice bs => .ok bs.length
  | .vec bs => .ok bs.length
  | .buffer b => .ok b.len
  | .file bs => .ok bs.length
  | .object _ head => match head with
    | .ok n => .ok n
    | _ => .panic
  | .arc s => size checks s
  | .ref s => size checks s
  | .offset s off => do
    let n ← size checks s
    sub64 checks n off

/-- The implementations of `VortexRead`: `BytesMut` (read.rs:55-66), `Cursor<R>` (read.rs:68-74), and the adapters over `read_exact` of a
stream or file (tokio.rs:17-22, 51-56, futures.rs:13-18, monoio.rs:16-26). -/
inductive Rdr where
  | bytesMut (bs : List UInt8)
  | cursor (s : Src) (pos : Nat)
  | stream (bs : List UInt8)

/-- `read_into` a buffer of `n` bytes. -/
def readInto (checks : Bool) : Rdr → Nat → Res (List UInt8 × Rdr)
  | .bytesMut bs, n => if bs.length < n then .err else .ok (bs.take n, .bytesMut (bs.drop n))
  | .cursor s pos, n => do
    let bs ← readAt checks s pos n
    let p ← add64 checks pos bs.length
    .ok (bs, .cursor s p)
  | .stream bs, n => if bs.length < n then .err else .ok (bs.take n, .stream (bs.drop n))

/-- Successive reads, until the first that fails. -/
def readMany (checks : Bool) : Rdr → List Nat → Res (List (List UInt8) × Rdr)
  | r, [] => .ok ([], r)
  | r, n :: ns => do
    let x ← readInto checks r n
    let y ← readMany checks x.2 ns
    .ok (x.1 :: y.1, y.2)

/-- The implementations of `VortexWrite`: `Vec<u8>` (write.rs:15-28), `Cursor<Vec<u8>>` (write.rs:30-46), a file or stream
(tokio.rs:24-37, 73-86, monoio.rs:28-46), the object store writer (object_store.rs:98-140) with what the store shows under the name. -/
inductive Wtr where
  | vec (bs : List UInt8)
  | cursor (bs : List UInt8) (pos : Nat)
  | stream (bs : List UInt8)
  | object (multipart : Option (List UInt8)) (stored : Option (List UInt8))

inductive WOp where
  | write (bs : List UInt8)
  | flush
  | shutdown

/-- `std::io::Write for Cursor<Vec<u8>>`: overwrites from the position, filling a gap with zeros. -/
def overwrite (bs : List UInt8) (pos : Nat) (new : List UInt8) : List UInt8 :=
  let padded := bs ++ List.replicate (pos - bs.length) 0
  padded.take pos ++ new ++ padded.drop (pos + new.length)

/-- One operation of a writer. -/
def wstep : Wtr → WOp → Res Wtr
  | .vec bs, .write new => .ok (.vec (bs ++ new))
  | .vec bs, _ => .ok (.vec bs)
  | .cursor bs pos, .write new => .ok (.cursor (overwrite bs pos new) (pos + new.length))
  | .cursor bs pos, _ => .ok (.cursor bs pos)
  | .stream bs, .write new => .ok (.stream (bs ++ new))
  | .stream bs, _ => .ok (.stream bs)
  | .object (some mp) st, .write new => .ok (.object (some (mp ++ new)) st)
  | .object (some mp) st, .flush => .ok (.object (some mp) st)
  | .object (some mp) _, .shutdown => .ok (.object none (some mp))
  | .object none _, _ => .err

/-- A sequence of operations. -/
def wrun : Wtr → List WOp → Res Wtr
  | w, [] => .ok w
  | w, o :: os => do
    let w' ← wstep w o
    wrun w' os

end Vx.Io
