import Verif.Model.Dict
import Verif.Model.VarBin
import Verif.Model.VarBinCanon
/-!
# The dictionary encoder of variable-length arrays, byte by byte (encodings/dict/src/compress.rs:89-185)

The dictionary is grown as one byte buffer with `u32` offsets; the hash map holds only codes, and compares a candidate by reading its
bytes back from the buffers under construction. The hash map (`hashbrown::HashMap<u64, (), ()>` used through `raw_entry_mut`) is a
contract (`RawMap`): a lookup may ask the closure about any stored key, whatever its hash, and need not find a key stored under another
hash. The hash function is a parameter. The re-hashing closure of `insert_with_hasher` reads stored keys only, and the bytes of a stored
key never change, so it is not modelled.
-/
namespace Vx.DictBytes
open Vx.VarBin (Byte Arr)

/-- `lookup_bytes`, compress.rs:111-119 -/
def lookupBytes (offsets : List Nat) (bytes : List Byte) (k : Nat) : Res (List Byte) := VarBin.spanAt offsets bytes k

/-- `raw_entry_mut().from_hash(hash, closure)` on the entries inserted so far, each a hash and a key. -/
structure RawMap where
  find : List (Nat × Nat) → Nat → (Nat → Res Bool) → Res (Option Nat)

/-- The state of compress.rs:126-136. -/
structure Enc where
  entries : List (Nat × Nat)
  codes : List Nat
  bytes : List Byte
  offsets : List Nat

/-- `as u32`. -/
def asU32 (n : Nat) : Nat := n % 4294967296

/-- The closure of compress.rs:144-146: is this the entry of `v`? -/
def isEntry (st : Enc) (v : List Byte) (k : Nat) : Res Bool := do
  let x ← lookupBytes st.offsets st.bytes k
  .ok (v == x)

/-- compress.rs:148-163, on what the lookup found. -/
def put (hash : List Byte → Nat) (st : Enc) (v : List Byte) : Option Nat → Enc
  | some c => { st with codes := st.codes ++ [c] }
  | none =>
    let code := st.offsets.length - 1
    let bytes := st.bytes ++ v
    { entries := st.entries ++ [(hash v, code)], codes := st.codes ++ [code], bytes := bytes, offsets := st.offsets ++ [asU32 bytes.length] }

/-- One iteration of compress.rs:138-166. -/
def step (m : RawMap) (hash : List Byte → Nat) (st : Enc) : Option (List Byte) → Res Enc
  | none => .ok { st with codes := st.codes ++ [0] }
  | some v => do
    let r ← m.find st.entries (hash v) (isEntry st v)
    .ok (put hash st v r)

/-- The loop. -/
def run (m : RawMap) (hash : List Byte → Nat) (st : Enc) : List (Option (List Byte)) → Res Enc
  | [] => .ok st
  | r :: rs => do
    let st ← step m hash st r
    run m hash st rs

/-- `dict_encode_typed_varbin`, compress.rs:121-185: the codes and the dictionary. -/
def encode (m : RawMap) (hash : List Byte → Nat) (nullable : Bool) (rows : List (Option (List Byte))) : Res (List Nat × Arr) := do
  let st ← run m hash ⟨[], [], [], if nullable then [0, 0] else [0]⟩ rows
  let v : Validity := if nullable then Validity.ofVec (false :: List.replicate (st.offsets.length - 2) true) else .nonNullable
  let d ← VarBin.expect (VarBin.tryNew nullable st.offsets st.bytes v)
  .ok (st.codes, d)

/-- `dict_encode_varbin`, compress.rs:90-94 -/
def encodeVarBin (m : RawMap) (hash : List Byte → Nat) (a : Arr) : Res (List Nat × Arr) := do
  let rows ← VarBin.expect (VarBin.iter a)
  encode m hash a.nullable rows

/-- `dict_encode_varbinview`, compress.rs:97-109: the dictionary is decoded to views; its offsets are `u32`. The flag tells whether the
result is of string type. -/
def encodeView (cast : VarBinCanon.Cast) (m : RawMap) (hash : List Byte → Nat) (utf8 : Bool) (a : VarBinView.Arr) :
    Res (List Nat × Bool × VarBinView.Arr) := do
  let rows ← VarBin.expect (VarBinView.iter a)
  let r ← encode m hash a.nullable rows
  let v ← VarBin.expect (VarBinCanon.varbinCanonical cast .u32 utf8 r.2)
  .ok (r.1, v)

end Vx.DictBytes
