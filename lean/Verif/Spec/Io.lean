import Verif.Model.Io
/-!
# The bytes behind a source, a reader and a writer
-/
namespace Vx.Io
open Vx.Buf (Buffer)

/-- The bytes a source stands for; for an object, those the store has under the name. -/
def Src.content (obj : List UInt8) : Src → List UInt8
  | .slice bs => bs
  | .vec bs => bs
  | .buffer b => b.asSlice
  | .file bs => bs
  | .object _ _ => obj
  | .arc s => s.content obj
  | .ref s => s.content obj
  | .offset s off => (s.content obj).drop off

/-- What an object store promises: a range it returns starts where asked and holds the object's bytes, perhaps cut short at the end of
the object; a range inside the object that is not empty is returned; `head` gives the size. -/
structure StoreOk (obj : List UInt8) (get : Nat → Nat → Res (List UInt8)) (head : Res Nat) : Prop where
  sound : ∀ s e bs, get s e = .ok bs → s ≤ e ∧ bs = (obj.drop s).take (e - s)
  inside : ∀ s e, s < e → e ≤ obj.length → ∃ bs, get s e = .ok bs
  head : ∀ n, head = .ok n → n = obj.length

/-- Well-formed sources: buffers inside their allocation, the store keeps its promise, and everything fits in memory or a 64-bit file. -/
def Src.WF (obj : List UInt8) : Src → Prop
  | .slice bs => bs.length < word
  | .vec bs => bs.length < word
  | .buffer b => b.WF ∧ b.len < word
  | .file bs => bs.length < word
  | .object get head => StoreOk obj get head ∧ obj.length < word
  | .arc s => s.WF obj
  | .ref s => s.WF obj
  | .offset s off => s.WF obj ∧ off ≤ (s.content obj).length

/-- How far the adapters shift positions. -/
def Src.shift : Src → Nat
  | .arc s => s.shift
  | .ref s => s.shift
  | .offset s off => s.shift + off
  | _ => 0

/-- Is there an object store at the bottom? -/
def Src.isObject : Src → Bool
  | .object _ _ => true
  | .arc s => s.isObject
  | .ref s => s.isObject
  | .offset s _ => s.isObject
  | _ => false

/-- What a reader has still to deliver. -/
def Rdr.rest (obj : List UInt8) : Rdr → List UInt8
  | .bytesMut bs => bs
  | .cursor s pos => (s.content obj).drop pos
  | .stream bs => bs

/-- What has been written where others can see it. -/
def Wtr.visible : Wtr → Option (List UInt8)
  | .vec bs => some bs
  | .cursor bs _ => some bs
  | .stream bs => some bs
  | .object _ stored => stored

/-- A writer that has written nothing. -/
def Wtr.Fresh : Wtr → Prop
  | .vec bs => bs = []
  | .cursor bs pos => bs = [] ∧ pos = 0
  | .stream bs => bs = []
  | .object mp st => mp = some [] ∧ st = none

/-- The bytes of the write operations. -/
def written : List WOp → List UInt8
  | [] => []
  | .write bs :: os => bs ++ written os
  | _ :: os => written os

end Vx.Io
