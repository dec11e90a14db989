import Verif.Model.Registry
import Verif.Spec.Walk
/-! # What a registry of encodings should do -/
namespace Vx.Registry
open Vx Vx.Own

/-- The last of the registered encodings with a code. -/
def lastWith (code : Nat) (es : List Encoding) : Option Encoding := (es.filter (fun e => e.id.code == code)).getLast?

/-- The reader has the encoding of every array in the tree. -/
def Knows (ctx : Context) (a : Arr) : Prop := ∀ x ∈ nodes a, ctx.lookup (std x.enc).code = some (.std (std x.enc))

/-- Nothing else is registered under the code of an array in the tree. -/
def NoOther (ctx : Context) (a : Arr) : Prop :=
  ∀ x ∈ nodes a, ctx.lookup (std x.enc).code = some (.std (std x.enc)) ∨ ctx.lookup (std x.enc).code = none

/-- No user's encoding goes by the id of one of the workspace. -/
def NoImpostor (ctx : Context) : Prop := ∀ i, Encoding.custom i ∈ ctx.encodings → ∀ k : Std, i ≠ k.id

/-- A context made by registering encodings. -/
inductive Reachable : Context → Prop where
  | empty : Reachable ⟨[]⟩
  | default : Reachable .default
  | one (c : Context) (e : Encoding) : Reachable c → Reachable (c.withEncoding e)
  | many (c : Context) (es : List Encoding) : Reachable c → Reachable (c.withEncodings es)

end Vx.Registry
