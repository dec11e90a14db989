import Verif.Model.FilterBy
import Verif.Props.C16
import Verif.Props.C18
import Verif.Props.C19
/-!
# Boolean arrays as predicates: their rows and what is asked of them
-/
namespace Vx.Tree
namespace Pred

mutual
/-- The rows of a boolean array, encoding by encoding. -/
def rows : Pred → List Bool
  | .plain p => p.bits
  | .const b n => List.replicate n b
  | .sparse s => s.rows.map (fun r => r.getD false)
  | .runEnd r => r.window
  | .byte b => b.bytes.map (fun x => x != 0)
  | .roaring r => (List.range r.len).map (fun i => r.bitmap.contains i)
  | .chunked cs => rowss cs

def rowss : List Pred → List Bool
  | [] => []
  | c :: cs => rows c ++ rowss cs
end

mutual
/-- A well-formed non-nullable boolean array. -/
def WF : Pred → Prop
  | .plain p => p.WF
  | .const _ _ => True
  | .sparse s => s.WF ∧ s.values.validity = .nonNullable ∧ s.fill.isSome = true
  | .runEnd r => r.WF ∧ r.validity = .nonNullable
  | .byte b => ByteBool.WF b ∧ b.validity = .nonNullable
  | .roaring r => Roaring.BWF r
  | .chunked cs => WFs cs

def WFs : List Pred → Prop
  | [] => True
  | c :: cs => WF c ∧ WFs cs
end

/-- Statistics say what is true. -/
def Honest (known : Known) : Prop := ∀ p n, WF p → known p = some n → n = (rows p).count true

/-- The two encodings whose iterators or canonical form may not be the rows: a plain array must not start inside a byte (or the bits must agree), a sparse
array must list exactly its true rows. -/
def Exact : Pred → Prop
  | .plain p => p.iterBits = p.bits
  | .sparse s => s.fill = some false ∧ ∀ b ∈ s.values.vals, b = true
  | _ => True

end Pred

variable {L : Type}

mutual
/-- No struct without columns on the way of a filter. -/
def columned : Arr L → Bool
  | .struct _ fs _ v => !fs.isEmpty && columneds fs && columnedV v
  | .dict codes _ => columned codes
  | .mapped _ enc => columned enc
  | .alpP _ _ enc patches => columned enc && columned patches
  | _ => true
def columneds : List (Arr L) → Bool
  | [] => true
  | c :: cs => columned c && columneds cs
def columnedV : TVal (Arr L) → Bool
  | .array a => columned a
  | _ => true
end

end Vx.Tree
