import Verif.Model.SelfDescribe
/-! # C91: what a constructor leaves to its caller, and the arrays built so -/
namespace Vx.Own
open Vx

/-- A validity array must be an array of non-nullable booleans (`to_metadata` checks only its length). -/
def VOwes : Valid → Prop
  | .array a => a.dtype = .bool false
  | _ => True

/-- What the caller of each constructor has to see to, because the constructor does not check it. -/
def Call.Owes : Call → Prop
  | .bool _ _ _ v | .byteBool _ v | .prim _ _ v | .struct _ _ _ v | .varbin _ _ _ v | .delta _ _ v _ _ | .runEndBool _ _ v _ _ => VOwes v
  | .varbinview views _ _ v => views.len % 16 = 0 ∧ VOwes v
  | .runEnd ends values v _ _ => values.len = ends.len ∧ VOwes v
  | .alprd d left _ right _ exc =>
    right.dtype = .prim (if d.withNullability false = .prim .f32 false then .u32 else .u64) false ∧
    (∀ e, exc = some e → e.dtype = left.dtype.withNullability true ∧ e.len = left.len)
  | .bitPacked _ p v patches _ _ _ => (∀ q, patches = some q → q.dtype = .prim p true) ∧ VOwes v
  | .for child rd _ _ _ => ∃ p n m, rd = .prim p n ∧ child.dtype = .prim (toUnsigned p) m
  | _ => True

/-- The arrays a constructor call is given. -/
def Call.args : Call → List Arr
  | .null _ | .constant .. | .roaringBool .. | .roaringInt .. => []
  | .bool _ _ _ v | .byteBool _ v | .prim _ _ v => v.intoArray
  | .struct _ fields _ v => fields ++ v.intoArray
  | .ext _ _ s => [s]
  | .chunked chunks _ => chunks
  | .sparse i v _ _ _ _ => [i, v]
  | .varbin o b _ v => [o, b] ++ v.intoArray
  | .varbinview vs bs _ v => vs :: (bs ++ v.intoArray)
  | .dict c v => [c, v]
  | .runEnd e x v _ _ => [e, x] ++ v.intoArray
  | .runEndBool e _ v _ _ => e :: v.intoArray
  | .alp e _ p => e :: optList p
  | .alprd _ l _ r _ e => [l, r] ++ optList e
  | .bitPacked _ _ v p _ _ _ => optList p ++ v.intoArray
  | .delta b d v _ _ => [b, d] ++ v.intoArray
  | .for c _ _ _ _ => [c]
  | .zigzag e => [e]
  | .fsst _ a b c d => [a, b, c, d]
  | .dateTimeParts _ a b c => [a, b, c]

/-- Arrays built bottom-up by successful constructor calls whose callers met their obligations. -/
inductive Built (C : Compute) : Arr → Prop where
  | mk (c : Call) (a : Arr) (args : ∀ x ∈ c.args, Built C x) (owes : c.Owes) (run : c.run C = .ok a) : Built C a

end Vx.Own
