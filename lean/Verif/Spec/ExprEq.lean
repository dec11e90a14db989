import Verif.Model.ExprEq
/-!
# What equality of expressions and the list of their references should say

Two expressions should be equal when they are the same expression. `NoNaN`, `NoMinusZero` and `NoIdentity` name what an expression may be built from.
-/
namespace Vx.Tree
open RowExpr (Field)

/-- A float that is not a number. -/
def notANumber : PValue → Bool
  | ⟨.f16, b⟩ => PValue.fmt16.isNaN b
  | ⟨.f32, b⟩ => Spec.f32.isNaN b
  | ⟨.f64, b⟩ => Spec.f64.isNaN b
  | _ => false

/-- The float `-0.0`: only the sign bit is set. -/
def isMinusZero : PValue → Bool
  | ⟨.f16, b⟩ => b.toNat == 2 ^ 15
  | ⟨.f32, b⟩ => b.toNat == 2 ^ 31
  | ⟨.f64, b⟩ => b.toNat == 2 ^ 63
  | _ => false

mutual
/-- Every number in the value satisfies `p`. -/
def numbersAll (p : PValue → Bool) : SV → Bool
  | .prim v => p v
  | .list xs => numbersAlls p xs
  | _ => true
def numbersAlls (p : PValue → Bool) : List SV → Bool
  | [] => true
  | x :: xs => numbersAll p x && numbersAlls p xs
end

/-- Every literal of the expression satisfies `p`. -/
def literalsAll (p : SV → Bool) : XExpr → Bool
  | .lit _ x => p x
  | .bin l _ r => literalsAll p l && literalsAll p r
  | _ => true

/-- No literal is, or contains, a NaN. -/
def NoNaN (e : XExpr) : Prop := literalsAll (numbersAll (fun p => !notANumber p)) e = true
/-- No literal is, or contains, `-0.0`. -/
def NoMinusZero (e : XExpr) : Prop := literalsAll (numbersAll (fun p => !isMinusZero p)) e = true

/-- Is `Identity` somewhere in the expression? -/
def HasIdentity : XExpr → Prop
  | .identity => True
  | .bin l _ r => HasIdentity l ∨ HasIdentity r
  | _ => False

/-- `a == b` returns, and says `r`. -/
def Answers (a b : XExpr) (r : Bool) : Prop := ∃ n, ∀ k ≥ n, a.eqAny k b = some r
/-- `a == b` does not return. -/
def Hangs (a b : XExpr) : Prop := ∀ k, a.eqAny k b = none

/-- Does the expression say which columns it reads by naming them: no `Identity`, no `Select::Exclude`? -/
def Names : XExpr → Prop
  | .identity => False
  | .select (.excl _) => False
  | .bin l _ r => Names l ∧ Names r
  | _ => True

/-- The column a field stands for, with its name: the first one so called, or the one at the position. -/
def columnOf {α : Type} (cols : List (Str × α)) : Field → Option (Str × α)
  | .name n => cols.find? (fun c => c.1 == n)
  | .index i => cols[i]?

/-- A struct array made of named columns. -/
def structOf (cols : List (Str × Arr L)) (n : Nat) (v : TVal (Arr L)) : Arr L := .struct (cols.map (·.1)) (cols.map (·.2)) n v

end Vx.Tree
