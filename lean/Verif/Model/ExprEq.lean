import Verif.Model.TreeExpr
/-!
# All expressions: evaluation, references and equality

vortex-expr/src/{identity,select,column,literal,binary,lib}.rs: the five kinds of expression, evaluated over a tree of arrays. `unbox_any` (lib.rs:60-73) only
strips the pointer a nested expression is held by, so an expression stands for itself here.
-/
namespace Vx.Tree
open RowExpr (Field)

/-- The implementors of `VortexExpr`: identity.rs:9, column.rs:13, literal.rs:11, select.rs:11, binary.rs:12 -/
inductive XExpr where
  | identity
  | col (f : Field)
  | lit (dt : DType) (x : SV)
  | select (s : Select)
  | bin (l : XExpr) (op : RowExpr.Op) (r : XExpr)

namespace XExpr

/-- `evaluate`: identity.rs:16-18, column.rs:43-51, literal.rs:25-27, select.rs:31-61, binary.rs:41-55 -/
def eval (env : CEnv L) (batch : Arr L) : XExpr → Res (Arr L)
  | identity => .ok batch
  | col f => evalColumn f batch
  | lit dt x => .ok (.const dt x (len env.toEnv batch))
  | select s => evalSelect env.toEnv s batch
  | bin l op r => do
    let x ← l.eval env batch
    let y ← r.eval env batch
    applyOp env op x y

/-- `collect_references`: column.rs:53-55, select.rs:63-69, binary.rs:57-60; nothing for a literal and for `Identity` (lib.rs:32). A set; here with repetitions. -/
def refs : XExpr → List Field
  | identity => []
  | col f => [f]
  | lit _ _ => []
  | select (.incl fs) => fs
  | select (.excl fs) => fs
  | bin l _ r => l.refs ++ r.refs

/-- Derived `PartialEq` of `Select`: select.rs:10 -/
def selectEq : Select → Select → Bool
  | .incl fs, .incl gs => decide (fs = gs)
  | .excl fs, .excl gs => decide (fs = gs)
  | _, _ => false

/-- `PartialEq<dyn Any>` of the expression `a` against the expression `b`, in at most `k` nested calls (`none`: not answered by then). identity.rs:21-28 calls
itself with the same `other` (`x == other`, where `x` is the downcast `other`); column.rs:59-66, literal.rs:31-38, select.rs:72-79; binary.rs:63-70
compares the operators first, then the left and the right sides of `other` with those of `self`. -/
def eqAny : Nat → XExpr → XExpr → Option Bool
  | 0, _, _ => none
  | k + 1, a, b =>
    match a, b with
    | identity, identity => eqAny k identity b
    | col f, col g => some (decide (g = f))
    | lit d x, lit e y => some (Scalar.eq ⟨e, y⟩ ⟨d, x⟩)
    | select s, select t => some (selectEq s t)
    | bin l op r, bin l' op' r' =>
      if op' ≠ op then some false
      else match eqAny k l' l with
        | some true => eqAny k r' r
        | o => o
    | _, _ => some false

end XExpr
end Vx.Tree
