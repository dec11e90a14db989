import Verif.Props.C111
import Verif.Props.C106
/-! # C111 on concrete expressions and batches -/
namespace Vx.Tree
open RowExpr (Field)
namespace ExprEq

/-- A batch with the constant float column `a = [-0.0, -0.0]` and the integer column `b = [1, 3]`. -/
def floats : Arr Empty := .const (.prim .f32 false) minusZero32 2
def ints : Arr Empty := .flat (.prim .i32) [i32 1, i32 3] .nonNullable
def cols2 : List (Str × Arr Empty) := [(aName, floats), (bName, ints)]
def batch2 : Arr Empty := structOf cols2 2 .nonNullable

/-- `a < 0.0` and `a < -0.0`. -/
def below (z : SV) : XExpr := .bin (.col (.name aName)) .lt (.lit (.prim .f32 false) z)

/-- **Two filters that compare equal select different rows**: on the constant column `a = -0.0`, `a < 0.0` selects every row and `a < -0.0` none. -/
theorem C111_zero_filters : Answers (below zero32) (below minusZero32) true ∧
    (∃ m, (below zero32).eval cmpEnv batch2 = .ok m ∧ rows cmpEnv.toEnv noRows m = [.bool true, .bool true]) ∧
    (∃ m, (below minusZero32).eval cmpEnv batch2 = .ok m ∧ rows cmpEnv.toEnv noRows m = [.bool false, .bool false]) :=
  ⟨answers_of (k := 2) rfl, ⟨_, rfl, rfl⟩, ⟨_, rfl, rfl⟩⟩

/-- `Select::exclude(["a"])` -/
def notA : XExpr := .select (.excl [.name aName])

/-- The batch without its second column. -/
def batchA : Arr Empty := structOf [(aName, floats)] 2 .nonNullable

/-- **An exclusion reads columns it does not list**: `Select::exclude(["a"])` lists only `a`, but gives another result once `b` was left out. -/
theorem C111_exclude_references : notA.refs = [.name aName] ∧ (∀ f ∈ notA.refs, columnOf cols2 f = columnOf [(aName, floats)] f) ∧
    notA.eval cmpEnv batch2 = .ok (structOf [(bName, ints)] 2 .nonNullable) ∧ notA.eval cmpEnv batchA = .ok (structOf [] 2 .nonNullable) :=
  ⟨rfl, by simp [notA, XExpr.refs]; rfl, rfl, rfl⟩

/-- **`Identity` lists no columns and reads all of them.** -/
theorem C111_identity_references : XExpr.identity.refs = [] ∧ ∀ (env : CEnv L) (b b' : Arr L), b ≠ b' → XExpr.identity.eval env b ≠ XExpr.identity.eval env b' :=
  ⟨rfl, fun _ _ _ h he => h (by simpa [XExpr.eval] using he)⟩

/-- `b > 1 and (b < 5)`. -/
def between : XExpr := .bin (.bin (.col (.name bName)) .gt (.lit (.prim .i32 false) (i32 1))) .and (.bin (.col (.name bName)) .lt (.lit (.prim .i32 false) (i32 5)))

/-- The hypotheses are met: `between` equals itself, and not the same with another bound. -/
example : Answers between between true ∧ Answers between (.bin (.col (.name bName)) .gt (.lit (.prim .i32 false) (i32 1))) false :=
  ⟨(C111_equality_partial (by simp [between, HasIdentity]) (by rfl) (by rfl) (by rfl)).1 rfl,
    (C111_equality_partial (by simp [between, HasIdentity]) (by rfl) (by rfl) (by rfl)).2 (by simp [between])⟩

/-- Evaluated on the batch projected to `b`, `between` gives what it gives on the batch: the rows false and true. -/
example : ∃ b m, project cmpEnv.toEnv [.name bName] batch2 = .ok b ∧ between.eval cmpEnv b = .ok m ∧ between.eval cmpEnv batch2 = .ok m ∧
    rows cmpEnv.toEnv noRows m = [.bool false, .bool true] := by
  have hb : project cmpEnv.toEnv ([bName].map Field.name) (structOf cols2 2 .nonNullable) = .ok (structOf [(bName, ints)] 2 .nonNullable) := rfl
  have h := C111_projection_partial cmpEnv between (by simp [between, Names]) [bName] (by simp [between, XExpr.refs]) cols2 2 .nonNullable _ hb
  exact ⟨_, _, hb, rfl, h ▸ rfl, rfl⟩

/-- Comparing this expression with itself does not return. -/
example : Hangs (.bin (.col (.name aName)) .eq .identity) (.bin (.col (.name aName)) .eq .identity) :=
  C111_identity_hangs (by simp [HasIdentity]) (by rfl)

end ExprEq
end Vx.Tree
