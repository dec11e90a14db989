import Verif.Spec.FileScan
import Verif.Spec.StoredRows
/-!
# What a query over files of encoded tables should return

Only the rows of the tables and the SQL meaning of the filters appear. `num` is how the comparison kernels order the values of a column; columns whose type they do
not know (`kind` gives nothing) can be returned but not compared.
-/
namespace Vx.Query
open Vx.FileScan (Spec.sqlVal Spec.isTrue Spec.conjuncts Spec.noLogic Spec.notNull)
open Vx.DF (DExpr SqlV Ty)
open Layout (Row)

variable {V : Type} (num : SV → V) (kind : DType → Option Ty)

/-- A value of a column. -/
def cellVal (d : DType) (x : SV) : RowExpr.Val V :=
  match kind d with
  | some (.prim t) => .prim (t + 1) (if x.isNull then none else some (num x))
  | some .bool => .bool (match x with
    | .bool b => some b
    | _ => none)
  | none => .prim 0 (some (num x))

/-- Field `j` of a row. -/
def cellAt (j : Nat) : SV → SV
  | .list vs => vs[j]?.getD .null
  | _ => .null

/-- A row as SQL sees it: column name to value, the first column of that name. -/
def sqlOf (names : List Str) (dtypes : List DType) (r : SV) (n : Str) : Option (SqlV V) :=
  (names.findIdx? (· == n)).map fun j => Spec.sqlVal (cellVal num kind (dtypes.getD j .null) (cellAt j r))

/-- The requested columns of a row. -/
def outOf (names : List Str) (dtypes : List DType) (sel : List Nat) (r : SV) : Row (RowExpr.Val V) :=
  .struct (sel.map fun i => (names.getD i [], .leaf (cellVal num kind (dtypes.getD i .null) (cellAt i r))))

/-- The rows on which every filter is true, their requested columns. -/
def answerRows [LinearOrder V] (names : List Str) (dtypes : List DType) (sel : List Nat) (filters : List (DExpr V)) (rows : List SV) :
    List (Row (RowExpr.Val V)) :=
  (rows.filter fun r => filters.all fun f => Spec.isTrue (sqlOf num kind names dtypes r) f).map (outOf num kind names dtypes sel)

/-- In each row, each conjunct of each filter is free of `AND` and `OR` or mentions no column that is null in this row. -/
def TwoValuedRows (names : List Str) (dtypes : List DType) (filters : List (DExpr V)) (rows : List SV) : Prop :=
  ∀ f ∈ filters, ∀ c ∈ Spec.conjuncts f, Spec.noLogic c = true ∨
    ∀ r ∈ rows, ∀ n ∈ c.cols, ∃ y, sqlOf num kind names dtypes r n = some y ∧ Spec.notNull y = true

/-- Every stretch of 65536 rows, except the last, has a row on which every filter is true. -/
def NoGapRows [LinearOrder V] (names : List Str) (dtypes : List DType) (filters : List (DExpr V)) (rows : List SV) : Prop :=
  ∀ j, (j + 1) * 65536 < rows.length → ∃ k r, j * 65536 ≤ k ∧ k < (j + 1) * 65536 ∧ rows[k]? = some r ∧
    ∀ f ∈ filters, DF.sql (sqlOf num kind names dtypes r) f = some (.bool (some true))

end Vx.Query
