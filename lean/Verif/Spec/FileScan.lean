import Verif.Model.FileScan
import Verif.Props.C34RoundTrip
/-!
# What a query over files should return

The table's rows are the rows written to its files, one file after the other. A query returns, in that order, the projected columns of the rows on which
every filter is true.
-/
namespace Vx.FileScan
open Vx.Layout
open Vx.DF (DExpr SqlV Ty)
open Ipc (Bytes)

variable {V : Type}

/-- A stored value as a SQL value. -/
def Spec.sqlVal : RowExpr.Val V → SqlV V
  | .prim 0 _ => .null
  | .prim (t + 1) x => .prim t x
  | .bool b => .bool b

/-- A stored value of the given type (possibly null). -/
def Spec.HasTy : Ty → RowExpr.Val V → Prop
  | .prim t, v => ∃ x, v = .prim (t + 1) x
  | .bool, v => ∃ b, v = .bool b

/-- The rows decoded for a column whose dtype has a type are values of that type. -/
def Spec.TypedMeaning (kind : DType → Option Ty) (meaning : DType → Nat → Ipc.Node → Rows (RowExpr.Val V)) : Prop :=
  ∀ d τ, kind d = some τ → ∀ l n, ∀ r ∈ meaning d l n, ∃ v, r = .leaf v ∧ Spec.HasTy τ v

/-- The types of a table's columns: the first column of that name. -/
def Spec.tableTypes (kind : DType → Option Ty) (names : List Str) (dtypes : List DType) (n : Str) : Option Ty :=
  (names.findIdx? (· == n)).bind fun j => (dtypes[j]?).bind kind

/-- Row `k` of the written data, as SQL sees it: column name to value. -/
def Spec.sqlRow (meaning : DType → Nat → Ipc.Node → Rows (RowExpr.Val V)) (names : List Str) (dtypes : List DType) (data : List StructBatch) (k : Nat) :
    Str → Option (SqlV V) := fun n =>
  (names.findIdx? (· == n)).bind fun j =>
    match (Spec.columnRows meaning data j (dtypes.getD j .null))[k]? with
    | some (.leaf v) => some (Spec.sqlVal v)
    | _ => none

/-- The number of rows written to a file. -/
def Spec.rowCount (data : List StructBatch) : Nat := (data.map StructBatch.len).sum

/-- Row `k` of the written data, columns `sel`. -/
def Spec.outRow {α : Type} (meaning : DType → Nat → Ipc.Node → Rows α) (names : List Str) (dtypes : List DType) (sel : List Nat) (data : List StructBatch) (k : Nat) :
    Layout.Row α :=
  structRow (sel.map (Spec.projected meaning names dtypes data)) k

/-- The filter is true on the row. -/
def Spec.isTrue [LinearOrder V] (row : Str → Option (SqlV V)) (f : DExpr V) : Bool := decide (DF.sql row f = some (.bool (some true)))

/-- The rows of one file that a query returns. -/
def Spec.answer [LinearOrder V] (meaning : DType → Nat → Ipc.Node → Rows (RowExpr.Val V)) (names : List Str) (dtypes : List DType) (sel : List Nat)
    (filters : List (DExpr V)) (data : List StructBatch) : Rows (RowExpr.Val V) :=
  ((List.range (Spec.rowCount data)).filter fun k => filters.all fun f => Spec.isTrue (Spec.sqlRow meaning names dtypes data k) f).map
    (Spec.outRow meaning names dtypes sel data)

/-- `data`, written with the layout writer, is `file`. -/
def Spec.IsFileOf (F : FileCodec) (metaNode : List Nat → Ipc.Node) (dtype : DType) (data : List StructBatch) (file : Bytes) : Prop :=
  ∃ w, LayoutWriter.new.writeStream F.msgs dtype data = .ok w ∧ finalize F metaNode w = .ok file

/-- The conjuncts of a filter. -/
def Spec.conjuncts : DExpr V → List (DExpr V)
  | .bin l .and r => Spec.conjuncts l ++ Spec.conjuncts r
  | e => [e]

/-- No `AND` or `OR` in the expression. -/
def Spec.noLogic : DExpr V → Bool
  | .bin l op r => decide (op ≠ .and) && (decide (op ≠ .or) && (Spec.noLogic l && Spec.noLogic r))
  | _ => true

/-- A value that is not null. -/
def Spec.notNull : SqlV V → Bool
  | .prim _ none => false
  | .bool none => false
  | .null => false
  | _ => true

/-- The positions of a projection. -/
def selOf (n : Nat) : Option (List Nat) → List Nat
  | none => List.range n
  | some is => is

/-- The positions a projection selects. -/
def Selects (names : List Str) : Projection → List Nat → Prop
  | .all, sel => sel = List.range names.length
  | .flat fs, sel => fs.map (Layout.Spec.position names) = sel.map some

end Vx.FileScan
