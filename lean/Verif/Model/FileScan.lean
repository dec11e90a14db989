import Verif.Model.LayoutFile
import Verif.Spec.Sql
/-!
# Queries over Vortex files
vortex-datafusion/src/persistent/{provider,execution,opener}.rs, vortex-serde/src/layouts/read/{builder,filtering}.rs.

A table is a list of files. DataFusion hands the provider a projection and the filters it declared exact; every file is opened with the projection by
position and the conjunction of the filters as row filter, and the files' batches follow one another (DataFusion's `FileStream` over one file group:
trusted contract, it opens the files in the order given and stops at the first error). A file's batches are lists of struct rows whose leaves are
values `RowExpr.Val`: the conversion of every batch to a record batch (opener.rs:58) is the subject of C49.

Types of values are tags: an untyped null has tag 0, the type with DataFusion tag `t` has tag `t + 1`.
-/
namespace Vx.FileScan
open Vx.Layout Vx.RowExpr
open Vx.DF (DExpr VExpr VLit)
open Ipc (Bytes)

variable {V : Type}

/-- layouts/read/mod.rs:34 -/
def DEFAULT_BATCH_SIZE : Nat := 65536

/-- The scalar of a literal: nulls have dtype null (vortex-scalar/src/datafusion.rs:122-173). -/
def litVal : VLit V → Val V
  | .null => .prim 0 none
  | .bool b => .bool (some b)
  | .prim t v => .prim (t + 1) (some v)

/-- The expressions `convert_expr_to_vortex` builds (vortex-expr/src/datafusion.rs:12-40: `Column::from(name)`, `Literal`, `BinaryExpr`) in the
expression language of the row filter. -/
def toExpr : VExpr V → Expr V
  | .col n => .col (.name n)
  | .lit v => .lit (litVal v)
  | .bin l op r => .bin (toExpr l) op (toExpr r)

/-- The leaf of a row. -/
def leafOf : Layout.Row (Val V) → Res (Val V)
  | .leaf v => .ok v
  | .struct _ => .err

/-- Field `k` of a struct row. -/
def fieldAt (k : Nat) : Layout.Row (Val V) → Res (Val V)
  | .leaf _ => .err
  | .struct fs => do
    let f ← Res.ofOption fs[k]?
    leafOf f.2

/-- The value of a primitive column of tag `t`. -/
def primOf (t : Nat) : Val V → Res (Option V)
  | .prim u x => if u = t then .ok x else .err
  | .bool _ => .err

/-- The value of a boolean column. -/
def boolOf : Val V → Res (Option Bool)
  | .bool b => .ok b
  | .prim _ _ => .err

/-- A column of the given type. -/
def colOf : DF.Ty → List (Val V) → Res (Col V)
  | .prim t, vs => do
    let xs ← Res.mapM (primOf (t + 1)) vs
    .ok (.prims (t + 1) xs)
  | .bool, vs => do
    let xs ← Res.mapM boolOf vs
    .ok (.bools xs)

/-- The columns of a struct array, numbered from `k`, from its dtype and its rows. `kind` is the type of a column of that dtype, if the comparison
kernels know it. -/
def colsOf (kind : DType → Option DF.Ty) (g : Rows (Val V)) : Nat → List Str → List DType → Res (List (Str × Col V))
  | _, [], _ => .ok []
  | _, _ :: _, [] => .ok []
  | k, n :: ns, d :: ds => do
    let τ ← Res.ofOption (kind d)
    let vs ← Res.mapM (fieldAt k) g
    let c ← colOf τ vs
    let cs ← colsOf kind g (k + 1) ns ds
    .ok ((n, c) :: cs)

/-- A batch of the filter's columns as an array: what a stream of rows leaves implicit is the dtype of the columns. -/
def batchOf (kind : DType → Option DF.Ty) (d : DType) (g : Rows (Val V)) : Res (Batch V) :=
  match d with
  | .struct names dtypes _ => do
    let cs ← colsOf kind g 0 names dtypes
    .ok ⟨g.length, cs⟩
  | _ => .err

/-- `RowFilter::evaluate` on a batch of the filter reader: filtering.rs:27-44, stream.rs:108-123. -/
def evalBatch [LinearOrder V] (kind : DType → Option DF.Ty) (renv : RowExpr.Env V) (schema : FbDType) (refs : List Field) (e : Expr V) (g : Rows (Val V)) :
    Res (List Bool) := do
  let d ← projectedDType schema (.flat refs)
  let b ← batchOf kind d g
  let m ← rowFilter renv e b
  .ok m.vals

/-- `LayoutReaderBuilder::build` with a row filter, then the stream to its end: builder.rs:71-123. `walk` is the order in which the hash set of
references is walked (builder.rs:82-86). -/
def readFileFiltered [LinearOrder V] (F : FileCodec) (env : Layout.Env (Val V)) (init : Nat) (file : Bytes) (size : Nat) (proj : Projection) (batch : Nat)
    (kind : DType → Option DF.Ty) (renv : RowExpr.Env V) (walk : List Field → List Field) (e : Expr V)
    (order : List Message → List Message) (fuel : Nat) : Res (DType × List (Rows (Val V))) := do
  let d ← readFooter F init file size
  let schema ← d.schema F
  let dtype ← projectedDType schema proj
  let root ← d.layout F
  let refs := walk (rowFilterRefs e)
  let batches ← readFiltered env file root schema proj batch refs (evalBatch kind renv schema refs e) order fuel
  .ok (dtype, batches)

/-- `Projection::new` of DataFusion's column positions, or everything: opener.rs:49-51, layouts/read/mod.rs (`Projection::new`). -/
def projectionOf : Option (List Nat) → Projection
  | none => .all
  | some is => .flat (is.map .index)

/-- What opening and reading a file needs besides the file. -/
structure Reader (V : Type) where
  codec : FileCodec
  env : Layout.Env (Val V)
  init : Nat
  kind : DType → Option DF.Ty
  renv : RowExpr.Env V
  walk : List Field → List Field
  order : List Message → List Message

/-- `LayoutReaderBuilder` with a projection, a batch size and perhaps a row filter, built and read to the end: builder.rs:27-123. -/
def buildAndRead [LinearOrder V] (R : Reader V) (proj : Projection) (batch : Nat) (filter : Option (Expr V)) (fuel : Nat) (file : Bytes) :
    Res (DType × List (Rows (Val V))) :=
  match filter with
  | none => readFile R.codec R.env R.init file file.length proj batch R.order fuel
  | some e => readFileFiltered R.codec R.env R.init file file.length proj batch R.kind R.renv R.walk e R.order fuel

/-- The row filter of a predicate: opener.rs:41-43, filtering.rs:16-25. -/
def filterOf : Option (DExpr V) → Res (Option (Expr V))
  | none => .ok none
  | some p => do
    let v ← p.convert
    .ok (some (toExpr v))

/-- `VortexFileOpener::open` and the stream it gives: opener.rs:27-66. `VortexExec` sets no batch size (execution.rs:104), so it is the default. -/
def openFile [LinearOrder V] (R : Reader V) (projection : Option (List Nat)) (predicate : Option (DExpr V)) (fuel : Nat) (file : Bytes) :
    Res (List (Rows (Val V))) := do
  let filter ← filterOf predicate
  let r ← buildAndRead R (projectionOf projection) DEFAULT_BATCH_SIZE filter fuel file
  .ok r.2

/-- `VortexFileTableProvider::scan` and the execution of its plan: provider.rs:58-104, execution.rs:85-113. No files: an empty plan. The limit is
ignored. -/
def scan [LinearOrder V] (R : Reader V) (projection : Option (List Nat)) (filters : List (DExpr V)) (files : List Bytes) (fuel : Nat) :
    Res (List (Rows (Val V))) :=
  if files.isEmpty then .ok [] else do
    let outs ← Res.mapM (openFile R projection (DF.conjunction filters) fuel) files
    .ok outs.flatten

end Vx.FileScan
