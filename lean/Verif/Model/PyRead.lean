import Verif.Model.FileScan
import Verif.Model.Scalar
/-!
# Reading files from Python
pyvortex/src/{expr,io,dataset}.rs.

Contracts of Python and PyO3 (trusted): `downcast::<PyLong>` accepts booleans (subclass of `int`); `extract` to an integer type fails outside its range
and on floats, `extract` to a float accepts floats and integers; a comparison `x < y` whose left operand does not know the right one is tried as `y > x`,
`x & y` as `y.__rand__(x)` (which `PyExpr` does not have); a class with `__eq__` and without `__ne__` gets `!=` as the negated truth value of `==`, and
objects without `__bool__` are true. `PyExpr` defines `__neq__` (expr.rs:159-164), which is not the name of a Python operator.
-/
namespace Vx.Py
open Vx.Layout Vx.RowExpr Vx.FileScan
open Ipc (Bytes)

/-- Python values. Floats by their bits; `other` is everything else. -/
inductive PyVal where
  | none
  | bool (b : Bool)
  | int (z : Int)
  | float (x : BitVec 64)
  | str (s : Str)
  | bytes (b : Bytes)
  | other (n : Nat)
  deriving DecidableEq

/-- How Python values are stored: `ofFloat p` rounds to the precision of `p`; `intToFloat` is `float(z)` (an error when too large). -/
structure Conv (V : Type) where
  ofInt : Int → V
  ofFloat : PType → BitVec 64 → V
  ofStr : Str → V
  ofBytes : Bytes → V
  intToFloat : Int → Option (BitVec 64)

variable {V : Type}

/-- The scalar of dtype `d` with a value. -/
def prim (kind : DType → Option DF.Ty) (d : DType) (v : V) : Res (Val V) :=
  match kind d with
  | some (.prim t) => .ok (.prim (t + 1) (some v))
  | _ => .err

/-- A value of a Python number at an integer type. -/
def extractInt (p : PType) : PyVal → Res Int
  | .int z => if p.inRange z then .ok z else .err
  | .bool b => .ok (if b then 1 else 0)
  | _ => .err

/-- A value of a Python number as a float. -/
def extractFloat (C : Conv V) : PyVal → Res (BitVec 64)
  | .float x => .ok x
  | .int z => Res.ofOption (C.intToFloat z)
  | .bool b => Res.ofOption (C.intToFloat (if b then 1 else 0))
  | _ => .err

/-- `scalar` and `scalar_value`: expr.rs:242-297. Structs and extension types are `todo!()`. Lists are not operands of the row filter's operators and
are not modelled here (`.err`). -/
def scalarValue (C : Conv V) (kind : DType → Option DF.Ty) (d : DType) (v : PyVal) : Res (Val V) :=
  match d, v with
  | .null, .none => .ok (.prim 0 none)
  | .null, _ => .err
  | .bool _, .bool b => .ok (.bool (some b))
  | .bool _, _ => .err
  | .prim p n, v =>
    if p.isFloat then do
      let x ← extractFloat C v
      prim kind (.prim p n) (C.ofFloat p x)
    else do
      let z ← extractInt p v
      prim kind (.prim p n) (C.ofInt z)
  | .utf8 n, .str s => prim kind (.utf8 n) (C.ofStr s)
  | .utf8 _, _ => .err
  | .binary n, .bytes b => prim kind (.binary n) (C.ofBytes b)
  | .binary _, _ => .err
  | .struct _ _ _, _ => .panic
  | .ext _ _ _, _ => .panic
  | .list _ _, _ => .err

/-- What a Python expression evaluates to: a `PyExpr` or a plain value. -/
inductive Obj (V : Type) where
  | expr (e : Expr V)
  | val (v : PyVal)

/-- `coerce_expr`: expr.rs:123-143 -/
def coerce (C : Conv V) (kind : DType → Option DF.Ty) : Obj V → Res (Expr V)
  | .expr e => .ok e
  | .val v => do
    let s ← match v with
      | .none => scalarValue C kind .null v
      | .int _ | .bool _ => scalarValue C kind (.prim .i64 false) v
      | .float _ => scalarValue C kind (.prim .f64 false) v
      | .str _ => scalarValue C kind (.utf8 false) v
      | .bytes _ => scalarValue C kind (.binary false) v
      | .other _ => .err
    .ok (.lit s)

/-- The operator methods of `PyExpr` (expr.rs:151-206) under Python's dispatch. Operators on two plain values are Python's own and not modelled. -/
def apply (C : Conv V) (kind : DType → Option DF.Ty) (o : Op) : Obj V → Obj V → Res (Obj V)
  | .expr a, r => do
    let b ← coerce C kind r
    if o = .neq then .ok (.val (.bool false)) else .ok (.expr (.bin a o b))
  | .val x, .expr b =>
    if o.isBool then .err else do
      let a ← coerce C kind (.val x)
      if o = .neq then .ok (.val (.bool false)) else .ok (.expr (.bin b o.swap a))
  | .val _, .val _ => .err

/-- A Python expression: `column(n)`, a plain value, `literal(d, v)` (expr.rs:234-240), operators. -/
inductive Src where
  | column (n : Str)
  | value (v : PyVal)
  | literal (d : DType) (v : PyVal)
  | op (l : Src) (o : Op) (r : Src)

/-- Its evaluation, left operand first. -/
def Src.build (C : Conv V) (kind : DType → Option DF.Ty) : Src → Res (Obj V)
  | .column n => .ok (.expr (.col (.name n)))
  | .value v => .ok (.val v)
  | .literal d v => do
    let s ← scalarValue C kind d v
    .ok (.expr (.lit s))
  | .op l o r => do
    let a ← l.build C kind
    let b ← r.build C kind
    apply C kind o a b

/-- The argument `row_filter`: a `PyExpr`, or `None` (io.rs:105, dataset.rs:66, the types in the signatures). -/
def filterArg : Option (Obj V) → Res (Option (Expr V))
  | none => .ok none
  | some (.val .none) => .ok none
  | some (.expr e) => .ok (some e)
  | some (.val _) => .err

/-- The argument `row_filter` as written. -/
def filterSrc (C : Conv V) (kind : DType → Option DF.Ty) : Option Src → Res (Option (Expr V))
  | none => .ok none
  | some s => do
    let o ← s.build C kind
    filterArg (some o)

/-- A field of `projection`: io.rs:115-130; `extract` to `usize`. -/
def fieldArg : PyVal → Res Field
  | .str s => .ok (.name s)
  | .int z => if 0 ≤ z ∧ z < 2 ^ 64 then .ok (.index z.toNat) else .err
  | .bool b => .ok (.index (if b then 1 else 0))
  | _ => .err

/-- `projection`: io.rs:111-133 -/
def projArg : Option (List PyVal) → Res Projection
  | none => .ok .all
  | some l => do
    let fs ← Res.mapM fieldArg l
    .ok (.flat fs)

/-- `async_read` and `read_all`: io.rs:144-186, stream.rs:189-207. One batch is returned as it is, several (or none) as a chunked array: the rows are
those of the batches one after the other. -/
def asyncRead [LinearOrder V] (R : Reader V) (proj : Projection) (batch : Option Nat) (filter : Option (Expr V)) (fuel : Nat) (file : Bytes) :
    Res (DType × Rows (Val V)) := do
  let r ← buildAndRead R proj (batch.getD DEFAULT_BATCH_SIZE) filter fuel file
  .ok (r.1, r.2.flatten)

/-- `vortex.io.read(f, projection, row_filter)`: io.rs:101-142 -/
def read [LinearOrder V] (R : Reader V) (C : Conv V) (projection : Option (List PyVal)) (rowFilter : Option Src) (fuel : Nat) (file : Bytes) :
    Res (DType × Rows (Val V)) := do
  let filter ← filterSrc C R.kind rowFilter
  let proj ← projArg projection
  asyncRead R proj none filter fuel file

/-- `columns`: dataset.rs:70-75, 95-100 -/
def columnsArg : Option (List Str) → Projection
  | none => .all
  | some cs => .flat (cs.map .name)

/-- `Dataset.to_array(columns, batch_size, row_filter)`: dataset.rs:60-86 -/
def toArray [LinearOrder V] (R : Reader V) (C : Conv V) (columns : Option (List Str)) (batch : Option Nat) (rowFilter : Option Src) (fuel : Nat) (file : Bytes) :
    Res (DType × Rows (Val V)) := do
  let filter ← filterSrc C R.kind rowFilter
  asyncRead R (columnsArg columns) batch filter fuel file

/-- The batches `Dataset.to_record_batch_reader` iterates over (dataset.rs:88-121, recordbatchreader.rs:56-61), before their conversion to Arrow (C49). -/
def recordBatches [LinearOrder V] (R : Reader V) (C : Conv V) (columns : Option (List Str)) (batch : Option Nat) (rowFilter : Option Src) (fuel : Nat) (file : Bytes) :
    Res (DType × List (Rows (Val V))) := do
  let filter ← filterSrc C R.kind rowFilter
  buildAndRead R (columnsArg columns) (batch.getD DEFAULT_BATCH_SIZE) filter fuel file

end Vx.Py
