import Verif.Model.Expr
/-!
# DataFusion push-down
vortex-datafusion/src/{lib,memory,plans}.rs, vortex-expr/src/{datafusion,binary,column,literal}.rs, vortex-scalar/src/datafusion.rs:122-173.

Columns are stored values with a validity bit each, because the row selector looks at the stored bits and not at the validity. Simplified:
the encoding of a column (the kernels on encoded columns are the subject of C24; here every column is canonical), the validity of the
top-level struct, the schemas attached to batches, the asynchronous polling (a batch is requested only when the previous one was
delivered; here the streams are lists). `create_physical_expr` of DataFusion keeps comparisons, columns and literals as they are
(trusted contract), so logical and physical expressions are one type.
-/
namespace Vx.DF
open Vx.RowExpr (Op cmpV findName)

/-- arrow data types, as far as lib.rs:47-61 distinguishes them; `other` stands for all the rest. -/
inductive DataType where
  | integer | floating | null | boolean | binary | utf8 | binaryView | utf8View | date32 | date64 | timestamp | time32 | time64
  | other (n : Nat)
  deriving DecidableEq, Repr

/-- `supported_data_types`, lib.rs:47-61 -/
def supportedDataTypes : DataType → Bool
  | .other _ => false
  | _ => true

/-- DataFusion's binary operators: the six of `SUPPORTED_BINARY_OPS` (lib.rs:38-45), the two for which `is_logic_operator` holds, the
rest. -/
inductive DOp where
  | eq | notEq | gt | gtEq | lt | ltEq | and | or
  | other (n : Nat)
  deriving DecidableEq, Repr

/-- The guard of lib.rs:162-163. -/
def DOp.supported : DOp → Bool
  | .other _ => false
  | _ => true

/-- `TryFrom<DFOperator> for Operator`, vortex-expr/src/datafusion.rs:42-81 -/
def DOp.convert : DOp → Res Op
  | .eq => .ok .eq
  | .notEq => .ok .neq
  | .lt => .ok .lt
  | .ltEq => .ok .lte
  | .gt => .ok .gt
  | .gtEq => .ok .gte
  | .and => .ok .and
  | .or => .ok .or
  | .other _ => .err

/-- `ScalarValue`: typed, possibly null; `null` is the untyped null. The tag `ty` names the type. -/
inductive Lit (V : Type) where
  | null
  | bool (b : Option Bool)
  | prim (ty : Nat) (v : Option V)
  deriving DecidableEq, Repr

/-- Expressions: comparisons, columns, literals, and every other kind of node (cast, like, in-list, functions ...). -/
inductive DExpr (V : Type) where
  | bin (l : DExpr V) (op : DOp) (r : DExpr V)
  | col (name : List Char)
  | lit (v : Lit V)
  | other (n : Nat)
  deriving DecidableEq, Repr

variable {V : Type}

/-- `lit.data_type()` -/
def Lit.dataType (tyOf : Nat → DataType) : Lit V → DataType
  | .null => .null
  | .bool _ => .boolean
  | .prim ty _ => tyOf ty

/-- `can_be_pushed_down`, lib.rs:159-174 -/
def canPush (tyOf : Nat → DataType) (schema : List (List Char × DataType)) : DExpr V → Bool
  | .bin l op r => op.supported && (canPush tyOf schema l && canPush tyOf schema r)
  | .col n => match findName n schema with
    | some d => supportedDataTypes d
    | none => false
  | .lit v => supportedDataTypes (v.dataType tyOf)
  | .other _ => false

/-- `supports_filters_pushdown`, memory.rs:134-160: `true` is `Exact`, `false` is `Unsupported`. -/
def supportsPushdown (enable : Bool) (tyOf : Nat → DataType) (schema : List (List Char × DataType)) (fs : List (DExpr V)) : List Bool :=
  if enable then fs.map (canPush tyOf schema) else fs.map (fun _ => false)

/-- `conjunction` of datafusion_expr::utils: `filters.into_iter().reduce(Expr::and)` -/
def conjunction : List (DExpr V) → Option (DExpr V)
  | [] => none
  | f :: fs => some (fs.foldl (fun a b => .bin a .and b) f)

/-- A vortex scalar from a literal: nulls lose their type, vortex-scalar/src/datafusion.rs:122-173. -/
inductive VLit (V : Type) where
  | null
  | bool (b : Bool)
  | prim (ty : Nat) (v : V)
  deriving DecidableEq, Repr

def Lit.convert : Lit V → VLit V
  | .bool (some b) => .bool b
  | .prim ty (some v) => .prim ty v
  | _ => .null

/-- vortex-expr/src/{binary,column,literal}.rs -/
inductive VExpr (V : Type) where
  | bin (l : VExpr V) (op : Op) (r : VExpr V)
  | col (name : List Char)
  | lit (v : VLit V)
  deriving DecidableEq, Repr

/-- `convert_expr_to_vortex`, vortex-expr/src/datafusion.rs:12-40 -/
def DExpr.convert : DExpr V → Res (VExpr V)
  | .bin l op r => do
    let x ← l.convert
    let y ← r.convert
    let o ← op.convert
    .ok (.bin x o y)
  | .col n => .ok (.col n)
  | .lit v => .ok (.lit v.convert)
  | .other _ => .err

/-- A stored column: values and validity bits; or an array of type null. -/
inductive RCol (V : Type) where
  | prims (ty : Nat) (vs : List (V × Bool))
  | bools (bs : List (Bool × Bool))
  | nulls (n : Nat)
  deriving DecidableEq, Repr

def RCol.len : RCol V → Nat
  | .prims _ vs => vs.length
  | .bools bs => bs.length
  | .nulls n => n

/-- A chunk of the table: a struct array. -/
structure Chunk (V : Type) where
  n : Nat
  cols : List (List Char × RCol V)
  deriving DecidableEq, Repr

/-- `StructArray::try_new` checks the lengths. -/
def Chunk.WF (c : Chunk V) : Prop := ∀ x ∈ c.cols, x.2.len = c.n

/-- `ConstantArray::new(value, n)`, literal.rs:25-27 -/
def VLit.const (n : Nat) : VLit V → RCol V
  | .null => .nulls n
  | .bool b => .bools (List.replicate n (b, true))
  | .prim ty v => .prims ty (List.replicate n (v, true))

/-- A comparison or boolean kernel on stored values: the value bit is computed from the stored values whatever the validity, the validity
is the conjunction (primitive/compute/compare.rs:17-67, bool/compute/boolean.rs, arrow's kernels). -/
def zipRaw (f : α → β → Bool) (xs : List (α × Bool)) (ys : List (β × Bool)) : List (Bool × Bool) :=
  List.zipWith (fun x y => (f x.1 y.1, x.2 && y.2)) xs ys

/-- vortex-expr/src/binary.rs:41-55 over compute/compare.rs:80-119 and compute/boolean.rs:13-63: lengths and types must agree (nullability
apart); two constants of type null compare to a null constant, whose canonical form stores `false`. -/
def evalOp [LinearOrder V] (op : Op) (l r : RCol V) : Res (RCol V) :=
  if l.len ≠ r.len then .err else
  match op.isBool, l, r with
  | true, .bools a, .bools b => .ok (.bools (zipRaw (fun x y => if op = .and then x && y else x || y) a b))
  | false, .prims t a, .prims u b => if t = u then .ok (.bools (zipRaw (cmpV op) a b)) else .err
  | false, .bools a, .bools b => .ok (.bools (zipRaw (cmpV op) a b))
  | false, .nulls n, .nulls _ => .ok (.bools (List.replicate n (false, false)))
  | _, _, _ => .err

/-- `VortexExpr::evaluate` -/
def VExpr.eval [LinearOrder V] (c : Chunk V) : VExpr V → Res (RCol V)
  | .col n => Res.ofOption (findName n c.cols)
  | .lit v => .ok (v.const c.n)
  | .bin l op r => do
    let x ← l.eval c
    let y ← r.eval c
    evalOp op x y

/-- `references` -/
def VExpr.refs : VExpr V → List (List Char)
  | .col n => [n]
  | .lit _ => []
  | .bin l _ r => l.refs ++ r.refs

/-- `StructArray::project` by names, vortex-array/src/array/struct_/mod.rs:101-129: an unknown name is an error. -/
def projectNames (c : Chunk V) (ns : List (List Char)) : Res (Chunk V) := do
  let cols ← Res.mapM (fun n => do
    let x ← Res.ofOption (findName n c.cols)
    .ok (n, x)) ns
  .ok ⟨c.n, cols⟩

/-- `StructArray::project` by positions: names and children are indexed, out of range panics. -/
def projectIdx (c : Chunk V) (is : List Nat) : Res (Chunk V) := do
  let cols ← Res.mapM (fun i => Res.unwrap c.cols[i]?) is
  .ok ⟨c.n, cols⟩

/-- `selection.as_boolean().values().set_indices()`, plans.rs:160-172: the stored bits, not the validity; `as_boolean` panics on another
type. -/
def setIndices : RCol V → Res (List Nat)
  | .bools bs => .ok ((List.range bs.length).filter (fun i => ((bs[i]?).map (·.1)).getD false))
  | _ => .panic

/-- `RowIndicesStream::poll_next` on one chunk, plans.rs:140-176; `fp` is the set of referenced columns in the order of the hash set. -/
def rowIndices [LinearOrder V] (fp : List (List Char)) (e : VExpr V) (c : Chunk V) : Res (List Nat) := do
  let p ← projectNames c fp
  let s ← e.eval p
  setIndices s

/-- `take` on one column (canonical kernels): out of range panics. -/
def takeCol (is : List Nat) : RCol V → Res (RCol V)
  | .prims t vs => do
    let xs ← Res.mapM (fun (i : Nat) => Res.unwrap vs[i]?) is
    .ok (.prims t xs)
  | .bools bs => do
    let xs ← Res.mapM (fun (i : Nat) => Res.unwrap bs[i]?) is
    .ok (.bools xs)
  | .nulls _ => .ok (.nulls is.length)

/-- `take` on a struct array: every field, struct_/compute.rs -/
def takeChunk (is : List Nat) (c : Chunk V) : Res (Chunk V) := do
  let cols ← Res.mapM (fun x => do
    let y ← takeCol is x.2
    .ok (x.1, y)) c.cols
  .ok ⟨is.length, cols⟩

/-- `TakeRowsStream::poll_next` for the successive batches of row indices, plans.rs:309-357. Without output columns only the number of
rows is sent on, and the chunk counter stays. -/
def takeLoop (table : List (Chunk V)) (proj : List Nat) : (chunkIdx : Nat) → List (List Nat) → Res (List (Chunk V))
  | _, [] => .ok []
  | k, is :: rest => do
    Res.assert (decide (k ≤ table.length))
    if proj.isEmpty then do
      let bs ← takeLoop table proj k rest
      .ok (⟨is.length, []⟩ :: bs)
    else do
      let c ← Res.ofOption table[k]?
      let p ← projectIdx c proj
      let b ← takeChunk is p
      let bs ← takeLoop table proj (k + 1) rest
      .ok (b :: bs)

/-- The two-stage plan of `make_filter_then_take_plan`, memory.rs:188-206. -/
def filterThenTake [LinearOrder V] (fp : List (List Char)) (e : VExpr V) (proj : List Nat) (table : List (Chunk V)) : Res (List (Chunk V)) := do
  let is ← Res.mapM (rowIndices fp e) table
  takeLoop table proj 0 is

/-- `VortexRecordBatchStream`, lib.rs:222-258: one batch per chunk. -/
def fullScan (proj : List Nat) (table : List (Chunk V)) : Res (List (Chunk V)) := Res.mapM (fun c => projectIdx c proj) table

/-- `VortexMemTable::scan` and the execution of its plan, memory.rs:74-132; the limit is ignored. `fp` is the order in which the hash set
of references is walked. -/
def scan [LinearOrder V] (fp : List (List Char)) (ncols : Nat) (projection : Option (List Nat)) (filters : List (DExpr V)) (table : List (Chunk V)) :
    Res (List (Chunk V)) :=
  let proj := projection.getD (List.range ncols)
  match conjunction filters with
  | some e => do
    let v ← e.convert
    filterThenTake fp v proj table
  | none => fullScan proj table

end Vx.DF
