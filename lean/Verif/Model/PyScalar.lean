import Verif.Model.Scalar
import Verif.Model.Tree
/-!
# Single values in Python
pyvortex/src/scalar.rs, `scalar_value` and `coerce_expr` of pyvortex/src/expr.rs, `Array.scalar_at` of pyvortex/src/array.rs.

Contracts of Python and PyO3 (trusted): `into_py` of an integer is the `int` with that value, of an `f32` the `float` of the widened number, of `&[u8]`
a `bytes` and of `&str` a `str` (`Buffer` and `BufferString` dereference to these); `PyDict::set_item` replaces the value of a key that is present and
appends otherwise; `extract` to an integer type accepts `int` and `bool` in range, to a float `float`, `int` and `bool`, to `String` only `str`,
to `&[u8]` only `bytes`; `downcast::<PyLong>` accepts `bool`.
-/
namespace Vx.PyScalar

/-- Python objects. A `str` is its UTF-8 bytes; a `dict` its keys and values in insertion order. The last four but one are the classes of scalar.rs:
`Buffer`, `BufferString`, `VortexList`, `VortexStruct`; `other` is any object of another class. -/
inductive Obj where
  | none
  | bool (b : Bool)
  | int (z : Int)
  | float (x : BitVec 64)
  | str (bs : List UInt8)
  | bytes (bs : List UInt8)
  | list (xs : List Obj)
  | dict (ks : List Str) (xs : List Obj)
  | buffer (bs : List UInt8)
  | bufferString (bs : List UInt8)
  | vortexList (vs : List SV) (elem : DType)
  | vortexStruct (vs : List SV) (names : List Str) (dtypes : List DType)
  | other (n : Nat)

/-- `PyDict::set_item` -/
def setItem (k : Str) (x : Obj) : List Str → List Obj → List Str × List Obj
  | k' :: ks, y :: xs => if k' = k then (k' :: ks, x :: xs) else
    let r := setItem k x ks xs
    (k' :: r.1, y :: r.2)
  | _, _ => ([k], [x])

/-- The numbers: scalar.rs:28-38 -/
def numIntoPy (F : FloatOps) : PValue → Obj
  | ⟨.u8, b⟩ => .int (b.toNat : Int)
  | ⟨.u16, b⟩ => .int (b.toNat : Int)
  | ⟨.u32, b⟩ => .int (b.toNat : Int)
  | ⟨.u64, b⟩ => .int (b.toNat : Int)
  | ⟨.i8, b⟩ => .int b.toInt
  | ⟨.i16, b⟩ => .int b.toInt
  | ⟨.i32, b⟩ => .int b.toInt
  | ⟨.i64, b⟩ => .int b.toInt
  | ⟨.f16, b⟩ => .float (F.f2f .f32 .f64 (F.f2f .f16 .f32 b))
  | ⟨.f32, b⟩ => .float (F.f2f .f32 .f64 b)
  | ⟨.f64, b⟩ => .float b

mutual
/-- `scalar_value_into_py`: scalar.rs:20-72 -/
def valueIntoPy (F : FloatOps) (copy : Bool) (v : SV) (d : DType) : Res Obj :=
  match v with
  | .bool b => .ok (.bool b)
  | .prim p => .ok (numIntoPy F p)
  | .buffer bs => .ok (if copy then .bytes bs else .buffer bs)
  | .str bs => .ok (if copy then .str bs else .bufferString bs)
  | .list vs => match d with
    | .list e _ => if copy then (elemsIntoPy F true vs e).bind (fun xs => .ok (.list xs)) else .ok (.vortexList vs e)
    | .struct ns ds _ =>
      if copy then (fieldsIntoPy F true ([], []) vs ns ds).bind (fun r => .ok (.dict r.1 r.2)) else .ok (.vortexStruct vs ns ds)
    | _ => .panic
  | .null => .ok .none
/-- `to_python_list`: scalar.rs:183-195 -/
def elemsIntoPy (F : FloatOps) (copy : Bool) (vs : List SV) (d : DType) : Res (List Obj) :=
  match vs with
  | [] => .ok []
  | v :: vs => (valueIntoPy F copy v d).bind (fun x => (elemsIntoPy F copy vs d).bind (fun xs => .ok (x :: xs)))
/-- The loop of `to_python_dict` over the zipped values, names and types: scalar.rs:243-264 -/
def fieldsIntoPy (F : FloatOps) (copy : Bool) (acc : List Str × List Obj) (vs : List SV) (ns : List Str) (ds : List DType) :
    Res (List Str × List Obj) :=
  match vs with
  | [] => .ok acc
  | v :: vs => match ns, ds with
    | n :: ns, d :: ds => (valueIntoPy F copy v d).bind (fun x => fieldsIntoPy F copy (setItem n x acc.1 acc.2) vs ns ds)
    | _, _ => .ok acc
end

/-- `into_python` of the four classes: scalar.rs:98-106, 132-140, 174-181, 231-238. Other objects have no such method. -/
def intoPython (F : FloatOps) (recursive : Bool) : Obj → Res Obj
  | .buffer bs => .ok (.bytes bs)
  | .bufferString bs => .ok (.str bs)
  | .vortexList vs e => (elemsIntoPy F recursive vs e).bind (fun xs => .ok (.list xs))
  | .vortexStruct vs ns ds => (fieldsIntoPy F recursive ([], []) vs ns ds).bind (fun r => .ok (.dict r.1 r.2))
  | _ => .err

/-- `Array.scalar_at`: array.rs:405-409. The index is extracted as a `usize`. -/
def scalarAt (env : Tree.Env L) (F : FloatOps) (a : Tree.Arr L) (index : Int) : Res Obj :=
  if 0 ≤ index ∧ index < 2 ^ 64 then (a.scalarAt env index.toNat).bind (fun v => valueIntoPy F false v (Tree.dtype env a)) else .err

/-- `extract` to an integer type. -/
def extractInt (p : PType) : Obj → Res PValue
  | .int z => if p.inRange z then .ok ⟨p, BitVec.ofInt p.bits z⟩ else .err
  | .bool b => .ok ⟨p, BitVec.ofInt p.bits (if b then 1 else 0)⟩
  | _ => .err

/-- `extract::<f64>`; `toF` is Python's `float(z)`, which fails on large numbers. -/
def extractFloat (toF : Int → Option (BitVec 64)) : Obj → Res (BitVec 64)
  | .float x => .ok x
  | .int z => Res.ofOption (toF z)
  | .bool b => Res.ofOption (toF (if b then 1 else 0))
  | _ => .err

/-- The number of a primitive type: expr.rs:265-281. `extract::<f32>` is `extract::<f64>` narrowed. -/
def numOfPy (F : FloatOps) (toF : Int → Option (BitVec 64)) (p : PType) (x : Obj) : Res PValue :=
  match p with
  | .f16 => (extractFloat toF x).bind (fun b => .ok ⟨.f16, F.f2f .f32 .f16 (F.f2f .f64 .f32 b)⟩)
  | .f32 => (extractFloat toF x).bind (fun b => .ok ⟨.f32, F.f2f .f64 .f32 b⟩)
  | .f64 => (extractFloat toF x).bind (fun b => .ok ⟨.f64, b⟩)
  | p => extractInt p x

/-- `scalar_value`: expr.rs:255-297. In the list case `list.iter()` iterates over the `Result` of the downcast, not over the list: its only element,
if the downcast succeeds, is the list object itself. Structs and extensions are `todo!()`. -/
def scalarValue (F : FloatOps) (toF : Int → Option (BitVec 64)) (d : DType) (x : Obj) : Res SV :=
  match d with
  | .null => match x with
    | .none => .ok .null
    | _ => .err
  | .bool _ => match x with
    | .bool b => .ok (.bool b)
    | _ => .err
  | .prim p _ => (numOfPy F toF p x).bind (fun p => .ok (.prim p))
  | .utf8 _ => match x with
    | .str bs => .ok (.str bs)
    | _ => .err
  | .binary _ => match x with
    | .bytes bs => .ok (.buffer bs)
    | _ => .err
  | .struct _ _ _ => .panic
  | .list e _ => match x with
    | .list _ => (scalarValue F toF e x).bind (fun v => .ok (.list [v]))
    | _ => .ok (.list [])
  | .ext _ _ _ => .panic

/-- `literal`: expr.rs:234-253 -/
def literal (F : FloatOps) (toF : Int → Option (BitVec 64)) (d : DType) (x : Obj) : Res Scalar :=
  (scalarValue F toF d x).bind (fun v => .ok ⟨d, v⟩)

/-- The literal `coerce_expr` makes of an operand that is not an expression: expr.rs:123-143 -/
def coerce (F : FloatOps) (toF : Int → Option (BitVec 64)) (x : Obj) : Res Scalar :=
  match x with
  | .none => literal F toF .null x
  | .int _ => literal F toF (.prim .i64 false) x
  | .bool _ => literal F toF (.prim .i64 false) x
  | .float _ => literal F toF (.prim .f64 false) x
  | .str _ => literal F toF (.utf8 false) x
  | .bytes _ => literal F toF (.binary false) x
  | _ => .err

end Vx.PyScalar
