import Verif.Model.ArrowArray
/-!
# Arrow data to Vortex and back in Python: `vortex.array(obj)` and `Array.to_arrow_array()`

pyvortex/src/encode.rs and pyvortex/src/array.rs:74-115, over `Model/ArrowArray.lean`.

Contracts: PyArrow hands arrays over without change, and a null buffer reaches Rust only if some bit is cleared (arrow-data drops the
others when it builds an array; `Handed` in `Spec/PyArrow.lean`); `pyarrow.chunked_array(chunks, type=t)` raises an error when a chunk's
type is not `t`. Simplified: dictionaries, lists and the other types that cannot be imported are `AArr.other`.
-/
namespace Vx.Arrow

/-- What `_encode` accepts, encode.rs:18-27; `other` is any other object. -/
inductive PyObj where
  | array (a : AArr)
  | chunked (ty : AType) (chunks : List AArr)
  | table (schema : AFields) (batches : List Batch)
  | other

/-- The arrays `_encode` makes: one array, or a chunked array with its type. -/
inductive PyVx where
  | flat (v : VArr)
  | chunked (dtype : DType) (chunks : List VArr)

/-- `arrow_array::Array::is_nullable`: some value is null; for a null array, it is not empty. -/
def AArr.isNullable (a : AArr) : Bool :=
  match a with
  | .null n => decide (n ≠ 0)
  | a => match a.nulls with
    | some m => decide (m.count false ≠ 0)
    | none => false

/-- `ChunkedArray::try_new`, vortex-array/src/array/chunked/mod.rs:47-79 -/
def chunkedNew (cs : List VArr) (d : DType) : Res PyVx := if cs.all (fun v => v.dtype = d) then .ok (.chunked d cs) else .err

/-- `_encode`, encode.rs:18-73 -/
def encode : PyObj → Res PyVx
  | .array a => do
    let v ← fromArr a a.isNullable
    .ok (.flat v)
  | .chunked ty chunks => do
    let cs ← Res.mapM (fun a => fromArr a false) chunks
    let d ← fromArrow ty false
    chunkedNew cs d
  | .table schema batches => do
    let d ← fromSchema schema
    let cs ← Res.mapM fromBatch batches
    chunkedNew cs d
  | .other => .err

open Classical in
/-- `pyarrow.chunked_array(chunks, type=ty)` -/
noncomputable def pyChunked (chunks : List AArr) (ty : AType) : Res PyObj := if ∀ a ∈ chunks, a.type = ty then .ok (.chunked ty chunks) else .err

/-- `to_arrow_array`, array.rs:74-115 -/
noncomputable def toArrowArray (c : Ctx) : PyVx → Res PyObj
  | .flat v => do
    let a ← intoArr c v
    .ok (.array a)
  | .chunked _ chunks => do
    let as ← Res.mapM (intoArr c) chunks
    match as with
    | [] => .err
    | a :: rest => pyChunked (a :: rest) a.type

end Vx.Arrow
