import Verif.Model.VarBinView
import Verif.Model.FSST
import Verif.Model.DType
/-!
# Decoding variable-length columns into views
`into_canonical` of `VarBinArray` (vortex-array/src/array/varbin/{flatten,arrow}.rs), of `VarBinViewArray` (varbinview/mod.rs:506-516), of
`FSSTArray` (encodings/fsst/src/canonical.rs) and of chunked string columns (array/chunked/canonical.rs).
-/
namespace Vx.VarBinCanon
open VarBin (Byte nullBuffer)
open VarBinView (newView viewLen isInlined bufIndex bufOffset viewsFrom fromArrow tryNew)

/-- The largest offset that fits the Arrow offsets the array is converted to: varbin/arrow.rs:22-32. `I32`/`I64` are kept, `U64` becomes `I64`,
everything else `I32`. -/
def maxOffset : PType → Nat
  | .i64 | .u64 => 2 ^ 63 - 1
  | _ => 2 ^ 31 - 1

/-- An Arrow string or byte array: whether it is a string array, its offsets, data and null buffer. -/
structure Offs where
  utf8 : Bool
  offsets : List Nat
  data : List Byte
  nulls : Option (List Bool)

/-- `varbin_to_arrow`: varbin/arrow.rs:15-84. `p` is the type of the offsets. `try_cast` fails on a value out of range (property C39). The
buffers are shared. -/
def toArrow (p : PType) (utf8 : Bool) (a : VarBin.Arr) : Res Offs := do
  Res.guard (a.offsets.all (fun o => decide (o ≤ maxOffset p)))
  .ok ⟨utf8, a.offsets, a.bytes, nullBuffer (a.validity.toLogical a.len)⟩

/-- An Arrow view array. -/
structure Views where
  views : List (List Byte)
  buffers : List (List Byte)
  nulls : Option (List Bool)

/-- `arrow_cast::cast(_, Utf8View)` (trusted; the laws assumed of it are in Spec/VarBinCanon.lean). -/
abbrev Cast := Offs → Res Views

/-- `VarBinArray::into_canonical`: varbin/flatten.rs:10-18. The first component of the result says whether the dtype is `Utf8`: the target of
the cast is `Utf8View` whatever the dtype of the array, and `from_arrow` takes the dtype from the Arrow type (arrow/array.rs:129-149). -/
def varbinCanonical (cast : Cast) (p : PType) (utf8 : Bool) (a : VarBin.Arr) : Res (Bool × VarBinView.Arr) := do
  let o ← toArrow p utf8 a
  let w ← cast o
  let b ← fromArrow w.views.flatten w.buffers w.nulls a.nullable
  .ok (true, b)

/-- `VarBinViewArray::into_canonical`: varbinview/mod.rs:506-562. -/
def viewCanonical (utf8 : Bool) (a : VarBinView.Arr) : Res (Bool × VarBinView.Arr) := do
  let b ← fromArrow a.views a.buffers (nullBuffer (a.validity.toLogical a.len)) a.nullable
  .ok (utf8, b)

/-- `FSSTArray::into_canonical`: encodings/fsst/src/canonical.rs:7-64. The offsets are `i32`. -/
def fsstCanonical (cast : Cast) (utf8 : Bool) (a : FSST.Arr) : Res (Bool × VarBinView.Arr) := do
  let v ← FSST.intoVarBin a
  varbinCanonical cast .i32 utf8 v

/-- The loop body of `pack_views` over the views of one chunk: chunked/canonical.rs:218-236. `off` is the number of buffers so far;
`(buffers_offset as u32)` truncates and the addition is checked (a panic) in debug builds and wraps in release builds. -/
def packView (checks : Bool) (off : Nat) (view : List Byte) : Res (List Byte) :=
  if isInlined view then .ok view
  else
    let block := off % 2 ^ 32 + bufIndex view
    if checks && decide (2 ^ 32 ≤ block) then .panic
    else .ok (newView (viewLen view) ((view.drop 4).take 4) (block % 2 ^ 32) (bufOffset view))

/-- The loop of `pack_views` over the chunks, already canonical: chunked/canonical.rs:203-237. -/
def packLoop (checks : Bool) : List VarBinView.Arr → List (List Byte) → List (List Byte) → Res (List (List Byte) × List (List Byte))
  | [], views, buffers => .ok (views, buffers)
  | c :: cs, views, buffers => do
    let ws ← viewsFrom c.views c.len 0
    let ws' ← Res.mapM (packView checks buffers.length) ws
    packLoop checks cs (views ++ ws') (buffers ++ c.buffers)

/-- `pack_views`: chunked/canonical.rs:194-241. -/
def packViews (checks : Bool) (cs : List VarBinView.Arr) (nullable : Bool) (v : Validity) : Res VarBinView.Arr := do
  let r ← packLoop checks cs [] []
  tryNew nullable r.1.flatten r.2 v

/-- `ChunkedArray::into_canonical` on string chunks: chunked/canonical.rs:16-25; the validity collects the chunks' logical validities
(chunked/mod.rs:225-231). -/
def chunkedCanonical (checks : Bool) (nullable : Bool) (cs : List VarBinView.Arr) : Res VarBinView.Arr :=
  packViews checks cs nullable (if nullable then
    ((LogicalValidity.collect (cs.map (fun c => c.validity.toLogical c.len))).toLogical ((cs.map VarBinView.Arr.len).sum)).intoValidity
    else .nonNullable)

end Vx.VarBinCanon
