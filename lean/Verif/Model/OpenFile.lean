import Verif.Model.LayoutFile
/-! # Opening a file and walking through a stream of messages, whatever the bytes are -/
namespace Vx.Layout
open Ipc (Bytes)

variable {α : Type}

/-- `LayoutReaderBuilder::build` without a filter: layouts/read/builder.rs:66-123. The stream is given by its dtype, its schema and its root reader. -/
def build (F : FileCodec) (env : Env α) (init : Nat) (file : Bytes) (size : Nat) (proj : Projection) (batch : Nat) :
    Res (DType × FbDType × (root : FbLayout) × St α root.depth) := do
  let d ← readFooter F init file size
  let schema ← d.schema F
  let dtype ← projectedDType schema proj
  let root ← d.layout F
  let r ← readLayout env root.depth root ⟨proj, batch⟩ ⟨[], .serialized schema .all⟩
  .ok (dtype, schema, ⟨root, r⟩)

end Vx.Layout

namespace Vx.Ipc

/-- What a caller can ask of a `MessageReader`: message_reader.rs:90-195. -/
inductive Ask where
  | dtype
  | chunk (dtype : DType)
  | page

namespace Reader

/-- One request. -/
def serve (C : Codec) (ctx : Nat → Bool) (r : Reader) : Ask → Res Reader
  | .dtype => do let p ← r.readDtype C; .ok p.2
  | .chunk d => do let p ← r.maybeReadChunk C ctx d; .ok p.2
  | .page => do let p ← r.maybeReadPage C; .ok p.2

/-- Requests one after the other, up to the first that fails. -/
def session (C : Codec) (ctx : Nat → Bool) : Reader → List Ask → Res Reader
  | r, [] => .ok r
  | r, a :: as => do let r' ← r.serve C ctx a; session C ctx r' as

end Reader
end Vx.Ipc
