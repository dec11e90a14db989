import Verif.Model.Ipc
/-!
# Specification for IPC: what a tree of arrays looks like to a reader

Paths into a tree, independent of buffer numbering.
-/
namespace Vx.Ipc.Spec
open Vx.Ipc

/-- The array reached from `n` by taking child `p₀`, then child `p₁`, … -/
def nodeAt : Node → List Nat → Option Node
  | n, [] => some n
  | n, i :: p => n.children[i]?.bind (nodeAt · p)

mutual
/-- All buffers of a tree, parents before children, children left to right. -/
def preorder : Node → List Bytes
  | .mk _ _ _ b cs => b.toList ++ preorderAll cs
def preorderAll : List Node → List Bytes
  | [] => []
  | c :: cs => preorder c ++ preorderAll cs
end

mutual
/-- All buffer numbers used in a serialised tree. -/
def indices : FbArray → List Nat
  | .mk _ _ _ i cs => i.toList ++ indicesAll cs
def indicesAll : List FbArray → List Nat
  | [] => []
  | c :: cs => indices c ++ indicesAll cs
end

/-- Follow a path through a view with the reader's own `child` accessor (types and lengths are supplied by the caller). -/
def viewAt (v : View) : List (Nat × DType × Nat) → Res View
  | [] => .ok v
  | (i, d, l) :: p => (v.child i d l).bind (viewAt · p)

/-- One thing written to a stream. -/
inductive Item where
  | dtype (d : DType)
  | batch (n : Node) (length : Nat)
  | page (b : Bytes)

/-- Write a sequence of things. -/
def writeItem (C : Codec) (w : Writer) : Item → Res Writer
  | .dtype d => w.writeDtype C d
  | .batch n l => w.writeBatch C n l
  | .page b => w.writePage C b

def writeItems (C : Codec) (w : Writer) : List Item → Res Writer
  | [] => .ok w
  | i :: is => (writeItem C w i).bind (writeItems C · is)


/-- A client that looks at the kind of the next message and calls the matching read function. -/
def readOne (C : Codec) (ctx : Nat → Bool) (dtype : DType) (r : Reader) : Res (Option Item × Reader) := do
  match ← r.peek C with
  | none => .ok (none, r)
  | some (.schema _) => do
    let (d, r') ← r.readDtype C
    .ok (some (.dtype d), r')
  | some (.batch ..) => do
    let (v, r') ← r.maybeReadChunk C ctx dtype
    let v ← Res.unwrap v
    let n ← readTree v.buffers v.fb
    .ok (some (.batch n v.len), r')
  | some (.page ..) => do
    let (b, r') ← r.maybeReadPage C
    let b ← Res.unwrap b
    .ok (some (.page b), r')

/-- How reading a stream ends. -/
inductive Outcome where
  | done | error | crash
  deriving DecidableEq, Repr

/-- Read until the reader reports the end or fails, at most `fuel` things. -/
def readUpTo (C : Codec) (ctx : Nat → Bool) (dtype : DType) : Nat → Reader → List Item × Outcome
  | 0, _ => ([], .done)
  | fuel + 1, r =>
    match readOne C ctx dtype r with
    | .ok (none, _) => ([], .done)
    | .ok (some i, r') => let (is, o) := readUpTo C ctx dtype fuel r'; (i :: is, o)
    | .err => ([], .error)
    | .panic => ([], .crash)

/-- Open a byte stream and read everything. Each thing takes at least one byte, so this many steps suffice. -/
def readAll (C : Codec) (ctx : Nat → Bool) (dtype : DType) (src : Bytes) : List Item × Outcome :=
  match Reader.tryNew C src with
  | .ok r => readUpTo C ctx dtype (src.length + 1) r
  | .err => ([], .error)
  | .panic => ([], .crash)

end Vx.Ipc.Spec
