import Verif.Model.Walk
/-!
# Encodings a reader knows, and those it does not

The registry of encodings (`Context`, vortex-array/src/context.rs), the id of every encoding of the workspace (`impl_encoding!` and
vortex-array/src/encoding/mod.rs:104-147), `OpaqueEncoding` (vortex-array/src/encoding/opaque.rs:18-47), and views over serialised arrays that look
their encodings up (vortex-array/src/view.rs:44-156).

Simplifications: serialised arrays are those of the 24 encodings of the workspace; an encoding written by a user is known by its id and by what its
`with_dyn` does (`User`). Reading a node as the encoding with its own id parses its metadata (`Model/Meta.lean` has the parsing). The hash map of
a context is a list with one entry per code.
-/
namespace Vx.Registry
open Vx Vx.Own

/-- `EncodingId`: encoding/mod.rs:20-31 -/
structure EncodingId where
  name : String
  code : Nat
deriving DecidableEq

/-- The encodings of the workspace. -/
inductive Std where
  | null | bool | prim | struct | varbin | varbinview | ext | sparse | constant | chunked
  | alp | byteBool | dateTimeParts | dict | bitPacked | delta | for | fsst | roaringBool | roaringInt | runEnd | runEndBool | zigzag | alprd
deriving DecidableEq

/-- The codes `ids`: encoding/mod.rs:106-147 -/
def Std.code : Std → Nat
  | null => 1
  | bool => 2
  | prim => 3
  | struct => 4
  | varbin => 5
  | varbinview => 6
  | ext => 7
  | sparse => 8
  | constant => 9
  | chunked => 10
  | alp => 17
  | byteBool => 18
  | dateTimeParts => 19
  | dict => 20
  | bitPacked => 21
  | delta => 22
  | .for => 23
  | fsst => 24
  | roaringBool => 25
  | roaringInt => 26
  | runEnd => 27
  | runEndBool => 28
  | zigzag => 29
  | alprd => 30

/-- The names: the invocations of `impl_encoding!` -/
def Std.name : Std → String
  | null => "vortex.null"                     -- vortex-array/src/array/null/mod.rs:16
  | bool => "vortex.bool"                     -- array/bool/mod.rs:22
  | prim => "vortex.primitive"                -- array/primitive/mod.rs:30
  | struct => "vortex.struct"                 -- array/struct_/mod.rs:17
  | varbin => "vortex.varbin"                 -- array/varbin/mod.rs:32
  | varbinview => "vortex.varbinview"         -- array/varbinview/mod.rs:214
  | ext => "vortex.ext"                       -- array/extension/mod.rs:16
  | sparse => "vortex.sparse"                 -- array/sparse/mod.rs:21
  | constant => "vortex.constant"             -- array/constant/mod.rs:19
  | chunked => "vortex.chunked"               -- array/chunked/mod.rs:31
  | alp => "vortex.alp"                       -- encodings/alp/src/alp/array.rs:19
  | byteBool => "vortex.bytebool"             -- encodings/bytebool/src/array.rs:17
  | dateTimeParts => "vortex.datetimeparts"   -- encodings/datetime-parts/src/array.rs:17
  | dict => "vortex.dict"                     -- encodings/dict/src/array.rs:19
  | bitPacked => "fastlanes.bitpacked"        -- encodings/fastlanes/src/bitpacking/mod.rs:22
  | delta => "fastlanes.delta"                -- encodings/fastlanes/src/delta/mod.rs:18
  | .for => "fastlanes.for"                   -- encodings/fastlanes/src/for/mod.rs:18
  | fsst => "vortex.fsst"                     -- encodings/fsst/src/array.rs:16
  | roaringBool => "vortex.roaring_bool"      -- encodings/roaring/src/boolean/mod.rs:25
  | roaringInt => "vortex.roaring_int"        -- encodings/roaring/src/integer/mod.rs:25
  | runEnd => "vortex.runend"                 -- encodings/runend/src/array.rs:21
  | runEndBool => "vortex.runendbool"         -- encodings/runend-bool/src/array.rs:19
  | zigzag => "vortex.zigzag"                 -- encodings/zigzag/src/array.rs:22
  | alprd => "vortex.alprd"                   -- encodings/alp/src/alp_rd/array.rs:15

def Std.id (k : Std) : EncodingId := ⟨k.name, k.code⟩

/-- The encoding of an array: `ArrayDef::ENCODING`, implementation.rs:18-25. -/
def std : Enc → Std
  | .null => .null
  | .constant _ => .constant
  | .bool .. => .bool
  | .byteBool _ => .byteBool
  | .prim _ => .prim
  | .struct _ => .struct
  | .ext _ => .ext
  | .chunked _ => .chunked
  | .sparse .. => .sparse
  | .varbin .. => .varbin
  | .varbinview .. => .varbinview
  | .dict .. => .dict
  | .runEnd .. => .runEnd
  | .runEndBool .. => .runEndBool
  | .alp _ => .alp
  | .alprd .. => .alprd
  | .bitPacked .. => .bitPacked
  | .delta .. => .delta
  | .for .. => .for
  | .zigzag => .zigzag
  | .fsst .. => .fsst
  | .dateTimeParts .. => .dateTimeParts
  | .roaringBool => .roaringBool
  | .roaringInt _ => .roaringInt

/-- An `EncodingRef`: one of the workspace, an `OpaqueEncoding`, or a user's. -/
inductive Encoding where
  | std (k : Std)
  | unknown (code : Nat)
  | custom (id : EncodingId)
deriving DecidableEq

/-- `ArrayEncoding::id`: implementation.rs:127-130, opaque.rs:22-24 -/
def Encoding.id : Encoding → EncodingId
  | std k => k.id
  | unknown c => ⟨"vortex.opaque", c⟩
  | custom i => i

/-- `Context`: context.rs:10-13 -/
structure Context where
  entries : List (Nat × Encoding)

namespace Context

/-- `HashMap::insert` -/
def insert (c : Context) (code : Nat) (e : Encoding) : Context := ⟨(code, e) :: c.entries.filter (fun x => x.1 != code)⟩

/-- `with_encoding`: context.rs:16-19 -/
def withEncoding (c : Context) (e : Encoding) : Context := c.insert e.id.code e

/-- `with_encodings`: context.rs:21-25 -/
def withEncodings (c : Context) (es : List Encoding) : Context := es.foldl (fun c e => c.insert e.id.code e) c

/-- `encodings`: context.rs:27-29 -/
def encodings (c : Context) : List Encoding := c.entries.map (·.2)

/-- `lookup_encoding`: context.rs:31-33 -/
def lookup (c : Context) (code : Nat) : Option Encoding := (c.entries.find? (fun x => x.1 == code)).map (·.2)

/-- The encodings of `Context::default`: context.rs:36-55 -/
def defaults : List Std := [.null, .bool, .prim, .struct, .varbin, .varbinview, .ext, .sparse, .constant, .chunked]

/-- `Context::default` -/
def default : Context := (Context.mk []).withEncodings (defaults.map .std)

/-- `ALL_COMPRESSORS_CONTEXT`: vortex-sampling-compressor/src/lib.rs:74-89 -/
def allCompressors : Context := default.withEncodings
  ([Std.alp, .byteBool, .dateTimeParts, .dict, .bitPacked, .delta, .for, .fsst, .roaringBool, .roaringInt, .runEnd, .runEndBool, .zigzag, .alprd].map .std)

/-- The encoding of a child of a view: looked up, or an `OpaqueEncoding` that remembers the code; view.rs:119-128 -/
def resolve (c : Context) (code : Nat) : Encoding := (c.lookup code).getD (.unknown code)

end Context

/-- What a user's encoding does: whether `with_dyn` succeeds on a node, which children its `accept` asks for, and reading one of its integers. -/
structure User where
  withDyn : EncodingId → Node → Res Unit
  visits : EncodingId → DType → Nat → Node → Res (List Slot)
  at_ : EncodingId → Nat → Node → Nat → Res Nat

/-- The code a node was written with: `encoding().id().code()`, vortex-serde/src/messages.rs:113 -/
def nodeCode : Node → Nat
  | .mk e _ _ => (std e).code

/-- An `ArrayView`: view.rs:20-28 -/
structure RView where
  enc : Encoding
  dtype : DType
  len : Nat
  node : Node

/-- `Array::with_dyn` (lib.rs:190-228), which unwraps the error of `with_dyn`: implementation.rs:137-144 and encoding/mod.rs:84-99, where the typed array
is got by `TryFrom` (typed.rs:77-92), which compares ids; opaque.rs:33-42 -/
def withDyn (u : User) (enc : Encoding) (n : Node) : Res Unit :=
  match enc, n with
  | .std k, .mk e _ _ => Res.assert (k == std e)
  | .unknown _, _ => .panic
  | .custom i, n => u.withDyn i n

/-- `ArrayView::try_new`: view.rs:45-88 -/
def tryNew (u : User) (ctx : Context) (d : DType) (len : Nat) (n : Node) : Res RView :=
  match ctx.lookup (nodeCode n) with
  | none => .err
  | some enc => do
    withDyn u enc n
    .ok ⟨enc, d, len, n⟩

/-- `ArrayView::child`: view.rs:113-139 -/
def RView.child (ctx : Context) (v : RView) (idx : Nat) (d : DType) (len : Nat) : Res RView :=
  match v.node with
  | .mk _ _ cs =>
    match cs[idx]? with
    | none => .err
    | some c => .ok ⟨ctx.resolve (nodeCode c), d, len, c⟩

/-- The typed array of an encoding of the workspace: `TryFrom<Array> for TypedArray`, typed.rs:77-92 -/
def typed (k : Std) (v : RView) : Res RView := if v.enc.id = k.id then .ok v else .err

/-- `canonicalize`: implementation.rs:132-135, opaque.rs:26-31; `f` is what the typed array does. -/
def canonicalize (f : RView → Res α) (v : RView) : Res α :=
  match v.enc with
  | .std k => typed k v >>= f
  | .unknown _ => .err
  | .custom _ => f v

/-- Read an element of the chunk offsets, child 0, through `with_dyn`: compute/unary/scalar_at.rs:17-28, chunked/mod.rs:86-90 -/
def offsIn (u : User) (ctx : Context) (C : Compute) (cs : List Node) (n i : Nat) : Res Nat := do
  let c ← Res.unwrap cs[0]?
  match ctx.resolve (nodeCode c) with
  | .std _ => C.viewAt u64 n c i
  | .unknown _ => .panic
  | .custom id => u.at_ id n c i

/-- What an encoding's `accept` asks for. -/
def visitsIn (u : User) (ctx : Context) (C : Compute) (enc : Encoding) (d : DType) (len : Nat) : Node → Res (List Slot)
  | .mk e b cs =>
    match enc with
    | .std k => do
      Res.assert (k == std e)
      visits (offsIn u ctx C cs) cs.length e d len
    | .unknown _ => .panic
    | .custom i => u.visits i d len (.mk e b cs)

/-- `ArrayView::children`: view.rs:150-156 -/
def RView.children (u : User) (ctx : Context) (C : Compute) (v : RView) : Res (List RView) := do
  let slots ← visitsIn u ctx C v.enc v.dtype v.len v.node
  Res.mapM (fun s => expect (v.child ctx s.idx s.dtype s.len)) slots

mutual
/-- What visits a view and everything in it with `accept` and `children`: `sel` picks from what an array shows, `f` joins a view with what its
children gave. -/
def foldIn (u : User) (ctx : Context) (C : Compute) (sel : Enc → List Slot → List Slot) (f : RView → List β → β) (d : DType) (len : Nat) : Node → Res β
  | .mk e b cs => do
    let enc := ctx.resolve (std e).code
    let shown ← visitsIn u ctx C enc d len (.mk e b cs)
    let slots := match enc with
      | .std _ => sel e shown
      | _ => shown
    let _ ← Res.mapM (childView cs) slots
    let kids ← foldAllIn u ctx C sel f slots 0 cs
    .ok (f ⟨enc, d, len, .mk e b cs⟩ kids)
def foldAllIn (u : User) (ctx : Context) (C : Compute) (sel : Enc → List Slot → List Slot) (f : RView → List β → β) (slots : List Slot) (i : Nat) : List Node → Res (List β)
  | [] => .ok []
  | c :: cs => do
    let rest ← foldAllIn u ctx C sel f slots (i + 1) cs
    match slots.find? (·.idx == i) with
    | none => .ok rest
    | some s => do
      let x ← foldIn u ctx C sel f s.dtype s.len c
      .ok (x :: rest)
end

def RView.payload : RView → Enc × List Nat
  | ⟨_, _, _, .mk e b _⟩ => (e, b)

/-- Write a view again: vortex-serde/src/messages.rs:104-163 -/
def rewriteIn (u : User) (ctx : Context) (C : Compute) (d : DType) (len : Nat) (n : Node) : Res Node :=
  foldIn u ctx C (fun _ s => s) (fun v kids => .mk v.payload.1 v.payload.2 kids) d len n

/-- The whole depth-first traversal: lib.rs:231-254 -/
def walkIn (u : User) (ctx : Context) (C : Compute) (d : DType) (len : Nat) (n : Node) : Res (List RView) :=
  foldIn u ctx C (fun _ s => s) (fun v kids => v :: kids.flatten) d len n

/-- `nbytes` of a view: lib.rs:99-101, 282-315, and what bit-packed arrays do instead (`sizeSlots`, `ownBytes`) -/
def nbytesIn (u : User) (ctx : Context) (C : Compute) (size : Enc → List Nat → Nat) (d : DType) (len : Nat) (n : Node) : Res Nat :=
  foldIn u ctx C sizeSlots (fun v kids => ownBytes size v.payload.1 v.len v.payload.2 + kids.sum) d len n

mutual
/-- Read everything through the accessors of the typed arrays, which every array in the tree must be made into first (typed.rs:77-92). -/
def readIn (u : User) (ctx : Context) (C : Compute) (d : DType) (len : Nat) : Node → Res Arr
  | .mk e b cs => do
    Res.guard (decide ((ctx.resolve (std e).code).id = (std e).id))
    let slots ← accessors (offsIn u ctx C cs) cs.length e d len
    let cs' ← readAllIn u ctx C slots 0 cs
    .ok (.mk e d len b cs')
def readAllIn (u : User) (ctx : Context) (C : Compute) (slots : List Slot) (i : Nat) : List Node → Res (List Arr)
  | [] => .ok []
  | c :: cs => do
    let s ← Res.ofOption (slots.find? (·.idx == i))
    let c' ← readIn u ctx C s.dtype s.len c
    let cs' ← readAllIn u ctx C slots (i + 1) cs
    .ok (c' :: cs')
end

end Vx.Registry
