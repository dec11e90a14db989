import Verif.Model.Scalar
import Verif.Model.Chunked
import Verif.Model.RunEnd
import Verif.Model.FoR
import Verif.Model.ZigZag
/-!
# Trees of encoded arrays: `scalar_at` and `slice`

An `Array` is a tree: an encoding, its metadata and child arrays of any encoding. This file models the checked entry points
(vortex-array/src/compute/unary/scalar_at.rs, vortex-array/src/compute/slice.rs) and, for each encoding, `is_valid`,
`ScalarAtFn::scalar_at`, `ScalarAtFn::scalar_at_unchecked` and `SliceFn::slice` as functions of the *children's* entry points.

Simplifications, all local to this file: the four canonical leaf encodings (primitive, bool, VarBin, VarBinView) are one constructor
`flat` holding the logical content of their buffers (their byte-level models are in `VarBin`, `VarBinView`, `Primitive`, `Kernels`, and the
decoding of VarBin into VarBinView in `VarBinCanon`; a `flat` of kind `binary` stands for a VarBinView, since decoding a VarBin of bytes fails
or makes text of it, `C97_binary_becomes_text`); the
integer children `indices` of a sparse array and `ends` of a run-end array are given by their content; every other encoding is a `leaf`
with operations of its own (`Env`).
-/
namespace Vx.Tree

/-- A validity with an array child: vortex-array/src/validity.rs:52-63 -/
inductive TVal (α : Type) where
  | nonNullable
  | allValid
  | allInvalid
  | array (a : α)

/-- validity.rs:105-110 -/
def TVal.nullable : TVal α → Bool
  | .nonNullable => false
  | _ => true

/-- The logical kind of a canonical leaf. -/
inductive Kind where
  | prim (p : PType)
  | bool
  | utf8
  | binary
  deriving DecidableEq, Repr

def Kind.dtype (n : Bool) : Kind → DType
  | .prim p => .prim p n
  | .bool => .bool n
  | .utf8 => .utf8 n
  | .binary => .binary n

/-- Can the value be stored in such a leaf? -/
def Kind.has : Kind → SV → Bool
  | .prim p, .prim q => q.pt == p
  | .bool, .bool _ => true
  | .utf8, .str _ => true
  | .binary, .buffer _ => true
  | _, _ => false

/-- Encodings with one child that decode value by value: frame-of-reference (encodings/fastlanes/src/for), zigzag (encodings/zigzag) and
ALP without patches (encodings/alp/src/alp). -/
inductive Codec where
  | for (p : PType) (reference : BitVec p.bits) (shift : Nat)
  | zigzag
  | alp (e f : Nat)

/-- An array of any encoding. -/
inductive Arr (L : Type) where
  /-- an encoding not spelled out here -/
  | leaf (l : L)
  /-- vortex-array/src/array/{primitive,bool,varbin,varbinview}/mod.rs -/
  | flat (k : Kind) (vals : List SV) (v : TVal (Arr L))
  /-- vortex-array/src/array/null/mod.rs -/
  | null (n : Nat)
  /-- vortex-array/src/array/constant/mod.rs:36-73 -/
  | const (dt : DType) (x : SV) (n : Nat)
  /-- vortex-array/src/array/chunked/mod.rs:46-82 -/
  | chunked (dt : DType) (cs : List (Arr L))
  /-- vortex-array/src/array/struct_/mod.rs:47-86 -/
  | struct (names : List Str) (fields : List (Arr L)) (n : Nat) (v : TVal (Arr L))
  /-- vortex-array/src/array/extension/mod.rs:30-41 -/
  | ext (id : Str) (metadata : Option (List UInt8)) (storage : Arr L)
  /-- vortex-array/src/array/sparse/mod.rs:48-92 -/
  | sparse (indices : List Nat) (values : Arr L) (n offset : Nat) (fill : SV)
  /-- encodings/dict/src/array.rs:34-49 -/
  | dict (codes values : Arr L)
  /-- encodings/runend/src/array.rs:46-92 -/
  | runEnd (ends : List Nat) (values : Arr L) (v : TVal (Arr L)) (offset n : Nat)
  /-- encodings/fastlanes/src/for/mod.rs:34-54, encodings/zigzag/src/array.rs:34-47, encodings/alp/src/alp/array.rs:33-77 -/
  | mapped (c : Codec) (enc : Arr L)
  /-- ALP with a patches child -/
  | alpP (e f : Nat) (enc patches : Arr L)

/-- What a leaf encoding provides, and the two things taken from elsewhere: the ALP float decoding and the `is_strict_sorted` statistic
of an index array. -/
structure Env (L : Type) where
  len : L → Nat
  dtype : L → DType
  isValid : L → Nat → Res Bool
  scalar : L → Nat → Res SV
  scalarU : L → Nat → Res SV
  slice : L → Nat → Nat → Res (Arr L)
  alpDec : Nat → Nat → PValue → PValue

/-- `PType::to_unsigned` / `to_signed`, vortex-dtype/src/ptype.rs:236-260 -/
def toUnsigned : PType → PType
  | .i8 => .u8
  | .i16 => .u16
  | .i32 => .u32
  | .i64 => .u64
  | p => p

def toSigned : PType → PType
  | .u8 => .i8
  | .u16 => .i16
  | .u32 => .i32
  | .u64 => .i64
  | p => p

def isUnsigned : PType → Bool
  | .u8 | .u16 | .u32 | .u64 => true
  | _ => false

/-- Decode one value. FoR: `reinterpret_cast` then `(v << shift).wrapping_add(reference)`, compute.rs:61-84. ZigZag:
encodings/zigzag/src/compute.rs:28-40. ALP: `decode_single`, encodings/alp/src/alp/compute.rs:50-60. -/
def Codec.dec (env : Env L) : Codec → PValue → PValue
  | .for p r s, q => ⟨p, ((BitVec.ofNat p.bits q.bits.toNat) <<< s) + r⟩
  | .zigzag, ⟨.u8, b⟩ => ⟨.i8, ZigZag.decode b⟩
  | .zigzag, ⟨.u16, b⟩ => ⟨.i16, ZigZag.decode b⟩
  | .zigzag, ⟨.u32, b⟩ => ⟨.i32, ZigZag.decode b⟩
  | .zigzag, ⟨.u64, b⟩ => ⟨.i64, ZigZag.decode b⟩
  | .zigzag, q => q
  | .alp e f, q => env.alpDec e f q

/-- The type of the decoded array, from the child's type: FoR keeps the reference's type (for/mod.rs:40-48), zigzag
(zigzag/src/array.rs:40-42), ALP (alp/array.rs:38-42). -/
def Codec.outType : Codec → DType → Option DType
  | .for p _ _, .prim q n => if q == toUnsigned p && p.isInt then some (.prim p n) else none
  | .zigzag, .prim q n => if isUnsigned q then some (.prim (toSigned q) n) else none
  | .alp _ _, .prim .i32 n => some (.prim .f32 n)
  | .alp _ _, .prim .i64 n => some (.prim .f64 n)
  | _, _ => none

/-- Decode a scalar read from the child. A null child scalar gives a null (FoR: compute.rs:82; zigzag: compute.rs:24-26) or, for ALP, a
panic (`try_into().unwrap()`, compute.rs:53). -/
def Codec.read (env : Env L) (c : Codec) : SV → Res SV
  | .prim p => .ok (.prim (c.dec env p))
  | .null => match c with
    | .alp _ _ => .panic
    | _ => .ok .null
  | _ => .panic

section
variable (env : Env L)

mutual
/-- `Array::len` -/
def len : Arr L → Nat
  | .leaf l => env.len l
  | .flat _ vals _ => vals.length
  | .null n => n
  | .const _ _ n => n
  | .chunked _ cs => lens cs
  | .struct _ _ n _ => n
  | .ext _ _ s => len s
  | .sparse _ _ n _ _ => n
  | .dict codes _ => len codes
  | .runEnd _ _ _ _ n => n
  | .mapped _ enc => len enc
  | .alpP _ _ enc _ => len enc
def lens : List (Arr L) → Nat
  | [] => 0
  | c :: cs => len c + lens cs
end

mutual
/-- `Array::dtype` -/
def dtype : Arr L → DType
  | .leaf l => env.dtype l
  | .flat k _ v => k.dtype v.nullable
  | .null _ => .null
  | .const dt _ _ => dt
  | .chunked dt _ => dt
  | .struct names fs _ v => .struct names (dtypes fs) v.nullable
  | .ext id m s => .ext id m (dtype s).isNullable
  | .sparse _ values _ _ _ => dtype values
  | .dict _ values => dtype values
  | .runEnd _ values _ _ _ => dtype values
  | .mapped c enc => (c.outType (dtype enc)).getD .null
  | .alpP e f enc _ => ((Codec.alp e f).outType (dtype enc)).getD .null
def dtypes : List (Arr L) → List DType
  | [] => []
  | c :: cs => dtype c :: dtypes cs
end

end

mutual
/-- Number of levels of the tree; two for an encoding not spelled out, whose decoded form is a plain array with a validity child. -/
def depth : Arr L → Nat
  | .leaf _ => 2
  | .flat _ _ v => 1 + depthV v
  | .chunked _ cs => 1 + depths cs
  | .struct _ fs _ v => 1 + max (depths fs) (depthV v)
  | .ext _ _ s => 1 + depth s
  | .sparse _ values _ _ _ => 1 + depth values
  | .dict codes values => 1 + max (depth codes) (depth values)
  | .runEnd _ values v _ _ => 1 + max (depth values) (depthV v)
  | .mapped _ enc => 1 + depth enc
  | .alpP _ _ enc patches => 1 + max (depth enc) (depth patches)
  | _ => 1
def depths : List (Arr L) → Nat
  | [] => 0
  | c :: cs => max (depth c) (depths cs)
def depthV : TVal (Arr L) → Nat
  | .array a => depth a
  | _ => 0
end

/-- `usize::try_from(&scalar)`: a non-negative integer scalar. -/
def asIdx : SV → Option Nat
  | .prim p => if p.pt.isInt && decide (0 ≤ p.toInt) then some p.toInt.toNat else none
  | _ => none

mutual
/-- `ScalarValue::is_instance_of`, vortex-scalar/src/value.rs:77-95 -/
def inst : SV → DType → Bool
  | .bool _, .bool _ => true
  | .prim p, .prim q _ => p.pt == q
  | .buffer _, .binary _ => true
  | .str _, .utf8 _ => true
  | .list vs, .list d _ => instAll vs d
  | .list vs, .struct _ ds _ => instEach vs ds
  | .null, d => d.isNullable
  | _, _ => false
def instAll : List SV → DType → Bool
  | [], _ => true
  | v :: vs, d => inst v d && instAll vs d
def instEach : List SV → List DType → Bool
  | v :: vs, d :: ds => inst v d && instEach vs ds
  | _, _ => true
end

/-- The entry points of an array that reading needs. -/
structure Ops (L : Type) where
  isValid : Arr L → Nat → Res Bool
  scalarAt : Arr L → Nat → Res SV
  scalarAtU : Arr L → Nat → Res SV
  slice : Arr L → Nat → Nat → Res (Arr L)

/-! ### Constructors with their checks -/

section
variable (env : Env L)

/-- `Validity::to_metadata(length)`, validity.rs:69-87 -/
def checkV (v : TVal (Arr L)) (n : Nat) : Res Unit :=
  match v with
  | .array a => if len env a ≠ n then .err else .ok ()
  | _ => .ok ()

/-- `StructArray::try_new`, struct_/mod.rs:47-86 -/
def mkStruct (names : List Str) (fs : List (Arr L)) (n : Nat) (v : TVal (Arr L)) : Res (Arr L) := do
  Res.guard (names.length == fs.length)
  Res.guard (fs.all (fun f => len env f == n))
  checkV env v n
  .ok (.struct names fs n v)

/-- `ChunkedArray::try_new`, chunked/mod.rs:46-82 -/
def mkChunked (dt : DType) (cs : List (Arr L)) : Res (Arr L) := do
  Res.guard (cs.all (fun c => decide (dtype env c = dt)))
  .ok (.chunked dt cs)

/-- The last-index test of `SparseArray::try_new_with_offset`, sparse/mod.rs:70-81 -/
def checkLast (indices : List Nat) (n offset : Nat) : Res Unit :=
  match indices.getLast? with
  | none => .ok ()
  | some last => do
    let d ← Res.sub last offset
    if d ≥ n then .err else .ok ()

/-- `SparseArray::try_new_with_offset`, sparse/mod.rs:48-92 -/
def mkSparse (indices : List Nat) (values : Arr L) (n offset : Nat) (fill : SV) : Res (Arr L) := do
  Res.guard (inst fill (dtype env values))
  Res.guard (indices.length == len env values)
  checkLast indices n offset
  .ok (.sparse indices values n offset fill)

/-- `DictArray::try_new`, dict/src/array.rs:34-49 -/
def mkDict (codes values : Arr L) : Res (Arr L) :=
  match dtype env codes with
  | .prim p false => if isUnsigned p then .ok (.dict codes values) else .err
  | _ => .err

/-- `RunEndArray::with_offset_and_length`, runend/src/array.rs:46-92 -/
def mkRunEnd (ends : List Nat) (values : Arr L) (v : TVal (Arr L)) (offset n : Nat) : Res (Arr L) := do
  Res.guard ((dtype env values).isNullable == v.nullable)
  RunEnd.checkFirst ends offset
  Res.guard (RunEnd.strictSorted ends)
  checkV env v n
  .ok (.runEnd ends values v offset n)

/-- `FoRArray::try_new`, `ZigZagArray::try_new`, `ALPArray::try_new` without patches. `FoRArray::try_new` does not look at the child's
type; here a wrong type is an error (the theorems only concern well-formed arrays). -/
def mkMapped (c : Codec) (enc : Arr L) : Res (Arr L) :=
  match c.outType (dtype env enc) with
  | some _ => .ok (.mapped c enc)
  | none => .err

/-- `ALPArray::try_new`, alp/array.rs:33-77 -/
def mkAlpP (e f : Nat) (enc patches : Arr L) : Res (Arr L) :=
  match (Codec.alp e f).outType (dtype env enc) with
  | none => .err
  | some d =>
    if len env patches ≠ len env enc then .err
    else if !(DType.eqIgnoreNullability (dtype env patches) d) || !(dtype env patches).isNullable then .err
    else .ok (.alpP e f enc patches)

/-! ### Validity -/

variable (o : Ops L)

/-- `Validity::is_valid`, validity.rs:112-128: the child is read with `scalar_at_unchecked`. -/
def isValidV (v : TVal (Arr L)) (i : Nat) : Res Bool :=
  match v with
  | .nonNullable => .ok true
  | .allValid => .ok true
  | .allInvalid => .ok false
  | .array a => do
    match ← o.scalarAtU a i with
    | .bool b => .ok b
    | _ => .panic

/-- `Validity::slice`, validity.rs:135-140 -/
def sliceV (v : TVal (Arr L)) (s e : Nat) : Res (TVal (Arr L)) :=
  match v with
  | .array a => do
    let b ← o.slice a s e
    .ok (.array b)
  | v => .ok v

/-- `search_index(i).to_found()`, sparse/mod.rs:124-130 -/
def sparseFind (indices : List Nat) (offset i : Nat) : Res (Option Nat) := do
  let r ← searchSlice compare indices (offset + i) .left
  .ok r.toFound

/-- `find_physical_index`, runend/src/array.rs:95-98 -/
def physical (ends : List Nat) (i : Nat) : Res Nat := do
  let r ← searchSlice compare ends i .right
  r.toEndsIndex ends.length

/-- `ArrayValidity::is_valid` of each encoding: null/mod.rs, constant/mod.rs:84-86, chunked/mod.rs:216-223, struct_/mod.rs,
extension/mod.rs:76-78, sparse/mod.rs:187-193, dict/src/array.rs:78-87, runend/src/array.rs, for/mod.rs, zigzag/src/array.rs, alp/array.rs
(the last three ask the encoded child). -/
def isValid (a : Arr L) (i : Nat) : Res Bool :=
  match a with
  | .leaf l => env.isValid l i
  | .flat _ _ v => isValidV o v i
  | .null _ => .ok false
  | .const _ x _ => .ok (!x.isNull)
  | .chunked _ cs => do
    let (k, j) ← Chunked.findChunkIdx (cs.map (len env)) i
    let c ← Res.unwrap cs[k]?
    o.isValid c j
  | .struct _ _ _ v => isValidV o v i
  | .ext _ _ s => o.isValid s i
  | .sparse is values _ off fill => do
    match ← sparseFind is off i with
    | none => .ok (!fill.isNull)
    | some k => o.isValid values k
  | .dict codes values => do
    let c ← o.scalarAt codes i
    let k ← Res.unwrap (asIdx c)
    o.isValid values k
  | .runEnd _ _ v _ _ => isValidV o v i
  | .mapped _ enc => o.isValid enc i
  | .alpP _ _ enc _ => o.isValid enc i

/-! ### `scalar_at` -/

/-- `ScalarAtFn::scalar_at` of each encoding: chunked/compute/scalar_at.rs:8-11, struct_/compute.rs:31-39, extension/compute.rs:69-74,
constant/compute.rs, sparse/compute/mod.rs:37-43, dict/src/compute.rs:27-31, runend/src/compute.rs:26-29, for/compute.rs:61-64,
zigzag/src/compute.rs:22-41, alp/compute.rs:37-60. -/
def scalarFn (a : Arr L) (i : Nat) : Res SV :=
  match a with
  | .leaf l => env.scalar l i
  | .flat _ vals _ => idx vals i
  | .null _ => .ok .null
  | .const _ x _ => .ok x
  | .chunked _ cs => do
    let (k, j) ← Chunked.findChunkIdx (cs.map (len env)) i
    let c ← Chunked.chunk cs k
    o.scalarAt c j
  | .struct _ fs _ _ => do
    let xs ← Res.mapM (fun f => o.scalarAt f i) fs
    .ok (.list xs)
  | .ext _ _ s => o.scalarAt s i
  | .sparse is values _ off fill => do
    match ← sparseFind is off i with
    | none => .ok fill
    | some k => o.scalarAtU values k
  | .dict codes values => do
    let c ← o.scalarAt codes i
    let k ← Res.ofOption (asIdx c)
    o.scalarAtU values k
  | .runEnd ends values _ off _ => do
    let k ← physical ends (i + off)
    o.scalarAt values k
  | .mapped c enc => do
    let x ← o.scalarAtU enc i
    c.read env x
  | .alpP e f enc patches => do
    let b ← o.isValid patches i
    if b then o.scalarAtU patches i
    else do
      let x ← o.scalarAtU enc i
      (Codec.alp e f).read env x

/-- `ScalarAtFn::scalar_at_unchecked` of each encoding (same places); errors become panics. -/
def scalarFnU (a : Arr L) (i : Nat) : Res SV :=
  match a with
  | .leaf l => env.scalarU l i
  | .flat _ vals _ => idx vals i
  | .null _ => .ok .null
  | .const _ x _ => .ok x
  | .chunked _ cs => do
    let (k, j) ← Chunked.findChunkIdx (cs.map (len env)) i
    let c ← Res.unwrap cs[k]?
    o.scalarAtU c j
  | .struct _ fs _ _ => do
    let xs ← Res.mapM (fun f => o.scalarAtU f i) fs
    .ok (.list xs)
  | .ext _ _ s => o.scalarAtU s i
  | .sparse is values _ off fill => do
    match ← sparseFind is off i with
    | none => .ok fill
    | some k => o.scalarAtU values k
  | .dict codes values => do
    let c ← o.scalarAtU codes i
    let k ← Res.unwrap (asIdx c)
    o.scalarAtU values k
  | .runEnd ends values _ off _ => do
    let k ← physical ends (i + off)
    o.scalarAtU values k
  | .mapped c enc => do
    let x ← o.scalarAtU enc i
    c.read env x
  | .alpP e f enc patches => do
    let b ← o.isValid patches i
    if b then o.scalarAtU patches i
    else do
      let x ← o.scalarAtU enc i
      (Codec.alp e f).read env x

/-- The checked entry point, compute/unary/scalar_at.rs:12-27. -/
def scalarAt (a : Arr L) (i : Nat) : Res SV :=
  if i ≥ len env a then .err
  else do
    let v ← isValid env o a i
    if !v then .ok .null else scalarFn env o a i

/-! ### `slice` -/

/-- `SliceFn::slice` of each encoding: primitive/compute/slice.rs, bool/compute/slice.rs, varbin/compute/slice.rs, null/compute.rs:27-31,
constant/compute.rs, chunked/compute/slice.rs:7-36, struct_/compute.rs:65-79, extension/compute.rs:84-92, sparse/compute/slice.rs:7-21,
dict/src/compute.rs:60-65, runend/src/compute.rs:94-108, for/compute.rs:87-96, zigzag/src/compute.rs:71-75, alp/compute.rs:76-86. The
index searches of the sparse and run-end arrays are in `Sparse.slice` and `RunEnd.slice`. -/
def sliceFn (a : Arr L) (s e : Nat) : Res (Arr L) :=
  match a with
  | .leaf l => env.slice l s e
  | .flat k vals v => do
    let w ← sliceV o v s e
    .ok (.flat k ((vals.drop s).take (e - s)) w)
  | .null _ => .ok (.null (e - s))
  | .const dt x _ => .ok (.const dt x (e - s))
  | .chunked dt cs => do
    let out ← Chunked.slice (len env) o.slice cs s e
    mkChunked env dt out
  | .struct names fs _ v => do
    let gs ← Res.mapM (fun f => o.slice f s e) fs
    let w ← sliceV o v s e
    mkStruct env names gs (e - s) w
  | .ext id m st => do
    let t ← o.slice st s e
    .ok (.ext id m t)
  | .sparse is values _ off fill => do
    let rs ← searchSlice compare is (off + s) .left
    let re ← searchSlice compare is (off + e) .left
    let js ← sliceList is rs.toIndex re.toIndex
    let vs ← o.slice values rs.toIndex re.toIndex
    mkSparse env js vs (e - s) (off + s) fill
  | .dict codes values => do
    let c ← o.slice codes s e
    mkDict env c values
  | .runEnd ends values v off _ => do
    let b ← physical ends (s + off)
    let t ← physical ends (e + off)
    let es ← sliceList ends b (t + 1)
    let vs ← o.slice values b (t + 1)
    let w ← sliceV o v s e
    mkRunEnd env es vs w (s + off) (e - s)
  | .mapped c enc => do
    let x ← o.slice enc s e
    mkMapped env c x
  | .alpP x f enc patches => do
    let n ← o.slice enc s e
    let p ← o.slice patches s e
    mkAlpP env x f n p

/-- The checked entry point, compute/slice.rs:22-47. -/
def slice (a : Arr L) (s e : Nat) : Res (Arr L) :=
  if s > len env a then .err
  else if e > len env a then .err
  else if s > e then .err
  else sliceFn env o a s e

/-- One level of the tree on top of children whose entry points are `o`. -/
def step : Ops L := ⟨isValid env o, scalarAt env o, scalarFnU env o, slice env o⟩

end

/-- The entry points for arrays of at most `d` levels. -/
def ops (env : Env L) : Nat → Ops L
  | 0 => ⟨fun _ _ => .panic, fun _ _ => .panic, fun _ _ => .panic, fun _ _ _ => .panic⟩
  | d + 1 => step env (ops env d)

/-- `scalar_at(array, i)` -/
def Arr.scalarAt (env : Env L) (a : Arr L) (i : Nat) : Res SV := (ops env (depth a)).scalarAt a i

/-- `slice(array, s, e)` -/
def Arr.slice (env : Env L) (a : Arr L) (s e : Nat) : Res (Arr L) := (ops env (depth a)).slice a s e

/-- `array.with_dyn(|a| a.is_valid(i))` -/
def Arr.isValid (env : Env L) (a : Arr L) (i : Nat) : Res Bool := (ops env (depth a)).isValid a i

end Vx.Tree
