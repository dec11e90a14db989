import Verif.Model.TreeStruct
import Verif.Model.TreeBulk
import Verif.Model.Dict
/-!
# The sampling compressor (vortex-sampling-compressor)

`SamplingCompressor::compress` and the compressors it drives, on trees of encoded arrays. Everything that only influences *which*
encoding is chosen - statistics, sizes, samples, the objective, costs, the order of a hash set, the trained parameters kept in a
compression tree - is a parameter (`Choice`), so what is proved holds for every outcome of those decisions.

Simplifications: the children `indices` of sparse and `ends` of run-end arrays are given by their content (see `Model/Tree.lean`), so
compressing them leaves this representation as it is; compressors of encodings outside the tree model (bit-packing, FSST, delta, ALP-RD,
date-time parts, roaring) are functions of the whole array (`leafEnc`), the bodies of which are modelled with their encodings; the debug
assertions `check_validity_unchanged` / `check_dtype_unchanged` (lib.rs:218-219, 232-233) are left out.
-/
namespace Vx.Tree

/-- `EncodingCompressor::id` of the compressors in vortex-sampling-compressor/src/compressors/ -/
inductive CId where
  | alp | alpRd | bitPacked | bitPackedNoPatches | dateTimeParts | delta | runEnd | dict | for | fsst | roaringBool | roaringInt
  | sparse | zigzag | constant | struct | chunked
  deriving DecidableEq, Repr

/-- `CompressionTree`, compressors/mod.rs:61-66 (the metadata, trained parameters and ratios, are part of the parameters). -/
inductive CTree where
  | node (id : CId) (children : List (Option CTree))

def CTree.id : CTree → CId
  | .node i _ => i

def CTree.children : CTree → List (Option CTree)
  | .node _ cs => cs

/-- The mutable part of `SamplingCompressor`, lib.rs:137-146. -/
structure Ctx where
  compressors : List CId
  depth : Nat
  disabled : List CId

/-- `auxiliary`, lib.rs:200-205 (the path is only for logging) -/
def Ctx.auxiliary (c : Ctx) : Ctx := { c with disabled := [] }

/-- `excluding`, lib.rs:218-222 -/
def Ctx.excluding (c : Ctx) (i : CId) : Ctx := { c with disabled := i :: c.disabled }

/-- `including`, lib.rs:224-228 -/
def Ctx.including (c : Ctx) (i : CId) : Ctx := { c with compressors := if i ∈ c.compressors then c.compressors else i :: c.compressors }

/-- The result of a compression: `CompressedArray`, mod.rs:173-177. -/
abbrev Out (L : Type) := Arr L × Option CTree

/-- The decisions and the parts modelled elsewhere. -/
structure Choice (L : Type) where
  /-- `can_compress` of every compressor but the two that look at the encoding only -/
  can : CId → Arr L → Bool
  cost : CId → Nat
  maxCost : Nat
  /-- is it the compressor of the array's own encoding? -/
  own : CId → Arr L → Bool
  /-- `array.len() <= sample_size * sample_count`, lib.rs:312 -/
  small : Arr L → Bool
  /-- the sample, lib.rs:318-332 -/
  sample : Arr L → Res (Arr L)
  /-- is the candidate's objective better than the best so far? lib.rs:365-389 -/
  better : Option (Out L) → Out L → Arr L → Bool
  /-- is the ratio of a chunk unsatisfactory? chunked.rs:122-128 -/
  unsatisfactory : Arr L → Arr L → Option CTree → Bool
  nbytes : Arr L → Nat
  targetBytes : Nat
  targetRows : Nat
  /-- the compressors of the other encodings; `none` is "left as it is" -/
  leafEnc : CId → Arr L → Option CTree → Res (Option L)
  /-- `ALPFloat::encode` of stored values: exponents, encoded integers, positions of the exceptions -/
  alpEnc : PType → List SV → Res (Nat × Nat × List SV × List Nat)

/-! ### Encoders on plain arrays -/

mutual
/-- Equality of stored values, bit for bit. -/
def svEq : SV → SV → Bool
  | .bool a, .bool b => a == b
  | .prim p, .prim q => decide (p = q)
  | .buffer a, .buffer b => a == b
  | .str a, .str b => a == b
  | .list a, .list b => svsEq a b
  | .null, .null => true
  | _, _ => false
def svsEq : List SV → List SV → Bool
  | [], [] => true
  | x :: xs, y :: ys => svEq x y && svsEq xs ys
  | _, _ => false
end

mutual
theorem svEq_iff : ∀ x y : SV, svEq x y = true ↔ x = y
  | .bool a, y => by cases y <;> simp [svEq]
  | .prim p, y => by cases y <;> simp [svEq]
  | .buffer a, y => by cases y <;> simp [svEq]
  | .str a, y => by cases y <;> simp [svEq]
  | .list a, y => by
    cases y with
    | list b => simp [svEq, svsEq_iff a b]
    | _ => simp [svEq]
  | .null, y => by cases y <;> simp [svEq]
theorem svsEq_iff : ∀ xs ys : List SV, svsEq xs ys = true ↔ xs = ys
  | [], ys => by cases ys <;> simp [svsEq]
  | x :: xs, ys => by
    cases ys with
    | nil => simp [svsEq]
    | cons y ys => simp [svsEq, svEq_iff x y, svsEq_iff xs ys]
end

instance : DecidableEq SV := fun x y => if h : svEq x y = true then .isTrue ((svEq_iff x y).mp h) else .isFalse (fun hh => h ((svEq_iff x y).mpr hh))

/-- `T::encode` of the zigzag crate on a stored value, encodings/zigzag/src/compress.rs:10-36. -/
def zigzagVal : SV → SV
  | .prim ⟨.i8, b⟩ => .prim ⟨.u8, ZigZag.encode b⟩
  | .prim ⟨.i16, b⟩ => .prim ⟨.u16, ZigZag.encode b⟩
  | .prim ⟨.i32, b⟩ => .prim ⟨.u32, ZigZag.encode b⟩
  | .prim ⟨.i64, b⟩ => .prim ⟨.u64, ZigZag.encode b⟩
  | x => x

def isSigned : PType → Bool
  | .i8 | .i16 | .i32 | .i64 => true
  | _ => false

/-- The bits of a stored value of type `p`. -/
def rawBits (p : PType) : SV → BitVec p.bits
  | .prim q => BitVec.ofNat p.bits q.bits.toNat
  | _ => 0

/-- A stored value from its bits. -/
def ofBits (p : PType) (b : BitVec w) : SV := .prim ⟨p, BitVec.ofNat p.bits b.toNat⟩

/-- The plain array with its validity read out (`maybe_null_slice` and `to_logical`). -/
def toPArr (p : PType) (vals : List SV) (lv : LogicalValidity) : PArr (BitVec p.bits) := ⟨vals.map (rawBits p), lv.intoValidity⟩

/-- `T: PartialEq` on stored values: IEEE comparison for floats (a NaN differs from everything, the two zeros are equal), bits
otherwise. -/
def floatParts : PType → Option (Nat × Nat)
  | .f16 => some (5, 10)
  | .f32 => some (8, 23)
  | .f64 => some (11, 52)
  | _ => none

def isNaN (q : PValue) : Bool :=
  match floatParts q.pt with
  | some (e, m) => (q.bits.toNat / 2 ^ m) % 2 ^ e == 2 ^ e - 1 && q.bits.toNat % 2 ^ m != 0
  | none => false

/-- Is it `-0.0`? -/
def isNegZero (q : PValue) : Bool :=
  match floatParts q.pt with
  | some (e, m) => q.bits.toNat == 2 ^ (e + m)
  | none => false

def posZero (q : PValue) : PValue := if isNegZero q then ⟨q.pt, 0⟩ else q

def valNe : SV → SV → Bool
  | .prim p, .prim q => isNaN p || isNaN q || decide (posZero p ≠ posZero q)
  | _, _ => true

/-- The rows of a plain array as optional values (`ArrayAccessor::with_iterator`). -/
def optRows (vals : List SV) (lv : LogicalValidity) : List (Option SV) :=
  List.zipWith (fun x b => if b then some x else none) vals lv.intoBools

section
variable (env : BEnv L) (ch : Choice L)

/-- `Validity::to_logical` of a plain array's validity. -/
def readV (v : TVal (Arr L)) (n : Nat) : Res LogicalValidity := logicalV (bulks env (depthV v)) v n

/-- `like.as_ref().and_then(|l| l.child(i))`: `children[i]` panics out of range, mod.rs:126-128. -/
def childOf (like : Option CTree) (i : Nat) : Res (Option CTree) :=
  match like with
  | none => .ok none
  | some t => Res.unwrap t.children[i]?

/-- What `for_compress` returns as an array, encodings/fastlanes/src/for/compress.rs:20-60; the first component says whether it is a
`FoRArray`. -/
def ofForEncoded (p : PType) (dt : DType) (v : TVal (Arr L)) : FoR.Encoded p.bits → Res (Option (Arr L × BitVec p.bits × Nat) × Arr L)
  | .forArr e r s =>
    let enc : Arr L := .flat (.prim (toUnsigned p)) (e.vals.map (ofBits (toUnsigned p))) v
    .ok (some (enc, r, s), .mapped (.for p r s) enc)
  | .constant (some b) n => .ok (none, .const dt (ofBits p b) n)
  | .constant none n => .ok (none, .const dt .null n)
  | .sparseZero is n => do
    let a ← mkSparse env.toEnv is (.const dt (ofBits p (0#p.bits)) is.length) n 0 .null
    .ok (none, a)

variable (rec : Ctx → Arr L → Option CTree → Res (Out L))

/-- `compress_validity`, lib.rs:262-267 -/
def compressV (ctx : Ctx) : TVal (Arr L) → Res (TVal (Arr L))
  | .array a => do
    let r ← rec ctx a none
    .ok (.array r.1)
  | v => .ok v

/-- compressors/zigzag.rs:37-50 -/
def runZigzag (ctx : Ctx) (a : Arr L) (like : Option CTree) : Res (Out L) :=
  match a with
  | .flat (.prim p) vals v => do
    Res.guard (isSigned p)
    let l ← childOf like 0
    let r ← rec ctx (.flat (.prim (toUnsigned p)) (vals.map zigzagVal) v) l
    let b ← mkMapped env.toEnv .zigzag r.1
    .ok (b, some (.node .zigzag [r.2]))
  | _ => .err

/-- The two ends of compressors/for.rs:60-86. -/
def finishFor (ctx : Ctx) (p : PType) (like : Option CTree) (e : Option (Arr L × BitVec p.bits × Nat) × Arr L) : Res (Out L) :=
  match e.1 with
  | some (enc, r, s) => do
    let l ← childOf like 0
    let c ← rec (ctx.excluding .for) enc l
    let b ← mkMapped env.toEnv (.for p r s) c.1
    .ok (b, some (.node .for [c.2]))
  | none => do
    let c ← rec (ctx.excluding .for) e.2 like
    .ok (c.1, some (.node .for [c.2]))

/-- compressors/for.rs:52-87 -/
def runFor (ctx : Ctx) (a : Arr L) (like : Option CTree) : Res (Out L) :=
  match a with
  | .flat (.prim p) vals v => do
    Res.guard p.isInt
    let lv ← readV env v vals.length
    let f ← FoR.forCompress (isSigned p) (toPArr p vals lv)
    let e ← ofForEncoded env p (.prim p v.nullable) v f
    finishFor env rec ctx p like e
  | _ => .err

/-- compressors/dict.rs:46-87, `dict_encode_primitive` / `dict_encode_varbin(view)`, encodings/dict/src/compress.rs. The assertion: the
dictionary fits the address space. -/
def runDict (ctx : Ctx) (a : Arr L) (like : Option CTree) : Res (Out L) :=
  match a with
  | .flat k vals v => do
    Res.guard (decide (k ≠ .bool))
    let lv ← readV env v vals.length
    let d := Dict.encode k.dflt v.nullable (optRows vals lv)
    Res.assert (decide (d.values.vals.length ≤ 2 ^ 64))
    let l0 ← childOf like 0
    let codes ← rec (ctx.auxiliary.excluding .dict) (.flat (.prim .u64) (d.codes.map (fun c => .prim ⟨.u64, BitVec.ofNat 64 c⟩)) .nonNullable) l0
    let l1 ← childOf like 1
    let values ← rec (ctx.excluding .dict) (.flat k d.values.vals (ofValidity d.values.validity)) l1
    let b ← mkDict env.toEnv codes.1 values.1
    .ok (b, some (.node .dict [codes.2, values.2]))
  | _ => .err

/-- compressors/runend.rs:50-76, `runend_encode` in encodings/runend/src/compress.rs. -/
def runRunEnd (ctx : Ctx) (a : Arr L) (like : Option CTree) : Res (Out L) :=
  match a with
  | .flat (.prim p) vals v => do
    let r := RunEnd.encodePrimitive valNe vals
    let _ ← childOf like 0
    let l1 ← childOf like 1
    let values ← rec (ctx.excluding .runEnd) (.flat (.prim p) r.2 (if v.nullable then .allValid else .nonNullable)) l1
    let v' ← compressV rec ctx v
    let b ← mkRunEnd env.toEnv r.1 values.1 v' 0 (r.1.getLast?.getD 0)
    .ok (b, some (.node .runEnd [none, values.2]))
  | _ => .err

/-- compressors/constant.rs:28-38 -/
def runConstant (a : Arr L) : Res (Out L) := do
  let x ← a.scalarAt env.toEnv 0
  .ok (.const (dtype env.toEnv a) x (len env.toEnv a), some (.node .constant []))

/-- The patches child of an ALP array, alp/compress.rs:42-55, compressed with compressors/alp.rs:60-67. -/
def runPatches (ctx : Ctx) (like : Option CTree) (p : PType) (vals : List SV) (exc : List Nat) : Res (Option (Out L)) :=
  if exc.isEmpty then .ok none
  else do
    let l1 ← childOf like 1
    let xs ← Res.mapM (fun i => Res.unwrap vals[i]?) exc
    let s ← mkSparse env.toEnv exc (.flat (.prim p) xs .allValid) vals.length 0 .null
    let r ← rec ((ctx.auxiliary.excluding .alp).including .alpRd) s l1
    .ok (some r)

/-- `match_each_alp_float_ptype` and `ALPInt`: encodings/alp/src/alp/mod.rs, compress.rs:20-60 -/
def alpInt : PType → Res PType
  | .f32 => .ok .i32
  | .f64 => .ok .i64
  | _ => .panic

/-- compressors/alp.rs:37-84 -/
def runAlp (ctx : Ctx) (a : Arr L) (like : Option CTree) : Res (Out L) :=
  match a with
  | .flat (.prim p) vals v => do
    let ip ← alpInt p
    let x ← ch.alpEnc p vals
    let l0 ← childOf like 0
    let enc ← rec (ctx.excluding .alp) (.flat (.prim ip) x.2.2.1 v) l0
    let patches ← runPatches env rec ctx like p vals x.2.2.2
    match patches with
    | none => do
      let b ← mkMapped env.toEnv (.alp x.1 x.2.1) enc.1
      .ok (b, some (.node .alp [enc.2, none]))
    | some pt => do
      let b ← mkAlpP env.toEnv x.1 x.2.1 enc.1 pt.1
      .ok (b, some (.node .alp [enc.2, pt.2]))
  | _ => .err

/-- compressors/sparse.rs:25-50: the offset of the indices is not carried over (and both children use the first child tree). -/
def runSparse (ctx : Ctx) (a : Arr L) (like : Option CTree) : Res (Out L) :=
  match a with
  | .sparse is values n _ fill => do
    let l0 ← childOf like 0
    let r ← rec ctx values l0
    let b ← mkSparse env.toEnv is r.1 n 0 fill
    .ok (b, some (.node .sparse [none, r.2]))
  | _ => .err

/-- Compress the fields one after the other with their trees; `zip_eq` panics when the numbers differ. -/
def runFields (ctx : Ctx) : List (Arr L) → List (Option CTree) → Res (List (Out L))
  | [], [] => .ok []
  | f :: fs, t :: ts => do
    let r ← rec ctx f t
    let rs ← runFields ctx fs ts
    .ok (r :: rs)
  | _, _ => .panic

/-- compressors/struct_.rs:32-60 -/
def runStruct (ctx : Ctx) (a : Arr L) (like : Option CTree) : Res (Out L) :=
  match a with
  | .struct names fs n v => do
    let v' ← compressV rec ctx v
    let ts := match like with
      | some t => t.children
      | none => List.replicate fs.length none
    let rs ← runFields rec ctx fs ts
    let b ← mkStruct env.toEnv names (rs.map (·.1)) n v'
    .ok (b, some (.node .struct (rs.map (·.2))))
  | _ => .err

/-- One field of `swizzle_struct_chunks`, chunked/canonical.rs:135-145 -/
def swizzleField (cs : List (Arr L)) (i : Nat) (d : DType) : Res (Arr L) := do
  let fs ← Res.mapM (fun c => do
    let f ← field env.toEnv i c
    Res.ofOption f) cs
  mkChunked env.toEnv d fs

/-- The fields, in order. -/
def swizzleFields (cs : List (Arr L)) : Nat → List DType → Res (List (Arr L))
  | _, [] => .ok []
  | i, d :: ds => do
    let f ← swizzleField env cs i d
    let fs ← swizzleFields cs (i + 1) ds
    .ok (f :: fs)

/-- The validity of a chunked array of structs, chunked/canonical.rs:18-22 and mod.rs:225-231. -/
def swizzleV (nl : Bool) (cs : List (Arr L)) : Res (TVal (Arr L)) :=
  if nl then do
    let lvs ← Res.mapM (fun c => c.valid env) cs
    .ok (ofValidity ((LogicalValidity.collect lvs).toLogical (lens env.toEnv cs)).intoValidity)
  else .ok .nonNullable

/-- `chunk.into_extension()?.storage()` -/
def storageOf (c : Arr L) : Res (Arr L) := do
  let d ← c.canon env
  match d with
  | .ext _ _ s => .ok s
  | _ => .err

/-- `ExtensionArray::new(dtype, ChunkedArray::try_new(storages, first storage's dtype)?)`, chunked/canonical.rs:72-93 -/
def combineExt (id : Str) (m : Option (List UInt8)) (cs : List (Arr L)) : Res (Arr L) := do
  let ss ← Res.mapM (storageOf env) cs
  let s ← Res.ofOption ss.head?
  let a ← mkChunked env.toEnv (dtype env.toEnv s) ss
  .ok (.ext id m a)

/-- `ChunkedArray::try_new(chunks, dtype)?.into_canonical()`, chunked/canonical.rs:16-148: struct chunks become one struct of chunked
fields, extension chunks one extension array over chunked storage, the other types are decoded (`Model/TreeBulk.lean`). -/
def combine (dt : DType) (cs : List (Arr L)) : Res (Arr L) := do
  let a ← mkChunked env.toEnv dt cs
  match dt with
  | .struct names ds nl => do
    let v ← swizzleV env nl cs
    let fs ← swizzleFields env cs 0 ds
    mkStruct env.toEnv names fs (lens env.toEnv cs) v
  | .ext id m _ => combineExt env id m cs
  | _ => a.canon env

/-! ### The driver -/

/-- `can_compress`, with the two compressors that look at the encoding. -/
def canRun (i : CId) (a : Arr L) : Bool :=
  match i, a with
  | .chunked, .chunked _ _ => true
  | .chunked, _ => false
  | .struct, .struct _ _ _ _ => true
  | .struct, _ => false
  | i, a => ch.can i a

/-- The loop of `compress_chunked`, chunked.rs:112-140; `again` is `compress_array`. -/
def chunkLoop (again : Ctx → Arr L → Res (Out L)) (ctx : Ctx) : (previous : Option CTree) → List (Arr L) → Res (List (Arr L) × Option CTree)
  | previous, [] => .ok ([], previous)
  | previous, c :: cs => do
    let r ← rec ctx c previous
    if ch.unsatisfactory r.1 c previous then do
      let r' ← again ctx c
      let rest ← chunkLoop again ctx r'.2 cs
      .ok (r'.1 :: rest.1, rest.2)
    else do
      let rest ← chunkLoop again ctx (match previous with | some t => some t | none => r.2) cs
      .ok (r.1 :: rest.1, rest.2)

/-- `like_into_parts`, chunked.rs:61-91: exactly one child. -/
def chunkLike (like : Option CTree) : Res (Option CTree) :=
  match like with
  | none => .ok none
  | some t => match t.children with
    | [c] => .ok c
    | _ => .err

/-- chunked.rs:46-57, 106-155 -/
def runChunked (again : Ctx → Arr L → Res (Out L)) (ctx : Ctx) (a : Arr L) (like : Option CTree) : Res (Out L) :=
  match a with
  | .chunked dt cs => do
    let previous ← chunkLike like
    let less ← Chunked.rechunk ch.nbytes (len env.toEnv) (combine env dt) ch.targetBytes ch.targetRows cs
    let r ← chunkLoop ch rec again ctx previous less
    let b ← mkChunked env.toEnv dt r.1
    .ok (b, some (.node .chunked [r.2]))
  | _ => .err

/-- The compressors of the other encodings. -/
def runLeaf (i : CId) (a : Arr L) (like : Option CTree) : Res (Out L) := do
  let r ← ch.leafEnc i a like
  match r with
  | some l => .ok (.leaf l, some (.node i []))
  | none => .ok (a, none)

/-- `compressor.compress(array, like, ctx)` of every compressor but the chunked one, which needs the driver itself. -/
def run (chunk : Ctx → Arr L → Option CTree → Res (Out L)) (i : CId) (ctx : Ctx) (a : Arr L) (like : Option CTree) : Res (Out L) :=
  match i with
  | .zigzag => runZigzag env rec ctx a like
  | .for => runFor env rec ctx a like
  | .dict => runDict env rec ctx a like
  | .runEnd => runRunEnd env rec ctx a like
  | .constant => runConstant env a
  | .alp => runAlp env ch rec ctx a like
  | .sparse => runSparse env rec ctx a like
  | .struct => runStruct env rec ctx a like
  | .chunked => chunk ctx a like
  | i => runLeaf ch i a like

/-- `ctx.for_compressor(c)`, lib.rs:207-211 -/
def Ctx.forCompressor (ctx : Ctx) (i : CId) : Ctx := { ctx with depth := ctx.depth + ch.cost i }

/-- `find_best_compression`, lib.rs:341-416 -/
def findBest (runC : CId → Ctx → Arr L → Option CTree → Res (Out L)) (ctx : Ctx) (sample : Arr L) : Option (Out L) → List CId → Res (Out L)
  | best, [] => .ok (best.getD (sample, none))
  | best, i :: is =>
    if canRun ch i sample then do
      let r ← runC i (ctx.forCompressor ch i) sample none
      if ch.better best r sample then findBest runC ctx sample (some r) is else findBest runC ctx sample best is
    else findBest runC ctx sample best is

/-- The candidates, lib.rs:283-311. -/
def candidates (ctx : Ctx) (a : Arr L) : List CId :=
  let cs := ctx.compressors.filter (fun i => !ctx.disabled.contains i && canRun ch i a && decide (ctx.depth + ch.cost i ≤ ch.maxCost))
  if cs.length > 1 then cs.filter (fun i => !ch.own i a) else cs

/-- `compress_array` after the structural cases, lib.rs:283-338. -/
def compressPlain (runC : CId → Ctx → Arr L → Option CTree → Res (Out L)) (ctx : Ctx) (a : Arr L) : Res (Out L) :=
  let cs := candidates ch ctx a
  if cs.isEmpty then .ok (a, none)
  else if ch.small a then findBest ch runC ctx a none cs
  else do
    let s ← ch.sample a
    let r ← findBest ch runC ctx s none cs
    match r.2 with
    | some t => runC t.id (ctx.forCompressor ch t.id) a (some t)
    | none => .ok (a, none)

/-- `compress_array`, lib.rs:269-338 -/
def compressArray (runC : CId → Ctx → Arr L → Option CTree → Res (Out L)) (ctx : Ctx) (a : Arr L) : Res (Out L) :=
  match a with
  | .const dt x n => .ok (.const dt x n, none)
  | .chunked dt cs => runC .chunked ctx (.chunked dt cs) none
  | .struct names fs n v => runC .struct ctx (.struct names fs n v) none
  | a => if ch.can .constant a then runC .constant ctx a none else compressPlain ch runC ctx a

/-- `compress` after the emptiness test, lib.rs:238-260: try the given tree, else search. -/
def compressLike (runC : CId → Ctx → Arr L → Option CTree → Res (Out L)) (ctx : Ctx) (a : Arr L) (like : Option CTree) : Res (Out L) :=
  match like with
  | some t =>
    if canRun ch t.id a then runC t.id (ctx.forCompressor ch t.id) a (some t)
    else compressArray ch runC ctx a
  | none => compressArray ch runC ctx a

/-- All compressors, given the recursive `compress`. `compress_chunked` calls back into `compress_array`, which calls the compressors:
the second fuel bounds that nesting (chunks of chunks). -/
def runs (rec : Ctx → Arr L → Option CTree → Res (Out L)) : Nat → CId → Ctx → Arr L → Option CTree → Res (Out L)
  | 0 => fun _ _ _ _ => .err
  | n + 1 => run env ch rec (runChunked env ch rec (compressArray ch (runs rec n)))

/-- `SamplingCompressor::compress`, lib.rs:231-260. The fuel bounds the recursion depth; without fuel it is an error. -/
def compress : Nat → Ctx → Arr L → Option CTree → Res (Out L)
  | 0 => fun _ _ _ => .err
  | n + 1 => fun ctx a like =>
    if len env.toEnv a = 0 then .ok (a, none)
    else compressLike ch (runs env ch (compress n) (n + 1)) ctx a like

end
end Vx.Tree
