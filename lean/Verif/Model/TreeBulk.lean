import Verif.Model.Tree
/-!
# Trees of encoded arrays: decoding, logical validity, `take` and `filter`

The entry points `IntoCanonical::into_canonical` (vortex-array/src/canonical.rs), `ArrayValidity::logical_validity`
(vortex-array/src/validity.rs), `take` (vortex-array/src/compute/take.rs) and `filter` (vortex-array/src/compute/filter.rs) of each
encoding, as functions of the children's entry points. Index and predicate arrays are given by their content (they are non-nullable).

Simplifications: the canonical forms of struct and extension arrays made of chunks are not modelled (an error here); statistics of a
validity child are taken to be exact; an arrow round trip of a temporal extension array is described by `BEnv.temporal`, and a storage
array that `temporal_to_arrow` would first have to cast is an error here.
-/
namespace Vx.Tree

/-- What a leaf encoding provides for the bulk operations; `manySet` is the selectivity test of chunked/compute/filter.rs:20-27 and
`temporal` gives, for a temporal extension type, the storage type arrow uses and the metadata after a round trip through arrow
(canonical.rs:213-285 builds timestamps without a time zone; arrow/array.rs:83-100 reads them back). -/
structure BEnv (L : Type) extends Env L where
  take : L → List Nat → Res (Arr L)
  filter : L → List Bool → Res (Arr L)
  canon : L → Res (Arr L)
  valid : L → Res LogicalValidity
  manySet : Nat → Nat → Bool
  temporal : Str → Option (List UInt8) → Option (PType × Option (List UInt8))

def dateId : Str := "vortex.date".toList
def timeId : Str := "vortex.time".toList
def timestampId : Str := "vortex.timestamp".toList

/-- `BEnv.temporal` for the known temporal types: the metadata is read (datetime-dtype/src/temporal.rs:102-151; units are numbered ns, us, ms, s,
day, unit.rs:22-30), the arrow array built (canonical.rs:213-285) and read back (arrow/array.rs:84-101), which writes the metadata anew
(temporal.rs:153-187), without a time zone. Metadata too short to read is a panic in the code and `none` here. -/
def temporalArrow (id : Str) (m : Option (List UInt8)) : Option (PType × Option (List UInt8)) :=
  match m with
  | some (unit :: rest) =>
    if id = dateId then
      if unit = 4 then some (.i32, some [4]) else if unit = 2 then some (.i64, some [2]) else none
    else if id = timeId then
      if unit = 3 ∨ unit = 2 then some (.i32, some [unit]) else if unit = 1 ∨ unit = 0 then some (.i64, some [unit]) else none
    else if id = timestampId then
      if unit ≤ 3 ∧ 2 ≤ rest.length then some (.i64, some [unit, 0, 0]) else none
    else none
  | _ => none

/-- The bulk entry points of an array. -/
structure Bulks (L : Type) where
  canon : Arr L → Res (Arr L)
  valid : Arr L → Res LogicalValidity
  take : Arr L → List Nat → Res (Arr L)
  filter : Arr L → List Bool → Res (Arr L)

/-- The canonical leaf encoding of a type, canonical.rs:55-66 -/
def kindOf : DType → Option Kind
  | .prim p _ => some (.prim p)
  | .bool _ => some .bool
  | .utf8 _ => some .utf8
  | .binary _ => some .binary
  | _ => none

/-- `Default::default()` of the element type. -/
def Kind.dflt : Kind → SV
  | .prim p => .prim ⟨p, 0⟩
  | .bool => .bool false
  | .utf8 => .str []
  | .binary => .buffer []

def isTrue : SV → Bool
  | .bool b => b
  | _ => false

/-- A decoded validity as a validity child: a plain boolean array. -/
def ofValidity : Validity → TVal (Arr L)
  | .nonNullable => .nonNullable
  | .allValid => .allValid
  | .allInvalid => .allInvalid
  | .array bits => .array (.flat .bool (bits.map SV.bool) .nonNullable)

/-- `into_primitive()` / `into_bool()`: the canonical array must be of the wanted kind, canonical.rs:80-130. -/
def asFlat : Arr L → Res (Kind × List SV × TVal (Arr L))
  | .flat k vals v => .ok (k, vals, v)
  | _ => .err

section
variable (env : BEnv L) (o : Bulks L)

/-- `array.into_bool()?.boolean_buffer()` of a validity child or predicate. -/
def bitsOf (a : Arr L) : Res (List Bool) := do
  let c ← o.canon a
  let f ← asFlat c
  if f.1 = .bool then .ok (f.2.1.map isTrue) else .err

/-! ### logical validity -/

/-- `Validity::to_logical`, validity.rs:160-181 -/
def logicalV (v : TVal (Arr L)) (n : Nat) : Res LogicalValidity :=
  match v with
  | .nonNullable => .ok (.allValid n)
  | .allValid => .ok (.allValid n)
  | .allInvalid => .ok (.allInvalid n)
  | .array a => do
    let bits ← bitsOf o a
    .ok ((Validity.array bits).toLogical n)

/-- The validity of a sparse array: `bits` at the indices, `false` elsewhere, sparse/mod.rs:195-221. -/
def sparseBits (is : List Nat) (bits : List Bool) (n off : Nat) : Res (List Bool) := do
  let js ← Res.mapM (fun i => Res.sub i off) is
  let r ← Sparse.scatter (List.replicate n false) (List.replicate n false) (js.zip bits)
  .ok r.1

/-- The codes of a dictionary as row numbers (`take` reads them with `as usize`). -/
def codeIdx (codes : List SV) : Res (List Nat) := Res.mapM (fun c => Res.unwrap (asIdx c)) codes

/-- `ArrayValidity::logical_validity` of each encoding: null/mod.rs, constant/mod.rs:88-93, chunked/mod.rs:225-231, struct_/mod.rs,
extension/mod.rs:80-82, sparse/mod.rs:195-221, dict/src/array.rs:89-106, runend/src/array.rs, for/mod.rs, zigzag/src/array.rs, alp/array.rs. -/
def validFn (a : Arr L) : Res LogicalValidity :=
  match a with
  | .leaf l => env.valid l
  | .flat _ vals v => logicalV o v vals.length
  | .null n => .ok (.allInvalid n)
  | .const _ x n => .ok (if x.isNull then .allInvalid n else .allValid n)
  | .chunked _ cs => do
    let lvs ← Res.mapM o.valid cs
    .ok ((LogicalValidity.collect lvs).toLogical (lens env.toEnv cs))
  | .struct _ _ n v => logicalV o v n
  | .ext _ _ s => o.valid s
  | .sparse is values n off fill => do
    if fill.isNull then do
      let bits ← sparseBits is (List.replicate is.length true) n off
      .ok (.array bits)
    else do
      let lv ← o.valid values
      let bits ← sparseBits is lv.intoBools n off
      .ok (.array bits)
  | .dict codes values =>
    if (dtype env.toEnv values).isNullable then do
      let c ← o.canon codes
      let f ← asFlat c
      let ks ← codeIdx f.2.1
      .ok (.array (ks.map (fun k => k != 0)))
    else .ok (.allValid (len env.toEnv codes))
  | .runEnd _ _ v _ n => logicalV o v n
  | .mapped _ enc => o.valid enc
  | .alpP _ _ enc _ => o.valid enc

/-! ### take of plain arrays -/

/-- `Validity::take`, validity.rs:142-149 -/
def takeV (v : TVal (Arr L)) (is : List Nat) : Res (TVal (Arr L)) :=
  match v with
  | .array a => do
    let b ← o.take a is
    .ok (.array b)
  | v => .ok v

/-- primitive/compute/take.rs, bool/compute/take.rs, varbin/compute/take.rs, varbinview/compute.rs:68-90 -/
def takeFlat (k : Kind) (vals : List SV) (v : TVal (Arr L)) (is : List Nat) : Res (Arr L) := do
  let vs ← takeList vals is
  let w ← takeV o v is
  .ok (.flat k vs w)

/-! ### decoding -/

/-- constant/canonical.rs:14-63 -/
def constValidity (dt : DType) (x : SV) : TVal (Arr L) :=
  if !dt.isNullable then .nonNullable else if x.isNull then .allInvalid else .allValid

/-- sparse/flatten.rs:12-97 on the decoded values; `k` is the element kind. -/
def sparseCanon (k : Kind) (is : List Nat) (vals : List SV) (n off : Nat) (fill : SV) : Res (Arr L) := do
  let js ← Res.mapM (fun i => Res.sub i off) is
  Res.assert (js.length == vals.length)
  let r ← Sparse.scatter (List.replicate n (if fill.isNull then k.dflt else fill)) (List.replicate n false) (js.zip vals)
  .ok (.flat k r.1 (if k = .bool || fill.isNull then ofValidity (Validity.ofBooleanBuffer r.2) else .nonNullable))

/-- Decode the stored value, whatever the validity says (`maybe_null_slice`). -/
def decStored (c : Codec) : SV → SV
  | .prim p => .prim (c.dec env.toEnv p)
  | x => x

/-- The element kind of a decoded array, from the type. -/
def primKind (d : Option DType) : Res Kind :=
  match d with
  | some (.prim p _) => .ok (.prim p)
  | _ => .err

/-- The patches of an ALP array: they must be sparse-encoded, alp/compress.rs:80-97. -/
def alpPatches (patches : Arr L) : Res (List Nat × List SV) :=
  match patches with
  | .sparse is values _ off _ => do
    let js ← Res.mapM (fun i => Res.sub i off) is
    let c ← o.canon values
    let f ← asFlat c
    .ok (js, f.2.1)
  | _ => .err

/-- `PrimitiveArray::patch`, primitive/mod.rs:168-185 -/
def setStored (vals : List SV) : List (Nat × SV) → Res (List SV)
  | [] => .ok vals
  | (i, x) :: ps => do
    let v ← Sparse.setAt vals i x
    setStored v ps

/-- `IntoCanonical::into_canonical` of each encoding: canonical.rs:350-420 (canonical encodings are returned as they are),
constant/canonical.rs:14-63, chunked/canonical.rs:16-176, sparse/flatten.rs:12-97, dict/src/array.rs:70-75, runend/src/array.rs:187-194,
for/compress.rs, zigzag/src/array.rs:99-103, alp/compress.rs:61-97. -/
def canonFn (a : Arr L) : Res (Arr L) :=
  match a with
  | .leaf l => env.canon l
  | .flat k vals v => .ok (.flat k vals v)
  | .null n => .ok (.null n)
  | .struct names fs n v => .ok (.struct names fs n v)
  | .ext id m s => .ok (.ext id m s)
  | .const dt x n =>
    match kindOf dt with
    | some k => .ok (.flat k (List.replicate n (if x.isNull then k.dflt else x)) (constValidity dt x))
    | none => .err
  | .chunked dt cs =>
    match kindOf dt with
    | some k => do
      let fs ← Res.mapM (fun c => do let d ← o.canon c; asFlat d) cs
      if dt.isNullable then do
        let lvs ← Res.mapM o.valid cs
        let lv := (LogicalValidity.collect lvs).toLogical (lens env.toEnv cs)
        .ok (.flat k (fs.flatMap (fun f => f.2.1)) (ofValidity lv.intoValidity))
      else .ok (.flat k (fs.flatMap (fun f => f.2.1)) .nonNullable)
    | none => if dt = .null then .ok (.null (lens env.toEnv cs)) else .err
  | .sparse is values n off fill => do
    let c ← o.canon values
    let f ← asFlat c
    match f.1 with
    | .bool => sparseCanon .bool is f.2.1 n off fill
    | .prim p => sparseCanon (.prim p) is f.2.1 n off fill
    | _ => .err
  | .dict codes values => do
    let c ← o.canon values
    let d ← o.canon codes
    let f ← asFlat c
    let g ← asFlat d
    let ks ← codeIdx g.2.1
    takeFlat o f.1 f.2.1 f.2.2 ks
  | .runEnd ends values v off n => do
    let c ← o.canon values
    let f ← asFlat c
    match f.1 with
    | .prim p => do
      let xs ← RunEnd.decodePrimitive ends f.2.1 off n
      .ok (.flat (.prim p) xs v)
    | _ => .err
  | .mapped c enc => do
    let k ← primKind (c.outType (dtype env.toEnv enc))
    let d ← o.canon enc
    let f ← asFlat d
    .ok (.flat k (f.2.1.map (decStored env c)) f.2.2)
  | .alpP e x enc patches => do
    let k ← primKind ((Codec.alp e x).outType (dtype env.toEnv enc))
    let d ← o.canon enc
    let f ← asFlat d
    let p ← alpPatches o patches
    Res.assert (p.1.length == p.2.length)
    let vs ← setStored (f.2.1.map (decStored env (.alp e x))) (p.1.zip p.2)
    .ok (.flat k vs f.2.2)

/-! ### take -/

/-- The sparse array without its values, for the searches in `Sparse`. -/
def shadow (is : List Nat) (n off : Nat) : Sparse SV := ⟨is, ⟨[], .nonNullable⟩, n, off, none⟩

/-- The run-end array without its values, for the searches in `RunEnd`. -/
def shadowRuns (ends : List Nat) (off n : Nat) : RunEnd SV := ⟨ends, ⟨[], .nonNullable⟩, .nonNullable, off, n⟩

/-- `compute_is_strict_sorted().unwrap_or(false)` of an index array, which has no statistics when empty. -/
def strictIdx (is : List Nat) : Bool := !is.isEmpty && RunEnd.strictSorted is

/-- The null handling of `TakeFn for RunEndArray`, runend/src/compute.rs:63-91 -/
def takeNulls (dt : DType) (v : TVal (Arr L)) (dense : Arr L) (is : List Nat) : Res (Arr L) :=
  match v with
  | .nonNullable => .ok dense
  | .allValid => .ok dense
  | .allInvalid => .ok (.const dt .null is.length)
  | .array a => do
    let dv ← o.take a is
    let bits ← bitsOf o dv
    let fv ← o.filter dense bits
    mkSparse env.toEnv (RunEnd.setIndices bits) fv (len env.toEnv dv) 0 .null

/-- `TakeFn::take` of each encoding: null/compute.rs:40-56, constant/compute.rs:60-70, chunked/compute/take.rs:12-107,
struct_/compute.rs:50-63, extension/compute.rs:94-98, sparse/compute/take.rs:13-88, dict/src/compute.rs:43-50, runend/src/compute.rs:39-92,
for/compute.rs:38-47, alp/compute.rs:61-71; zigzag has none, so the entry point decodes first (compute/take.rs:27-34). -/
def takeFn (a : Arr L) (is : List Nat) : Res (Arr L) :=
  match a with
  | .leaf l => env.take l is
  | .flat k vals v => takeFlat o k vals v is
  | .null n => if is.any (fun i => decide (n ≤ i)) then .err else .ok (.null is.length)
  | .const dt x _ => .ok (.const dt x is.length)
  | .chunked dt cs => do
    let out ← Chunked.take (len env.toEnv) o.take (strictIdx is) cs is
    mkChunked env.toEnv dt out
  | .struct names fs _ v => do
    let gs ← Res.mapM (fun f => o.take f is) fs
    let w ← takeV o v is
    mkStruct env.toEnv names gs is.length w
  | .ext id m s => do
    let t ← o.take s is
    .ok (.ext id m t)
  | .sparse js values n off fill => do
    let ps ← (shadow js n off).takePlan is
    let vs ← o.take values (ps.map (·.2))
    mkSparse env.toEnv (ps.map (·.1)) vs is.length 0 fill
  | .dict codes values => do
    let c ← o.take codes is
    mkDict env.toEnv c values
  | .runEnd ends values v off n => do
    let ph ← (shadowRuns ends off n).takePhysical is
    let dense ← o.take values ph
    takeNulls env o (dtype env.toEnv values) v dense is
  | .mapped .zigzag enc => do
    let c ← canonFn env o (.mapped .zigzag enc)
    let f ← asFlat c
    takeFlat o f.1 f.2.1 f.2.2 is
  | .mapped c enc => do
    let x ← o.take enc is
    mkMapped env.toEnv c x
  | .alpP e f enc patches => do
    let x ← o.take enc is
    let p ← o.take patches is
    mkAlpP env.toEnv e f x p

/-! ### filter -/

/-- Keep the positions whose bit is set: `arrow_select::filter` (trusted contract). -/
def pick (xs : List α) (mask : List Bool) : List α := ((xs.zip mask).filter (fun p => p.2)).map (fun p => p.1)

/-- `nulls`, arrow/array.rs:189-204 (the assertion is a panic). -/
def arrowNulls (nullable : Bool) (bits : List Bool) : Res (TVal (Arr L)) :=
  if nullable then .ok (ofValidity (Validity.ofBooleanBuffer bits))
  else if bits.all (fun b => b) then .ok .nonNullable
  else .panic

/-- A canonical leaf through arrow's filter kernel and back, compute/filter.rs:42-52. -/
def filterFlat (k : Kind) (vals : List SV) (v : TVal (Arr L)) (nullable : Bool) (mask : List Bool) : Res (Arr L) := do
  let lv ← logicalV o v vals.length
  let w ← arrowNulls nullable (pick lv.intoBools mask)
  .ok (.flat k (pick vals mask) w)

/-- A temporal extension array through arrow and back, canonical.rs:213-285 and arrow/array.rs:71-103 -/
def filterTemporal (id : Str) (m : Option (List UInt8)) (s : Arr L) (nullable : Bool) (mask : List Bool) : Res (Arr L) :=
  match env.temporal id m with
  | none => .err
  | some (p, m') => do
    let c ← o.canon s
    let f ← asFlat c
    if f.1 = .prim p then do
      let t ← filterFlat o f.1 f.2.1 f.2.2 nullable mask
      .ok (.ext id m' t)
    else .err

/-- The arrow fallback of the entry point, compute/filter.rs:42-52 -/
def filterArrow (c : Arr L) (nullable : Bool) (mask : List Bool) : Res (Arr L) :=
  match c with
  | .flat k vals v => filterFlat o k vals v nullable mask
  | .null _ => .ok (.null (mask.count true))
  | .ext id m s => filterTemporal env o id m s nullable mask
  | _ => .err

/-- `Validity::filter`, validity.rs:151-158 -/
def filterV (v : TVal (Arr L)) (mask : List Bool) : Res (TVal (Arr L)) :=
  match v with
  | .array a => do
    let b ← o.filter a mask
    .ok (.array b)
  | v => .ok v

/-- `FilterFn::filter` of each encoding, or the fallback: constant/compute.rs:72-85, chunked/compute/filter.rs:12-213,
struct_/compute.rs:80-101, sparse/compute/mod.rs:76-114, dict/src/compute.rs:53-58, for/compute.rs:49-59, alp/compute.rs:84-94. Primitive,
boolean, VarBinView, null, extension, run-end and zigzag arrays register no filter (VarBin's own is modelled in `VarBin`). -/
def filterFn (a : Arr L) (mask : List Bool) : Res (Arr L) :=
  match a with
  | .leaf l => env.filter l mask
  | .const dt x _ => .ok (.const dt x (mask.count true))
  | .chunked dt cs => do
    let out ← Chunked.filter (len env.toEnv) o.take o.filter env.manySet cs mask
    mkChunked env.toEnv dt out
  | .struct names fs _ v => do
    let gs ← Res.mapM (fun f => o.filter f mask) fs
    let w ← filterV o v mask
    mkStruct env.toEnv names gs ((gs.head?.map (len env.toEnv)).getD (mask.count true)) w
  | .sparse js values n off fill => do
    let coords ← (shadow js n off).resolvedIndices
    let ps ← Sparse.filterLoop mask coords 0 0 0
    let vs ← o.take values (ps.map (·.2))
    mkSparse env.toEnv (ps.map (·.1)) vs (mask.count true) 0 fill
  | .dict codes values => do
    let c ← o.filter codes mask
    mkDict env.toEnv c values
  | .alpP e f enc patches => do
    let x ← o.filter enc mask
    let p ← o.filter patches mask
    mkAlpP env.toEnv e f x p
  | .mapped (.for p r s) enc => do
    let x ← o.filter enc mask
    mkMapped env.toEnv (.for p r s) x
  | .mapped (.alp e f) enc => do
    let x ← o.filter enc mask
    mkMapped env.toEnv (.alp e f) x
  | a => do
    let c ← canonFn env o a
    filterArrow env o c (dtype env.toEnv a).isNullable mask

/-- The checked entry point, compute/filter.rs:23-53 -/
def filterChecked (a : Arr L) (mask : List Bool) : Res (Arr L) :=
  if mask.length ≠ len env.toEnv a then .err else filterFn env o a mask

/-- One level of the tree. -/
def bstep : Bulks L := ⟨canonFn env o, validFn env o, takeFn env o, filterChecked env o⟩

end

/-- The bulk entry points for arrays of at most `d` levels. -/
def bulks (env : BEnv L) : Nat → Bulks L
  | 0 => ⟨fun _ => .panic, fun _ => .panic, fun _ _ => .panic, fun _ _ => .panic⟩
  | d + 1 => bstep env (bulks env d)

/-- `array.into_canonical()` -/
def Arr.canon (env : BEnv L) (a : Arr L) : Res (Arr L) := (bulks env (depth a)).canon a

/-- `array.logical_validity()` -/
def Arr.valid (env : BEnv L) (a : Arr L) : Res LogicalValidity := (bulks env (depth a)).valid a

/-- `take(array, indices)` -/
def Arr.take (env : BEnv L) (a : Arr L) (is : List Nat) : Res (Arr L) := (bulks env (depth a)).take a is

/-- `filter(array, predicate)` -/
def Arr.filter (env : BEnv L) (a : Arr L) (mask : List Bool) : Res (Arr L) := (bulks env (depth a)).filter a mask

end Vx.Tree
