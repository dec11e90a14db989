import Verif.Model.Tree
/-!
# Sorted search on trees of encoded arrays

`search_sorted`, `search_sorted_u64` and the two bulk forms (vortex-array/src/compute/search_sorted.rs:140-225) and the implementations
of the encodings that have their own: primitive, constant, sparse and frame-of-reference (bit-packing enters as a leaf, its own search
is in `Model/BitPackSearch.lean`). Everything else goes through `scalar_at` and the ordering of scalars.

Simplifications: a scalar read from an array carries the array's type (up to nullability, which the comparison ignores); the indices of a
sparse array are given by their content, as in `Model/Tree.lean`, so reading one of them out of range is an error and nothing else.
-/
namespace Vx.Tree

/-- What an encoding with its own search provides: the four methods of `SearchSortedFn`, search_sorted.rs:95-138. -/
structure OwnSearch where
  search : Scalar → Side → Res SearchResult
  searchU64 : BitVec 64 → Side → Res SearchResult
  searchMany : List Scalar → List Side → Res (List SearchResult)
  searchU64Many : List (BitVec 64) → List Side → Res (List SearchResult)

/-- The `usize` a sparse search reports for a position among the patches, sparse/compute/mod.rs:55-72. -/
def sparsePos (is : List Nat) (off : Nat) (sr : SearchResult) : Res SearchResult := do
  let sidx ← sr.toOffsetsIndex is.length
  let index ← if sidx < is.length then idx is sidx else .err
  match sr with
  | .found i => do
    let p ← Res.sub (if i = is.length then index + 1 else index) off
    .ok (.found p)
  | .notFound i => do
    let p ← Res.sub (if i = 0 then index else index + 1) off
    .ok (.notFound p)

/-- `NativePType::compare` of a stored value with the probe; the buffers of a primitive array hold nothing but its type. -/
def nativeCmp (x : SV) (q : PValue) : Res Ordering :=
  match x with
  | .prim p => .ok (compare p.key q.key)
  | _ => .panic

/-- `Scalar::from(value)` for a `u64`. -/
def u64Scalar (nullable : Bool) (v : BitVec 64) : Scalar := ⟨.prim .u64 nullable, .prim ⟨.u64, v⟩⟩

section
variable (env : Env L) (F : FloatOps) (own : L → Option OwnSearch)

/-- `search_sorted` through `IndexOrd<Scalar> for Array` (search_sorted.rs:378-383): a row that cannot be read, and a row whose type
differs from the probe's, compare as `None`. -/
def searchGeneric (a : Arr L) (t : Scalar) (side : Side) : Res SearchResult :=
  Vx.searchSorted (fun i => match a.scalarAt env i with
    | .ok x => .ok (Scalar.partialCmp ⟨dtype env a, x⟩ t)
    | .err => .ok none
    | .panic => .panic) (len env a) side

/-- Searching the buffer of a primitive array, primitive/compute/search_sorted.rs:16-26 and 35-44: without nulls the slice is searched,
otherwise a null (`SearchSortedNullsLast`, lines 93-101) is greater than every probe. -/
def searchBuffer (vals : List SV) (v : TVal (Arr L)) (probe : Res PValue) (side : Side) : Res SearchResult :=
  match v with
  | .nonNullable | .allValid => do
    let q ← probe
    Vx.searchSorted (fun i => do
      let x ← idx vals i
      let c ← nativeCmp x q
      .ok (some c)) vals.length side
  | .allInvalid => .ok (.notFound 0)
  | .array _ => do
    let q ← probe
    Vx.searchSorted (fun i => do
      let b ← isValidV (ops env (depthV v)) v i
      if !b then .ok (some .gt) else do
        let x ← idx vals i
        let c ← nativeCmp x q
        .ok (some c)) vals.length side

/-- `let pvalue: $T = value.cast(self.dtype())?.try_into()?`: a null is refused. -/
def probeOf (p : PType) (dt : DType) (t : Scalar) : Res PValue := do
  let s ← t.cast F dt
  let q ← SV.readPrim F p s.value
  Res.ofOption q

/-- The checked entry point `search_sorted`, search_sorted.rs:140-163: the probe is cast to the array's type and may not be null. -/
def searchEntry (dt : DType) (fn : Scalar → Side → Res SearchResult) (t : Scalar) (side : Side) : Res SearchResult := do
  let s ← t.cast F dt
  if s.value.isNull then .err else fn s side

/-- `search_sorted_typed`, encodings/fastlanes/src/for/compute.rs:106-163, over the entry point of the encoded child. -/
def searchFoR (p : PType) (r : BitVec p.bits) (s : Nat) (dt : DType) (child : Scalar → Side → Res SearchResult) (t : Scalar)
    (side : Side) : Res SearchResult := do
  let q ← probeOf F p dt t
  let v := BitVec.ofNat p.bits q.bits.toNat
  if intKey p.isSigned v < intKey p.isSigned r then .ok (.notFound 0)
  else
    let encoded := FoR.shr p.isSigned (v - r) s
    let decoded := (encoded <<< s) + r
    let representable := decoded == v
    let side' := if representable then side else .left
    let target := if representable then encoded else encoded + 1#p.bits
    do
      let sr ← child ⟨.prim (toUnsigned p) t.dtype.isNullable, .prim ⟨toUnsigned p, BitVec.ofNat _ target.toNat⟩⟩ side'
      match sr with
      | .found i => if representable then .ok (.found i) else .ok (.notFound i)
      | .notFound i => .ok (.notFound i)

/-- `SearchSortedFn::search_sorted` where the encoding has it, otherwise the search through `scalar_at`: search_sorted.rs:150-162 with
primitive/compute/search_sorted.rs:14-28, constant/compute.rs:91-105, sparse/compute/mod.rs:54-73, for/compute.rs:98-104. -/
def searchFn : Arr L → Scalar → Side → Res SearchResult
  | .leaf l, t, side => match own l with
    | some o => o.search t side
    | none => searchGeneric env (.leaf l) t side
  | .flat (.prim p) vals v, t, side => searchBuffer env vals v (probeOf F p (.prim p v.nullable) t) side
  | .const _ x n, t, side => match (SV.cmp x t.value).getD .lt with
    | .gt => .ok (.notFound 0)
    | .lt => .ok (.notFound n)
    | .eq => match side with
      | .left => .ok (.found 0)
      | .right => .ok (.found n)
  | .sparse is values _ off _, t, side => do
    let sr ← searchEntry F (dtype env values) (searchFn values) t side
    sparsePos is off sr
  | .mapped (.for p r s) enc, t, side => searchFoR F p r s (dtype env (.mapped (.for p r s) enc))
      (searchEntry F (dtype env enc) (searchFn enc)) t side
  | a, t, side => searchGeneric env a t side

/-- `search_sorted(array, target, side)`: search_sorted.rs:140-163 -/
def Arr.search (a : Arr L) (t : Scalar) (side : Side) : Res SearchResult := searchEntry F (dtype env a) (searchFn env F own a) t side

/-- `search_sorted_u64(array, target, side)`: search_sorted.rs:165-184. Primitive arrays convert the number to their own type
(primitive/compute/search_sorted.rs:31-51); the default of the trait (search_sorted.rs:98-101) hands over a `u64` scalar as it is. -/
def Arr.searchU64 (a : Arr L) (v : BitVec 64) (side : Side) : Res SearchResult :=
  match a with
  | .leaf l => match own l with
    | some o => o.searchU64 v side
    | none => searchGeneric env a (u64Scalar (dtype env a).isNullable v) side
  | .flat (.prim p) vals vd => match PValue.numCast F ⟨.u64, v⟩ p with
    | some q => searchBuffer env vals vd (.ok q) side
    | none => .ok (.notFound vals.length)
  | .const _ _ _ => searchFn env F own a (u64Scalar false v) side
  | .sparse _ _ _ _ _ => searchFn env F own a (u64Scalar false v) side
  | .mapped (.for _ _ _) _ => searchFn env F own a (u64Scalar false v) side
  | a => searchGeneric env a (u64Scalar (dtype env a).isNullable v) side

/-- Does the encoding have its own search? -/
def ownSearch : Arr L → Bool
  | .leaf l => (own l).isSome
  | .flat (.prim _) _ _ => true
  | .const _ _ _ => true
  | .sparse _ _ _ _ _ => true
  | .mapped (.for _ _ _) _ => true
  | _ => false

/-- `search_sorted_many`: search_sorted.rs:187-208. With an own search the probes are cast first, all of them, and no null check is made
(lines 193-199, 104-114); otherwise each pair goes through the entry point. -/
def Arr.searchMany (a : Arr L) (ts : List Scalar) (sides : List Side) : Res (List SearchResult) :=
  if ownSearch own a then do
    let vs ← Res.mapM (fun t => t.cast F (dtype env a)) ts
    match a with
    | .leaf l => match own l with
      | some o => o.searchMany vs sides
      | none => Res.mapM (fun p : Scalar × Side => searchFn env F own a p.1 p.2) (vs.zip sides)
    | a => Res.mapM (fun p : Scalar × Side => searchFn env F own a p.1 p.2) (vs.zip sides)
  else Res.mapM (fun p : Scalar × Side => Arr.search env F own a p.1 p.2) (ts.zip sides)

/-- `search_sorted_u64_many`: search_sorted.rs:211-230 -/
def Arr.searchU64Many (a : Arr L) (vs : List (BitVec 64)) (sides : List Side) : Res (List SearchResult) :=
  match a with
  | .leaf l => match own l with
    | some o => o.searchU64Many vs sides
    | none => Res.mapM (fun p : BitVec 64 × Side => Arr.searchU64 env F own a p.1 p.2) (vs.zip sides)
  | a => Res.mapM (fun p : BitVec 64 × Side => Arr.searchU64 env F own a p.1 p.2) (vs.zip sides)

end
end Vx.Tree
