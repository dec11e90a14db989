import Verif.Model.SearchSorted
import Verif.Model.Primitive
/-! # Sparse arrays (vortex-array/src/array/sparse) -/

namespace Vx

/-- vortex-array/src/array/sparse/mod.rs:21-30 and children (67-77). `indices` is the `u64` child, still relative to the array the
slice was taken from; `offset` is `indices_offset`; a null fill value is `none`. The values child is a primitive or boolean array. -/
structure Sparse (α : Type) where
  indices : List Nat
  values : PArr α
  len : Nat
  offset : Nat
  fill : Option α
  deriving DecidableEq, Repr

namespace Sparse

/-- `try_new_with_offset`, mod.rs:48-92. The dtype tests reduce to: a null fill value needs a nullable values child. -/
def tryNewWithOffset (indices : List Nat) (values : PArr α) (len offset : Nat) (fill : Option α) : Res (Sparse α) := do
  Res.guard (fill.isSome || values.validity.nullable)
  Res.guard (indices.length == values.len)
  match indices.getLast? with
  | none => .ok ()
  | some last => do
    let d ← Res.sub last offset
    if d ≥ len then .err else .ok ()
  .ok ⟨indices, values, len, offset, fill⟩

/-- `try_new`, mod.rs:39-46 -/
def tryNew (indices : List Nat) (values : PArr α) (len : Nat) (fill : Option α) : Res (Sparse α) :=
  tryNewWithOffset indices values len 0 fill

/-- `search_index`, mod.rs:124-130 -/
def searchIndex (a : Sparse α) (i : Nat) : Res SearchResult := searchSlice compare a.indices (a.offset + i) .left

/-- `resolved_indices`, mod.rs:133-146; the subtraction underflows when an index lies before the offset. -/
def resolvedIndices (a : Sparse α) : Res (List Nat) := Res.mapM (fun v => Res.sub v a.offset) a.indices

/-- `min_index().unwrap_or_default()`, mod.rs:152-159 -/
def minIndex (a : Sparse α) : Res Nat :=
  match a.indices.head? with
  | none => .ok 0
  | some m => Res.sub m a.offset

/-- `max_index().unwrap_or_default()`, mod.rs:165-172 -/
def maxIndex (a : Sparse α) : Res Nat :=
  match a.indices.getLast? with
  | none => .ok 0
  | some m => Res.sub m a.offset

/-- `ArrayValidity::is_valid`, mod.rs:187-193 -/
def isValid (a : Sparse α) (i : Nat) : Res Bool := do
  match (← a.searchIndex i).toFound with
  | none => .ok a.fill.isSome
  | some k => a.values.validity.isValid k

/-- `ArrayValidity::logical_validity`, mod.rs:195-221: the validity is itself a sparse boolean array. -/
def logicalValidity (a : Sparse α) : Res (Sparse Bool) :=
  if a.fill.isNone then
    tryNewWithOffset a.indices ⟨List.replicate a.indices.length true, .nonNullable⟩ a.len a.offset (some false)
  else
    tryNewWithOffset a.indices ⟨(a.values.validity.toLogical a.values.len).intoBools, .nonNullable⟩ a.len a.offset (some false)

/-- Checked `scalar_at` (compute/unary/scalar_at.rs:12-27) over compute/mod.rs:37-43. -/
def scalarAt (a : Sparse α) (i : Nat) : Res (Option α) :=
  if i ≥ a.len then .err else do
    let v ← a.isValid i
    if !v then .ok none else do
      match (← a.searchIndex i).toFound with
      | none => .ok a.fill
      | some k => do
        let x ← idx a.values.vals k
        .ok (some x)

/-- compute/slice.rs:7-21 behind the bounds check of compute/slice.rs:22-47 -/
def slice (a : Sparse α) (s e : Nat) : Res (Sparse α) :=
  if s > a.len then .err
  else if e > a.len then .err
  else if s > e then .err
  else do
    let si := (← a.searchIndex s).toIndex
    let ei := (← a.searchIndex e).toIndex
    let is ← sliceList a.indices si ei
    let vs ← a.values.slice si ei
    tryNewWithOffset is vs (e - s) (a.offset + s) a.fill

/-- `take_map`, compute/take.rs:34-60. A hash map built by insertion keeps the last entry of equal keys. -/
def takeMap (a : Sparse α) (is : List Nat) : Res (List (Nat × Nat)) := do
  let r ← a.resolvedIndices
  let mn ← a.minIndex
  let mx ← a.maxIndex
  .ok (is.zipIdx.filterMap (fun p =>
    if mn ≤ p.1 && p.1 ≤ mx then ((r.zipIdx.reverse.find? (fun q => q.1 == p.1)).map (fun q => (p.2, q.2))) else none))

/-- `take_search_sorted`, compute/take.rs:62-88 -/
def takeSearch (a : Sparse α) (is : List Nat) : Res (List (Nat × Nat)) := do
  let mn ← a.minIndex
  let mx ← a.maxIndex
  let rs ← Res.mapM (fun p => do
    let r ← a.searchIndex p.1
    .ok (r.toFound.map (fun k => (p.2, k)))) (is.zipIdx.filter (fun p => mn ≤ p.1 && p.1 ≤ mx))
  .ok (rs.filterMap id)

/-- The choice of strategy, compute/take.rs:15-20 -/
def takePlan (a : Sparse α) (is : List Nat) : Res (List (Nat × Nat)) := if is.length > 128 then a.takeMap is else a.takeSearch is

/-- compute/take.rs:13-32 -/
def take (a : Sparse α) (is : List Nat) : Res (Sparse α) := do
  let ps ← a.takePlan is
  let vs ← a.values.take (ps.map (·.2))
  tryNew (ps.map (·.1)) vs is.length a.fill

/-- The coordinate loop of compute/mod.rs:85-103: `value` is the position in the values child, `last` the last inserted coordinate,
`prev` the last pushed output coordinate (0 at the start). -/
def filterLoop (mask : List Bool) : (coords : List Nat) → (value last prev : Nat) → Res (List (Nat × Nat))
  | [], _, _, _ => .ok []
  | c :: cs, value, last, prev => do
    let b ← idx mask c
    if b then do
      let n ← Res.sub c last
      let bits ← if last + n ≤ mask.length then .ok ((mask.drop last).take n) else .panic
      let co := bits.count true + prev
      let rest ← filterLoop mask cs (value + 1) c co
      .ok ((co, value) :: rest)
    else
      filterLoop mask cs (value + 1) last prev

/-- compute/mod.rs:76-114 behind the length check of compute/filter.rs:33-39 -/
def filter (a : Sparse α) (mask : List Bool) : Res (Sparse α) :=
  if mask.length ≠ a.len then .err else do
    let coords ← a.resolvedIndices
    let ps ← filterLoop mask coords 0 0 0
    let vs ← a.values.take (ps.map (·.2))
    tryNew (ps.map (·.1)) vs (mask.count true) a.fill

/-- `v[i] = x` (panics out of range). -/
def setAt (xs : List α) (i : Nat) (x : α) : Res (List α) := if i < xs.length then .ok (xs.set i x) else .panic

/-- The scatter loop of flatten.rs:57-60 / 85-88. -/
def scatter (vals : List α) (valid : List Bool) : List (Nat × α) → Res (List α × List Bool)
  | [] => .ok (vals, valid)
  | (i, x) :: ps => do
    let v ← setAt vals i x
    let b ← setAt valid i true
    scatter v b ps

/-- `canonicalize_sparse_primitives`, flatten.rs:68-97 (called from 16-43). `zip_eq` panics on a length mismatch. The values' own
validity is not consulted: `maybe_null_slice`. -/
def canonicalPrim (dflt : α) (a : Sparse α) : Res (PArr α) := do
  let is ← a.resolvedIndices
  Res.assert (is.length == a.values.vals.length)
  let (vals, valid) ← scatter (List.replicate a.len (a.fill.getD dflt)) (List.replicate a.len false) (is.zip a.values.vals)
  .ok (if a.fill.isNone then ⟨vals, Validity.ofBooleanBuffer valid⟩ else ⟨vals, .nonNullable⟩)

/-- `canonicalize_sparse_bools`, flatten.rs:45-66 -/
def canonicalBool (a : Sparse Bool) : Res (PArr Bool) := do
  let is ← a.resolvedIndices
  let (vals, valid) ← scatter (List.replicate a.len (a.fill.getD false)) (List.replicate a.len false) (is.zip a.values.vals)
  .ok ⟨vals, Validity.ofBooleanBuffer valid⟩

/-- `SearchSortedFn for SparseArray`, compute/mod.rs:53-74, on an integer values child; `key` orders the values. -/
def searchSorted (search : PArr α → α → Side → Res SearchResult) (a : Sparse α) (v : α) (side : Side) : Res SearchResult := do
  let sr ← search a.values v side
  let sidx ← sr.toOffsetsIndex a.indices.length
  let index ← if sidx < a.indices.length then idx a.indices sidx else .err
  match sr with
  | .found i => do
    let p ← Res.sub (if i = a.indices.length then index + 1 else index) a.offset
    .ok (.found p)
  | .notFound i => do
    let p ← Res.sub (if i = 0 then index else index + 1) a.offset
    .ok (.notFound p)

end Sparse
end Vx
