import Verif.Basic
/-! # Binary search (vortex-array/src/compute/search_sorted.rs) -/

namespace Vx

/-- vortex-array/src/compute/search_sorted.rs:13-17 -/
inductive Side where
  | left
  | right
  deriving DecidableEq, Repr

/-- vortex-array/src/compute/search_sorted.rs:28-37 -/
inductive SearchResult where
  | found (i : Nat)
  | notFound (i : Nat)
  deriving DecidableEq, Repr

namespace SearchResult

/-- search_sorted.rs:41-46 -/
def toFound : SearchResult → Option Nat
  | found i => some i
  | notFound _ => none

/-- search_sorted.rs:49-54 -/
def toIndex : SearchResult → Nat
  | found i => i
  | notFound i => i

/-- search_sorted.rs:60-71 (`i - 1` underflows, i.e. panics, for `Found(0)` with `len = 0`). -/
def toOffsetsIndex (r : SearchResult) (len : Nat) : Res Nat :=
  match r with
  | found i => if i = len then Res.sub i 1 else .ok i
  | notFound i => .ok (i - 1)

/-- search_sorted.rs:78-85 (`idx - 1` underflows, i.e. panics, when `idx = len = 0`). -/
def toEndsIndex (r : SearchResult) (len : Nat) : Res Nat :=
  if r.toIndex = len then Res.sub r.toIndex 1 else .ok r.toIndex

end SearchResult

/-- The `while size > 1` loop, search_sorted.rs:338-361. `find` may itself fail (`scalar_at` can panic). -/
def sideLoop (find : Nat → Res Ordering) (base size : Nat) : Res Nat :=
  if 1 < size then do
    let half := size / 2
    let mid := base + half
    let cmp ← find mid
    sideLoop find (if cmp = .gt then base else mid) (size - half)
  else
    .ok base
termination_by size

/-- search_sorted.rs:323-376. The two `assert_unchecked` hints are not modelled as checks; that they hold is part of what is
proved (`base < to`, `result ≤ to`). -/
def searchSortedSideIdx (find : Nat → Res Ordering) (start stop : Nat) : Res SearchResult := do
  let size ← Res.sub stop start
  if size = 0 then
    .ok (.notFound 0)
  else
    let base ← sideLoop find start size
    let cmp ← find base
    if cmp = .eq then .ok (.found base)
    else .ok (.notFound (base + if cmp = .lt then 1 else 0))

/-- `search_sorted_by`, search_sorted.rs:298-319; the final `unreachable!` is a panic. -/
def searchSortedBy (find sideFind : Nat → Res Ordering) (len : Nat) (side : Side) : Res SearchResult := do
  match ← searchSortedSideIdx find 0 len with
  | .found found =>
    let r ← match side with
      | .left => searchSortedSideIdx sideFind 0 found
      | .right => searchSortedSideIdx sideFind found len
    match r with
    | .notFound i => .ok (.found i)
    | .found _ => .panic
  | s => .ok s

/-- `SearchSorted::search_sorted`, search_sorted.rs:253-281, over `IndexOrd::index_cmp` (227-245).
`indexCmp i` is `Some(ordering of element i with respect to the probe)`, or `None`. -/
def searchSorted (indexCmp : Nat → Res (Option Ordering)) (len : Nat) (side : Side) : Res SearchResult :=
  let find := fun i => do
    let c ← indexCmp i
    .ok (c.getD .lt)
  match side with
  | .left =>
    searchSortedBy find (fun i => do
      let c ← indexCmp i
      .ok (if c = some .lt then .lt else .gt)) len side
  | .right =>
    searchSortedBy find (fun i => do
      let c ← indexCmp i
      .ok (if c = some .lt ∨ c = some .eq then .lt else .gt)) len side

/-- `IndexOrd<T> for [T]` (search_sorted.rs:385-390) and `SearchSortedPrimitive`
(vortex-array/src/array/primitive/compute/search_sorted.rs:66-71). The Rust code uses `get_unchecked`: an out-of-range
index is undefined behaviour, here a panic, so that "never panics" includes "never reads out of bounds". -/
def sliceIndexCmp (cmp : α → β → Ordering) (xs : List α) (v : β) (i : Nat) : Res (Option Ordering) := do
  let x ← idx xs i
  .ok (some (cmp x v))

/-- `search_sorted` on a slice of values. -/
def searchSlice (cmp : α → β → Ordering) (xs : List α) (v : β) (side : Side) : Res SearchResult :=
  searchSorted (sliceIndexCmp cmp xs v) xs.length side

/-- `SearchSortedNullsLast::index_cmp`, vortex-array/src/array/primitive/compute/search_sorted.rs:93-101: a null compares
greater than any probe. -/
def nullsLastIndexCmp (cmp : α → β → Ordering) (xs : List (Option α)) (v : β) (i : Nat) : Res (Option Ordering) := do
  match ← idx xs i with
  | none => .ok (some .gt)
  | some x => .ok (some (cmp x v))

/-- `PrimitiveArray::search_sorted` for `Validity::Array` (primitive/compute/search_sorted.rs:22-25). -/
def searchNullsLast (cmp : α → β → Ordering) (xs : List (Option α)) (v : β) (side : Side) : Res SearchResult :=
  searchSorted (nullsLastIndexCmp cmp xs v) xs.length side

end Vx
