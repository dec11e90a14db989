import Verif.Model.SearchSorted
import Verif.Model.Primitive
import Verif.Model.RunEndBool
/-! # Chunked arrays (vortex-array/src/array/chunked)

The chunks are arrays of any encoding; their own operations (`len`, `slice`, `take`, `filter`, `scalar_at`, …) are parameters. The
chunk offsets child is always the one computed by `try_new`, so it is a function of the chunk lengths here. -/

namespace Vx.Chunked

/-- The running sums of mod.rs:56-63 (`scan`), from `acc`. -/
def scan (acc : Nat) : List Nat → List Nat
  | [] => []
  | c :: cs => (acc + c) :: scan (acc + c) cs

/-- The chunk offsets, mod.rs:56-63: one leading 0. -/
def offsets (lens : List Nat) : List Nat := scan 0 (0 :: lens)

/-- `find_chunk_idx`, mod.rs:109-128 (with `assert!(index <= len)`) -/
def findChunkIdx (lens : List Nat) (index : Nat) : Res (Nat × Nat) := do
  Res.assert (index ≤ lens.sum)
  let r ← searchSlice compare (offsets lens) index .right
  let k ← r.toEndsIndex (lens.length + 1)
  let start ← idx (offsets lens) (k - 1)
  let j ← Res.sub index start
  .ok (k - 1, j)

/-- `chunk`, mod.rs:84-95 -/
def chunk (cs : List C) (k : Nat) : Res C := Res.ofOption cs[k]?

/-- compute/scalar_at.rs:8-11 behind compute/unary/scalar_at.rs:12-27. `isValid` (mod.rs:216-223) and `scalarAt` are the chunk's own. -/
def scalarAt (len : C → Nat) (isValid : C → Nat → Res Bool) (sc : C → Nat → Res (Option R)) (cs : List C) (i : Nat) : Res (Option R) :=
  if i ≥ (cs.map len).sum then .err else do
    let (k, j) ← findChunkIdx (cs.map len) i
    let c ← Res.unwrap cs[k]?
    let v ← isValid c j
    if !v then .ok none else do
      let (k, j) ← findChunkIdx (cs.map len) i
      let c ← chunk cs k
      sc c j

/-- Slice the first chunk in place, compute/slice.rs:24-26. -/
def sliceFirst (len : C → Nat) (sl : C → Nat → Nat → Res C) (j : Nat) : List C → Res (List C)
  | [] => .ok []
  | c :: cs => do
    let c' ← sl c j (len c)
    .ok (c' :: cs)

/-- Drop or slice the last chunk, compute/slice.rs:28-32. -/
def sliceLast (sl : C → Nat → Nat → Res C) (j : Nat) (cs : List C) : Res (List C) :=
  if j = 0 then .ok cs.dropLast
  else match cs.getLast? with
    | none => .ok cs
    | some c => do
      let c' ← sl c 0 j
      .ok (cs.dropLast ++ [c'])

/-- compute/slice.rs:7-36 behind the bounds check of compute/slice.rs:22-47 -/
def slice (len : C → Nat) (sl : C → Nat → Nat → Res C) (cs : List C) (s e : Nat) : Res (List C) :=
  let n := (cs.map len).sum
  if s > n then .err
  else if e > n then .err
  else if s > e then .err
  else do
    let (k, j) ← findChunkIdx (cs.map len) s
    let (k', j') ← findChunkIdx (cs.map len) e
    if k' = k then do
      let c ← chunk cs k
      let c' ← sl c j j'
      .ok [c']
    else do
      let picked ← Res.mapM (chunk cs) ((List.range (k' + 1)).drop k)
      let p1 ← sliceFirst len sl j picked
      sliceLast sl j' p1

/-- The general loop of compute/take.rs:29-49: `prev` chunk number and the indices collected for it. -/
def takeLoop (len : C → Nat) (tk : C → List Nat → Res C) (cs : List C) : (prev : Nat) → (acc : List Nat) → List Nat → Res (List C)
  | prev, acc, [] =>
    if acc.isEmpty then .ok [] else do
      let c ← chunk cs prev
      let t ← tk c acc
      .ok [t]
  | prev, acc, i :: is => do
    let (k, j) ← findChunkIdx (cs.map len) i
    if k ≠ prev then do
      let c ← chunk cs prev
      let t ← tk c acc
      let rest ← takeLoop len tk cs k [j] is
      .ok (t :: rest)
    else takeLoop len tk cs k (acc ++ [j]) is

/-- The while loop of `take_strict_sorted`, compute/take.rs:62-96; `fuel` bounds the number of iterations (running out would be an
endless loop). The dtype juggling of lines 78-92 computes `index - chunk_begin`. -/
def strictLoop (lens : List Nat) (is : List Nat) : (fuel : Nat) → (pos : Nat) → (by_chunk : List (Option (List Nat))) →
    Res (List (Option (List Nat)))
  | 0, pos, bc => if pos < is.length then .panic else .ok bc
  | fuel + 1, pos, bc =>
    if pos < is.length then do
      let i ← idx is pos
      let (k, _) ← findChunkIdx lens i
      let b ← Res.ofOption (offsets lens)[k]?
      let e ← Res.ofOption (offsets lens)[k + 1]?
      let r ← searchSlice compare is e .left
      let ci ← sliceList is pos r.toIndex
      let adj ← Res.mapM (fun i => Res.sub i b) ci
      if k < bc.length then strictLoop lens is fuel r.toIndex (bc.set k (some adj)) else .panic
    else .ok bc

/-- compute/take.rs:98-107 -/
def takeChunks (tk : C → List Nat → Res C) (cs : List C) (bc : List (Option (List Nat))) : Res (List C) :=
  Res.mapM (fun p => do let c ← chunk cs p.1; tk c p.2) (bc.zipIdx.filterMap (fun p => p.1.map (fun is => (p.2, is))))

/-- `TakeFn for ChunkedArray`, compute/take.rs:12-53. `strict` is the answer of `compute_is_strict_sorted().unwrap_or(false)` on the
indices: if `true` they are strictly increasing (C25); an empty index array has no statistics, so it is `false` there. -/
def take (len : C → Nat) (tk : C → List Nat → Res C) (strict : Bool) (cs : List C) (is : List Nat) : Res (List C) :=
  if strict then
    if (cs.map len).sum = is.length then .ok cs
    else do
      let bc ← strictLoop (cs.map len) is is.length 0 (List.replicate cs.length none)
      takeChunks tk cs bc
  else do
    let i0 ← idx is 0
    let (k, _) ← findChunkIdx (cs.map len) i0
    takeLoop len tk cs k [] is

/-! ### filter -/

/-- filter.rs:205-213 -/
def findChunkEnds (ends : List Nat) (i : Nat) : Res (Nat × Nat) := do
  let r ← searchSlice compare ends i .right
  let k ← r.toEndsIndex ends.length
  let start ← idx ends (k - 1)
  let j ← Res.sub i start
  .ok (k - 1, j)

/-- The set positions of the predicate, `maybe_null_indices_iter` (trusted contract of arrow's bit iterators). -/
def setIndices (bs : List Bool) : List Nat := (List.range bs.length).filter (fun i => bs[i]?.getD false)

/-- The loop of `filter_indices`, filter.rs:157-200 -/
def filterIndicesLoop (tk : C → List Nat → Res C) (cs : List C) (ends : List Nat) : (cur : Nat) → (acc : List Nat) → List Nat → Res (List C)
  | cur, acc, [] =>
    if acc.isEmpty then .ok [] else do
      let c ← Res.unwrap cs[cur]?
      let t ← tk c acc
      .ok [t]
  | cur, acc, i :: is => do
    let (k, j) ← findChunkEnds ends i
    if k ≠ cur then
      if acc.isEmpty then filterIndicesLoop tk cs ends k [j] is
      else do
        let c ← Res.unwrap cs[cur]?
        let t ← tk c acc
        let rest ← filterIndicesLoop tk cs ends k [j] is
        .ok (t :: rest)
    else filterIndicesLoop tk cs ends cur (acc ++ [j]) is

/-- filter.rs:44-51 -/
inductive ChunkFilter where
  | all
  | none
  | slices (ss : List (Nat × Nat))
  deriving DecidableEq, Repr

/-- `slices_to_predicate`, filter.rs:55-74; `pos` is the end of the previous slice. Subtractions underflow, i.e. panic. -/
def slicesToPredicate (len : Nat) : (pos : Nat) → List (Nat × Nat) → Res (List Bool)
  | pos, [] => do
    let n ← Res.sub len pos
    .ok (List.replicate n false)
  | pos, (s, e) :: ss => do
    let n ← Res.sub s pos
    let m ← Res.sub e s
    let rest ← slicesToPredicate len e ss
    .ok (List.replicate n false ++ List.replicate m true ++ rest)

/-- The `match &mut chunk_filters[k]` of filter.rs:103-109 etc. -/
def pushSlice (s : Nat × Nat) : ChunkFilter → ChunkFilter
  | .slices ss => .slices (ss ++ [s])
  | _ => .slices [s]

/-- `chunk_filters[k]` updated in place (panics out of range). -/
def updFilter (fs : List ChunkFilter) (k : Nat) (g : ChunkFilter → ChunkFilter) : Res (List ChunkFilter) :=
  match fs[k]? with
  | some f => .ok (fs.set k (g f))
  | none => .panic

/-- `chunk_filters[a..b] = All`, filter.rs:136-138 (panics when the range is not inside the vector). -/
def setAll (fs : List ChunkFilter) (a b : Nat) : Res (List ChunkFilter) :=
  if a ≤ b ∧ b ≤ fs.length then .ok (fs.take a ++ List.replicate (b - a) .all ++ fs.drop b) else .panic

/-- One set slice, filter.rs:91-140 -/
def addSlice (ends : List Nat) (fs : List ChunkFilter) (p : Nat × Nat) : Res (List ChunkFilter) := do
  let (sc, si) ← findChunkEnds ends p.1
  let last ← Res.sub p.2 1
  let (ec, ei) ← findChunkEnds ends last
  if sc = ec then updFilter fs sc (pushSlice (si, ei + 1))
  else do
    let a ← idx ends (sc + 1)
    let b ← idx ends sc
    let n ← Res.sub a b
    let f1 ← updFilter fs sc (pushSlice (si, n))
    let f2 ← updFilter f1 ec (pushSlice (0, ei + 1))
    setAll f2 (sc + 1) ec

/-- The fold over all set slices -/
def addSlices (ends : List Nat) : List ChunkFilter → List (Nat × Nat) → Res (List ChunkFilter)
  | fs, [] => .ok fs
  | fs, p :: ps => do
    let fs' ← addSlice ends fs p
    addSlices ends fs' ps

/-- filter.rs:143-155 -/
def applyFilters (len : C → Nat) (fl : C → List Bool → Res C) : List (C × ChunkFilter) → Res (List C)
  | [] => .ok []
  | (c, f) :: rest => do
    let out ← match f with
      | .all => .ok [c]
      | .none => .ok []
      | .slices ss => do
        let m ← slicesToPredicate (len c) 0 ss
        let c' ← fl c m
        .ok [c']
    let more ← applyFilters len fl rest
    .ok (out ++ more)

/-- `filter_slices`, filter.rs:77-158 -/
def filterSlices (len : C → Nat) (fl : C → List Bool → Res C) (cs : List C) (mask : List Bool) : Res (List C) := do
  let fs ← addSlices (offsets (cs.map len)) (List.replicate cs.length .none) (RunEndBool.setSlices 0 none mask)
  applyFilters len fl (cs.zip fs)

/-- `FilterFn for ChunkedArray`, filter.rs:12-40, behind the length check of compute/filter.rs:33-39. `manySet` is the floating-point
test `selected / len > 0.8`; it only chooses between the two algorithms and may be any function. -/
def filter (len : C → Nat) (tk : C → List Nat → Res C) (fl : C → List Bool → Res C) (manySet : Nat → Nat → Bool) (cs : List C)
    (mask : List Bool) : Res (List C) :=
  if mask.length ≠ (cs.map len).sum then .err
  else if mask.count true = (cs.map len).sum then .ok cs
  else if mask.count true = 0 then .ok []
  else if manySet (mask.count true) mask.length then filterSlices len fl cs mask
  else filterIndicesLoop tk cs (offsets (cs.map len)) 0 [] (setIndices mask)

/-! ### canonical form and rechunking -/

/-- `into_canonical` for primitive and boolean chunks: canonical.rs:16-25, `pack_primitives` 159-176 / `pack_bools` 141-150, on chunks
that are canonical already; the validity collects the chunks' logical validities (mod.rs:225-231). -/
def canonicalPrim (nullable : Bool) (cs : List (PArr α)) : PArr α :=
  ⟨cs.flatMap (·.vals),
   if nullable then ((LogicalValidity.collect (cs.map (fun c => c.validity.toLogical c.len))).toLogical ((cs.map PArr.len).sum)).intoValidity
   else .nonNullable⟩

/-- The loop of `rechunk`, mod.rs:148-195; `combine` is `try_new(..)?.into_canonical()?`. -/
def rechunkLoop (nbytes len : C → Nat) (combine : List C → Res C) (tb tr : Nat) :
    (pend : List C) → (pb pr : Nat) → List C → Res (List C)
  | pend, _, _, [] =>
    if pend.isEmpty then .ok [] else do
      let c ← combine pend
      .ok [c]
  | pend, pb, pr, c :: cs =>
    if (pb + nbytes c > tb || pr + len c > tr) && !pend.isEmpty then do
      let out ← combine pend
      if nbytes c > tb || len c > tr then do
        let rest ← rechunkLoop nbytes len combine tb tr [] 0 0 cs
        .ok (out :: c :: rest)
      else do
        let rest ← rechunkLoop nbytes len combine tb tr [c] (nbytes c) (len c) cs
        .ok (out :: rest)
    else if nbytes c > tb || len c > tr then do
      let rest ← rechunkLoop nbytes len combine tb tr pend pb pr cs
      .ok (c :: rest)
    else rechunkLoop nbytes len combine tb tr (pend ++ [c]) (pb + nbytes c) (pr + len c) cs

/-- `rechunk`, mod.rs:148-195 -/
def rechunk (nbytes len : C → Nat) (combine : List C → Res C) (tb tr : Nat) (cs : List C) : Res (List C) :=
  rechunkLoop nbytes len combine tb tr [] 0 0 cs

end Vx.Chunked
