import Verif.Model.TreeBulk
import Verif.Model.Leaves
import Verif.Model.BoolPred
import Verif.Model.RunEndBool
import Verif.Model.ByteBool
import Verif.Model.Roaring
/-!
# Filtering by a predicate of any boolean encoding

`Model/TreeBulk` filters by a list of bits; here the predicate is the array that is handed to `filter`, and every kernel asks it what the code asks: its
`TrueCount` statistic, its two iterators over set positions, or its canonical form.

Simplification: the statistics an array already carries are a parameter (`Known`).
-/
namespace Vx

/-- `ChunkedArray` filtered by given runs: chunked/compute/filter.rs:77-158 (`Chunked.filterSlices` on the runs an iterator yields) -/
def Chunked.filterRuns (len : C → Nat) (fl : C → List Bool → Res C) (cs : List C) (runs : List (Nat × Nat)) : Res (List C) := do
  let fs ← Chunked.addSlices (Chunked.offsets (cs.map len)) (List.replicate cs.length .none) runs
  Chunked.applyFilters len fl (cs.zip fs)

namespace Tree

/-- A non-nullable boolean array, by encoding. -/
inductive Pred where
  /-- `BoolArray` -/
  | plain (p : BoolPred)
  /-- `ConstantArray` -/
  | const (b : Bool) (n : Nat)
  /-- `SparseArray` -/
  | sparse (s : Sparse Bool)
  /-- `RunEndBoolArray` -/
  | runEnd (r : RunEndBool)
  /-- `ByteBoolArray` -/
  | byte (b : ByteBool.Arr)
  /-- `RoaringBoolArray` -/
  | roaring (r : Roaring.BArr)
  /-- `ChunkedArray` -/
  | chunked (cs : List Pred)

namespace Pred

mutual
/-- `len()` -/
def len : Pred → Nat
  | .plain p => p.len
  | .const _ n => n
  | .sparse s => s.len
  | .runEnd r => r.length
  | .byte b => b.bytes.length
  | .roaring r => r.len
  | .chunked cs => lens cs

def lens : List Pred → Nat
  | [] => 0
  | c :: cs => len c + lens cs
end

/-- The `TrueCount` statistics that arrays already carry. -/
abbrev Known := Pred → Option Nat

/-- `merge_scalar_stat` of two chunks: stats/statsset.rs:184-195 -/
def mergeCount : Option Nat → Option Nat → Option Nat
  | some a, some b => some (a + b)
  | _, _ => none

mutual
/-- `statistics().compute_true_count()`: what is known, or bool/stats.rs:12-28, constant/stats.rs:9-19, bytebool/src/stats.rs:7-17, chunked/stats.rs:4-20;
sparse and run-end-bool arrays compute nothing (sparse/mod.rs:182, runend-bool/src/array.rs:166), roaring arrays never the count
(roaring/src/boolean/stats.rs:91-100: it is set at construction). -/
def stat (known : Known) (p : Pred) : Option Nat :=
  match known p with
  | some n => some n
  | none => match p with
    | .plain q => if q.len = 0 then none else some (q.bits.count true)
    | .const b n => some (if b then n else 0)
    | .byte b => if b.bytes.length = 0 then none else some ((ByteBool.bools b).count true)
    | .chunked (c :: cs) => statMerge known (stat known c) cs
    | _ => none

/-- The `reduce` of chunked/stats.rs:13-18 -/
def statMerge (known : Known) : Option Nat → List Pred → Option Nat
  | acc, [] => acc
  | acc, c :: cs => statMerge known (mergeCount acc (stat known c)) cs
end

/-- `maybe_null_indices_iter`: bool/mod.rs:99-101, constant/variants.rs:64-74, sparse/variants.rs:51-53; `todo!()` in chunked/variants.rs:50-52,
bytebool/src/array.rs:93-95, roaring/src/boolean/mod.rs:98-100, runend-bool/src/array.rs:118-120 -/
def indices : Pred → Res (List Nat)
  | .plain p => .ok p.indices
  | .const b n => .ok (if b then List.range n else [])
  | .sparse s => s.resolvedIndices
  | _ => .panic

/-- `maybe_null_slices_iter`: bool/mod.rs:103-105, constant/variants.rs:76-88; `todo!()` in sparse/variants.rs:55-57 and the others -/
def slices : Pred → Res (List (Nat × Nat))
  | .plain p => .ok p.slices
  | .const b n => .ok (if b then [(0, n)] else [])
  | _ => .panic

/-- `BoolArrayTrait::true_count`, variants.rs:102-106 -/
def trueCount (known : Known) (p : Pred) : Res Nat :=
  match stat known p with
  | some n => .ok n
  | none => do
    let is ← p.indices
    .ok is.length

mutual
/-- `into_canonical()?.into_bool()`: constant/canonical.rs:22-33, sparse/flatten.rs:45-66, runend-bool/src/array.rs:145-157, bytebool/src/array.rs:126-133,
roaring/src/boolean/mod.rs:150-176, chunked/canonical.rs:15-25 and 141-157 (a non-nullable chunked array is given no validity) -/
def canon : Pred → Res (PArr Bool)
  | .plain p => .ok ⟨p.bits, .nonNullable⟩
  | .const b n => .ok ⟨List.replicate n b, .nonNullable⟩
  | .sparse s => s.canonicalBool
  | .runEnd r => r.canonical
  | .byte b => ByteBool.intoCanonical b
  | .roaring r => Roaring.bIntoCanonical r
  | .chunked cs => do
    let bs ← canons cs
    .ok ⟨bs, .nonNullable⟩

def canons : List Pred → Res (List Bool)
  | [] => .ok []
  | c :: cs => do
    let b ← canon c
    let bs ← canons cs
    .ok (b.vals ++ bs)
end

/-- The rows arrow's filter keeps for a boolean array with nulls: a null does not select (`arrow_select::filter`, trusted contract). -/
def arrowMask (c : PArr Bool) : List Bool := List.zipWith (fun b v => b && v) c.vals (c.validity.toLogical c.vals.length).intoBools

end Pred

open Pred

variable {L : Type} (env : BEnv L) (known : Known) (lf : L → Pred → Res (Arr L)) (o : Bulks L)

/-- chunked/compute/filter.rs:11-41: `filter` and `take` of the chunks get plain predicates and indices. -/
def filterChunksBy (cs : List (Arr L)) (p : Pred) : Res (List (Arr L)) := do
  let n ← p.trueCount known
  if n = (cs.map (len env.toEnv)).sum then .ok cs
  else if n = 0 then .ok []
  else if env.manySet n (cs.map (len env.toEnv)).sum then do
    let runs ← p.slices
    Chunked.filterRuns (len env.toEnv) o.filter cs runs
  else do
    let is ← p.indices
    Chunked.filterIndicesLoop o.take cs (Chunked.offsets (cs.map (len env.toEnv))) 0 [] is

/-- `Validity::filter`, validity.rs:151-158 -/
def filterVBy (rec : Arr L → Res (Arr L)) (v : TVal (Arr L)) : Res (TVal (Arr L)) :=
  match v with
  | .array a => do
    let b ← rec a
    .ok (.array b)
  | v => .ok v

/-- The fallback of the entry point: compute/filter.rs:42-52 -/
def filterRest (a : Arr L) (p : Pred) : Res (Arr L) := do
  let c ← canonFn env o a
  let m ← p.canon
  filterArrow env o c (dtype env.toEnv a).isNullable (arrowMask m)

/-- `FilterFn::filter` of each encoding (the files of `filterFn`), given the array that is the predicate; `rec` is `filter` by the same predicate on the
children. -/
def filterByFn (p : Pred) (rec : Arr L → Res (Arr L)) (a : Arr L) : Res (Arr L) :=
  match a with
  | .leaf l => lf l p
  | .const dt x _ => do
    let n ← p.trueCount known
    .ok (.const dt x n)
  | .chunked dt cs => do
    let out ← filterChunksBy env known o cs p
    mkChunked env.toEnv dt out
  | .struct names fs _ v => do
    let gs ← Res.mapM rec fs
    let w ← filterVBy rec v
    mkStruct env.toEnv names gs ((gs.head?.map (len env.toEnv)).getD ((p.stat known).getD 0)) w
  | .sparse js values n off fill => do
    let m ← p.canon
    let coords ← (shadow js n off).resolvedIndices
    let ps ← Sparse.filterLoop m.vals coords 0 0 0
    let vs ← o.take values (ps.map (·.2))
    mkSparse env.toEnv (ps.map (·.1)) vs (m.vals.count true) 0 fill
  | .dict codes values => do
    let c ← rec codes
    mkDict env.toEnv c values
  | .alpP e f enc patches => do
    let x ← rec enc
    let q ← rec patches
    mkAlpP env.toEnv e f x q
  | .mapped (.for q r s) enc => do
    let x ← rec enc
    mkMapped env.toEnv (.for q r s) x
  | .mapped (.alp e f) enc => do
    let x ← rec enc
    mkMapped env.toEnv (.alp e f) x
  | a => filterRest env o a p

/-- The checked entry point (compute/filter.rs:23-53) for arrays of at most `d` levels. -/
def filterBys (p : Pred) : Nat → Arr L → Res (Arr L)
  | 0, _ => .panic
  | d + 1, a => if p.len ≠ len env.toEnv a then .err else filterByFn env known lf (bulks env d) p (filterBys p d) a

/-- `filter(array, predicate)` -/
def Arr.filterBy (a : Arr L) (p : Pred) : Res (Arr L) := filterBys env known lf p (depth a) a

end Tree

/-! ## Byte strings with offsets -/
namespace VarBin
open Tree (Pred)
open Tree.Pred (Known)

/-- varbin/compute/filter.rs:37-106 on the runs an iterator yields -/
def filterRuns (maxO : Nat) (a : Arr) (runs : List (Nat × Nat)) : Res Arr :=
  match nullBuffer (a.validity.toLogical a.len) with
  | some nb => do
    let b ← nullRuns maxO a.offsets a.bytes nb .new runs
    finish b a.nullable
  | none => do
    let b ← plainRuns maxO a.offsets a.bytes .new runs
    finish b a.nullable

/-- varbin/compute/filter.rs:136-181 on the positions an iterator yields -/
def filterAt (maxO : Nat) (a : Arr) (is : List Nat) : Res Arr := do
  let b ← idxLoop maxO a .new is
  finish b a.nullable

/-- varbin/compute/filter.rs:13-35 behind the length check -/
def filterBy (maxO : Nat) (known : Known) (a : Arr) (p : Pred) : Res Arr :=
  if p.len ≠ a.len then .err else do
    let n ← p.trueCount known
    if n * 2 > p.len then do
      let runs ← p.slices
      filterRuns maxO a runs
    else do
      let is ← p.indices
      filterAt maxO a is

end VarBin

/-! ## The leaf encodings -/
namespace Tree
open Pred

/-- fsst/src/compute.rs:147-158: the codes as byte strings, the lengths through arrow -/
def fsstFilterBy (known : Known) (a : FSST.Arr) (p : Pred) : Res FSST.Arr :=
  if p.len ≠ a.codes.len then .err else do
    let c ← VarBin.filterBy FSST.maxI32 known a.codes p
    let m ← p.canon
    let l ← filterList a.lens (arrowMask m)
    FSST.tryNew a.nullable a.syms c l

/-- ALP-RD (alp_rd/compute/filter.rs:8-24: its plain children go through arrow, the sparse exceptions through their own kernel) and FSST register a filter;
the others decode and go through arrow (compute/filter.rs:42-52). -/
def leafFilterBy (x : Outside) (known : Known) (l : RLeaf) (p : Pred) : Res (Arr RLeaf) :=
  match l with
  | .fsst k a => do
    let b ← fsstFilterBy known a p
    .ok (.leaf (.fsst k b))
  | .alpRd q a => do
    let m ← p.canon
    let b ← ALPRD.each (·.filter (arrowMask m)) (·.filter m.vals) a
    .ok (.leaf (.alpRd q b))
  | l => do
    let m ← p.canon
    leafFilter x l (arrowMask m)

end Tree
end Vx
