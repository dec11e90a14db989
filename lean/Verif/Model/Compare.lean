import Verif.Model.Primitive
import Verif.Model.Chunked
/-! # Comparison and boolean kernels

vortex-array/src/compute/{compare,boolean}.rs and the per-encoding implementations.

Three notions of order meet in `compare`: the native Rust operators (primitive kernels), the order of `Scalar`s (constants) and
arrow's kernels (everything else). They are kept apart here, because for floats they differ. -/

namespace Vx

/-- compute/compare.rs:13-21; the first six operators of vortex-expr/src/operators.rs:6-17 are the same. -/
inductive Op where
  | eq | notEq | gt | gte | lt | lte
  deriving DecidableEq, Repr

namespace Op

/-- compute/compare.rs:38-47 -/
def inverse : Op → Op
  | eq => notEq
  | notEq => eq
  | gt => lte
  | gte => lt
  | lt => gte
  | lte => gt

/-- compute/compare.rs:50-59 -/
def swap : Op → Op
  | eq => eq
  | notEq => notEq
  | gt => lt
  | gte => lte
  | lt => gt
  | lte => gte

/-- The Rust operators in terms of `partial_cmp` (compute/compare.rs:61-70): `<` and so on are false for unordered operands,
`!=` is true. -/
def holds (o : Option Ordering) : Op → Bool
  | eq => o == some .eq
  | notEq => o != some .eq
  | gt => o == some .gt
  | gte => o == some .gt || o == some .eq
  | lt => o == some .lt
  | lte => o == some .lt || o == some .eq

end Op

/-- The comparisons involved: native Rust, arrow's kernels, `Scalar`'s `PartialOrd` and `PartialEq` of the values. -/
structure Cmps (α : Type) where
  native : α → α → Option Ordering
  arrow : α → α → Option Ordering
  scalar : α → α → Option Ordering
  scalarEq : α → α → Bool

namespace Compare

/-- One packed 64-bit block, primitive/compute/compare.rs:83-91 and 98-104: bits `0..k` of block `block`. Reading past a slice is
undefined behaviour in the full blocks and a panic in the last one; both are `panic` here. -/
def packBlock (f : α → α → Bool) (lhs rhs : List α) (block : Nat) : Nat → Res (BitVec 64)
  | 0 => .ok 0
  | k + 1 => do
    let p ← packBlock f lhs rhs block k
    let l ← idx lhs (k + block * 64)
    let r ← idx rhs (k + block * 64)
    .ok (p ||| ((if f l r then 1 else 0 : BitVec 64) <<< k))

/-- `BooleanBuffer::new(buffer, 0, len)` read back: bit `i` is bit `i % 64` of word `i / 64` (words are stored little-endian). -/
def readBits (words : List (BitVec 64)) (len : Nat) : Res (List Bool) :=
  Res.mapM (fun i => do
    let w ← idx words (i / 64)
    .ok (w.getLsbD (i % 64))) (List.range len)

/-- The remainder block of primitive/compute/compare.rs:97-110 -/
def lastBlock (f : α → α → Bool) (lhs rhs : List α) : Res (List (BitVec 64)) :=
  if lhs.length % 64 ≠ 0 then do
    let w ← packBlock f lhs rhs (lhs.length / 64) (lhs.length % 64)
    .ok [w]
  else .ok []

/-- `apply_predicate`, primitive/compute/compare.rs:69-113 -/
def applyPredicate (f : α → α → Bool) (lhs rhs : List α) : Res (List Bool) := do
  let full ← Res.mapM (fun b => packBlock f lhs rhs b 64) (List.range (lhs.length / 64))
  let last ← lastBlock f lhs rhs
  readBits (full ++ last) lhs.length

/-- `BoolArray::try_new`: the validity must have the array's length. -/
def boolTryNew (vals : List Bool) (v : Validity) : Res (PArr Bool) := do
  v.checkLen vals.length
  .ok ⟨vals, v⟩

/-- Primitive against primitive, primitive/compute/compare.rs:17-34 -/
def primPrim (cmp : α → α → Option Ordering) (op : Op) (a b : PArr α) : Res (PArr Bool) := do
  let bits ← applyPredicate (fun x y => op.holds (cmp x y)) a.vals b.vals
  let v ← Validity.and true a.validity b.validity
  boolTryNew bits v.intoNullable

/-- Primitive against a constant, primitive/compute/compare.rs:40-67; a null constant is an error (line 50). -/
def primConst (cmp : α → α → Option Ordering) (op : Op) (a : PArr α) (c : Option α) : Res (PArr Bool) := do
  let x ← Res.ofOption c
  boolTryNew (a.vals.map (fun y => op.holds (cmp y x))) a.validity.intoNullable

/-- `scalar_cmp`, compute/compare.rs:121-137. `Scalar`'s `==` also compares the dtypes, nullability included
(vortex-scalar/src/lib.rs), its order does not. -/
def scalarCmp (c : Cmps α) (op : Op) (l r : Option α) (ln rn : Bool) : Option Bool :=
  match l, r with
  | some a, some b => some (match op with
    | .eq => (ln == rn) && c.scalarEq a b
    | .notEq => !((ln == rn) && c.scalarEq a b)
    | op => op.holds (c.scalar a b))
  | _, _ => none

/-- A row of an arrow binary kernel (trusted contract): null if either side is null. -/
def arrowRow (f : α → β → γ) : Option α → Option β → Option γ
  | some x, some y => some (f x y)
  | _, _ => none

/-- arrow's comparison kernels (trusted contract): null if either side is null, else the operator. -/
def arrowCmp (c : Cmps α) (op : Op) (a b : List (Option α)) : PArr Bool :=
  let rs := List.zipWith (arrowRow (fun x y => op.holds (c.arrow x y))) a b
  ⟨rs.map (·.getD false), .array (rs.map (·.isSome))⟩

end Compare

/-- The arrays `compare` distinguishes: primitive, constant (value, nullability of the type, length), chunked, and any other encoding,
which has no kernel of its own and is brought to canonical form; for it only its rows and whether it is known to be constant
(`Stat::IsConstant` cached) matter. -/
inductive CArr (α : Type) where
  | prim (a : PArr α)
  | const (v : Option α) (nullable : Bool) (len : Nat)
  | other (a : PArr α) (isConst : Bool)
  | chunked (cs : List (CArr α))

namespace CArr

mutual
/-- The length; for a chunked array the sum of its chunks' lengths, chunked/mod.rs:42-51 (the last chunk offset). -/
def len : CArr α → Nat
  | prim a => a.len
  | const _ _ n => n
  | other a _ => a.len
  | chunked cs => lens cs
/-- The sum over the chunks. -/
def lens : List (CArr α) → Nat
  | [] => 0
  | c :: cs => len c + lens cs
end

/-- compute/slice.rs:22-47 over the encodings' own kernels; `fuel` bounds the nesting depth. -/
def slice : (fuel : Nat) → CArr α → Nat → Nat → Res (CArr α)
  | _, prim a, s, e => do
    let b ← a.slice s e
    .ok (.prim b)
  | _, const v nl n, s, e => if s > n ∨ e > n ∨ s > e then .err else .ok (.const v nl (e - s))
  | _, other a k, s, e => do
    let b ← a.slice s e
    .ok (.other b k)
  | 0, chunked _, _, _ => .err
  | fuel + 1, chunked cs, s, e => do
    let ds ← Chunked.slice len (slice fuel) cs s e
    .ok (.chunked ds)

/-- `MaybeCompareFn for ConstantArray`, constant/compute.rs:106-121, on the first row of the other side. -/
def constCompare (c : Cmps α) (op : Op) (v : Option α) (nl : Bool) (n : Nat) (first : Option (Option α)) (rn : Bool) : Res (CArr Bool) := do
  let r ← Res.unwrap first
  .ok (.const (Compare.scalarCmp c op v r nl rn) true n)

/-- `CompareFn for ChunkedArray`, chunked/compute/mod.rs:57-72: the other side is sliced chunk by chunk. -/
def chunkLoop (cmpF : CArr α → CArr α → Res (CArr Bool)) (sl : Nat → Nat → Res (CArr α)) : Nat → List (CArr α) → Res (List (CArr Bool))
  | _, [] => .ok []
  | i, c :: cs => do
    let r ← sl i (i + c.len)
    let x ← cmpF c r
    let xs ← chunkLoop cmpF sl (i + c.len) cs
    .ok (x :: xs)

/-- `compare`, compute/compare.rs:80-119 with the dispatch on the two encodings. The dtype test is fixed by the types. -/
def compareF (c : Cmps α) : (fuel : Nat) → CArr α → CArr α → Op → Res (CArr Bool)
  | 0, _, _, _ => .err
  | fuel + 1, l, r, op =>
    if l.len ≠ r.len then .err else
    match l, r with
    | .const v nl n, .const v' nl' n' => constCompare c op v nl n (if n' = 0 then none else some v') nl'
    | .const v nl n, r => compareF c fuel r (.const v nl n) op.swap
    | .chunked cs, r => do
      let xs ← chunkLoop (fun a b => compareF c fuel a b op) (slice fuel r) 0 cs
      .ok (.chunked xs)
    | .prim a, .const v _ _ => do
      let b ← Compare.primConst c.native op a v
      .ok (.prim b)
    | .prim a, .prim b => do
      let b ← Compare.primPrim c.native op a b
      .ok (.prim b)
    | l, .chunked cs => do
      let xs ← chunkLoop (fun a b => compareF c fuel a b op.swap) (slice fuel l) 0 cs
      .ok (.chunked xs)
    | .other a true, .const v nl n => constCompare c op.swap v nl n a.rows.head? a.validity.nullable
    | .other a false, .const v _ n => .ok (.prim (Compare.arrowCmp c op a.rows (List.replicate n v)))
    | .other a _, .other b _ => .ok (.prim (Compare.arrowCmp c op a.rows b.rows))
    | .other a _, .prim b => .ok (.prim (Compare.arrowCmp c op a.rows b.rows))
    | .prim a, .other b _ => .ok (.prim (Compare.arrowCmp c op a.rows b.rows))

mutual
/-- The nesting depth of chunked arrays. -/
def depth : CArr α → Nat
  | chunked cs => depths cs + 1
  | prim _ => 0
  | const _ _ _ => 0
  | other _ _ => 0
/-- The depth of the deepest. -/
def depths : List (CArr α) → Nat
  | [] => 0
  | c :: cs => max (depth c) (depths cs)
end

/-- `compare` with enough fuel for the two arguments: every chunked level costs at most one call, and a constant on the left one more. -/
def compare (c : Cmps α) (l r : CArr α) (op : Op) : Res (CArr Bool) := compareF c (2 * (l.depth + r.depth) + 2) l r op

end CArr

/-! ### and, or -/

/-- The arrays `and` and `or` distinguish: `BoolArray`s and constants have kernels, any other encoding does not. -/
inductive BArr where
  | bool (a : PArr Bool) (isConst : Bool)
  | const (v : Option Bool) (len : Nat)
  | other (a : PArr Bool)
  deriving DecidableEq, Repr

namespace BArr

def len : BArr → Nat
  | bool a _ => a.len
  | const _ n => n
  | other a => a.len

/-- The rows in canonical form. -/
def canon : BArr → List (Option Bool)
  | bool a _ => a.rows
  | const v n => List.replicate n v
  | other a => a.rows

/-- arrow's `boolean::and`/`or` (trusted contract): not the Kleene variants, null if either side is null. -/
def arrowBool (f : Bool → Bool → Bool) (a b : List (Option Bool)) : BArr :=
  let rs := List.zipWith (Compare.arrowRow f) a b
  .bool ⟨rs.map (·.getD false), .array (rs.map (·.isSome))⟩ false

/-- bool/compute/boolean.rs:10-37 -/
def boolImpl (f : Bool → Bool → Bool) (l r : BArr) : BArr := arrowBool f l.canon r.canon

/-- What `statistics().get_as(IsConstant) == Some(true)` and `scalar_at(other, 0)` see: `none` when not known to be constant. -/
def firstIfConst : BArr → Option (Option (Option Bool))
  | bool a true => some a.rows.head?
  | const v n => some (if n = 0 then none else some v)
  | _ => none

/-- `constant_array_bool_impl`, constant/compute.rs:145-172. `BoolArray` is the only other encoding with an implementation. -/
def constImpl (f : Bool → Bool → Bool) (v : Option Bool) (n : Nat) (o : BArr) : Res BArr :=
  match firstIfConst o with
  | some first => do
    let r ← Res.ofOption first
    .ok (.const ((v.bind fun a => r.map fun b => (a, b)).map (fun p => f p.1 p.2)) n)
  | none => match o with
    | .bool a k => .ok (boolImpl f (.bool a k) (.const v n))
    | _ => .err

/-- `and` and `or`, compute/boolean.rs:13-63, with `f` the operation. -/
def boolOp (f : Bool → Bool → Bool) (l r : BArr) : Res BArr :=
  if l.len ≠ r.len then .err
  else match l, r with
    | .bool a k, r => .ok (boolImpl f (.bool a k) r)
    | .const v n, r => constImpl f v n r
    | l, .bool b k => .ok (boolImpl f (.bool b k) l)
    | l, .const v n => constImpl f v n l
    | .other a, r => .ok (boolImpl f (.bool a false) r)

end BArr
end Vx
