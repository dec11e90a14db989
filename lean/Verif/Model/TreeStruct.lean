import Verif.Model.Tree
/-!
# Struct operations on trees of arrays

`StructArrayTrait::{field, field_by_name, project}` for the four encodings that implement it - struct, chunked, constant and sparse - and
the two expressions built on them, `Column` (vortex-expr/src/column.rs) and `Select` (vortex-expr/src/select.rs).
-/
namespace Vx.Tree
open RowExpr (Field)

/-- `DType::as_struct`, vortex-dtype/src/dtype.rs:89-95, with the nullability. -/
def asStruct : DType → Option (List Str × List DType × Bool)
  | .struct names ds nl => some (names, ds, nl)
  | _ => none

/-- `value.as_list()`, vortex-scalar/src/value.rs: a null is `None`, anything that is not a list is an error. -/
def asList : SV → Res (Option (List SV))
  | .null => .ok none
  | .list xs => .ok (some xs)
  | _ => .err

/-- The position of a field: an unknown name is an error, an index is used as it is. -/
def fieldPos (names : List Str) : Field → Res Nat
  | .name n => Res.ofOption (DType.findName names n)
  | .index i => .ok i

/-- One step of `StructArray::project`, vortex-array/src/array/struct_/mod.rs:114-130: `names()[idx]` panics out of range. -/
def pickField (names : List Str) (fs : List (Arr L)) (f : Field) : Res (Str × Arr L) := do
  let i ← fieldPos names f
  let n ← Res.unwrap names[i]?
  let c ← Res.ofOption fs[i]?
  .ok (n, c)

/-- The positions `StructScalar::project` reads, struct_.rs:107-116: `vortex_expect` and slice indexing panic. -/
def pickValue (names : List Str) (xs : List SV) (f : Field) : Res SV := do
  let i ← match f with
    | .name n => Res.unwrap (DType.findName names n)
    | .index i => .ok i
  Res.unwrap xs[i]?

/-- `StructScalar::try_new(dtype, value)?.project(projection)`, vortex-scalar/src/struct_.rs:17-25, 99-125. -/
def projectScalar (dt : DType) (x : SV) (proj : List Field) : Res (DType × SV) := do
  let (names, ds, nl) ← Res.ofOption (asStruct dt)
  let fields ← asList x
  let (ns, ds') ← DType.project names ds proj
  match fields with
  | some xs => do
    let ys ← Res.mapM (pickValue names xs) proj
    .ok (.struct ns ds' nl, .list ys)
  | none => .ok (.struct ns ds' nl, .null)

/-- `StructScalar::try_new(..).ok()?.field_by_idx(idx)`, struct_.rs:36-48: `dtypes()[idx]` panics when the value has more fields than the type. -/
def scalarField (dt : DType) (x : SV) (i : Nat) : Res (Option (DType × SV)) :=
  match asStruct dt, asList x with
  | some (_, ds, _), .ok (some xs) =>
    match xs[i]? with
    | some y => do
      let d ← Res.unwrap ds[i]?
      .ok (some (d, y))
    | none => .ok none
  | _, _ => .ok none

section
variable (env : Env L)

/-- A chunked array after its chunks were projected, chunked/variants.rs:95-104. -/
def projectChunked (dt : DType) (proj : List Field) (cs : List (Arr L)) : Res (Arr L) := do
  let (names, ds, nl) ← Res.ofOption (asStruct dt)
  let (ns, ds') ← DType.project names ds proj
  mkChunked env (.struct ns ds' nl) cs

/-- `ConstantArray::project`, constant/variants.rs:201-207. -/
def projectConst (dt : DType) (x : SV) (n : Nat) (proj : List Field) : Res (Arr L) := do
  let (dt', y) ← projectScalar dt x proj
  .ok (.const dt' y n)

/-- `SparseArray::project` after the values were projected, sparse/variants.rs:94-104; `dt` is the type of the array. -/
def projectSparse (is : List Nat) (dt : DType) (n off : Nat) (fill : SV) (proj : List Field) (values : Arr L) : Res (Arr L) := do
  let (_, y) ← projectScalar dt fill proj
  mkSparse env is values n off y

mutual
/-- `array.with_dyn(|a| a.as_struct_array().ok_or(err)?.project(projection))`: struct_/mod.rs:109-139, chunked/variants.rs:85-105,
constant/variants.rs:201-207, sparse/variants.rs:88-104; every other encoding answers `None` to `as_struct_array`. -/
def project (proj : List Field) : Arr L → Res (Arr L)
  | .struct names fs n v => do
    let cols ← Res.mapM (pickField names fs) proj
    mkStruct env (cols.map (·.1)) (cols.map (·.2)) n v
  | .chunked dt cs => do
    Res.guard (asStruct dt).isSome
    let cs' ← projects proj cs
    projectChunked env dt proj cs'
  | .const dt x n => do
    Res.guard (asStruct dt).isSome
    projectConst dt x n proj
  | .sparse is values n off fill => do
    Res.guard (asStruct (dtype env values)).isSome
    let values' ← project proj values
    projectSparse env is (dtype env values) n off fill proj values'
  | _ => .err
def projects (proj : List Field) : List (Arr L) → Res (List (Arr L))
  | [] => .ok []
  | c :: cs => do
    let c' ← project proj c
    let cs' ← projects proj cs
    .ok (c' :: cs')
end

/-- The end of `ChunkedArray::field`, chunked/variants.rs:72-82 -/
def fieldChunked (dt : DType) (i : Nat) (cs : List (Arr L)) : Res (Option (Arr L)) :=
  match asStruct dt with
  | some (_, ds, _) =>
    match ds[i]? with
    | some d => match mkChunked env d cs with
      | .ok a => .ok (some a)
      | _ => .panic
    | none => .ok none
  | none => .ok none

/-- The end of `SparseArray::field`, sparse/variants.rs:71-86 -/
def fieldSparse (is : List Nat) (dt : DType) (n off : Nat) (fill : SV) (i : Nat) (values : Arr L) : Res (Option (Arr L)) := do
  let x ← scalarField dt fill i
  match x with
  | some (_, y) => match mkSparse env is values n off y with
    | .ok a => .ok (some a)
    | .err => .ok none
    | .panic => .panic
  | none => .ok none

mutual
/-- `StructArrayTrait::field`: struct_/mod.rs:150-156, chunked/variants.rs:66-83, constant/variants.rs:194-199, sparse/variants.rs:67-86;
`None` for every other encoding. -/
def field (i : Nat) : Arr L → Res (Option (Arr L))
  | .struct _ fs _ _ => .ok fs[i]?
  | .chunked dt cs => do
    let cs' ← fieldsOf i cs
    match cs' with
    | some l => fieldChunked env dt i l
    | none => .ok none
  | .const dt x n => do
    let r ← scalarField dt x i
    .ok (r.map (fun (d, y) => .const d y n))
  | .sparse is values n off fill => do
    let v' ← field i values
    match v' with
    | some v => fieldSparse env is (dtype env values) n off fill i v
    | none => .ok none
  | _ => .ok none
def fieldsOf (i : Nat) : List (Arr L) → Res (Option (List (Arr L)))
  | [] => .ok (some [])
  | c :: cs => do
    let c' ← field i c
    match c' with
    | none => .ok none
    | some x => do
      let cs' ← fieldsOf i cs
      .ok (cs'.map (x :: ·))
end

/-- `Column::evaluate`, vortex-expr/src/column.rs:43-51: the batch must be a `StructArray` itself; `field_by_name` is variants.rs:243-250. -/
def evalColumn (f : Field) : Arr L → Res (Arr L)
  | .struct names fs _ _ =>
    match f with
    | .name n => Res.ofOption ((DType.findName names n).bind (fun i => fs[i]?))
    | .index i => Res.ofOption fs[i]?
  | _ => .err

/-- The names an exclusion stands for, select.rs:41-51 -/
def excludedNames (names : List Str) (e : List Field) : Res (List Str) :=
  Res.mapM (fun f => match f with
    | .name n => .ok n
    | .index i => Res.ofOption names[i]?) e

/-- vortex-expr/src/select.rs:10-13 -/
inductive Select where
  | incl (fields : List Field)
  | excl (fields : List Field)

/-- Can the array be viewed as a struct array (`as_struct_array().is_some()`)? -/
def isStructArray : Arr L → Bool
  | .struct _ _ _ _ => true
  | .chunked dt _ => (asStruct dt).isSome
  | .const dt _ _ => (asStruct dt).isSome
  | .sparse _ values _ _ _ => (asStruct (dtype env values)).isSome
  | _ => false

/-- `Select::evaluate`, select.rs:31-61 -/
def evalSelect (s : Select) (a : Arr L) : Res (Arr L) := do
  Res.guard (isStructArray env a)
  let (names, _, _) ← Res.ofOption (asStruct (dtype env a))
  match s with
  | .incl fields => project env fields a
  | .excl fields => do
    let ex ← excludedNames names fields
    project env ((names.filter (fun n => !ex.contains n)).map Field.name) a
end

end Vx.Tree
