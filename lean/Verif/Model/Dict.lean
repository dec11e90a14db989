import Verif.Model.Primitive
/-! # Dictionary encoding (encodings/dict/src) -/

namespace Vx

/-- encodings/dict/src/array.rs:17-49: non-nullable unsigned codes into a values child. The values child is anything with stored
values and a validity (primitive array, or the rows of a VarBin/VarBinView array). -/
structure Dict (α : Type) where
  codes : List Nat
  values : PArr α
  deriving DecidableEq, Repr

namespace Dict

/-- The encoder's state: `lookup_dict`, `codes`, `values` (compress.rs:44-46). The hash map is an association list: equal keys are
looked up by `==` on their bytes, and a key is only inserted when absent. -/
structure Enc (α : Type) where
  lookup : List (α × Nat)
  codes : List Nat
  values : List α

/-- One iteration of compress.rs:53-70. -/
def step [DecidableEq α] (st : Enc α) : Option α → Enc α
  | none => { st with codes := st.codes ++ [0] }
  | some v =>
    match st.lookup.find? (fun p => p.1 == v) with
    | some p => { st with codes := st.codes ++ [p.2] }
    | none =>
      { lookup := st.lookup ++ [(v, st.values.length)], codes := st.codes ++ [st.values.length], values := st.values ++ [v] }

/-- `dict_encode_typed_primitive`, compress.rs:41-87. `ArrayAccessor::with_iterator` yields one optional value per row
(vortex-array/src/array/primitive/accessor.rs); `zero` is `T::zero()`. Byte equality of `Value<T>` is bit equality. -/
def encode [DecidableEq α] (zero : α) (nullable : Bool) (rows : List (Option α)) : Dict α :=
  let st := rows.foldl step { lookup := [], codes := [], values := if nullable then [zero] else [] }
  ⟨st.codes, ⟨st.values, if nullable then Validity.ofVec ((List.replicate st.values.length true).set 0 false) else .nonNullable⟩⟩

def len (a : Dict α) : Nat := a.codes.length

/-- `ArrayValidity::is_valid`, array.rs:78-87; a code outside the dictionary panics. -/
def isValid (a : Dict α) (i : Nat) : Res Bool := do
  let c ← idx a.codes i
  if c < a.values.len then a.values.validity.isValid c else .panic

/-- `ArrayValidity::logical_validity`, array.rs:89-106: in a nullable dictionary, code 0 is taken to be the null. -/
def logicalValidity (a : Dict α) : LogicalValidity :=
  if a.values.validity.nullable then .array (a.codes.map (fun c => decide (c ≠ 0))) else .allValid a.len

/-- compute/unary/scalar_at.rs:12-27 over compute.rs:27-31 -/
def scalarAt (a : Dict α) (i : Nat) : Res (Option α) :=
  if i ≥ a.len then .err else do
    let v ← a.isValid i
    if !v then .ok none else do
      let c ← idx a.codes i
      let x ← idx a.values.vals c
      .ok (some x)

/-- compute.rs:60-65 -/
def slice (a : Dict α) (s e : Nat) : Res (Dict α) := do
  let c ← sliceList a.codes s e
  .ok ⟨c, a.values⟩

/-- compute.rs:43-51 -/
def take (a : Dict α) (is : List Nat) : Res (Dict α) := do
  let c ← takeList a.codes is
  .ok ⟨c, a.values⟩

/-- compute.rs:53-58 -/
def filter (a : Dict α) (m : List Bool) : Res (Dict α) := do
  let c ← filterList a.codes m
  .ok ⟨c, a.values⟩

/-- `into_canonical`, array.rs:70-75 -/
def canonical (a : Dict α) : Res (PArr α) := a.values.take a.codes

end Dict
end Vx
