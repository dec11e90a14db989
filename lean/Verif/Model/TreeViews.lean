import Verif.Model.TreeExpr
/-!
# Views of encoded arrays by logical type

What `as_bool_array`, `as_struct_array` and `as_extension_array` offer on arrays of any encoding (vortex-array/src/variants.rs):
`invert`, `true_count`, `field_by_name` (`field` is in `Model/TreeStruct`), `storage_array`.
-/
namespace Vx.Tree

/-- `!b` on the value buffer of a boolean array. -/
def flipBit : SV → SV
  | .bool b => .bool (!b)
  | x => x

/-- The buffer of a boolean array, its bits flipped (variants.rs:97-99); another canonical form is an error of `into_bool`. -/
def flipFlat : Arr L → Res (Arr L)
  | .flat .bool vals v => .ok (.flat .bool (vals.map flipBit) v)
  | _ => .err

/-- `ConstantArray::invert`, constant/variants.rs:54-60; `ConstantArray::new(!b, ..)` is of the non-nullable type. -/
def invertConst (dt : DType) (x : SV) (n : Nat) : Option Bool → Arr L
  | none => .const dt x n
  | some b => .const (.bool false) (.bool (!b)) n

/-- `BoolArrayTrait::invert`: constant/variants.rs:54-60, else the default of variants.rs:92-100 -/
def Arr.invert (env : BEnv L) : Arr L → Res (Arr L)
  | .const dt x n => do
    let b ← asBool x
    .ok (invertConst dt x n b)
  | a => do
    let c ← (bulks env (depth a)).canon a
    flipFlat c

/-- `maybe_null_indices_iter().count()`: bool/mod.rs (the set bits, validity aside), constant/variants.rs:62-72, sparse/variants.rs:51-53 (the listed
positions, whatever their values), chunked/variants.rs:52-54 (`todo!()`). The other encodings are not modelled here. -/
def indexCount : Arr L → Res Nat
  | .flat .bool vals _ => .ok (vals.countP isTrue)
  | .const _ (.bool b) n => .ok (if b then n else 0)
  | .const _ .null _ => .ok 0
  | .const _ _ _ => .panic
  | .sparse is _ _ _ _ => .ok is.length
  | _ => .panic

/-- `BoolArrayTrait::true_count`, variants.rs:102-106 -/
def Arr.trueCount (env : CEnv L) (cached : Arr L → Option Nat) (a : Arr L) : Res Nat :=
  match tcount env cached a with
  | some n => .ok n
  | none => indexCount a

/-- `StructArrayTrait::field_by_name`, variants.rs:243-250 -/
def fieldByName (env : Env L) (name : Str) (a : Arr L) : Res (Option (Arr L)) :=
  match dtype env a with
  | .struct names _ _ =>
    match DType.findName names name with
    | some i => field env i a
    | none => .ok none
  | _ => .panic

/-- The storage type guessed from a constant's value, constant/variants.rs:219-228 (a boolean is taken for binary; a list panics). -/
def storageType (nl : Bool) : SV → Res DType
  | .bool _ => .ok (.binary nl)
  | .prim p => .ok (.prim p.pt nl)
  | .buffer _ => .ok (.binary nl)
  | .str _ => .ok (.utf8 nl)
  | .list _ => .panic
  | .null => .ok .null

/-- `vortex_expect` of a constructor's result. -/
def expectOk : Res (Arr L) → Res (Arr L)
  | .ok a => .ok a
  | _ => .panic

section
variable (env : Env L) (ls : L → Res (Arr L))

/-- `ChunkedArray::from_iter`, chunked/mod.rs:192-199: the type is that of the first chunk. -/
def chunkedFromIter : List (Arr L) → Res (Arr L)
  | [] => .panic
  | c :: cs => expectOk (mkChunked env (dtype env c) (c :: cs))

mutual
/-- `ExtensionArrayTrait::storage_array`: extension/mod.rs:64-68, constant/variants.rs:211-236, sparse/variants.rs:110-122, chunked/variants.rs:110-117;
`ls` is a leaf encoding's own (date-time parts); `as_extension_array_unchecked` panics on every other encoding. -/
def storageArray : Arr L → Res (Arr L)
  | .leaf l => ls l
  | .ext _ _ s => .ok s
  | .const (.ext _ _ nl) x n => do
    let d ← storageType nl x
    .ok (.const d x n)
  | .sparse is values n off fill => do
    let v ← storageArray values
    expectOk (mkSparse env is v n off fill)
  | .chunked _ cs => do
    let cs' ← storageArrays cs
    chunkedFromIter env cs'
  | _ => .panic
def storageArrays : List (Arr L) → Res (List (Arr L))
  | [] => .ok []
  | c :: cs => do
    let c' ← storageArray c
    let cs' ← storageArrays cs
    .ok (c' :: cs')
end

end
end Vx.Tree
