import Verif.Model.Tree
import Verif.Spec.Sparse
import Verif.Spec.RunEnd
/-!
# What a tree of encoded arrays means

`rows` gives the logical rows of an array, one scalar value per row, without reference to any operation. `WF` collects the invariants
the constructors establish, `Regular` the shapes for which `scalar_at` and `slice` are claimed to be right (the excluded shapes have
counterexamples in `Props/C03.lean` and `Props/C04.lean`).
-/
namespace Vx.Tree

/-- Values under a mask: null where the mask is off. -/
def masked (vals : List SV) (m : List Bool) : List SV := List.zipWith (fun x b => if b then x else .null) vals m

/-- One struct row. -/
def structRow (cols : List (List SV)) (i : Nat) : SV := .list (cols.map (fun c => c[i]?.getD .null))

/-- The rows of a struct array: the field values side by side, null where the mask is off. -/
def structRows (n : Nat) (cols : List (List SV)) (m : List Bool) : List SV :=
  (List.range n).map (fun i => if m[i]?.getD false then structRow cols i else .null)

/-- Decode a row value by value; nulls stay null. -/
def decRow (env : Env L) (c : Codec) : SV → SV
  | .prim p => .prim (c.dec env p)
  | x => x

/-- Follow a dictionary code. -/
def deref (values : List SV) (c : SV) : SV :=
  match asIdx c with
  | some k => values[k]?.getD .null
  | none => .null

/-- An ALP row: null, or the patch, or the decoded value. -/
def patchRow (env : Env L) (e f : Nat) (x p : SV) : SV :=
  if x.isNull then .null else if p.isNull then decRow env (.alp e f) x else p

section
variable (env : Env L) (leafRows : L → List SV)

mutual
/-- The logical rows. -/
def rows : Arr L → List SV
  | .leaf l => leafRows l
  | .flat _ vals v => masked vals (maskOf v vals.length)
  | .null n => List.replicate n .null
  | .const _ x n => List.replicate n x
  | .chunked _ cs => (rowsEach cs).flatten
  | .struct _ fs n v => structRows n (rowsEach fs) (maskOf v n)
  | .ext _ _ s => rows s
  | .sparse is values n off fill => Spec.patched n off fill (is.zip (rows values))
  | .dict codes values => (rows codes).map (deref (rows values))
  | .runEnd ends values v off n => masked (Spec.slice (Spec.expand ends (rows values)) off (off + n)) (maskOf v n)
  | .mapped c enc => (rows enc).map (decRow env c)
  | .alpP e f enc patches => List.zipWith (patchRow env e f) (rows enc) (rows patches)
def rowsEach : List (Arr L) → List (List SV)
  | [] => []
  | c :: cs => rows c :: rowsEach cs
/-- The "not null" mask of a validity. -/
def maskOf : TVal (Arr L) → Nat → List Bool
  | .nonNullable, n => List.replicate n true
  | .allValid, n => List.replicate n true
  | .allInvalid, n => List.replicate n false
  | .array a, _ => (rows a).map (fun x => match x with | .bool b => b | _ => false)
end

/-- What is required of a leaf encoding. `ok` is its own well-formedness. -/
structure LeafLaws (ok : L → Prop) : Prop where
  len : ∀ l, ok l → env.len l = (leafRows l).length
  isValid : ∀ l i r, ok l → (leafRows l)[i]? = some r → env.isValid l i = .ok (!r.isNull)
  scalar : ∀ l i r, ok l → (leafRows l)[i]? = some r → r.isNull = false → env.scalar l i = .ok r
  scalarU : ∀ l i r, ok l → (leafRows l)[i]? = some r → r.isNull = false → env.scalarU l i = .ok r
  slice : ∀ l s e, ok l → Spec.InBounds (leafRows l).length s e →
    ∃ l', env.slice l s e = .ok (.leaf l') ∧ ok l' ∧ env.dtype l' = env.dtype l ∧ leafRows l' = Spec.slice (leafRows l) s e

variable (ok : L → Prop)

/-- A value that `scalar_at_unchecked` reads faithfully: not a null and not a composite. -/
def atomic : SV → Bool
  | .null => false
  | .list _ => false
  | _ => true

mutual
/-- The invariants of the constructors (and, for dictionary codes and codec children, that the values fit the declared types). -/
def WF : Arr L → Prop
  | .leaf l => ok l
  | .flat k vals v => (∀ x ∈ vals, k.has x = true) ∧ WFV v vals.length
  | .null _ => True
  | .const dt x _ => inst x dt = true
  | .chunked dt cs => WFs cs ∧ ∀ d ∈ dtypes env cs, d = dt
  | .struct names fs n v => names.length = fs.length ∧ WFs fs ∧ (∀ c ∈ rowsEach env leafRows fs, c.length = n) ∧ WFV v n
  | .ext _ _ s => WF s
  | .sparse is values n off fill => WF values ∧ inst fill (dtype env values) = true ∧ is.length = (rows env leafRows values).length ∧
      is.Pairwise (· < ·) ∧ (∀ i ∈ is, off ≤ i ∧ i < off + n)
  | .dict codes values => WF codes ∧ WF values ∧ (∃ p, dtype env codes = .prim p false ∧ isUnsigned p = true) ∧
      (∀ r ∈ rows env leafRows codes, ∃ k, asIdx r = some k ∧ k < (rows env leafRows values).length)
  | .runEnd ends values v off n => WF values ∧ WFV v n ∧ (dtype env values).isNullable = v.nullable ∧ ends.Pairwise (· < ·) ∧
      ends.length = (rows env leafRows values).length ∧ (off = 0 ∨ ∀ e ∈ ends.head?, off < e) ∧ off + n ≤ ends.getLast?.getD 0 ∧
      (∀ r ∈ rows env leafRows values, r.isNull = false)
  | .mapped c enc => WF enc ∧ (c.outType (dtype env enc)).isSome = true ∧ (∀ r ∈ rows env leafRows enc, r = .null ∨ ∃ p, r = .prim p)
  | .alpP e f enc patches => WF enc ∧ WF patches ∧ (rows env leafRows patches).length = (rows env leafRows enc).length ∧
      (∃ d, (Codec.alp e f).outType (dtype env enc) = some d ∧ DType.eqIgnoreNullability (dtype env patches) d = true) ∧
      (dtype env patches).isNullable = true ∧ (∀ r ∈ rows env leafRows enc, r = .null ∨ ∃ p, r = .prim p) ∧
      (∀ r ∈ rows env leafRows patches, r = .null ∨ ∃ p, r = .prim p)
def WFs : List (Arr L) → Prop
  | [] => True
  | c :: cs => WF c ∧ WFs cs
def WFV : TVal (Arr L) → Nat → Prop
  | .array a, n => WF a ∧ dtype env a = .bool false ∧ (rows env leafRows a).length = n ∧ (∀ r ∈ rows env leafRows a, ∃ b, r = .bool b)
  | _, _ => True
end

mutual
/-- No run-end array inside. -/
def runFree : Arr L → Bool
  | .flat _ _ v => runFreeV v
  | .chunked _ cs => runFrees cs
  | .struct _ fs _ v => runFrees fs && runFreeV v
  | .ext _ _ s => runFree s
  | .sparse _ values _ _ _ => runFree values
  | .dict codes values => runFree codes && runFree values
  | .runEnd _ _ _ _ _ => false
  | .mapped _ enc => runFree enc
  | .alpP _ _ enc patches => runFree enc && runFree patches
  | _ => true
def runFrees : List (Arr L) → Bool
  | [] => true
  | c :: cs => runFree c && runFrees cs
def runFreeV : TVal (Arr L) → Bool
  | .array a => runFree a
  | _ => true
end

variable (strict : Bool)

mutual
/-- Shapes for which the claims are made: chunked arrays have a chunk and the values of a sparse array contain no run-end array (`slice`); for
reading elements (`strict`), moreover, the values of sparse and dictionary arrays are not composites. -/
def Regular : Arr L → Prop
  | .flat _ _ v => RegularV v
  | .chunked _ cs => cs ≠ [] ∧ Regulars cs
  | .struct _ fs _ v => Regulars fs ∧ RegularV v
  | .ext _ _ s => Regular s
  | .sparse _ values _ _ _ => Regular values ∧ runFree values = true ∧ (strict = true → ∀ r ∈ rows env leafRows values, r = .null ∨ atomic r = true)
  | .dict codes values => Regular codes ∧ Regular values ∧ (strict = true → ∀ r ∈ rows env leafRows values, r = .null ∨ atomic r = true)
  | .runEnd _ values v _ _ => Regular values ∧ RegularV v
  | .mapped _ enc => Regular enc
  | .alpP _ _ enc patches => Regular enc ∧ Regular patches
  | _ => True
def Regulars : List (Arr L) → Prop
  | [] => True
  | c :: cs => Regular c ∧ Regulars cs
def RegularV : TVal (Arr L) → Prop
  | .array a => Regular a
  | _ => True
end

end
end Vx.Tree
