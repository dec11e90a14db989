import Verif.Model.TreeCompare
import Verif.Spec.TreeBulk
/-!
# What comparing two arrays means, and for which arrays it is claimed

`opRow` compares two rows. The shapes and pairs left out have counterexamples in `Props/C104.lean` and in `Props/C12.lean`,
`Props/C24.lean`.
-/
namespace Vx.Tree

/-- The answer for two rows: null if either is null, else whether the operator holds between the values. -/
def opRow (op : Op) (x y : SV) : SV :=
  match x, y with
  | .null, _ => .null
  | _, .null => .null
  | x, y => .bool (op.holds (SV.cmp x y))

/-- A value on which Rust's number comparisons and the order of scalars agree: not a NaN, not a negative zero, not a list. -/
def ordinary : SV → Bool
  | .prim p => !p.isNaN && !(p.isZero && p.bits.msb)
  | .list _ => false
  | _ => true

mutual
/-- Go down through chunks and extension arrays: `E` holds of the storage of every extension array, `T` of what is neither. -/
def Path (E T : Arr L → Prop) : Arr L → Prop
  | .chunked _ cs => Paths E T cs
  | .ext _ _ s => E s ∧ Path E T s
  | a => T a
def Paths (E T : Arr L → Prop) : List (Arr L) → Prop
  | [] => True
  | c :: cs => Path E T c ∧ Paths E T cs
end

/-- ALP-encoded? -/
def isAlp : Arr L → Bool
  | .mapped (.alp _ _) _ => true
  | .alpP _ _ _ _ => true
  | _ => false

/-- Without a decoded form of their own that `Nice` speaks about. -/
def isNullOrStruct : Arr L → Bool
  | .null _ => true
  | .struct _ _ _ _ => true
  | _ => false

/-- A validity child that is a plain boolean array. -/
def plainV : TVal (Arr L) → Bool
  | .array (.flat .bool _ _) => true
  | .array _ => false
  | _ => true

/-- A plain array whose validity, if it is an array, is a plain boolean array; any other encoding. -/
def plainArr : Arr L → Bool
  | .flat _ _ v => plainV v
  | _ => true

/-- No ALP array on the way down. -/
def AlpFree (a : Arr L) : Prop := Path (fun _ => True) (fun b => isAlp b = false) a

/-- No constant array on the way down. -/
def ConstFree (a : Arr L) : Prop := Path (fun _ => True) (fun b => isConstArr b = false) a

section
variable (env : CEnv L) (leafRows : L → List SV) (ok : L → Prop)

mutual
/-- No chunk on the way down is empty. -/
def FullChunks : Arr L → Prop
  | .chunked _ cs => FullEach cs
  | .ext _ _ s => FullChunks s
  | _ => True
def FullEach : List (Arr L) → Prop
  | [] => True
  | c :: cs => rows env.toEnv leafRows c ≠ [] ∧ FullChunks c ∧ FullEach cs
end

/-- Under chunks and extension arrays, everything decodes. -/
def Shape (a : Arr L) : Prop :=
  Path (Nice env.toEnv leafRows) (fun b => isNullOrStruct b = true ∨ Nice env.toEnv leafRows b) a

/-- An array that may be compared: well-formed, regular and of a shape that decodes, or a constant of an extension type. -/
inductive Side : Arr L → Prop
  | array {a : Arr L} : WF env.toEnv leafRows ok a → Regular env.toEnv leafRows true a → Shape env leafRows a → Side a
  | extConst (id : Str) (m : Option (List UInt8)) (nl : Bool) (x : SV) (n : Nat) : Side (.const (.ext id m nl) x n)

/-- The value of a constant of an extension type fits the storage on the other side. -/
def FitsStorage (c a : Arr L) : Prop :=
  ∀ id m nl x n, c = .const (.ext id m nl) x n → Path (fun s => inst x (dtype env.toEnv s) = true) (fun _ => True) a

/-- No array is known to be constant from a cached statistic. -/
def NoStats : Prop := ∀ a, env.isConst a = false

/-- The pairs for which the claim is made. -/
structure Comparable (op : Op) (l r : Arr L) : Prop where
  left : Side env leafRows ok l
  right : Side env leafRows ok r
  ordinaryL : ∀ x ∈ rows env.toEnv leafRows l, ordinary x = true
  ordinaryR : ∀ x ∈ rows env.toEnv leafRows r, ordinary x = true
  fitsL : FitsStorage env l r
  fitsR : FitsStorage env r l
  /-- ALP arrays are not compared with constants -/
  alp : (AlpFree l ∧ AlpFree r) ∨ (NoStats env ∧ ConstFree l ∧ ConstFree r)
  /-- two constants are compared for equality only if their types have the same nullability -/
  nullability : (op ≠ .eq ∧ op ≠ .notEq) ∨ (dtype env.toEnv l).isNullable = (dtype env.toEnv r).isNullable ∨
    (NoStats env ∧ (ConstFree l ∨ ConstFree r))
  /-- empty chunks are not compared with run-end arrays -/
  chunks : (runFree l = true ∧ runFree r = true) ∨ (FullChunks env leafRows l ∧ FullChunks env leafRows r)

/-- What a comparison must give: the right rows, in a well-formed boolean array that decodes. (A leaf encoding may answer with a null
constant of another type, as FSST does.) -/
structure Answer (op : Op) (l r b : Arr L) : Prop where
  rows : rows env.toEnv leafRows b = List.zipWith (opRow op) (rows env.toEnv leafRows l) (rows env.toEnv leafRows r)
  wf : WF env.toEnv leafRows ok b
  nice : Nice env.toEnv leafRows b
  dtype : dtype env.toEnv b = .bool true ∨ ∃ dt n, b = .const dt .null n

/-- Arrays without constants, null arrays and structs on the way down, whose plain arrays have plain validities and whose extension arrays
are stored as `sty`. -/
def Straight (sty : DType) (a : Arr L) : Prop :=
  Path (fun s => Nice env.toEnv leafRows s ∧ (dtype env.toEnv s).eqIgnoreNullability sty = true) (fun b => Nice env.toEnv leafRows b ∧ isConstArr b = false ∧ plainArr b = true) a

/-- What is required of the rest: the cached statistic is true, and a leaf encoding's own comparison is right. -/
structure LeafCompare : Prop where
  honest : ∀ a, env.isConst a = true → ∀ x ∈ Tree.rows env.toEnv leafRows a, ∀ y ∈ Tree.rows env.toEnv leafRows a, x = y
  cmp : ∀ op l r b, env.leafCmp op l r = some (.ok b) → Comparable env leafRows ok op (.leaf l) r →
    (Tree.rows env.toEnv leafRows (.leaf l)).length = (Tree.rows env.toEnv leafRows r).length →
    (Tree.dtype env.toEnv (.leaf l)).eqIgnoreNullability (Tree.dtype env.toEnv r) = true → Answer env leafRows ok op (.leaf l) r b

end
end Vx.Tree
