import Verif.Model.Compress
import Verif.Spec.TreeBulk
/-!
# What it means that compression does not change data

Two arrays hold the same data when they have the same type and the same rows, up to the sign of floating-point zeros (`norm`), which the
run-end, constant and ALP compressors do not keep. `Comp` collects the shapes of input for which the claim is made, `ChoiceLaws` what is
required of the parts taken from elsewhere.
-/
namespace Vx.Tree

mutual
/-- Forget the sign of floating-point zeros. -/
def norm : SV → SV
  | .prim p => .prim (posZero p)
  | .list vs => .list (norms vs)
  | x => x
def norms : List SV → List SV
  | [] => []
  | v :: vs => norm v :: norms vs
end

section
variable (env : Env L) (leafRows : L → List SV) (ok : L → Prop)

/-- `b` holds the data of `a`: well formed, same type, same rows. -/
structure SameData (a b : Arr L) : Prop where
  wf : WF env leafRows ok b
  dtype : dtype env b = dtype env a
  rows : (rows env leafRows b).map norm = (rows env leafRows a).map norm

mutual
/-- Chunks that `rechunk` may combine: plain data, extension arrays, null arrays and structs of these. -/
def Chk : Arr L → Prop
  | .struct _ fs _ v => NiceV env leafRows v ∧ Chks fs
  | .ext _ _ _ => True
  | .null _ => True
  | a => Nice env leafRows a
def Chks : List (Arr L) → Prop
  | [] => True
  | c :: cs => Chk c ∧ Chks cs
end

mutual
/-- Arrays for which the claim is made: validity children can be decoded, chunks can be combined, sparse arrays are not slices. -/
def Comp : Arr L → Prop
  | .flat _ _ v => NiceV env leafRows v ∧ CompV v
  | .chunked _ cs => Comps cs ∧ Chks env leafRows cs
  | .struct _ fs _ v => Comps fs ∧ CompV v
  | .sparse _ values _ off _ => off = 0 ∧ Comp values
  | _ => True
def Comps : List (Arr L) → Prop
  | [] => True
  | c :: cs => Comp c ∧ Comps cs
def CompV : TVal (Arr L) → Prop
  | .array a => Comp a
  | _ => True
end

/-- The inputs of the claim. -/
structure Good (a : Arr L) : Prop where
  wf : WF env leafRows ok a
  regular : Regular env leafRows true a
  comp : Comp env leafRows a

end

section
variable (env : Env L) (leafRows : L → List SV)

/-- What is required of the parts of the compressor taken from elsewhere: the constant compressor only accepts arrays whose `is_constant`
statistic is true, which (extension arrays have no statistics) are arrays of instances of their type that are all equal; the compressors
of the encodings not spelled out keep the data; the ALP encoder lists every value that its integer does not decode to. `okIn` is the invariant of the leaves of the input, `ok` that of the
leaves of the output. -/
structure ChoiceLaws (okIn ok : L → Prop) (ch : Choice L) : Prop where
  constant : ∀ a, WF env leafRows okIn a → ch.can .constant a = true →
    (∀ r ∈ rows env leafRows a, inst r (dtype env a) = true) ∧ ∀ r ∈ rows env leafRows a, ∀ s ∈ rows env leafRows a, norm r = norm s
  leafEnc : ∀ i a like l, Good env leafRows okIn a → ch.can i a = true → ch.leafEnc i a like = .ok (some l) → SameData env leafRows ok a (.leaf l)
  alpEnc : ∀ p q vals e f enc exc, (p = .f32 ∧ q = .i32 ∨ p = .f64 ∧ q = .i64) → (∀ x ∈ vals, (Kind.prim p).has x = true) →
    ch.alpEnc p vals = .ok (e, f, enc, exc) →
    enc.length = vals.length ∧ (∀ x ∈ enc, (Kind.prim q).has x = true) ∧ exc.Pairwise (· < ·) ∧ (∀ i ∈ exc, i < vals.length) ∧
    ∀ i x y, i ∉ exc → vals[i]? = some x → enc[i]? = some y → norm (decRow env (.alp e f) y) = norm x

end
end Vx.Tree
