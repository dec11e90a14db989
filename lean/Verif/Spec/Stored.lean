import Verif.Model.Stored
import Verif.Spec.SelfDescribe
/-! # C102: what must fit in the stored form -/
namespace Vx.Store
open Own
open Vx.Tree (TVal Kind Codec)

variable {L : Type}

/-- The encodings spelled out in `Tree.Arr`. -/
def spelled : Enc → Bool
  | .prim _ | .bool _ _ | .varbinview _ _ | .null | .constant _ | .chunked _ | .struct _ | .ext _ | .sparse _ _ _ | .dict _ _ | .runEnd _ _ _ _
  | .for _ _ | .zigzag | .alp _ => true
  | _ => false

/-- What is required of the storage of the other encodings: a stored leaf is an array built by the constructors, of another encoding, with the leaf's
type and length, and is read back as the leaf. -/
structure StoreLaws (C : Compute) (S : Leaves L) (env : Tree.Env L) (ok : L → Prop) : Prop where
  built : ∀ l, ok l → Built C (S.store l)
  dtype : ∀ l, ok l → (S.store l).dtype = env.dtype l
  len : ∀ l, ok l → (S.store l).len = env.len l
  load : ∀ l, ok l → S.load (S.store l) = some l
  enc : ∀ l, ok l → spelled (S.store l).enc = false

/-- Strictly increasing numbers are not reported as not strictly sorted. -/
def SortedOk (C : Compute) : Prop := ∀ xs : List Nat, xs.Pairwise (· < ·) → (C.strict (numbers .u64 xs)).getD true = true

section
variable (sc : Scalars) (env : Tree.Env L)

/-- The scalar comes back from the metadata, read at its type. -/
def Kept (d : DType) (x : SV) : Prop := sc.read d (sc.num x) = some x

mutual
/-- The limits of the format: less than 4 GiB of byte strings in one array, less than 2⁶⁴ rows, sparse indices and run ends are `u64`; scalars in the metadata are of a kind that can be read
back (C85 says which). -/
def Fits : Tree.Arr L → Prop
  | .flat k vals v => FitsV v ∧ (k = .utf8 ∨ k = .binary → (vals.map fun x => (bytesOf x).length).sum < 2 ^ 32)
  | .const dt x _ => Kept sc dt x
  | .chunked _ cs => Fitss cs ∧ Tree.lens env cs < 2 ^ 64
  | .struct _ fs _ v => Fitss fs ∧ FitsV v
  | .ext _ _ s => Fits s
  | .sparse is values _ _ fill => Fits values ∧ Kept sc (Tree.dtype env values) fill ∧ ∀ i ∈ is, i < 2 ^ 64
  | .dict codes values => Fits codes ∧ Fits values
  | .runEnd ends values v _ _ => Fits values ∧ FitsV v ∧ ∀ e ∈ ends, e < 2 ^ 64
  | .mapped c enc => Fits enc ∧ match c with
    | .for p r _ => Kept sc (.prim p (Tree.dtype env enc).isNullable) (.prim ⟨p, r⟩)
    | _ => True
  | .alpP _ _ enc patches => Fits enc ∧ Fits patches
  | _ => True
def Fitss : List (Tree.Arr L) → Prop
  | [] => True
  | c :: cs => Fits c ∧ Fitss cs
def FitsV : TVal (Tree.Arr L) → Prop
  | .array a => Fits a
  | _ => True
end

end
end Vx.Store
