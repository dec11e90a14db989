import Verif.Model.TreeSearch
import Verif.Spec.Tree
/-!
# What a sorted search on an encoded array promises

Only the logical rows and the ordering of scalar values (nulls last) appear.
-/
namespace Vx.Spec

/-- Is the row below the insertion point of `v`? -/
def rowBefore (v : SV) (side : Side) (x : SV) : Bool :=
  match SV.cmp x v with
  | some .lt => true
  | some .eq => match side with
    | .left => false
    | .right => true
  | _ => false

/-- The answer a user expects: how many rows are smaller than `v` (not greater than it, on the right side), tagged `Found` exactly if a
row equals `v`. -/
def searchRows (rows : List SV) (v : SV) (side : Side) : SearchResult :=
  if rows.any (fun x => SV.cmp x v == some .eq) then .found (rows.countP (rowBefore v side)) else .notFound (rows.countP (rowBefore v side))

/-- Rows in ascending order, nulls last. -/
def SortedRows (rows : List SV) : Prop := rows.Pairwise (fun x y => SV.cmp x y = some .lt ∨ SV.cmp x y = some .eq)

/-- The probe can be compared with every row. -/
def ProbeFits (rows : List SV) (v : SV) : Prop := ∀ x ∈ rows, SV.cmp x v ≠ none

end Vx.Spec

namespace Vx.Tree
open Vx.Spec

/-- The child of a frame-of-reference array holds what compression writes for values at or above the reference whose distance to it is a
multiple of the shift (encodings/fastlanes/src/for/compress.rs:62-84). -/
def ForWritten (p : PType) (r : BitVec p.bits) (s : Nat) (row : SV) : Prop :=
  row = .null ∨ ∃ x : BitVec p.bits, intKey p.isSigned r ≤ intKey p.isSigned x ∧ 2 ^ s ∣ (x - r).toNat ∧
    row = .prim ⟨toUnsigned p, BitVec.ofNat _ (FoR.compressVal p.isSigned r s x).toNat⟩

section
variable (env : Env L) (leafRows : L → List SV)

/-- The shapes for which the search is claimed to be right, for a probe `v`. The excluded ones have counterexamples in `Props/C108.lean`:
a constant array without rows, a sparse array with fill values between or beside the patches on the wrong side of the probe, and a
frame-of-reference array of a signed type probed beyond the range of its shifted child. -/
def Searchable : Arr L → SV → Prop
  | .leaf l, v => ∀ p n, env.dtype l = .prim p n → ∃ q : PValue, v = .prim q ∧ q.pt = p
  | .flat (.prim p) _ _, v => ∃ q : PValue, v = .prim q ∧ q.pt = p
  | .const _ x n, v => 0 < n ∨ SV.cmp x v ≠ some .eq
  | .sparse is values n off fill, v => Searchable values v ∧ is ≠ [] ∧ ∃ m, is = (List.range is.length).map (fun i => off + m + i) ∧
      (0 < m → SV.cmp fill v = some .lt) ∧ (m + is.length < n → SV.cmp fill v = some .gt)
  | .mapped (.for p r s) enc, v => s < p.bits ∧ (∀ row ∈ rows env leafRows enc, ForWritten p r s row) ∧
      (∃ q : BitVec p.bits, v = .prim ⟨p, q⟩ ∧ (p.isSigned = true → intKey true q - intKey true r ≤ 2 ^ p.bits - 2 ^ s)) ∧
      ∀ u : BitVec (toUnsigned p).bits, Searchable enc (.prim ⟨toUnsigned p, u⟩)
  | _, _ => True

/-- What is required of a leaf encoding with a search of its own. -/
def OwnLaws (own : L → Option OwnSearch) (ok : L → Prop) : Prop :=
  ∀ l o v d side, ok l → own l = some o → d.eqIgnoreNullability (env.dtype l) = true → v.isNull = false → SortedRows (leafRows l) → ProbeFits (leafRows l) v →
    (∀ p n, env.dtype l = .prim p n → ∃ q : PValue, v = .prim q ∧ q.pt = p) →
    o.search ⟨d, v⟩ side = .ok (searchRows (leafRows l) v side)

end
end Vx.Tree
