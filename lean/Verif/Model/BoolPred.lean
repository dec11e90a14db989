import Verif.Model.Validity
/-! # Boolean arrays as filter predicates (vortex-array/src/array/bool/mod.rs) -/

namespace Vx

/-- A non-nullable `BoolArray`: the bits of its buffer from the first byte on, the bit offset inside the first byte
(`first_byte_bit_offset`, bool/mod.rs:57-80) and the length. -/
structure BoolPred where
  raw : List Bool
  off : Nat
  len : Nat
  deriving DecidableEq, Repr

namespace BoolPred

/-- The buffer holds the array (arrow's `BooleanBuffer::new` asserts this). -/
def WF (p : BoolPred) : Prop := p.off + p.len ≤ p.raw.length

instance (p : BoolPred) : Decidable p.WF := inferInstanceAs (Decidable (_ ≤ _))

/-- `boolean_buffer()` (bool/mod.rs:43-49): the logical values. -/
def bits (p : BoolPred) : List Bool := (p.raw.drop p.off).take p.len

/-- The bits `maybe_null_indices_iter` and `maybe_null_slices_iter` walk over (bool/mod.rs:99-105): from bit 0 of the buffer, not
from `first_byte_bit_offset`. -/
def iterBits (p : BoolPred) : List Bool := p.raw.take p.len

/-- `BitIndexIterator` (arrow, trusted contract): the positions of the set bits. -/
def indicesFrom (i : Nat) : List Bool → List Nat
  | [] => []
  | true :: bs => i :: indicesFrom (i + 1) bs
  | false :: bs => indicesFrom (i + 1) bs

/-- `BitSliceIterator` (arrow, trusted contract): the maximal runs `[start, end)` of set bits. `cur` is the start of the run in progress. -/
def slicesFrom (i : Nat) (cur : Option Nat) : List Bool → List (Nat × Nat)
  | [] => match cur with
    | some s => [(s, i)]
    | none => []
  | true :: bs => slicesFrom (i + 1) (some (cur.getD i)) bs
  | false :: bs => match cur with
    | some s => (s, i) :: slicesFrom (i + 1) none bs
    | none => slicesFrom (i + 1) none bs

def indices (p : BoolPred) : List Nat := indicesFrom 0 p.iterBits
def slices (p : BoolPred) : List (Nat × Nat) := slicesFrom 0 none p.iterBits

/-- `true_count` (variants.rs: the `TrueCount` statistic of the logical values). -/
def trueCount (p : BoolPred) : Nat := p.bits.count true

/-- `slice` (bool/compute/slice.rs:8-15, bool/mod.rs:57-80): the buffer is cut at a byte boundary. -/
def slice (p : BoolPred) (s e : Nat) : BoolPred :=
  let o := p.off + s
  ⟨p.raw.drop (o - o % 8), o % 8, e - s⟩

/-- `from_vec`. -/
def ofList (bs : List Bool) : BoolPred := ⟨bs, 0, bs.length⟩

end BoolPred
end Vx
