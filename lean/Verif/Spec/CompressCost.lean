import Verif.Spec.UsedEncodings
import Verif.Model.CompressCost
/-! # Specification for C117: the cost of what is nested in an array -/
namespace Vx.Tree

section
variable (w : CId → Nat) (lc : L → Nat)

def Codec.compressor : Codec → CId
  | .for .. => .for
  | .zigzag => .zigzag
  | .alp .. => .alp

mutual
/-- The largest sum of the costs of the encodings on a path from the root of an array inwards. Plain data, constants, chunks, structs and extension
types cost nothing; `lc`: the cost of the arrays not spelled out. -/
def nestCost : Arr L → Nat
  | .leaf l => lc l
  | .flat _ _ v => nestCostV v
  | .null _ => 0
  | .const _ _ _ => 0
  | .chunked _ cs => nestCostAll cs
  | .struct _ fs _ v => max (nestCostAll fs) (nestCostV v)
  | .ext _ _ s => nestCost s
  | .sparse _ values _ _ _ => w .sparse + nestCost values
  | .dict codes values => w .dict + max (nestCost codes) (nestCost values)
  | .runEnd _ values v _ _ => w .runEnd + max (nestCost values) (nestCostV v)
  | .mapped c enc => w c.compressor + nestCost enc
  | .alpP _ _ enc patches => w .alp + max (nestCost enc) (nestCost patches)
def nestCostAll : List (Arr L) → Nat
  | [] => 0
  | c :: cs => max (nestCost c) (nestCostAll cs)
def nestCostV : TVal (Arr L) → Nat
  | .array a => nestCost a
  | _ => 0
end

mutual
/-- The largest sum of costs on a path of a compression tree. -/
def CTree.cost : CTree → Nat
  | .node i cs => w i + costAll cs
def CTree.costAll : List (Option CTree) → Nat
  | [] => 0
  | c :: cs => max (costO c) (costAll cs)
def CTree.costO : Option CTree → Nat
  | none => 0
  | some t => t.cost
end

end

/-- The weights of C117: chunks, structs, constants, sparse arrays, zigzag and bit-packing are free, delta counts twice, every other encoding once. -/
def weight (i : CId) : Nat :=
  if i ∈ [CId.chunked, .struct, .constant, .sparse, .zigzag, .bitPacked, .bitPackedNoPatches] then 0
  else if i = .delta then 2
  else 1

/-- What is true of the costs (constants.rs, chunked.rs:37-39, struct_.rs:21-23) and of what the compressors look at: sparse, constant, chunked and
struct cost nothing, frame of reference only takes plain arrays, and a leaf array costs at most what its compressor does. -/
structure CostLaws (ch : Choice L) (lc : L → Nat) : Prop where
  sparse : ch.cost .sparse = 0
  constant : ch.cost .constant = 0
  chunked : ch.cost .chunked = 0
  struct : ch.cost .struct = 0
  takesFor : ∀ a, ch.can .for a = true → ∃ k xs v, a = .flat k xs v
  leaf : ∀ i a like l, ch.leafEnc i a like = .ok (some l) → lc l ≤ ch.cost i

end Vx.Tree
