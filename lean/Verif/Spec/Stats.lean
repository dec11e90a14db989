import Verif.Basic
/-! # What the statistics of a column mean -/

namespace Vx.Spec

/-- The non-null values of a column, in order. -/
def valid (rs : List (Option α)) : List α := rs.filterMap id

/-- `m` is a least element of `xs` under the order given by `key`. -/
def IsMin (key : α → Int) (m : α) (xs : List α) : Prop := m ∈ xs ∧ ∀ x ∈ xs, key m ≤ key x

def IsMax (key : α → Int) (m : α) (xs : List α) : Prop := m ∈ xs ∧ ∀ x ∈ xs, key x ≤ key m

/-- Number of maximal runs of equal adjacent values. -/
def runs [DecidableEq α] : List α → Nat
  | [] => 0
  | [_] => 1
  | x :: y :: ys => (if x = y then 0 else 1) + runs (y :: ys)

/-- Histogram with `n` buckets of `f` over `xs`. -/
def histogram (n : Nat) (f : α → Nat) (xs : List α) : List Nat := (List.range n).map (fun i => xs.countP (fun x => f x == i))

/-- All rows of the column (nulls included) are the same. -/
def AllSame (rs : List (Option α)) : Prop := ∀ x ∈ rs, ∀ y ∈ rs, x = y

end Vx.Spec

namespace Vx.Spec

/-- What the statistics *claimed* by a statistics set (each given as an optional value) say about the rows of a column. `key` is the
order of the values, `isT` tells which values count as true, `n` is the number of histogram buckets. A null minimum says that there
is no non-null value. A null maximum only says that there is a null row (the null scalar is the greatest scalar). -/
structure ClaimsTrue [DecidableEq α] (key : α → Int) (isT : α → Bool) (n : Nat) (rs : List (Option α))
    (min max : Option (Option α)) (isConstant isSorted isStrictSorted : Option Bool) (runCount trueCount nullCount : Option Nat)
    (bitWidthFreq tzFreq : Option (List Nat)) : Prop where
  min_some : ∀ m, min = some (some m) → IsMin key m (valid rs)
  min_null : min = some none → valid rs = []
  max_some : ∀ m, max = some (some m) → IsMax key m (valid rs)
  max_null : max = some none → none ∈ rs
  constant : isConstant = some true → AllSame rs
  sorted : isSorted = some true → (valid rs).Pairwise (fun x y => key x ≤ key y)
  strict : isStrictSorted = some true → (valid rs).Pairwise (fun x y => key x < key y)
  run_count : ∀ c, runCount = some c → runs (valid rs) ≤ c
  true_count : ∀ c, trueCount = some c → c = (valid rs).countP isT
  null_count : ∀ c, nullCount = some c → c = rs.count none
  bw_len : ∀ h, bitWidthFreq = some h → h.length = n
  tz_len : ∀ h, tzFreq = some h → h.length = n

end Vx.Spec
