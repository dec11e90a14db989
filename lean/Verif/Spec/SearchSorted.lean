import Mathlib.Order.Defs.LinearOrder
import Verif.Model.SearchSorted
/-! # What `search_sorted` promises -/

namespace Vx.Spec

variable {α : Type} [LinearOrder α]

/-- Insertion point for a probe in a list: how many elements are smaller (left) / not greater (right). -/
def insertionPoint (xs : List α) (v : α) : Side → Nat
  | .left => xs.countP (fun x => decide (x < v))
  | .right => xs.countP (fun x => decide (x ≤ v))

/-- The answer a user expects: insertion point, tagged `Found` exactly if the probe occurs. -/
def searchSorted (xs : List α) (v : α) (side : Side) : SearchResult :=
  if v ∈ xs then .found (insertionPoint xs v side) else .notFound (insertionPoint xs v side)

end Vx.Spec
