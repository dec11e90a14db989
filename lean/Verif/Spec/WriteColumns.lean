import Verif.Spec.SelfDescribe
import Verif.Model.WriteColumns
import Verif.Spec.Layout
/-! # C93: arrays in files -/
namespace Vx.Own
open Layout (Rows Row structRow)

mutual
/-- The metadata and the buffer of an array and of all its descendants are read back as written. -/
def Keeps (M : OwnCodec) : Arr → Prop
  | .mk e d l b cs => M.de d l (M.ser (.mk e d l b cs)).1 (M.ser (.mk e d l b cs)).2.1 (M.ser (.mk e d l b cs)).2.2.2 = some (e, b) ∧ KeepsAll M cs
def KeepsAll (M : OwnCodec) : List Arr → Prop
  | [] => True
  | c :: cs => Keeps M c ∧ KeepsAll M cs
end

/-- Rows of a serialised `u64` array are the numbers written into it. -/
def OwnCodec.Lawful (M : OwnCodec) : Prop :=
  ∀ (xs : List Nat), Keeps M (.mk (.prim .nonNullable) u64 xs.length xs []) → ∀ (i : Nat) (h : i < xs.length),
    M.at_ u64 xs.length (toIpc M (.mk (.prim .nonNullable) u64 xs.length xs [])) i = .ok xs[i]

/-- The chunks of a chunked array, any other array by itself. -/
def Spec.parts (a : Arr) : List Arr :=
  match a.enc with
  | .chunked _ => a.children.tail
  | _ => [a]

/-- The arrays column `j` of a table is stored in. -/
def Spec.columnArrays (a : Arr) (j : Nat) : List Arr := (Spec.parts a).flatMap fun p => ((p.children[j]?).map Spec.parts).getD []

/-- A meaning of arrays: as many rows as the length says, a chunked array is its chunks one after the other, a struct array without nulls the rows
of its fields side by side. -/
structure Meaning {α : Type} (C : Compute) (rows : Arr → Rows α) : Prop where
  length : ∀ a, Built C a → (rows a).length = a.len
  chunked : ∀ a, Built C a → rows a = (Spec.parts a).flatMap rows
  struct : ∀ a v names ds nl, Built C a → a.enc = .struct v → v = .nonNullable ∨ v = .allValid → a.dtype = .struct names ds nl →
    rows a = (List.range a.len).map (structRow (names.zip (a.children.map rows)))

/-- The selected fields of a struct row. -/
def Spec.pick {α : Type} (sel : List Nat) : Row α → Row α
  | .struct fs => .struct (sel.filterMap fun i => fs[i]?)
  | r => r

end Vx.Own
