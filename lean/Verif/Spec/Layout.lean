import Verif.Model.Layout
/-!
# What a file's layout means

A layout tree denotes rows: a flat layout the rows its byte range decodes to, a chunked layout the concatenation of its chunks, a column layout
struct rows made of the `k`-th rows of its columns, an inline-dtype layout its child read with the dtype found at its byte range.
Nothing here mentions readers, caches or batches.
-/
namespace Vx.Layout
open Ipc (Bytes)

variable {α : Type}

/-- The bytes of a range of the file, when the range is non-empty and inside the file. -/
def Spec.bytesAt (file : Bytes) (r : ByteRange) : Option Bytes :=
  if r.start < r.stop ∧ r.stop ≤ file.length then some ((file.drop r.start).take (r.stop - r.start)) else none

/-- A list cut into pieces of `n` elements, the last one possibly shorter. -/
def Spec.batches (n : Nat) (xs : List α) : List (List α) :=
  if h : xs = [] ∨ n = 0 then [] else xs.take n :: Spec.batches n (xs.drop n)
termination_by xs.length
decreasing_by
  have : xs ≠ [] := fun hh => h (Or.inl hh)
  have := List.length_pos_iff.mpr this
  simp only [List.length_drop]; omega

/-- The struct rows of some columns: row `k` has, for every column, the column's name and its `k`-th row. Columns of different lengths (or no
column at all) make no struct. -/
def Spec.structOf (cols : List (Str × Rows α)) : Option (Rows α) :=
  match cols with
  | [] => none
  | c :: cs => if ∀ d ∈ cs, d.2.length = c.2.length then some ((List.range c.2.length).map (structRow (c :: cs))) else none

/-- Is the first child a table about the other children? -/
def Spec.skips (m : Option Bytes) : Nat :=
  match m with
  | some (b :: _) => if b = 0 then 0 else 1
  | _ => 0

/-- Metadata, when present, has at least one byte. -/
def Spec.MetaOk (m : Option Bytes) : Bool :=
  match m with
  | some [] => false
  | _ => true

/-- The bytes of the first byte range of a layout. -/
def Spec.firstBytes (file : Bytes) : Option (List ByteRange) → Option Bytes
  | some (r :: _) => Spec.bytesAt file r
  | _ => none

/-- Field names and dtypes of a struct dtype. -/
def Spec.fieldsOf : DType → Option (List Str × List DType)
  | .struct names dtypes _ => some (names, dtypes)
  | _ => none

def Spec.toOption {β : Type} : Res β → Option β
  | .ok a => some a
  | _ => none

mutual
/-- The rows a layout denotes in a file, for a dtype. -/
def Spec.denote (env : Env α) (file : Bytes) : FbLayout → DType → Option (Rows α)
  | .mk e bufs none _, d =>
    if env.registered e = true ∧ e = FLAT then (Spec.firstBytes file bufs).bind fun b => Spec.toOption (env.decode d b) else none
  | .mk e bufs (some cs) m, d =>
    if env.registered e = false then none else
    if e = FLAT then (Spec.firstBytes file bufs).bind fun b => Spec.toOption (env.decode d b)
    else if e = CHUNKED then
      if Spec.MetaOk m then (Spec.denoteChunks env file cs d (Spec.skips m)).map List.flatten else none
    else if e = COLUMN then
      (Spec.fieldsOf d).bind fun fs => (Spec.denoteColumns env file cs fs.2).bind fun cols =>
        if fs.1.length = cols.length then Spec.structOf (fs.1.zip cols) else none
    else if e = INLINE then
      (Spec.firstBytes file bufs).bind fun b => (Spec.toOption (env.decodeDType b)).bind fun d' => Spec.denoteFirst env file cs d'
    else none
/-- The rows of each chunk, without the first `skip` ones. -/
def Spec.denoteChunks (env : Env α) (file : Bytes) : List FbLayout → DType → Nat → Option (List (Rows α))
  | [], _, _ => some []
  | _ :: cs, d, skip + 1 => Spec.denoteChunks env file cs d skip
  | c :: cs, d, 0 => (Spec.denote env file c d).bind fun a => (Spec.denoteChunks env file cs d 0).map (a :: ·)
/-- The rows of each column, read with its own dtype; there are as many columns as dtypes. -/
def Spec.denoteColumns (env : Env α) (file : Bytes) : List FbLayout → List DType → Option (List (Rows α))
  | [], [] => some []
  | c :: cs, d :: ds => (Spec.denote env file c d).bind fun a => (Spec.denoteColumns env file cs ds).map (a :: ·)
  | _, _ => none
def Spec.denoteFirst (env : Env α) (file : Bytes) : List FbLayout → DType → Option (Rows α)
  | [], _ => none
  | c :: _, d => Spec.denote env file c d
end

mutual
/-- Does reading the layout yield one empty batch (rather than none) when it has no rows? A flat layout does, a chunked one does not, a column
layout does what its columns do. -/
def FbLayout.zeroBatch : FbLayout → Bool
  | .mk e _ none _ => e == FLAT
  | .mk e _ (some cs) _ => if e = FLAT then true else if e = CHUNKED then false else FbLayout.zeroBatches cs
def FbLayout.zeroBatches : List FbLayout → Bool
  | [] => false
  | c :: _ => FbLayout.zeroBatch c
end

mutual
/-- Trees the reader can address: at most 65536 children per node (part ids are `u16`), and the columns of one column layout all of the same
sort (see `zeroBatch`). Every file written by the layout writer with at most 65535 chunks per column and at most 65536 columns is like this. -/
def FbLayout.Regular : FbLayout → Bool
  | .mk _ _ none _ => true
  | .mk e _ (some cs) _ =>
    decide (cs.length ≤ 2 ^ 16) && (FbLayout.Regulars cs && (e != COLUMN || cs.all fun c => FbLayout.zeroBatch c == FbLayout.zeroBatches cs))
def FbLayout.Regulars : List FbLayout → Bool
  | [] => true
  | c :: cs => FbLayout.Regular c && FbLayout.Regulars cs
end

/-- The message a path stands for: the byte range of the part of the layout tree that the path leads to. A flat layout's bytes are at the
layout's own path, an inline dtype at part 0 of its layout, the layout below it at part 1. -/
def Spec.rangeAt : FbLayout → Path → Option ByteRange
  | .mk e bufs cs _, [] => if e = FLAT then (bufs.getD [])[0]? else none
  | .mk e bufs cs _, i :: p =>
    if e = CHUNKED ∨ e = COLUMN then ((cs.getD [])[i]?).bind fun c => Spec.rangeAt c p
    else if e = INLINE then
      if i = 0 ∧ p = [] then (bufs.getD [])[0]? else if i = 1 then ((cs.getD [])[0]?).bind fun c => Spec.rangeAt c p else none
    else none

/-- The position a projection entry names: the first field with that name, or the given position. -/
def Spec.position (names : List Str) : RowExpr.Field → Option Nat
  | .name n => names.findIdx? (· == n)
  | .index i => if i < names.length then some i else none

/-- One projected column of a table stored column by column: its name and its rows. -/
def Spec.column (env : Env α) (file : Bytes) (cs : List FbLayout) (names : List Str) (dtypes : List DType) (f : RowExpr.Field) :
    Option (Str × Rows α) :=
  (Spec.position names f).bind fun i => (names[i]?).bind fun n => (dtypes[i]?).bind fun d => (cs[i]?).bind fun c =>
    (Spec.denote env file c d).map fun a => (n, a)

/-- The projected columns, in the order asked for. -/
def Spec.columns (env : Env α) (file : Bytes) (cs : List FbLayout) (names : List Str) (dtypes : List DType) :
    List RowExpr.Field → Option (List (Str × Rows α))
  | [] => some []
  | f :: fs => (Spec.column env file cs names dtypes f).bind fun c => (Spec.columns env file cs names dtypes fs).map (c :: ·)

/-- The rows of a projected table. -/
def Spec.table (env : Env α) (file : Bytes) (cs : List FbLayout) (names : List Str) (dtypes : List DType) (fields : List RowExpr.Field) :
    Option (Rows α) :=
  (Spec.columns env file cs names dtypes fields).bind Spec.structOf

end Vx.Layout
