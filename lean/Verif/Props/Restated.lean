import Verif.Props.C27
import Verif.Props.C38
import Verif.Props.C41
import Verif.Props.C43
import Verif.Props.C03Leaves
/-! # C80–C84: properties whose whole statement is the proved part of an earlier one

Each theorem repeats, under the name of the narrower property, the statement proved in the file of the wider one; the wider property
stays partial there. -/

namespace Vx.TakeRows
variable {α : Type}

/-- **C80, streams.** Ascending in-range row numbers (repeats allowed), in an index type that can count the rows: exactly the requested rows,
in order, however the stream is batched. -/
theorem C80_stream (t : IdxTy) (ns : List Nat) (hs : ns.Pairwise (· ≤ ·)) (batches : List (List α))
    (hin : ∀ n ∈ ns, n < batches.flatten.length) (hlim : batches.flatten.length < t.limit) :
    ∃ r, takeRowsStream t (arr t ns) batches = .ok r ∧ r.flatten.map some = ns.map fun n => batches.flatten[n]? :=
  C38_stream_partial t ns hs batches hin hlim

/-- **C80, stored arrays.** Strictly ascending in-range row numbers, at least one: exactly the requested rows, in order, whichever chunks
they fall into. -/
theorem C80_stored (t : IdxTy) (chunks : List (List α)) (byteOffsets rowOffsets : List Nat) (read : Nat → Nat → Res (List (List α)))
    (hst : Stored chunks byteOffsets rowOffsets read) (hn : chunks.length ≤ 2 ^ 32) (ns : List Nat) (hne : ns ≠ []) (hs : ns.Pairwise (· < ·))
    (hin : ∀ n ∈ ns, n < chunks.flatten.length) (hlim : chunks.flatten.length < t.limit) :
    ∃ r, takeRows t read byteOffsets rowOffsets (arr t ns) = .ok r ∧ r.flatten.map some = ns.map fun n => chunks.flatten[n]? :=
  C38_reader_partial t chunks byteOffsets rowOffsets read hst hn ns hne hs hin hlim

end Vx.TakeRows

namespace Vx.DF
variable {V : Type} [LinearOrder V]

/-- **C81.** A filtered scan that returns has one output batch per chunk, holding rows of that chunk in their order and the projected
columns only; every row on which all the filters are true is there, and no row on which one of them is false. -/
theorem C81_scan (fp : List (List Char)) (ncols : Nat) (projection : Option (List Nat)) (filters : List (DExpr V)) (table out : List (Chunk V))
    (hne : filters ≠ []) (hfp : Mentions fp filters) (hw : ∀ c ∈ table, c.WF) (hp : projection.getD (List.range ncols) ≠ [])
    (h : scan fp ncols projection filters table = .ok out) :
    List.Forall₂ (fun c b => ∃ sel, Pushed filters (projection.getD (List.range ncols)) c sel ∧
      IsSelection c (projection.getD (List.range ncols)) sel b) table out :=
  C43_scan_partial fp ncols projection filters table out hne hfp hw hp h

end Vx.DF

namespace Vx.RowExpr
open Spec
variable {V : Type} [LinearOrder V]

/-- **C82.** For the filters of the class `Safe`: when the pruning expression is true on truthful statistics of a chunk, no row of the
chunk satisfies the filter. -/
theorem C82_prune (e : Expr V) (hsafe : Safe e) (chunk : List (Row V)) (s : Row V) (ht : ∀ f ∈ e.refs, Truth s chunk f)
    (hp : Prunes e s) : ∀ r ∈ chunk, ¬ Holds r e :=
  C27_prune_sound_partial e hsafe chunk s ht hp

end Vx.RowExpr

namespace Vx.Tree

/-- **C83.** Any sequence of slices of a nested array, then an element access. -/
theorem C83_access (x : Outside) (hx : x.Lawful) (l : List (Nat × Nat)) (a : Arr RLeaf) (hw : WF (leafEnv x).toEnv (leafRows x) (leafOk false) a)
    (hr : Regular (leafEnv x).toEnv (leafRows x) true a) (hf : Fits (runFree a) (rows (leafEnv x).toEnv (leafRows x) a).length l) :
    ∃ b, sliceAll (leafEnv x).toEnv a l = .ok b ∧ ∀ i, b.scalarAt (leafEnv x).toEnv i =
      match (l.foldl (fun r p => Spec.slice r p.1 p.2) (rows (leafEnv x).toEnv (leafRows x) a))[i]? with
      | some r => .ok r
      | none => .err :=
  C04_sequence_real_partial x hx l a hw hr hf

/-- **C83.** Decoding a nested array to one plain array. -/
theorem C83_decode (x : Outside) (hx : x.Lawful) (a : Arr RLeaf) (hw : WF (leafEnv x).toEnv (leafRows x) (leafOk true) a)
    (hn : Nice (leafEnv x).toEnv (leafRows x) a) :
    ∃ k vals v, a.canon (leafEnv x) = .ok (.flat k vals v) ∧ rows (leafEnv x).toEnv (leafRows x) (.flat k vals v) = rows (leafEnv x).toEnv (leafRows x) a ∧
      k.dtype v.nullable = dtype (leafEnv x).toEnv a ∧ vals.length = len (leafEnv x).toEnv a :=
  C03_canonical_real_partial x hx a hw hn

variable {L : Type} {env : BEnv L} {lr : L → List SV} {ok : L → Prop} {ch : Choice L}

/-- **C84.** Whatever the search chooses, a compressed array has the length, the type and the rows of the input, up to the sign of
floating-point zeros. -/
theorem C84_compress (hl : LeafLaws env.toEnv lr ok) (lb : LeafBulk env lr ok) (hc : ChoiceLaws env.toEnv lr ok ok ch)
    (fuel : Nat) (ctx : Ctx) (a b : Arr L) (like t : Option CTree) (hg : Good env.toEnv lr ok a)
    (h : compress env ch fuel ctx a like = .ok (b, t)) :
    WF env.toEnv lr ok b ∧ dtype env.toEnv b = dtype env.toEnv a ∧ len env.toEnv b = len env.toEnv a ∧
      (rows env.toEnv lr b).map norm = (rows env.toEnv lr a).map norm :=
  C41_compress_partial hl lb hc fuel ctx a b like t hg h

end Vx.Tree
