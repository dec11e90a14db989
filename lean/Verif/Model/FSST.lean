import Verif.Model.VarBin
/-! # FSST string compression (encodings/fsst) -/

namespace Vx.FSST
open VarBin (Byte expect)

/-- The decompressor of the `fsst` crate (documented contract, encodings/fsst/src/array.rs:40-43): codes below 255 emit their symbol, 255
emits the next byte as is. A dangling escape or a code without a symbol is a panic. -/
def decode (syms : List (List Byte)) : List Byte → Res (List Byte)
  | [] => .ok []
  | [c] =>
    if c.toNat = 255 then .panic else do
      let s ← idx syms c.toNat
      .ok s
  | c :: b :: rest =>
    if c.toNat = 255 then do
      let r ← decode syms rest
      .ok (b :: r)
    else do
      let s ← idx syms c.toNat
      let r ← decode syms (b :: rest)
      .ok (s ++ r)

/-- The compressor of the `fsst` crate: at each position some symbol that is a prefix of the remaining input is emitted (`pick` is the
matching strategy, normally "longest"), or an escaped byte. Any strategy is allowed here. A picked symbol is non-empty, so the input gets
shorter; the fuel is the input length. -/
def encodeFuel (syms : List (List Byte)) (pick : List Byte → Option Nat) : Nat → List Byte → List Byte
  | 0, _ => []
  | _ + 1, [] => []
  | n + 1, b :: s =>
    match pick (b :: s) with
    | some c => BitVec.ofNat 8 c :: encodeFuel syms pick n ((b :: s).drop (syms[c]?.getD []).length)
    | none => 255#8 :: b :: encodeFuel syms pick n s

def compress (syms : List (List Byte)) (pick : List Byte → Option Nat) (s : List Byte) : List Byte := encodeFuel syms pick s.length s

/-- Largest `i32`: the offset type of the codes (compress.rs:95) and of the uncompressed lengths. -/
def maxI32 : Nat := 2147483647

/-- `FSSTArray` (array.rs:30-107): symbol table, codes, uncompressed lengths (`i32`). Symbols and symbol lengths are one list. -/
structure Arr where
  nullable : Bool
  syms : List (List Byte)
  codes : VarBin.Arr
  lens : List (BitVec 32)
  deriving DecidableEq, Repr

/-- `try_new` (array.rs:44-107); dtype checks hold by construction. -/
def tryNew (nullable : Bool) (syms : List (List Byte)) (codes : VarBin.Arr) (lens : List (BitVec 32)) : Res Arr := do
  Res.guard (decide (syms.length ≤ 255))
  Res.guard (decide (lens.length = codes.len))
  .ok ⟨nullable, syms, codes, lens⟩

/-- `fsst_compress_iter` (compress.rs:80-131): null rows push a null and length 0; `s.len() as i32` wraps. -/
def compressIter (syms : List (List Byte)) (comp : List Byte → List Byte) (nullable : Bool) (rs : List (Option (List Byte))) : Res Arr := do
  let codes ← VarBin.fromIter maxI32 nullable (rs.map (Option.map comp))
  expect (tryNew nullable syms codes (rs.map fun r => BitVec.ofNat 32 (r.getD []).length))

/-- `fsst_compress` of a `VarBinArray` (compress.rs:18-40). -/
def compressVarBin (syms : List (List Byte)) (comp : List Byte → List Byte) (a : VarBin.Arr) : Res Arr := do
  let rs ← VarBin.iter a
  compressIter syms comp a.nullable rs

/-- The running offsets of `into_canonical` (canonical.rs:31-47): an `i32` addition overflowing is a panic. A negative offset (only
reachable with a row of 2^31 bytes or more) is outside the offset model and is a panic here. -/
def addI32 (o : Nat) (l : BitVec 32) : Res Nat :=
  if 0 ≤ (o : Int) + l.toInt ∧ (o : Int) + l.toInt ≤ maxI32 then .ok ((o : Int) + l.toInt).toNat else .panic

def offsetsFrom (o : Nat) : List (BitVec 32) → Res (List Nat)
  | [] => .ok []
  | l :: ls => do
    let o' ← addI32 o l
    let os ← offsetsFrom o' ls
    .ok (o' :: os)

/-- `into_canonical` (canonical.rs:7-64): one bulk decompression of all codes, then offsets from the lengths. The final conversion of the
`VarBinArray` to views is not included. -/
def intoVarBin (a : Arr) : Res VarBin.Arr := do
  let bytes ← VarBin.slicedBytes a.codes
  let out ← decode a.syms bytes
  let os ← offsetsFrom 0 a.lens
  VarBin.tryNew a.nullable (0 :: os) out a.codes.validity

/-- `scalar_at` (compute.rs:123-141) behind the entry point; validity is that of the codes (array.rs:`is_valid`). -/
def scalarAt (a : Arr) (i : Nat) : Res (Option (List Byte)) :=
  if i ≥ a.codes.len then .err else do
    let v ← a.codes.validity.isValid i
    if !v then .ok none else do
      let c ← VarBin.bytesAt a.codes i
      let s ← decode a.syms c
      .ok (some s)

/-- `slice` (compute.rs:96-108) behind the entry-point bounds check. -/
def slice (a : Arr) (s e : Nat) : Res Arr :=
  if s > a.codes.len then .err else if e > a.codes.len then .err else if s > e then .err else do
    let c ← VarBin.slice a.codes s e
    let l ← sliceList a.lens s e
    tryNew a.nullable a.syms c l

/-- `take` (compute.rs:110-122). -/
def take (a : Arr) (is : List Nat) : Res Arr := do
  let c ← VarBin.take maxI32 a.codes is
  let l ← takeList a.lens is
  tryNew a.nullable a.syms c l

/-- `filter` (compute.rs:147-158); the lengths are filtered through arrow by the predicate's logical bits. -/
def filter (a : Arr) (p : BoolPred) : Res Arr :=
  if p.len ≠ a.codes.len then .err else do
    let c ← VarBin.filter maxI32 a.codes p
    let l ← filterList a.lens p.bits
    tryNew a.nullable a.syms c l

/-- `compare_fsst_constant` (compute.rs:51-93) with a non-null constant: the constant is compressed with a compressor rebuilt from the
symbol table (`comp`), and the codes are compared as byte strings (`compare` of a `VarBinArray`: null rows compare to null). -/
def compareConst (a : Arr) (comp : List Byte → List Byte) (c : List Byte) (equal : Bool) : Res (List (Option Bool)) := do
  let rs ← VarBin.iter a.codes
  .ok (rs.map fun r => r.map fun x => if equal then decide (x = comp c) else decide (x ≠ comp c))

end Vx.FSST
