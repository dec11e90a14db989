import Verif.Model.Patch
import Verif.Model.Stats
/-! # Bit packing (encodings/fastlanes/src/bitpacking)

`T` is the width of the unsigned element type (8, 16, 32, 64). The kernels that pack 1024 values into `128 * w` bytes come from the
external `fastlanes` crate: they are a parameter `FL` with the contract `FL.Lawful` below. -/

namespace Vx.BitPack

/-- The `fastlanes::BitPacking` kernels for element width `T`: pack 1024 values, unpack them, unpack one. -/
structure FL (T : Nat) where
  pack : Nat → List (BitVec T) → List (BitVec 8)
  unpack : Nat → List (BitVec 8) → List (BitVec T)
  single : Nat → List (BitVec 8) → Nat → BitVec T

/-- The low `w` bits of a value. -/
def low (w : Nat) (x : BitVec T) : BitVec T := BitVec.ofNat T (x.toNat % 2 ^ w)

/-- The contract of the kernels: packing 1024 values gives `128 * w` bytes, unpacking them gives the low `w` bits of each, and unpacking
one value agrees with unpacking all of them. -/
structure FL.Lawful (fl : FL T) : Prop where
  pack_len : ∀ w xs, w ≤ T → xs.length = 1024 → (fl.pack w xs).length = 128 * w
  unpack_len : ∀ w bs, w ≤ T → bs.length = 128 * w → (fl.unpack w bs).length = 1024
  unpack_pack : ∀ w xs, w ≤ T → xs.length = 1024 → fl.unpack w (fl.pack w xs) = xs.map (low w)
  single_eq : ∀ w bs i, w ≤ T → bs.length = 128 * w → i < 1024 → (fl.unpack w bs)[i]? = some (fl.single w bs i)

/-- `size_of::<T>()` -/
def size (T : Nat) : Nat := T / 8

/-- `128 * bit_width / size_of::<T>()`: words per chunk, compress.rs:98, 217, 292. -/
def elems (T w : Nat) : Nat := 128 * w / size T

/-- `bitpack_primitive`, compress.rs:85-143: full chunks, then the last one padded with zeros. -/
def packAll (fl : FL T) (w : Nat) (xs : List (BitVec T)) : List (BitVec 8) :=
  if w = 0 then []
  else
    let full := xs.length / 1024
    let body := (List.range full).flatMap (fun i => fl.pack w ((xs.drop (i * 1024)).take 1024))
    if (xs.length + 1023) / 1024 ≠ full then
      let last := xs.drop (xs.length - xs.length % 1024)
      body ++ fl.pack w (last ++ List.replicate (1024 - xs.length % 1024) 0)
    else body

/-- `&packed[start..][0..n]` counted in words of `T` over the byte buffer; panics out of range. -/
def words (T : Nat) (packed : List (BitVec 8)) (start n : Nat) : Res (List (BitVec 8)) :=
  if start + n ≤ packed.length / size T then .ok ((packed.drop (start * size T)).take (n * size T)) else .panic

/-- `unpack_primitive`, compress.rs:205-275 -/
def unpackAll (fl : FL T) (packed : List (BitVec 8)) (w offset len : Nat) : Res (List (BitVec T)) :=
  if w = 0 then .ok (List.replicate len 0)
  else do
    let chunks := (offset + len + 1023) / 1024
    let per := elems T w
    Res.assert (packed.length / size T == chunks * per)
    let head ← (if offset ≠ 0 then do
        let c ← words T packed 0 per
        .ok ((fl.unpack w c).drop offset)
      else .ok [] : Res (List (BitVec T)))
    let first := if offset ≠ 0 then 1 else 0
    let rest ← Res.mapM (fun i => do
      let c ← words T packed (i * per) per
      .ok (fl.unpack w c)) ((List.range chunks).drop first)
    let out := (head ++ rest.flatten).take len
    Res.assert (out.length == len)
    .ok out

/-- `unpack_single_primitive`, compress.rs:285-298 -/
def unpackSingle (fl : FL T) (packed : List (BitVec 8)) (w i : Nat) : Res (BitVec T) := do
  let c ← words T packed (i / 1024 * elems T w) (elems T w)
  .ok (fl.single w c (i % 1024))

/-- `gather_patches`, compress.rs:145-172: the valid values with fewer than `T - w` leading zeros. -/
def exceptions (w : Nat) (a : PArr (BitVec T)) : List (BitVec T × Nat) :=
  (a.vals.zipIdx).filter (fun p => decide (T - bitLen p.1.toNat < T - w) && ((Spec.mask a.vals.length a.validity)[p.2]?).getD false)

/-- `gather_patches`, compress.rs:158-171 (`vortex_unwrap` panics). -/
def gatherPatches (w : Nat) (a : PArr (BitVec T)) : Res (Option (Sparse (BitVec T))) :=
  let ps := exceptions w a
  if ps.isEmpty then .ok none
  else match Sparse.tryNew (ps.map (·.2)) ⟨ps.map (·.1), .allValid⟩ a.vals.length none with
    | .ok s => .ok (some s)
    | _ => .panic

/-- `count_exceptions`, compress.rs:372-377 -/
def countExceptions (w : Nat) (freq : List Nat) : Nat := if freq.length ≤ w then 0 else (freq.drop (w + 1)).sum

/-- A bit-packed array, mod.rs:22-30 with its buffer and children. -/
structure Arr (T : Nat) where
  packed : List (BitVec 8)
  validity : Validity
  patches : Option (Sparse (BitVec T))
  w : Nat
  len : Nat
  offset : Nat
  deriving DecidableEq, Repr

/-- The checks on the patches, mod.rs:84-97 -/
def checkPatches (len : Nat) (patches : Option (Sparse (BitVec T))) : Res Unit :=
  match patches with
  | some p => do
    Res.guard (p.len == len)
    Res.guard (!p.indices.isEmpty)
  | none => .ok ()

/-- `try_new_from_offset`, mod.rs:53-124 -/
def tryNew (packed : List (BitVec 8)) (validity : Validity) (patches : Option (Sparse (BitVec T))) (w len offset : Nat) : Res (Arr T) := do
  Res.guard (decide (w ≤ 64))
  Res.guard (decide (offset ≤ 1023))
  Res.guard (packed.length == (len + offset + 1023) / 1024 * (128 * w))
  checkPatches len patches
  validity.checkLen len
  .ok ⟨packed, validity, patches, w, len, offset⟩

/-- `bitpack_encode`, compress.rs:16-44 -/
def encode (fl : FL T) (a : PArr (BitVec T)) (w : Nat) : Res (Arr T) := do
  let freq ← Res.ofOption (primStats (intElem false T) a).bitWidthFreq
  Res.guard (decide (w < T))
  let patches ← (if 0 < countExceptions w freq then gatherPatches w a else .ok none)
  tryNew (packAll fl w a.vals) a.validity patches w a.vals.length 0

/-- `bitpack_encode_unchecked`, compress.rs:53-68 -/
def encodeUnchecked (fl : FL T) (a : PArr (BitVec T)) (w : Nat) : Res (Arr T) :=
  tryNew (packAll fl w a.vals) a.validity none w a.vals.length 0

/-- `unpack`, compress.rs:174-203 -/
def unpack (fl : FL T) (a : Arr T) : Res (PArr (BitVec T)) := do
  let v ← unpackAll fl a.packed a.w a.offset a.len
  match a.patches with
  | some p => PArr.patchSparse ⟨v, a.validity⟩ p
  | none => .ok ⟨v, a.validity⟩

/-- The patch at a row, compute/scalar_at.rs:10-15 -/
def patchAt (patches : Option (Sparse (BitVec T))) (i : Nat) : Res (Option (BitVec T)) :=
  match patches with
  | some p => do
    let v ← p.isValid i
    if v then p.scalarAt i else .ok none
  | none => .ok none

/-- compute/unary/scalar_at.rs:12-27 over compute/scalar_at.rs:9-23 -/
def scalarAt (fl : FL T) (a : Arr T) (i : Nat) : Res (Option (BitVec T)) :=
  if i ≥ a.len then .err else do
    let v ← a.validity.isValid i
    if !v then .ok none else do
      match ← patchAt a.patches i with
      | some x => .ok (some x)
      | none => do
        let x ← unpackSingle fl a.packed a.w (i + a.offset)
        .ok (some x)

/-- `buffer.slice(start..stop)` on bytes (panics out of range). -/
def bytes (b : List (BitVec 8)) (start stop : Nat) : Res (List (BitVec 8)) :=
  if start ≤ stop ∧ stop ≤ b.length then .ok ((b.take stop).drop start) else .panic

/-- The sliced patches, dropped when no index is left: compute/slice.rs:25-36. -/
def slicePatches (patches : Option (Sparse (BitVec T))) (s e : Nat) : Res (Option (Sparse (BitVec T))) :=
  match patches with
  | some p => do
    let q ← p.slice s e
    .ok (if q.indices.isEmpty then none else some q)
  | none => .ok none

/-- compute/slice.rs:10-43 behind the bounds check of vortex-array/src/compute/slice.rs:22-47 -/
def slice (a : Arr T) (s e : Nat) : Res (Arr T) :=
  if s > a.len then .err
  else if e > a.len then .err
  else if s > e then .err
  else do
    let offStart := s + a.offset
    let offStop := e + a.offset
    let offset := offStart % 1024
    let blockStart := offStart - offset
    let blockStop := (offStop + 1023) / 1024 * 1024
    let b ← bytes a.packed (blockStart / 8 * a.w) (blockStop / 8 * a.w)
    let v ← a.validity.slice s e
    let p ← slicePatches a.patches s e
    tryNew b v p a.w (e - s) offset

/-- `chunk_by(|idx| idx / 1024)`: maximal runs of consecutive indices in the same 1024-block. -/
def groups : List Nat → List (Nat × List Nat)
  | [] => []
  | i :: is =>
    match groups is with
    | (k, g) :: rest => if k = i / 1024 then (k, i :: g) :: rest else (i / 1024, [i]) :: (k, g) :: rest
    | [] => [(i / 1024, [i])]

/-- One batch of `take_primitive`, compute/take.rs:72-112: at least eight offsets unpack the whole chunk, fewer are unpacked one by one. -/
def takeGroup (fl : FL T) (packed : List (BitVec 8)) (w : Nat) (g : Nat × List Nat) : Res (List (BitVec T)) := do
  let c ← words T packed (g.1 * elems T w) (elems T w)
  let offs := g.2.map (· % 1024)
  if 8 ≤ offs.length then Res.mapM (fun i => idx (fl.unpack w c) i) offs
  else .ok (offs.map (fl.single w c))

/-- `inner_patch`, compute/take.rs:131-154 -/
def innerPatch (p : Sparse (BitVec T)) (is : List Nat) (out : List (BitVec T)) : Res (List (BitVec T)) := do
  let tp ← p.take is
  let base ← Res.sub out.length is.length
  let ri ← tp.resolvedIndices
  Res.assert (ri.length == tp.values.vals.length)
  setLoop out ((ri.map (base + ·)).zip tp.values.vals)

/-- The body of the loop of compute/take.rs:177-205 for one group of (offset) indices. -/
def patchGroup (p : Sparse (BitVec T)) (offset : Nat) (out : List (BitVec T)) (g : Nat × List Nat) : Res (List (BitVec T)) := do
  let start ← (if g.1 = 0 then .ok 0 else Res.sub (g.1 * 1024) offset)
  let stop ← Res.sub ((g.1 + 1) * 1024) offset
  let q ← p.slice start (min stop p.len)
  if q.len = 0 then .ok out
  else do
    let mn ← q.minIndex
    let mx ← q.maxIndex
    let offs := (g.2.map (· % 1024)).filter (fun i => mn ≤ i && i ≤ mx)
    if offs.isEmpty then .ok out else innerPatch q offs out

def patchGroups (p : Sparse (BitVec T)) (offset : Nat) : List (BitVec T) → List (Nat × List Nat) → Res (List (BitVec T))
  | out, [] => .ok out
  | out, g :: gs => do
    let o ← patchGroup p offset out g
    patchGroups p offset o gs

/-- `patch_for_take_primitive`, compute/take.rs:123-208 -/
def patchTaken (p : Sparse (BitVec T)) (is : List Nat) (offset batches : Nat) (out : List (BitVec T)) : Res (List (BitVec T)) :=
  if batches * 64 > is.length then innerPatch p is out
  else do
    let mn ← p.minIndex
    let mx ← p.maxIndex
    patchGroups p offset out (groups ((is.map (· + offset)).filter (fun i => mn ≤ i && i ≤ mx)))

/-- `take_primitive`, compute/take.rs:47-121 -/
def takePrim (fl : FL T) (a : Arr T) (is : List Nat) : Res (List (BitVec T)) :=
  if is.isEmpty then .ok []
  else do
    let gs := groups (is.map (· + a.offset))
    let outs ← Res.mapM (takeGroup fl a.packed a.w) gs
    match a.patches with
    | some p => patchTaken p is a.offset gs.length outs.flatten
    | none => .ok outs.flatten

/-- compute/take.rs:20-44 -/
def take (fl : FL T) (a : Arr T) (is : List Nat) : Res (PArr (BitVec T)) :=
  if is.length * 8 > a.len then do
    let u ← unpack fl a
    u.take is
  else do
    let v ← a.validity.take is
    let xs ← takePrim fl a is
    .ok ⟨xs, v⟩

/-- `min_patchless_bit_width`, compress.rs:309-319 -/
def minPatchless (freq : List Nat) : Res Nat :=
  if freq.isEmpty then .err
  else .ok ((((freq.zipIdx).filter (fun p => decide (0 < p.1))).map (·.2)).foldl max 0)

/-- The loop of `best_bit_width`, compress.rs:343-363: `(num_packed, best_cost, best_width)` over the widths from `bw` on. -/
def bestLoop (len perExc : Nat) : List Nat → Nat → Nat × Nat × Nat → Nat
  | [], _, st => st.2.2
  | f :: fs, bw, (packed, cost, width) =>
    let packed' := packed + f
    let c := (len - packed') * perExc + (bw * len + 7) / 8
    bestLoop len perExc fs (bw + 1) (if c < cost then (packed', c, bw) else (packed', cost, width))

/-- `best_bit_width`, compress.rs:338-366 -/
def bestBitWidth (freq : List Nat) (perExc : Nat) : Res Nat :=
  if freq.length > 255 then .err
  else .ok (bestLoop freq.sum perExc freq 0 (0, freq.sum * perExc, 0))

end Vx.BitPack
