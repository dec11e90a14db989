import Verif.Model.ALP
/-! # ALP for real doubles (encodings/alp/src/alp_rd)

Floats are bit patterns of width `n` (`f64::to_bits` and `from_bits` are the identity here): 64 for f64, 32 for f32. The bit-packed
children are modelled by the values they unpack to: `pack w` keeps the low `w` bits, which is what unchecked bit-packing does to a value
that does not fit (bitpacking/compress.rs:70-92). -/

namespace Vx.ALPRD

/-- The value that comes back from a field of `w` bits. -/
def pack (w : Nat) (v : BitVec n) : BitVec n := BitVec.ofNat n (v.toNat % 2 ^ w)

/-- `bit_width!`, mod.rs:23-31 -/
def bitWidth (v : Nat) : Nat := if v = 0 then 1 else Nat.log2 v + 1

/-- `RDEncoder`, mod.rs:126-129 -/
structure Encoder where
  rbw : Nat
  codes : List (BitVec 16)
  deriving DecidableEq, Repr

/-- The low `rbw` bits, mod.rs:183 with the mask of mod.rs:177; a shift by the full width overflows (panic in debug builds), which
`rbw < n` excludes. -/
def rightPart (rbw : Nat) (v : BitVec n) : BitVec n := v &&& ((1#n <<< rbw) - 1#n)

/-- `T::to_u16(bits >> rbw)`, mod.rs:184-186: truncated to 16 bits. -/
def leftPart (rbw : Nat) (v : BitVec n) : BitVec 16 := (v >>> rbw).setWidth 16

/-- The dictionary loop of mod.rs:190-201 from position `i` on: (codes, exception positions, exception values). -/
def encodeLeft (codes : List (BitVec 16)) : List (BitVec 16) → Nat → List (BitVec 16) × List Nat × List (BitVec 16)
  | [], _ => ([], [], [])
  | l :: ls, i =>
    let r := encodeLeft codes ls (i + 1)
    match codes.findIdx? (fun c => c == l) with
    | some code => (BitVec.ofNat 16 code :: r.1, r.2.1, r.2.2)
    | none => (0#16 :: r.1, i :: r.2.1, l :: r.2.2)

/-- An ALP-RD array, array.rs:21-35 and its children; `dict` is `metadata.dict[0..dict_len]`. -/
structure Arr (n : Nat) where
  left : PArr (BitVec 16)
  dict : List (BitVec 16)
  right : PArr (BitVec n)
  rbw : Nat
  exc : Option (Sparse (BitVec 16))
  deriving DecidableEq, Repr

/-- `ALPRDArray::try_new`, array.rs:37-111 (the dtype tests other than nullability are fixed by the types): copying more than eight codes
into `[u16; 8]` panics. -/
def tryNew (left : PArr (BitVec 16)) (dict : List (BitVec 16)) (right : PArr (BitVec n)) (rbw : Nat) (exc : Option (Sparse (BitVec 16))) :
    Res (Arr n) := do
  Res.guard (right.len == left.len)
  Res.guard (!right.validity.nullable)
  Res.assert (decide (dict.length ≤ 8))
  .ok ⟨left, dict, right, rbw, exc⟩

/-- The exceptions child, mod.rs:222-240: positions packed at the width of the last one. A failure of `SparseArray::try_new` panics. -/
def mkExc (pos : List Nat) (vals : List (BitVec 16)) (len : Nat) : Res (Option (Sparse (BitVec 16))) :=
  if pos.isEmpty then .ok none
  else
    let bw := bitWidth (pos.getLast?.getD 0)
    match Sparse.tryNew (pos.map (· % 2 ^ bw)) ⟨vals, .allValid⟩ len none with
    | .ok s => .ok (some s)
    | _ => .panic

/-- `encode_generic`, mod.rs:161-252 -/
def encode (e : Encoder) (a : PArr (BitVec n)) : Res (Arr n) := do
  Res.assert (!e.codes.isEmpty)
  let lbw := bitWidth (e.codes.length - 1)
  let (codes, pos, exc) := encodeLeft e.codes (a.vals.map (leftPart e.rbw)) 0
  let x ← mkExc pos exc a.vals.length
  match tryNew ⟨codes.map (pack lbw), a.validity⟩ e.codes ⟨(a.vals.map (rightPart e.rbw)).map (pack e.rbw), .nonNullable⟩ e.rbw x with
  | .ok r => .ok r
  | _ => .panic

/-- `(left << rbw) | right`, mod.rs:299 and compute/scalar_at.rs:25-32 -/
def combine (rbw : Nat) (l : BitVec 16) (r : BitVec n) : BitVec n := (l.setWidth n <<< rbw) ||| r

/-- `alp_rd_decode`, mod.rs:260-301; `dict[code]` and the exception store panic out of range. -/
def rdDecode (left : List (BitVec 16)) (dict : List (BitVec 16)) (rbw : Nat) (right : List (BitVec n)) (pos : List Nat)
    (exc : List (BitVec 16)) : Res (List (BitVec n)) := do
  Res.assert (left.length == right.length)
  Res.assert (pos.length == exc.length)
  let ls ← Res.mapM (fun c => idx dict c.toNat) left
  let ls ← setLoop ls (pos.zip exc)
  .ok (List.zipWith (combine rbw) ls right)

/-- The exception positions and values, array.rs:184-205 -/
def excParts (a : Arr n) : Res (List Nat × List (BitVec 16)) :=
  match a.exc with
  | some s => do
    let is ← s.resolvedIndices
    .ok (is, s.values.vals)
  | none => .ok ([], [])

/-- `into_canonical`, array.rs:173-234; the validity is the left child's. -/
def decode (a : Arr n) : Res (PArr (BitVec n)) := do
  let (pos, exc) ← excParts a
  let v ← rdDecode a.left.vals a.dict a.rbw a.right.vals pos exc
  .ok ⟨v, (a.left.validity.toLogical a.left.len).intoValidity⟩

/-- The exception at a row, compute/scalar_at.rs:12-15 -/
def excAt (exc : Option (Sparse (BitVec 16))) (i : Nat) : Res (Option (BitVec 16)) :=
  match exc with
  | some s => do
    let v ← s.isValid i
    if v then s.scalarAt i else .ok none
  | none => .ok none

/-- The left half of a row, compute/scalar_at.rs:12-20 -/
def leftAt (a : Arr n) (i : Nat) : Res (BitVec 16) := do
  let ex ← excAt a.exc i
  match ex with
  | some x => .ok x
  | none => do
    let c ← a.left.scalarAt i
    match c with
    | some c => idx a.dict c.toNat
    | none => .err

/-- compute/unary/scalar_at.rs:12-27 over compute/scalar_at.rs:8-34 -/
def scalarAt (a : Arr n) (i : Nat) : Res (Option (BitVec n)) :=
  if i ≥ a.left.len then .err else do
    let v ← a.left.validity.isValid i
    if !v then .ok none else do
      let l ← leftAt a i
      let r ← a.right.scalarAt i
      match r with
      | some r => .ok (some (combine a.rbw l r))
      | none => .err

/-- `map(..).transpose()` on the optional exceptions child -/
def optExc (g : Sparse (BitVec 16) → Res (Sparse (BitVec 16))) : Option (Sparse (BitVec 16)) → Res (Option (Sparse (BitVec 16)))
  | some s => do
    let s' ← g s
    .ok (some s')
  | none => .ok none

/-- The three children through the same operation: compute/slice.rs:8-25, take.rs:8-25, filter.rs:8-24. -/
def each (f : ∀ {X : Type}, PArr X → Res (PArr X)) (g : Sparse (BitVec 16) → Res (Sparse (BitVec 16))) (a : Arr n) : Res (Arr n) := do
  let x ← optExc g a.exc
  let l ← f a.left
  let r ← f a.right
  tryNew l a.dict r a.rbw x

/-- compute/slice.rs:8-25 -/
def slice (a : Arr n) (s e : Nat) : Res (Arr n) := each (·.slice s e) (·.slice s e) a

/-- compute/take.rs:8-25 -/
def take (a : Arr n) (is : List Nat) : Res (Arr n) := each (·.take is) (·.take is) a

/-- compute/filter.rs:8-24 -/
def filter (a : Arr n) (m : List Bool) : Res (Arr n) := each (·.filter m) (·.filter m) a

/-- `ALPRDDictionary`, mod.rs:395-401, with the number of exceptions of the sample -/
structure Cand where
  codes : List (BitVec 16)
  rbw : Nat
  lbw : Nat
  exceptions : Nat
  deriving DecidableEq, Repr

/-- `counts()` of the left parts: every distinct left part with its number of occurrences (in first-occurrence order). -/
def counts (ls : List (BitVec 16)) : List (BitVec 16 × Nat) := ls.eraseDups.map (fun l => (l, ls.count l))

/-- `build_left_parts_dictionary`, mod.rs:329-379. `hash` is the iteration order of the hash map of counts. `dictionary.len() - 1`
underflows on an empty sample. -/
def buildDict (hash : List (BitVec 16 × Nat) → List (BitVec 16 × Nat)) (samples : List (BitVec n)) (rbw : Nat) : Res Cand := do
  Res.assert (decide (rbw ≥ n - 16))
  let sorted := (hash (counts (samples.map (leftPart rbw)))).mergeSort (fun a b => decide (a.2 ≥ b.2))
  let codes := (sorted.take 8).map (·.1)
  let maxCode ← Res.sub codes.length 1
  .ok ⟨codes, rbw, bitWidth maxCode, ((sorted.drop 8).map (·.2)).sum⟩

/-- The loop of `find_best_dictionary`, mod.rs:305-327. `less est best` is the float comparison of the size estimates (mod.rs:381-393);
`none` stands for `f64::MAX`. -/
def bestLoop (hash : List (BitVec 16 × Nat) → List (BitVec 16 × Nat)) (less : Nat → Cand → Option Cand → Bool) (samples : List (BitVec n)) :
    List Nat → Option Cand → Res (Option Cand)
  | [], best => .ok best
  | p :: ps, best => do
    let c ← buildDict hash samples (n - p)
    bestLoop hash less samples ps (if less samples.length c best then some c else best)

/-- `RDEncoder::new`, mod.rs:133-152; the default dictionary is empty with width 0. -/
def newEncoder (hash : List (BitVec 16 × Nat) → List (BitVec 16 × Nat)) (less : Nat → Cand → Option Cand → Bool) (samples : List (BitVec n)) :
    Res Encoder := do
  let best ← bestLoop hash less samples ((List.range 16).map (· + 1)) none
  match best with
  | some c => .ok ⟨c.rbw, c.codes⟩
  | none => .ok ⟨0, []⟩

end Vx.ALPRD
