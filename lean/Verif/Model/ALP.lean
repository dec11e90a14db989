import Verif.Model.Patch
/-! # ALP (encodings/alp/src/alp)

The float type `F`, the integer type `I` and the arithmetic are parameters: `enc1` is `encode_single_unchecked`, `dec` is
`decode_single` (mod.rs:137-165, both for the chosen exponents) and `ne` is the float `!=`. Nothing is assumed about them, so every
theorem holds for whatever the hardware computes. -/

namespace Vx.ALP

/-- `values.chunks(n)` -/
def chunksOf (n : Nat) (l : List α) : List (List α) :=
  if h : n = 0 ∨ l = [] then [] else l.take n :: chunksOf n (l.drop n)
termination_by l.length
decreasing_by
  have : 0 < l.length := List.length_pos_iff.mpr (by simp at h; exact h.2)
  simp at h ⊢; omega

/-- The vectors `encode` accumulates, mod.rs:118-122 -/
structure St (F I : Type) where
  enc : List I
  pidx : List Nat
  pval : List F
  fill : Option I

/-- mod.rs:219-224: the first position from `i` on that is not its own patch index. `left` counts the positions left. -/
def findFill (enc : List I) (pidx : List Nat) : (left i : Nat) → Option I
  | 0, _ => none
  | left + 1, i => if pidx.length ≤ i || pidx[i]? != some i then enc[i]? else findFill enc pidx left (i + 1)

/-- mod.rs:232-237: `encoded_output[*patch_idx] = fill_value` (panics out of range). -/
def fillPatches (enc : List I) (fill : I) : List Nat → Res (List I)
  | [] => .ok enc
  | p :: ps => if p < enc.length then fillPatches (enc.set p fill) fill ps else .panic

/-- The values of a chunk that do not survive a round trip, with their positions: mod.rs:184-212. -/
def chunkPatches (enc1 : F → I) (dec : I → F) (ne : F → F → Bool) (base : Nat) (chunk : List F) : List (F × Nat) :=
  (chunk.zipIdx base).filter (fun p => ne (dec (enc1 p.1)) p.1)

/-- mod.rs:214-228 -/
def pickFill (fill : Option I) (enc : List I) (pidx : List Nat) (prevEnc prevPatches newPatches : Nat) : Res (Option I) :=
  if fill.isNone && decide (prevEnc + newPatches < enc.length) then do
    Res.assert (prevEnc == prevPatches)
    .ok (findFill enc pidx (enc.length - prevEnc) prevEnc)
  else .ok fill

/-- mod.rs:230-238 -/
def overwrite (fill : Option I) (hadFill : Bool) (enc : List I) (pidx : List Nat) (prevPatches : Nat) : Res (List I) :=
  match fill with
  | some f => fillPatches enc f (pidx.drop (if hadFill then prevPatches else 0))
  | none => .ok enc

/-- `encode_chunk_unchecked`, mod.rs:168-239 -/
def encodeChunk (enc1 : F → I) (dec : I → F) (ne : F → F → Bool) (st : St F I) (chunk : List F) : Res (St F I) := do
  Res.assert (st.pidx.length == st.pval.length)
  let ps := chunkPatches enc1 dec ne st.enc.length chunk
  let enc' := st.enc ++ chunk.map enc1
  let pidx' := st.pidx ++ ps.map (·.2)
  let fill' ← pickFill st.fill enc' pidx' st.enc.length st.pidx.length ps.length
  let out ← overwrite fill' st.fill.isSome enc' pidx' st.pidx.length
  .ok ⟨out, pidx', st.pval ++ ps.map (·.1), fill'⟩

/-- The loop over the chunks, mod.rs:126-136 -/
def encodeChunks (enc1 : F → I) (dec : I → F) (ne : F → F → Bool) : St F I → List (List F) → Res (St F I)
  | st, [] => .ok st
  | st, c :: cs => do
    let st' ← encodeChunk enc1 dec ne st c
    encodeChunks enc1 dec ne st' cs

/-- `ALPFloat::encode` with given exponents, mod.rs:112-138; `size` is `(32 << 10) / size_of::<ALPInt>()`. -/
def encode (enc1 : F → I) (dec : I → F) (ne : F → F → Bool) (size : Nat) (values : List F) : Res (St F I) :=
  encodeChunks enc1 dec ne ⟨[], [], [], none⟩ (chunksOf size values)

/-- One candidate of the exponent search, mod.rs:67-80; the state is `(best_nbytes, e, f)`, `none` standing for `usize::MAX`. -/
def expStep (cost : Nat → Nat → Nat) (st : Option Nat × Nat × Nat) (p : Nat × Nat) : Option Nat × Nat × Nat :=
  let size := cost p.1 p.2
  match st.1 with
  | none => (some size, p)
  | some b =>
    if size < b then (some size, p)
    else if size = b ∧ p.1 - p.2 < st.2.1 - st.2.2 then (some b, p)
    else st

/-- `find_best_exponents`, mod.rs:53-84: all `f < e < MAX_EXPONENT`, `e` downwards. The cost of a candidate (the size estimate of
mod.rs:87-110 on the sample) is a parameter. -/
def findBestExponents (maxExp : Nat) (cost : Nat → Nat → Nat) : Nat × Nat :=
  ((((List.range maxExp).reverse.flatMap (fun e => (List.range e).map (fun f => (e, f)))).foldl (expStep cost) (none, 0, 0))).2

/-- An ALP array, array.rs:36-76. -/
structure Arr (F I : Type) where
  encoded : PArr I
  patches : Option (Sparse F)
  deriving DecidableEq, Repr

/-- `ALPArray::try_new`, array.rs:40-76: the patches must be as long as the array (the dtype tests are fixed by the types). -/
def tryNew (encoded : PArr I) (patches : Option (Sparse F)) : Res (Arr F I) :=
  match patches with
  | some p => do
    Res.guard (p.len == encoded.len)
    .ok ⟨encoded, patches⟩
  | none => .ok ⟨encoded, none⟩

/-- The patches child of compress.rs:40-49; a failure of `SparseArray::try_new` would panic. -/
def mkPatches (st : St F I) : Res (Option (Sparse F)) :=
  if st.pval.isEmpty then .ok none
  else match Sparse.tryNew st.pidx ⟨st.pval, .allValid⟩ st.enc.length none with
    | .ok s => .ok (some s)
    | _ => .panic

/-- `alp_encode`, compress.rs:26-61 -/
def alpEncode (enc1 : F → I) (dec : I → F) (ne : F → F → Bool) (size : Nat) (a : PArr F) : Res (Arr F I) := do
  let st ← encode enc1 dec ne size a.vals
  let p ← mkPatches st
  tryNew ⟨st.enc, a.validity⟩ p

/-- `decompress`, compress.rs:63-77 -/
def decompress (dec : I → F) (a : Arr F I) : Res (PArr F) :=
  match a.patches with
  | some p => (a.encoded.map dec).patchSparse p
  | none => .ok (a.encoded.map dec)

/-- The patch at a row, compute.rs:42-47 -/
def patchAt (a : Arr F I) (i : Nat) : Res (Option F) :=
  match a.patches with
  | some p => do
    let v ← p.isValid i
    if v then p.scalarAt i else .ok none
  | none => .ok none

/-- compute/unary/scalar_at.rs:12-27 over compute.rs:37-60; validity is the encoded child's (array.rs). -/
def scalarAt (dec : I → F) (a : Arr F I) (i : Nat) : Res (Option F) :=
  if i ≥ a.encoded.len then .err else do
    let v ← a.encoded.validity.isValid i
    if !v then .ok none else do
      match ← patchAt a i with
      | some x => .ok (some x)
      | none => do
        let x ← idx a.encoded.vals i
        .ok (some (dec x))

/-- An operation applied to both children, `transpose`-ing the optional patches. -/
def both (f : PArr I → Res (PArr I)) (g : Sparse F → Res (Sparse F)) (a : Arr F I) : Res (Arr F I) := do
  let e ← f a.encoded
  match a.patches with
  | some p => do
    let p' ← g p
    tryNew e (some p')
  | none => tryNew e none

/-- compute.rs:75-84 -/
def slice (a : Arr F I) (s e : Nat) : Res (Arr F I) := both (·.slice s e) (·.slice s e) a

/-- compute.rs:63-73 -/
def take (a : Arr F I) (is : List Nat) : Res (Arr F I) := both (·.take is) (·.take is) a

/-- compute.rs:86-95 -/
def filter (a : Arr F I) (m : List Bool) : Res (Arr F I) := both (·.filter m) (·.filter m) a

end Vx.ALP
