import Verif.Model.FSST
import Verif.Props.C21
/-! # C20: FSST string compression -/

namespace Vx.FSST
open Spec
open VarBin (Byte expect)

/-! ### The codec -/

/-- A matching strategy for a symbol table: it only picks codes below 255 whose non-empty symbol starts the remaining input. -/
def Strategy (syms : List (List Byte)) (pick : List Byte → Option Nat) : Prop :=
  ∀ s c, pick s = some c → c < 255 ∧ ∃ p rest, syms[c]? = some p ∧ p ≠ [] ∧ s = p ++ rest

theorem decode_sym {syms : List (List Byte)} {c : Nat} {p r : List Byte} {x : List Byte} (hc : c < 255) (hp : syms[c]? = some p)
    (hr : decode syms r = .ok x) : decode syms (BitVec.ofNat 8 c :: r) = .ok (p ++ x) := by
  have e : (BitVec.ofNat 8 c).toNat = c := by rw [BitVec.toNat_ofNat]; omega
  have hi : idx syms c = .ok p := by simp [idx, hp]
  have hn : ¬ (c = 255) := by omega
  cases r with
  | nil =>
    rw [decode] at hr
    have := Res.ok.inj hr; subst this
    simp only [decode, e, if_neg hn, hi, Res.ok_bind, List.append_nil]
  | cons b r => simp only [decode, e, if_neg hn, hi, Res.ok_bind, hr]

theorem decode_esc {syms : List (List Byte)} {b : Byte} {r x : List Byte} (hr : decode syms r = .ok x) :
    decode syms (255#8 :: b :: r) = .ok (b :: x) := by
  have e : (255#8 : BitVec 8).toNat = 255 := rfl
  rw [decode]
  simp only [e, if_true, hr, Res.ok_bind]

theorem decode_encodeFuel {syms : List (List Byte)} {pick : List Byte → Option Nat} (hs : Strategy syms pick) (n : Nat) (s : List Byte)
    (hn : s.length ≤ n) : decode syms (encodeFuel syms pick n s) = .ok s := by
  induction n generalizing s with
  | zero =>
    have : s = [] := List.length_eq_zero_iff.mp (by omega)
    subst this; rfl
  | succ n ih =>
    cases s with
    | nil => rfl
    | cons b s =>
      rw [encodeFuel]
      cases hp : pick (b :: s) with
      | none =>
        simp only
        exact decode_esc (ih s (by simp at hn; omega))
      | some c =>
        obtain ⟨hc, p, rest, h1, h2, h3⟩ := hs _ _ hp
        simp only [h1, Option.getD_some]
        rw [h3, List.drop_left]
        have hlen : rest.length ≤ n := by
          have := congrArg List.length h3
          have hpos : 0 < p.length := List.length_pos_iff.mpr h2
          simp at this hn; omega
        exact decode_sym hc h1 (ih rest hlen)

/-- **C20.** Compressing any byte string with any symbol table and any matching strategy and decompressing returns the original bytes. -/
theorem C20_codec_roundtrip (syms : List (List Byte)) (pick : List Byte → Option Nat) (hs : Strategy syms pick) (s : List Byte) :
    decode syms (compress syms pick s) = .ok s := decode_encodeFuel hs _ s (Nat.le_refl _)

/-- Decoding a concatenation of complete code sequences is the concatenation of the decodings. -/
theorem decode_append {syms : List (List Byte)} {xs ys : List Byte} {x y : List Byte} (h1 : decode syms xs = .ok x) (h2 : decode syms ys = .ok y) :
    decode syms (xs ++ ys) = .ok (x ++ y) := by
  induction xs using decode.induct generalizing x with
  | case1 => rw [decode] at h1; have := Res.ok.inj h1; subst this; simpa using h2
  | case2 c hc => rw [decode, if_pos hc] at h1; cases h1
  | case3 c hc =>
    rw [decode, if_neg hc] at h1
    rw [Res.bind_eq_ok] at h1
    obtain ⟨p, hp, e⟩ := h1
    have := Res.ok.inj e; subst this
    cases ys with
    | nil =>
      rw [decode] at h2
      have := Res.ok.inj h2; subst this
      simp only [List.append_nil, decode, if_neg hc, hp, Res.ok_bind]
    | cons b ys => simp only [List.cons_append, List.nil_append, decode, if_neg hc, hp, Res.ok_bind, h2]
  | case4 c b rest hc ih =>
    rw [decode, if_pos hc, Res.bind_eq_ok] at h1
    obtain ⟨r, hr, e⟩ := h1
    have := Res.ok.inj e; subst this
    simp only [List.cons_append]
    rw [decode, if_pos hc, ih hr]
    rfl
  | case5 c b rest hc ih =>
    rw [decode, if_neg hc, Res.bind_eq_ok] at h1
    obtain ⟨p, hp, e⟩ := h1
    rw [Res.bind_eq_ok] at e
    obtain ⟨r, hr, e⟩ := e
    have := Res.ok.inj e; subst this
    simp only [List.cons_append]
    rw [decode, if_neg hc, hp]
    have := ih hr
    simp only [List.cons_append] at this
    simp [this]

theorem decode_flatten {syms : List (List Byte)} {xs vs : List (List Byte)} (hl : xs.length = vs.length)
    (h : ∀ (i : Nat) x v, xs[i]? = some x → vs[i]? = some v → decode syms x = .ok v) : decode syms xs.flatten = .ok vs.flatten := by
  induction xs generalizing vs with
  | nil => cases vs with
    | nil => rfl
    | cons v vs => simp at hl
  | cons x xs ih =>
    cases vs with
    | nil => simp at hl
    | cons v vs =>
      rw [List.flatten_cons, List.flatten_cons]
      exact decode_append (h 0 x v rfl rfl) (ih (by simpa using hl) (fun i x v hx hv => h (i + 1) x v (by simpa using hx) (by simpa using hv)))

/-! ### What a compressed array stands for -/

/-- Row by row, the codes decode to the value; null rows are null. -/
def DecodesTo (syms : List (List Byte)) : Option (List Byte) → Option (List Byte) → Prop
  | some c, some v => decode syms c = .ok v
  | none, none => True
  | _, _ => False

/-- The array stands for the rows `rs`. -/
structure Denotes (a : Arr) (rs : List (Option (List Byte))) : Prop where
  wf : VarBin.WF a.codes
  tight : VarBin.Tight a.codes
  offs : ∀ o ∈ a.codes.offsets, o ≤ maxI32
  len : a.codes.len = rs.length
  dec : ∀ (i : Nat) c r, (VarBin.rows a.codes)[i]? = some c → rs[i]? = some r → DecodesTo a.syms c r
  lens : a.lens = rs.map fun r => BitVec.ofNat 32 (r.getD []).length
  syms : a.syms.length ≤ 255
  null : a.nullable = a.codes.nullable

/-- **C20.** Compression succeeds when the codes fit 31-bit offsets, and the array stands for the input rows. The compressor is any
function that decompression inverts, for instance `compress` with any strategy (`C20_codec_roundtrip`). -/
theorem C20_compress (syms : List (List Byte)) (hsy : syms.length ≤ 255) (comp : List Byte → List Byte)
    (hc : ∀ s, decode syms (comp s) = .ok s) (nullable : Bool) (rs : List (Option (List Byte)))
    (hn : nullable = true ∨ ∀ r ∈ rs, r.isSome = true) (hb : (rs.map fun r => ((r.map comp).getD []).length).sum ≤ maxI32) :
    ∃ a, compressIter syms comp nullable rs = .ok a ∧ Denotes a rs ∧ a.nullable = nullable := by
  obtain ⟨c, h1, h2, h3, h4, h5, h6⟩ := VarBin.C21_from_iter maxI32 nullable (rs.map (Option.map comp)) (by
    rcases hn with h | h
    · exact Or.inl h
    · right; intro r hr
      rw [List.mem_map] at hr
      obtain ⟨x, hx, rfl⟩ := hr
      rw [Option.isSome_map]; exact h x hx) (by simpa [Function.comp_def] using hb)
  have hl : c.len = rs.length := by
    have := VarBin.rows_len h2
    rw [h3] at this; simpa using this.symm
  refine ⟨⟨nullable, syms, c, rs.map fun r => BitVec.ofNat 32 (r.getD []).length⟩, ?_, ⟨h2, h6, h5, hl, ?_, rfl, hsy, h4.symm⟩, rfl⟩
  · simp [compressIter, h1, tryNew, hsy, hl, Res.guard, expect]
  · intro i x r hx hr
    rw [h3, List.getElem?_map, hr] at hx
    simp at hx; subst hx
    cases r with
    | none => trivial
    | some v => exact hc v

/-- **C20.** The same through `fsst_compress` of an existing array. -/
theorem C20_compress_array (syms : List (List Byte)) (hsy : syms.length ≤ 255) (comp : List Byte → List Byte)
    (hc : ∀ s, decode syms (comp s) = .ok s) (v : VarBin.Arr) (hw : VarBin.WF v)
    (hb : ((VarBin.rows v).map fun r => ((r.map comp).getD []).length).sum ≤ maxI32) :
    ∃ a, compressVarBin syms comp v = .ok a ∧ Denotes a (VarBin.rows v) ∧ a.nullable = v.nullable := by
  have hn : v.nullable = true ∨ ∀ r ∈ VarBin.rows v, r.isSome = true := by
    cases hv : v.nullable with
    | true => exact Or.inl rfl
    | false =>
      right
      intro r hmem
      have hm : mask v.len v.validity = List.replicate v.len true := by
        have := hw.null
        rw [hv] at this
        cases hva : v.validity <;> rw [hva] at this <;> simp [Validity.nullable] at this
        rfl
      rw [VarBin.rows_some hm] at hmem
      simp only [List.mem_map] at hmem
      obtain ⟨x, _, rfl⟩ := hmem
      rfl
  obtain ⟨a, h1, h2⟩ := C20_compress syms hsy comp hc v.nullable (VarBin.rows v) hn hb
  exact ⟨a, by simp only [compressVarBin, VarBin.C21_iter v hw, Res.ok_bind, h1], h2⟩

/-! ### Bulk decode -/

theorem toInt_small {n : Nat} (hn : n < 2 ^ 31) : (BitVec.ofNat 32 n).toInt = n := by
  rw [BitVec.toInt_eq_toNat_of_lt (by rw [BitVec.toNat_ofNat]; omega), BitVec.toNat_ofNat]
  omega

theorem addI32_ok {o n : Nat} (h : o + n ≤ maxI32) : addI32 o (BitVec.ofNat 32 n) = .ok (o + n) := by
  have hn : n < 2 ^ 31 := by simp only [maxI32] at h; omega
  have e : (BitVec.ofNat 32 n).toInt = n := toInt_small hn
  unfold addI32
  rw [e, if_pos (by omega)]
  rfl

theorem addI32_panic {o n : Nat} (hn : n < 2 ^ 31) (h : maxI32 < o + n) : addI32 o (BitVec.ofNat 32 n) = .panic := by
  have e : (BitVec.ofNat 32 n).toInt = n := toInt_small hn
  unfold addI32
  rw [e, if_neg (by omega)]

theorem offsetsFrom_ok {o : Nat} {vs : List (List Byte)} (h : o + vs.flatten.length ≤ maxI32) :
    offsetsFrom o (vs.map fun v => BitVec.ofNat 32 v.length) = .ok (VarBin.ends o vs) := by
  induction vs generalizing o with
  | nil => rfl
  | cons v vs ih =>
    simp only [List.flatten_cons, List.length_append] at h
    simp only [List.map_cons, offsetsFrom, addI32_ok (show o + v.length ≤ maxI32 by omega), Res.ok_bind, ih (o := o + v.length) (by omega),
      VarBin.ends]

theorem offsetsFrom_panic {o : Nat} {vs : List (List Byte)} (ho : o ≤ maxI32) (hs : ∀ v ∈ vs, v.length < 2 ^ 31)
    (h : maxI32 < o + vs.flatten.length) : offsetsFrom o (vs.map fun v => BitVec.ofNat 32 v.length) = .panic := by
  induction vs generalizing o with
  | nil => simp at h; omega
  | cons v vs ih =>
    simp only [List.flatten_cons, List.length_append] at h
    simp only [List.map_cons, offsetsFrom]
    by_cases h1 : o + v.length ≤ maxI32
    · rw [addI32_ok h1, Res.ok_bind, ih h1 (fun x hx => hs x (by simp [hx])) (by omega)]; rfl
    · rw [addI32_panic (hs v (by simp)) (by omega)]; rfl

theorem mask_of {a : Arr} {rs : List (Option (List Byte))} (h : Denotes a rs) : mask a.codes.len a.codes.validity = rs.map Option.isSome := by
  have hl := VarBin.rows_len h.wf
  have hm : (mask a.codes.len a.codes.validity).length = a.codes.len := h.wf.fits
  have hsp := VarBin.spans_length a.codes
  apply List.ext_getElem?
  intro i
  by_cases hi : i < rs.length
  · have hr := List.getElem?_eq_getElem hi
    have hc := List.getElem?_eq_getElem (show i < (VarBin.rows a.codes).length by have := h.len; omega)
    have hd := h.dec i _ _ hc hr
    have hx := List.getElem?_eq_getElem (show i < (VarBin.spans a.codes).length by have := h.len; omega)
    have hb := List.getElem?_eq_getElem (show i < (mask a.codes.len a.codes.validity).length by have := h.len; omega)
    have hrow := VarBin.row_at hx hb
    rw [hc] at hrow
    have hrow := Option.some.inj hrow
    rw [hrow] at hd
    rw [hb, List.getElem?_map, hr, Option.map_some]
    cases hbb : (mask a.codes.len a.codes.validity)[i]'(by have := h.len; omega) <;> rw [hbb] at hd <;>
      cases hrr : rs[i] <;> rw [hrr] at hd <;> simp [DecodesTo] at hd <;> rfl
  · rw [List.getElem?_eq_none (by have := h.len; omega), List.getElem?_eq_none (by simp; omega)]

theorem rowsOf_vals (rs : List (Option (List Byte))) : Spec.rows (VarBin.vals rs) (rs.map Option.isSome) = rs := VarBin.rows_of_opts rs

theorem decode_all {a : Arr} {rs : List (Option (List Byte))} (h : Denotes a rs) :
    decode a.syms (VarBin.spans a.codes).flatten = .ok (VarBin.vals rs).flatten := by
  have hl := VarBin.rows_len h.wf
  apply decode_flatten
  · rw [VarBin.spans_length, h.len]; simp [VarBin.vals]
  · intro i x v hx hv
    rw [h.tight] at hx
    simp only [VarBin.vals, List.getElem?_map, Option.map_eq_some_iff] at hx hv
    obtain ⟨c, hc, rfl⟩ := hx
    obtain ⟨r, hr, rfl⟩ := hv
    have := h.dec i c r hc hr
    cases c <;> cases r <;> simp only [DecodesTo] at this
    · rfl
    · exact this

/-- The bulk decode, with the bytes it makes. -/
theorem bulk_decode_bytes (a : Arr) (rs : List (Option (List Byte))) (h : Denotes a rs)
    (hb : (rs.map fun r => (r.getD []).length).sum ≤ maxI32) :
    ∃ v, intoVarBin a = .ok v ∧ VarBin.WF v ∧ VarBin.rows v = rs ∧ v.nullable = a.nullable ∧
      v.bytes = (VarBin.vals rs).flatten := by
  rw [← VarBin.total_eq_sum] at hb
  have hlens : a.lens = (VarBin.vals rs).map fun v => BitVec.ofNat 32 v.length := by rw [h.lens]; simp [VarBin.vals]
  have hos := offsetsFrom_ok (o := 0) (vs := VarBin.vals rs) (by simpa [VarBin.total] using hb)
  have hm := mask_of h
  have hlen : (0 :: VarBin.ends 0 (VarBin.vals rs)).length = rs.length + 1 := by simp [VarBin.ends_length, VarBin.vals]
  have hfit : FitsLen a.codes.validity rs.length := by have := h.wf.fits; rw [h.len] at this; exact this
  have hnull : a.nullable = a.codes.validity.nullable := by rw [h.null, h.wf.null]
  have hmono := VarBin.ends_mono 0 (VarBin.vals rs)
  have hsp : VarBin.spans ⟨a.nullable, 0 :: VarBin.ends 0 (VarBin.vals rs), (VarBin.vals rs).flatten, a.codes.validity⟩ = VarBin.vals rs := by
    have := VarBin.spans_ends [] (VarBin.vals rs) []
    simpa [VarBin.spans] using this
  have hl2 : (VarBin.Arr.mk a.nullable (0 :: VarBin.ends 0 (VarBin.vals rs)) (VarBin.vals rs).flatten a.codes.validity).len = rs.length := by
    simp only [VarBin.Arr.len, hlen]; omega
  refine ⟨⟨a.nullable, 0 :: VarBin.ends 0 (VarBin.vals rs), (VarBin.vals rs).flatten, a.codes.validity⟩, ?_, ⟨by simp, hmono.1, ?_, ?_, hnull⟩, ?_, rfl, rfl⟩
  · have hck := Compare.checkLen_of_fits hfit
    simp only [intoVarBin, VarBin.slicedBytes_ok h.wf, Res.ok_bind, decode_all h, hlens, hos, VarBin.tryNew, hlen]
    simp [Res.guard, hnull, Res.sub_of_le, hck]
  · intro o ho; have := hmono.2 o ho; simpa using this
  · rw [hl2]; exact hfit
  · rw [VarBin.rows, hsp, hl2, ← h.len, hm]; exact rowsOf_vals rs

/-- **C20.** The bulk decode returns the original rows: values, nulls and nullability, for every array of less than 2 GiB decoded. -/
theorem C20_bulk_decode (a : Arr) (rs : List (Option (List Byte))) (h : Denotes a rs)
    (hb : (rs.map fun r => (r.getD []).length).sum ≤ maxI32) :
    ∃ v, intoVarBin a = .ok v ∧ VarBin.WF v ∧ VarBin.rows v = rs ∧ v.nullable = a.nullable := by
  obtain ⟨v, h1, h2, h3, h4, _⟩ := bulk_decode_bytes a rs h hb
  exact ⟨v, h1, h2, h3, h4⟩

/-- **C20.** Past 2 GiB of decoded bytes the bulk decode panics: no wrapped offset, no wrong row. -/
theorem C20_bulk_decode_overflow (a : Arr) (rs : List (Option (List Byte))) (h : Denotes a rs)
    (hs : ∀ v, some v ∈ rs → v.length < 2 ^ 31) (hb : maxI32 < (rs.map fun r => (r.getD []).length).sum) : intoVarBin a = .panic := by
  rw [← VarBin.total_eq_sum] at hb
  have hlens : a.lens = (VarBin.vals rs).map fun v => BitVec.ofNat 32 v.length := by rw [h.lens]; simp [VarBin.vals]
  have hp := offsetsFrom_panic (o := 0) (vs := VarBin.vals rs) (by simp [maxI32]) (by
    intro v hv
    simp only [VarBin.vals, List.mem_map] at hv
    obtain ⟨r, hr, rfl⟩ := hv
    cases r with
    | none => simp
    | some v => exact hs v hr) (by simpa [VarBin.total] using hb)
  simp only [intoVarBin, VarBin.slicedBytes_ok h.wf, Res.ok_bind, decode_all h, hlens, hp, Res.panic_bind]

/-- **C20.** Single rows: `scalar_at` returns the original value or null; past the end is an error. -/
theorem C20_scalar_at (a : Arr) (rs : List (Option (List Byte))) (h : Denotes a rs) (i : Nat) :
    (∀ r, rs[i]? = some r → scalarAt a i = .ok r) ∧ (rs.length ≤ i → scalarAt a i = .err) := by
  refine ⟨fun r hr => ?_, fun hi => by simp [scalarAt, h.len, hi]⟩
  have hi : i < rs.length := (List.getElem?_eq_some_iff.mp hr).1
  have hic : i < a.codes.len := by rw [h.len]; exact hi
  obtain ⟨x, h1, h2⟩ := VarBin.bytesAt_ok h.wf hic
  obtain ⟨b, h3, h4⟩ := PArr.isValid_mask h.wf.fits hic
  have hrow := VarBin.row_at h2 h4
  have hd := h.dec i _ _ hrow hr
  simp only [scalarAt, if_neg (show ¬ (i ≥ a.codes.len) by omega), h3, Res.ok_bind, h1]
  cases b with
  | false =>
    cases r with
    | none => rfl
    | some v => simp [DecodesTo] at hd
  | true =>
    cases r with
    | none => simp [DecodesTo] at hd
    | some v =>
      simp [DecodesTo] at hd
      simp [hd]

/-! ### Slice, take, filter -/

/-- **C20.** A slice of the compressed array stands for the slice of the rows. -/
theorem C20_slice (a : Arr) (rs : List (Option (List Byte))) (h : Denotes a rs) (s e : Nat) :
    (InBounds rs.length s e → ∃ b, slice a s e = .ok b ∧ Denotes b (Spec.slice rs s e) ∧ b.nullable = a.nullable) ∧
    (¬ InBounds rs.length s e → slice a s e = .err) := by
  constructor
  · intro hb
    have hbc : InBounds a.codes.len s e := by rw [h.len]; exact hb
    obtain ⟨c, c1, c2, c3, c4, c5, c6⟩ := (VarBin.C21_slice a.codes h.wf s e).1 hbc
    have hll : a.lens.length = rs.length := by rw [h.lens]; simp
    have hls : sliceList a.lens s e = .ok (Spec.slice a.lens s e) := sliceList_ok (by rw [hll]; exact hb)
    have hrl : (Spec.slice rs s e).length = e - s := slice_length' hb
    have hcl : c.len = (Spec.slice rs s e).length := by
      have h1 := VarBin.rows_len c2
      have h2 := VarBin.rows_len h.wf
      rw [c3, slice_length, h2, h.len, ← slice_length] at h1
      exact h1.symm
    have hsl : (Spec.slice a.lens s e).length = c.len := by rw [hcl, slice_length, slice_length, hll]
    refine ⟨⟨a.nullable, a.syms, c, Spec.slice a.lens s e⟩, ?_, ⟨c2, c5 h.tight, fun o ho => h.offs o (c6 o ho), hcl, ?_, ?_, h.syms, ?_⟩, rfl⟩
    · obtain ⟨h1, h2⟩ := hbc
      simp only [slice, if_neg (show ¬ (s > a.codes.len) by omega), if_neg (show ¬ (e > a.codes.len) by omega), if_neg (show ¬ (s > e) by omega),
        c1, hls, Res.ok_bind, tryNew]
      simp [Res.guard, h.syms, hsl]
    · intro i x r hx hr
      rw [c3, slice_getElem?] at hx
      rw [slice_getElem?] at hr
      split at hx
      · rename_i hlt
        rw [if_pos hlt] at hr
        exact h.dec (s + i) x r hx hr
      · cases hx
    · rw [h.lens, Spec.slice_map]
    · rw [c4]; exact h.null
  · intro hb
    rw [← h.len] at hb
    simp only [InBounds] at hb
    unfold slice
    split; · rfl
    split; · rfl
    split; · rfl
    omega

/-- **C20.** A take of the compressed array stands for the take of the rows (when the taken codes fit the offsets; otherwise a panic). -/
theorem C20_take (a : Arr) (rs : List (Option (List Byte))) (h : Denotes a rs) (is : List Nat) (hi : ∀ i ∈ is, i < rs.length) :
    take a is = .panic ∨ ∃ b, take a is = .ok b ∧ Denotes b (Spec.take rs is) ∧ b.nullable = a.nullable := by
  have hic : ∀ i ∈ is, i < a.codes.len := fun i hh => by rw [h.len]; exact hi i hh
  by_cases hb : ((Spec.take (VarBin.rows a.codes) is).map fun r => (r.getD []).length).sum ≤ maxI32
  · right
    obtain ⟨c, c1, c2, c3, c4, c5, c6⟩ := VarBin.C21_take maxI32 a.codes h.wf is hic hb
    have hll : a.lens.length = rs.length := by rw [h.lens]; simp
    have hls := takeList_ok (xs := a.lens) (is := is) (by intro i hh; rw [hll]; exact hi i hh)
    have hrl := Spec.take_length hi
    have hir : ∀ i ∈ is, i < (VarBin.rows a.codes).length := fun i hh => by rw [VarBin.rows_len h.wf]; exact hic i hh
    have hcl : c.len = (Spec.take rs is).length := by
      have h1 := VarBin.rows_len c2
      rw [c3, Spec.take_length hir] at h1
      omega
    have hsl : (Spec.take a.lens is).length = c.len := by
      rw [hcl, Spec.take_length (fun i hh => by rw [hll]; exact hi i hh), hrl]
    refine ⟨⟨a.nullable, a.syms, c, Spec.take a.lens is⟩, ?_, ⟨c2, c6, c5, hcl, ?_, ?_, h.syms, ?_⟩, rfl⟩
    · simp only [take, c1, hls, Res.ok_bind, tryNew]
      simp [Res.guard, h.syms, hsl]
    · intro i x r hx hr
      rw [c3, Spec.take_getElem? hir] at hx
      rw [Spec.take_getElem? hi] at hr
      cases hk : is[i]? with
      | none => rw [hk] at hx; cases hx
      | some k => rw [hk] at hx hr; exact h.dec k x r hx hr
    · rw [h.lens, Spec.take_map]
    · rw [c4]; exact h.null
  · left
    simp only [take, VarBin.C21_take_overflow maxI32 a.codes h.wf is hic (by omega), Res.panic_bind]

/-- **C20.** A filter of the compressed array by a predicate without bit offset stands for the filtered rows. -/
theorem C20_filter (a : Arr) (rs : List (Option (List Byte))) (h : Denotes a rs) (p : BoolPred) (hp : p.WF) (h0 : p.off = 0)
    (hl : p.len = rs.length) : ∃ b, filter a p = .ok b ∧ Denotes b (Spec.filter rs p.bits) ∧ b.nullable = a.nullable := by
  have hlc : p.len = a.codes.len := by rw [h.len]; exact hl
  obtain ⟨c, c1, c2, c3, c4, c5, c6⟩ := VarBin.C21_filter maxI32 a.codes h.wf h.offs p hp h0 hlc
  have hbl : p.bits.length = rs.length := by rw [BoolPred.bits_length hp, hl]
  have hll : a.lens.length = rs.length := by rw [h.lens]; simp
  have hcr : (VarBin.rows a.codes).length = rs.length := by rw [VarBin.rows_len h.wf, h.len]
  have hls := filterList_ok (xs := a.lens) (bs := p.bits) (by omega)
  have hcl : c.len = (Spec.filter rs p.bits).length := by
    have h1 := VarBin.rows_len c2
    rw [c3, Spec.filter_length (by omega)] at h1
    rw [Spec.filter_length (by omega), ← h1]
  have hsl : (Spec.filter a.lens p.bits).length = c.len := by
    rw [hcl, Spec.filter_length (by omega), Spec.filter_length (by omega)]
  refine ⟨⟨a.nullable, a.syms, c, Spec.filter a.lens p.bits⟩, ?_, ⟨c2, c6, c5, hcl, ?_, ?_, h.syms, ?_⟩, rfl⟩
  · simp only [filter, hlc, ne_eq, not_true_eq_false, if_false, c1, hls, Res.ok_bind, tryNew]
    simp [Res.guard, h.syms, hsl]
  · intro i x r hx hr
    rw [c3] at hx
    have hz := Spec.filter_zipWith Prod.mk (VarBin.rows a.codes) rs p.bits (by omega)
    have hzi : (Spec.filter (List.zipWith Prod.mk (VarBin.rows a.codes) rs) p.bits)[i]? = some (x, r) := by
      rw [hz, List.getElem?_zipWith, hx, hr]
    have hmem := VarBin.mem_filter (List.mem_of_getElem? hzi)
    obtain ⟨j, hj, hje⟩ := List.mem_iff_getElem.mp hmem
    have hj' := List.getElem?_eq_some_iff.mpr ⟨hj, hje⟩
    rw [List.getElem?_zipWith] at hj'
    cases hx2 : (VarBin.rows a.codes)[j]? with
    | none => rw [hx2] at hj'; cases hj'
    | some x2 =>
      cases hr2 : rs[j]? with
      | none => rw [hx2, hr2] at hj'; cases hj'
      | some r2 =>
        rw [hx2, hr2] at hj'
        simp at hj'
        obtain ⟨rfl, rfl⟩ := hj'
        exact h.dec j x2 r2 hx2 hr2
  · rw [h.lens, Spec.filter_map]
  · rw [c4]; exact h.null

/-! ### Equality with a constant -/

theorem comp_injective {syms : List (List Byte)} {comp : List Byte → List Byte} (hc : ∀ s, decode syms (comp s) = .ok s) {x y : List Byte} :
    comp x = comp y ↔ x = y := by
  constructor
  · intro h
    have := hc x
    rw [h, hc y] at this
    exact (Res.ok.inj this).symm
  · rintro rfl; rfl

/-- **C20/C24.** Comparing compressed codes with the compressed constant answers `==`/`!=` on the original values (null rows give null), for
arrays whose codes are the ones this compressor produces. -/
theorem C20_compare_const_partial (a : Arr) (rs : List (Option (List Byte))) (comp : List Byte → List Byte) (hw : VarBin.WF a.codes)
    (hc : ∀ s, decode a.syms (comp s) = .ok s) (hr : VarBin.rows a.codes = rs.map (Option.map comp)) (c : List Byte) (equal : Bool) :
    compareConst a comp c equal = .ok (rs.map fun r => r.map fun v => if equal then decide (v = c) else decide (v ≠ c)) := by
  simp only [compareConst, VarBin.C21_iter a.codes hw, hr, Res.ok_bind, List.map_map]
  congr 1
  apply List.map_congr_left
  intro r _
  cases r with
  | none => rfl
  | some v => simp [comp_injective hc]

/-- Full statement: any array standing for the rows. -/
def C20_compare_const_full : Prop := ∀ (a : Arr) (rs : List (Option (List Byte))) (comp : List Byte → List Byte), Denotes a rs →
  (∀ s, decode a.syms (comp s) = .ok s) → ∀ c, compareConst a comp c true = .ok (rs.map fun r => r.map fun v => decide (v = c))

/-- The same value written with an escape although its symbol exists: `try_new` accepts it. -/
def exEsc : Arr := ⟨false, [[65#8]], ⟨false, [0, 2], [255#8, 65#8], .nonNullable⟩, [1#32]⟩

def pick1 : List Byte → Option Nat
  | 65 :: _ => some 0
  | _ => none

theorem pick1_strategy : Strategy [[65#8]] pick1 := by
  intro s c h
  unfold pick1 at h
  split at h
  · rename_i rest
    simp at h
    subst h
    exact ⟨by decide, [65#8], rest, rfl, by decide, rfl⟩
  · cases h

theorem C20_compare_const_other_codes : ¬ C20_compare_const_full := by
  intro h
  have hd : Denotes exEsc [some [65#8]] := by
    refine ⟨⟨by decide, by decide, by decide, by decide, rfl⟩, by unfold VarBin.Tight; decide, by decide, by decide, ?_, by decide, by decide, rfl⟩
    intro i c r hc hr
    match i with
    | 0 =>
      have e : VarBin.rows exEsc.codes = [some [255#8, 65#8]] := by decide
      rw [e] at hc
      simp at hc hr
      subst hc hr
      show decode _ _ = _
      decide
    | n + 1 => simp at hr
  have := h exEsc _ (compress [[65#8]] pick1) hd (C20_codec_roundtrip _ _ pick1_strategy) [65#8]
  exact absurd this (by decide +kernel)

/-! ### Non-vacuity -/

def exSyms : List (List Byte) := [[65#8], [66#8, 67#8]]
def exRows : List (Option (List Byte)) := [some [65#8, 66#8, 67#8], none, some [], some [90#8, 66#8, 67#8]]

def pick2 : List Byte → Option Nat
  | 66 :: 67 :: _ => some 1
  | 65 :: _ => some 0
  | _ => none

theorem pick2_strategy : Strategy exSyms pick2 := by
  intro s c h
  unfold pick2 at h
  split at h
  · rename_i rest
    simp at h; subst h
    exact ⟨by decide, [66#8, 67#8], rest, rfl, by decide, rfl⟩
  · rename_i rest
    simp at h; subst h
    exact ⟨by decide, [65#8], rest, rfl, by decide, rfl⟩
  · cases h

example : compress exSyms pick2 [65#8, 66#8, 67#8, 90#8] = [0#8, 1#8, 255#8, 90#8] := by decide
example : ∃ a, compressIter exSyms (compress exSyms pick2) true exRows = .ok a ∧ Denotes a exRows ∧ a.nullable = true :=
  C20_compress exSyms (by decide) _ (C20_codec_roundtrip _ _ pick2_strategy) true exRows (Or.inl rfl) (by decide)
example : (do let a ← compressIter exSyms (compress exSyms pick2) true exRows; let s ← slice a 1 4; let v ← intoVarBin s; .ok (VarBin.rows v)) =
    .ok [none, some [], some [90#8, 66#8, 67#8]] := by decide +kernel
example : (do let a ← compressIter exSyms (compress exSyms pick2) true exRows; let s ← take a [3, 1, 0, 3]; let v ← intoVarBin s; .ok (VarBin.rows v)) =
    .ok [some [90#8, 66#8, 67#8], none, some [65#8, 66#8, 67#8], some [90#8, 66#8, 67#8]] := by decide +kernel

end Vx.FSST
