import Verif.Model.ALPRD
import Verif.Props.C11
import Verif.Props.C23
/-! # C13: ALP-RD restores every bit of every float -/

namespace Vx.ALPRD
open Spec

/-! ### bits -/

theorem rightPart_toNat {rbw : Nat} (h : rbw < n) (v : BitVec n) : (rightPart rbw v).toNat = v.toNat % 2 ^ rbw := by
  have h1 : 2 ^ rbw < 2 ^ n := Nat.pow_lt_pow_right (by omega) h
  have h0 : 0 < 2 ^ rbw := Nat.two_pow_pos rbw
  have h2 : ((1#n <<< rbw) - 1#n).toNat = 2 ^ rbw - 1 := by
    have hn : 1 % 2 ^ n = 1 := Nat.mod_eq_of_lt (by have := Nat.one_lt_two_pow (n := n) (by omega); omega)
    rw [BitVec.toNat_sub]
    simp only [BitVec.toNat_shiftLeft, BitVec.toNat_ofNat, hn, Nat.one_shiftLeft, Nat.mod_eq_of_lt h1]
    have : 2 ^ n - 1 + 2 ^ rbw = 2 ^ n + (2 ^ rbw - 1) := by omega
    rw [this, Nat.add_mod_left, Nat.mod_eq_of_lt (by omega)]
  rw [rightPart, BitVec.toNat_and, h2, Nat.and_two_pow_sub_one_eq_mod]

theorem pack_of_lt {w : Nat} (v : BitVec n) (h : v.toNat < 2 ^ w) : pack w v = v := by
  rw [pack, Nat.mod_eq_of_lt h]; simp

theorem combine_parts {rbw : Nat} (h : rbw < n) (h16 : n - rbw ≤ 16) (v : BitVec n) :
    combine rbw (leftPart rbw v) (pack rbw (rightPart rbw v)) = v := by
  have hr : (rightPart rbw v).toNat < 2 ^ rbw := by rw [rightPart_toNat h]; exact Nat.mod_lt _ (Nat.two_pow_pos _)
  rw [pack_of_lt _ hr]
  apply BitVec.eq_of_getLsbD_eq
  intro i hi
  have hrb : (rightPart rbw v).getLsbD i = (decide (i < rbw) && v.getLsbD i) := by
    simp only [BitVec.getLsbD, rightPart_toNat h, Nat.testBit_mod_two_pow]
  simp only [combine, leftPart, BitVec.getLsbD_or, hrb, BitVec.getLsbD_shiftLeft, BitVec.getLsbD_setWidth, BitVec.getLsbD_ushiftRight, hi, decide_true, Bool.true_and]
  by_cases hlt : i < rbw
  · simp [hlt]
  · simp only [hlt, decide_false, Bool.not_false, Bool.true_and, Bool.false_and, Bool.or_false]
    have e1 : rbw + (i - rbw) = i := by omega
    simp [e1, show i - rbw < n by omega, show i - rbw < 16 by omega]

theorem lt_two_pow_bitWidth (v : Nat) : v < 2 ^ bitWidth v := by
  unfold bitWidth
  split
  · omega
  · rename_i h; exact Nat.lt_log2_self

theorem bitWidth_mono {a b : Nat} (h : a ≤ b) : a < 2 ^ bitWidth b := Nat.lt_of_le_of_lt h (lt_two_pow_bitWidth b)

/-! ### encoding the left parts -/

/-- The code of a left part (0 for an exception). -/
def codeOf (codes : List (BitVec 16)) (l : BitVec 16) : BitVec 16 := BitVec.ofNat 16 ((codes.findIdx? (fun c => c == l)).getD 0)

theorem encodeLeft_spec (codes : List (BitVec 16)) (ls : List (BitVec 16)) (i : Nat) :
    encodeLeft codes ls i = (ls.map (codeOf codes), ((ls.zipIdx i).filter (fun p => (codes.findIdx? (fun c => c == p.1)).isNone)).map (·.2),
      ((ls.zipIdx i).filter (fun p => (codes.findIdx? (fun c => c == p.1)).isNone)).map (·.1)) := by
  induction ls generalizing i with
  | nil => rfl
  | cons l ls ih =>
    simp only [encodeLeft, ih, List.zipIdx_cons, List.map_cons, codeOf]
    cases h : codes.findIdx? (fun c => c == l) with
    | none => rw [List.filter_cons_of_pos (by simp only [h]; rfl)]; rfl
    | some k => rw [List.filter_cons_of_neg (by simp only [h]; simp)]; rfl

/-- The exceptions are the patches of an ALP encoding whose "round trip" fails exactly on left parts outside the dictionary. -/
theorem exc_eq (codes : List (BitVec 16)) (ls : List (BitVec 16)) :
    (ls.zipIdx).filter (fun p => (codes.findIdx? (fun c => c == p.1)).isNone) =
      ALP.chunkPatches (codeOf codes) (fun c => c) (fun _ v => (codes.findIdx? (fun c => c == v)).isNone) 0 ls := rfl

theorem codeOf_lt {codes : List (BitVec 16)} (hc : codes ≠ []) (h8 : codes.length ≤ 8) (l : BitVec 16) : (codeOf codes l).toNat < codes.length := by
  have hpos := List.length_pos_iff.mpr hc
  unfold codeOf
  cases h : codes.findIdx? (fun c => c == l) with
  | none => simpa using hpos
  | some k =>
    have hk : k < codes.length := (List.findIdx?_eq_some_iff_getElem.mp h).1
    simp only [Option.getD_some, BitVec.toNat_ofNat]
    rw [Nat.mod_eq_of_lt (by omega)]; exact hk

theorem codeOf_found {codes : List (BitVec 16)} (h8 : codes.length ≤ 8) {l : BitVec 16} (h : (codes.findIdx? (fun c => c == l)).isNone = false) :
    codes[(codeOf codes l).toNat]? = some l := by
  unfold codeOf
  cases h' : codes.findIdx? (fun c => c == l) with
  | none => simp [h'] at h
  | some k =>
    obtain ⟨hk, h2, _⟩ := List.findIdx?_eq_some_iff_getElem.mp h'
    simp only [Option.getD_some, BitVec.toNat_ofNat]
    rw [Nat.mod_eq_of_lt (by omega), List.getElem?_eq_getElem hk]
    simpa using h2

/-! ### the array -/

/-- The left half as an ALP array: codes, decoded through the dictionary, with exceptions as patches. -/
def leftALP (a : Arr n) : ALP.Arr (BitVec 16) (BitVec 16) := ⟨a.left, a.exc⟩

/-- Dictionary lookup. -/
def look (dict : List (BitVec 16)) (c : BitVec 16) : BitVec 16 := dict[c.toNat]?.getD 0

/-- What every ALP-RD array built by the library satisfies. -/
structure WF (a : Arr n) : Prop where
  left : a.left.WF
  right : a.right.WF
  rnn : a.right.validity = .nonNullable
  lens : a.right.len = a.left.len
  codes : ∀ c ∈ a.left.vals, c.toNat < a.dict.length
  dict : a.dict.length ≤ 8
  exc : ∀ p, a.exc = some p → p.WF ∧ p.fill = none ∧ p.values.validity = .allValid ∧ p.len = a.left.len

/-- The rows an ALP-RD array stands for: null where the left child is null, else the exception or the dictionary entry above the right
part. -/
def rows (a : Arr n) : List (Option (BitVec n)) :=
  List.zipWith (fun l r => l.bind (fun x => r.map (combine a.rbw x))) (ALP.rows (look a.dict) (leftALP a)) a.right.rows

theorem leftWF {a : Arr n} (h : WF a) : ALP.WF (leftALP a) := ⟨h.left, h.exc⟩

theorem right_rows {a : Arr n} (h : WF a) : a.right.rows = a.right.vals.map some := by
  apply List.ext_getElem?
  intro i
  rw [PArr.rows, Vx.rows_getElem?, h.rnn, List.getElem?_map]
  simp only [mask, List.getElem?_replicate]
  by_cases hi : i < a.right.vals.length
  · simp [hi]
  · simp [hi]

theorem rows_length {a : Arr n} (h : WF a) : (rows a).length = a.left.len := by
  have h1 := ALP.rows_length (dec := look a.dict) (leftWF h)
  have h2 := PArr.rows_len h.right
  have h3 := h.lens
  simp only [rows, List.length_zipWith, h1, h2, h3]
  simp [leftALP]

/-- Decoding never fails on a well-formed array and yields exactly its rows. -/
theorem C13_decode (a : Arr n) (hw : WF a) : ∃ b, decode a = .ok b ∧ b.WF ∧ b.rows = rows a := by
  obtain ⟨b, hb, hbw, hbr⟩ := ALP.C11_decompress (dec := look a.dict) (leftALP a) (leftWF hw)
  have hls : Res.mapM (fun c : BitVec 16 => idx a.dict c.toNat) a.left.vals = .ok (a.left.vals.map (look a.dict)) := by
    apply Res.mapM_ok
    intro c hc
    have := hw.codes c hc
    rw [idx_lt this, look, List.getElem?_eq_getElem this]; rfl
  obtain ⟨pos, exc, he, hlen, hset⟩ : ∃ pos exc, excParts a = .ok (pos, exc) ∧ pos.length = exc.length ∧ setLoop (a.left.vals.map (look a.dict)) (pos.zip exc) = .ok b.vals ∧ b.validity = a.left.validity := by
    cases hx : a.exc with
    | none =>
      simp only [ALP.decompress, leftALP, hx] at hb
      cases hb
      exact ⟨[], [], by simp [excParts, hx], rfl, rfl, rfl⟩
    | some p =>
      simp only [ALP.decompress, leftALP, hx, PArr.patchSparse, PArr.patch, Res.bind_eq_ok] at hb
      obtain ⟨is, hi, _, ha, v, hv, hb⟩ := hb
      cases hb
      refine ⟨is, p.values.vals, by simp [excParts, hx, hi], ?_, hv, rfl⟩
      unfold Res.assert at ha
      split at ha
      · rename_i h; simpa using h
      · cases ha
  obtain ⟨hset, hbv⟩ := hset
  have hll : a.left.vals.length = a.right.vals.length := hw.lens.symm
  have hbl : b.vals.length = a.left.vals.length := by
    have h1 := PArr.rows_len hbw
    rw [hbr, ALP.rows_length (leftWF hw)] at h1
    exact h1.symm
  have hmask := (C23_to_logical a.left.validity a.left.vals.length hw.left).2.1
  have hzl : (List.zipWith (combine a.rbw) b.vals a.right.vals).length = a.left.vals.length := by
    rw [List.length_zipWith, hbl, ← hll, Nat.min_self]
  refine ⟨⟨List.zipWith (combine a.rbw) b.vals a.right.vals, (a.left.validity.toLogical a.left.len).intoValidity⟩, ?_, ?_, ?_⟩
  · simp only [decode, he, Res.ok_bind, rdDecode, hll, hlen, beq_self_eq_true, Res.assert, if_true, hls, hset]
  · unfold PArr.WF FitsLen
    simp only [hzl]
    have : a.left.len = a.left.vals.length := rfl
    rw [this, hmask]; exact hw.left
  · rw [rows, ← hbr, right_rows hw]
    apply List.ext_getElem?
    intro i
    rw [PArr.rows, Vx.rows_getElem?, List.getElem?_zipWith, List.getElem?_zipWith, PArr.rows, Vx.rows_getElem?, List.getElem?_map]
    simp only [hzl, hbl, hbv]
    have : a.left.len = a.left.vals.length := rfl
    rw [this, hmask]
    cases b.vals[i]? with
    | none => cases (mask a.left.vals.length a.left.validity)[i]? <;> rfl
    | some x =>
      cases (mask a.left.vals.length a.left.validity)[i]? with
      | none => cases a.right.vals[i]? <;> rfl
      | some m => cases a.right.vals[i]? <;> cases m <;> rfl

/-- An encoder as `RDEncoder::new` makes them: one to eight codes, and a cut that leaves at most sixteen bits on the left. -/
structure GoodEncoder (n : Nat) (e : Encoder) : Prop where
  nonempty : e.codes ≠ []
  atMost8 : e.codes.length ≤ 8
  cut : e.rbw < n
  left16 : n - e.rbw ≤ 16

/-- One optional exception per row. -/
def excRows (x : Option (Sparse (BitVec 16))) (len : Nat) : List (Option (BitVec 16)) :=
  match x with
  | some s => s.rows
  | none => List.replicate len none

theorem mkExc_ok (codes ls : List (BitVec 16)) :
    let ps := (ls.zipIdx).filter (fun p => (codes.findIdx? (fun c => c == p.1)).isNone)
    ∃ x, mkExc (ps.map (·.2)) (ps.map (·.1)) ls.length = .ok x ∧
      (∀ s, x = some s → s.WF ∧ s.fill = none ∧ s.values.validity = .allValid ∧ s.len = ls.length) ∧
      ∀ (i : Nat) (v : BitVec 16), ls[i]? = some v → (excRows x ls.length)[i]? =
        some (if (codes.findIdx? (fun c => c == v)).isNone then some v else none) := by
  intro ps
  have hI : ALP.Inv (codeOf codes) (fun c => c) (fun _ v => (codes.findIdx? (fun c => c == v)).isNone) ls
      ⟨ls.map (codeOf codes), ps.map (·.2), ps.map (·.1), some 0⟩ :=
    ⟨by simp, rfl, rfl, by intro i v hv _; simp [hv], by simp⟩
  obtain ⟨x, h1, h2, h3⟩ := ALP.mkPatches_ok hI
  refine ⟨x, ?_, h2, by cases x <;> exact h3⟩
  rw [← h1]
  have hs : (ps.map (·.2)).Pairwise (· < ·) := by
    have := ALP.chunkPatches_strict (enc1 := codeOf codes) (dec := fun c => c) (ne := fun _ v => (codes.findIdx? (fun c => c == v)).isNone) ls
    exact this
  have hid : (ps.map (·.2)).map (· % 2 ^ bitWidth ((ps.map (·.2)).getLast?.getD 0)) = ps.map (·.2) := by
    conv => rhs; rw [← List.map_id (ps.map (·.2))]
    apply List.map_congr_left
    intro a ha
    apply Nat.mod_eq_of_lt
    apply bitWidth_mono
    obtain ⟨k, hk, rfl⟩ := List.mem_iff_getElem.mp ha
    have hne : ps.map (·.2) ≠ [] := fun h => by simp [h] at hk
    rw [List.getLast?_eq_some_getLast hne, Option.getD_some, List.getLast_eq_getElem]
    by_cases hkl : k = (ps.map (·.2)).length - 1
    · simp [hkl]
    · exact Nat.le_of_lt (List.pairwise_iff_getElem.mp hs _ _ hk (by omega) (by omega))
  simp only [mkExc, ALP.mkPatches, hid, List.length_map]
  by_cases he : ps = []
  · rw [he]; rfl
  · have h1 : (ps.map (·.2)).isEmpty = false := by simpa using he
    have h2 : (ps.map (·.1)).isEmpty = false := by simpa using he
    rw [h1, h2]
    simp only [Bool.false_eq_true, if_false]
    cases Sparse.tryNew (ps.map (·.2)) ⟨ps.map (·.1), .allValid⟩ ls.length none <;> rfl

/-- **C13 (round trip).** For every encoder that `RDEncoder::new` can make and every array of floats of width `n` — NaN payloads,
infinities, negative zeros, values under nulls — encoding succeeds and decoding gives back every bit of every stored value, and the
same nulls. -/
theorem C13_roundtrip (e : Encoder) (he : GoodEncoder n e) (a : PArr (BitVec n)) (ha : a.WF) :
    ∃ arr b, encode e a = .ok arr ∧ WF arr ∧ decode arr = .ok b ∧ b.WF ∧ b.vals = a.vals ∧ b.rows = a.rows := by
  have hsp := encodeLeft_spec e.codes (a.vals.map (leftPart e.rbw)) 0
  obtain ⟨x, hx, hxw, hxr⟩ := mkExc_ok e.codes (a.vals.map (leftPart e.rbw))
  have hpos := List.length_pos_iff.mpr he.nonempty
  have hcodes : ((a.vals.map (leftPart e.rbw)).map (codeOf e.codes)).map (pack (bitWidth (e.codes.length - 1))) = (a.vals.map (leftPart e.rbw)).map (codeOf e.codes) := by
    conv => rhs; rw [← List.map_id ((a.vals.map (leftPart e.rbw)).map (codeOf e.codes))]
    apply List.map_congr_left
    intro c hc
    obtain ⟨l, _, rfl⟩ := List.mem_map.mp hc
    have := codeOf_lt he.nonempty he.atMost8 l
    exact pack_of_lt _ (bitWidth_mono (by omega))
  let arr : Arr n := ⟨⟨(a.vals.map (leftPart e.rbw)).map (codeOf e.codes), a.validity⟩, e.codes,
    ⟨(a.vals.map (rightPart e.rbw)).map (pack e.rbw), .nonNullable⟩, e.rbw, x⟩
  have henc : encode e a = .ok arr := by
    have h1 : (!e.codes.isEmpty) = true := by simpa using he.nonempty
    have hx' := hx
    rw [List.length_map] at hx'
    simp only [encode, h1, Res.assert, if_true, Res.ok_bind, hsp, hx', hcodes]
    simp [tryNew, PArr.len, Res.guard, Validity.nullable, he.atMost8, Res.assert, arr]
  have hwf : WF arr :=
    ⟨by simpa [PArr.WF, arr] using ha, by simp [PArr.WF, arr, FitsLen, mask], rfl, by simp [PArr.len, arr], by
      intro c hc
      obtain ⟨l, _, rfl⟩ := List.mem_map.mp hc
      exact codeOf_lt he.nonempty he.atMost8 l, he.atMost8, by
      intro p hp
      obtain ⟨g1, g2, g3, g4⟩ := hxw p hp
      exact ⟨g1, g2, g3, by rw [g4]; simp [PArr.len, arr]⟩⟩
  -- decode through the array with everything valid, to see all stored values
  have key : ∀ v : Validity, FitsLen v a.vals.length → rows (n := n) ⟨⟨(a.vals.map (leftPart e.rbw)).map (codeOf e.codes), v⟩, e.codes,
      ⟨(a.vals.map (rightPart e.rbw)).map (pack e.rbw), .nonNullable⟩, e.rbw, x⟩ = (PArr.mk a.vals v).rows := by
    intro v hv
    have hw' : WF (n := n) ⟨⟨(a.vals.map (leftPart e.rbw)).map (codeOf e.codes), v⟩, e.codes,
      ⟨(a.vals.map (rightPart e.rbw)).map (pack e.rbw), .nonNullable⟩, e.rbw, x⟩ :=
      ⟨by simpa [PArr.WF] using hv, hwf.right, rfl, by simp [PArr.len], hwf.codes, he.atMost8, by
        intro p hp
        obtain ⟨g1, g2, g3, g4⟩ := hxw p hp
        exact ⟨g1, g2, g3, by rw [g4]; simp [PArr.len]⟩⟩
    rw [rows, right_rows hw']
    apply List.ext_getElem?
    intro i
    have hpr : ALP.patchRows (leftALP (n := n) ⟨⟨(a.vals.map (leftPart e.rbw)).map (codeOf e.codes), v⟩, e.codes,
      ⟨(a.vals.map (rightPart e.rbw)).map (pack e.rbw), .nonNullable⟩, e.rbw, x⟩) = excRows x (a.vals.map (leftPart e.rbw)).length := by
      unfold ALP.patchRows leftALP excRows
      cases x with
      | some s => rfl
      | none => simp [PArr.len]
    rw [List.getElem?_zipWith, ALP.rows, List.getElem?_zipWith, hpr, List.getElem?_map, List.getElem?_map, List.getElem?_map, PArr.rows, Vx.rows_getElem?]
    simp only [leftALP]
    rw [PArr.rows, Vx.rows_getElem?]
    by_cases hi : i < a.vals.length
    · have hv1 : a.vals[i]? = some a.vals[i] := List.getElem?_eq_getElem hi
      have hl : (a.vals.map (leftPart e.rbw))[i]? = some (leftPart e.rbw a.vals[i]) := by simp [hv1]
      rw [hxr i _ hl]
      simp only [List.getElem?_map, hv1, Option.map_some, List.length_map]
      cases hm : (mask a.vals.length v)[i]? with
      | none =>
        exfalso
        have : (mask a.vals.length v).length = a.vals.length := hv
        rw [List.getElem?_eq_none_iff] at hm; omega
      | some m =>
        cases m with
        | false => simp
        | true =>
          simp only [Option.bind_some, Option.map_some, Option.some.injEq]
          by_cases hn : (e.codes.findIdx? (fun c => c == leftPart e.rbw a.vals[i])).isNone = true
          · simp only [hn, if_true, Option.getD_some]
            exact combine_parts he.cut he.left16 _
          · have hn' : (e.codes.findIdx? (fun c => c == leftPart e.rbw a.vals[i])).isNone = false := by simpa using hn
            have := codeOf_found he.atMost8 hn'
            simp only [hn', Bool.false_eq_true, if_false, Option.getD_none, look, this, Option.getD_some]
            exact combine_parts he.cut he.left16 _
    · have hv1 : a.vals[i]? = none := List.getElem?_eq_none (by omega)
      simp [hv1]
  obtain ⟨b, hb, hbw, hbr⟩ := C13_decode arr hwf
  refine ⟨arr, b, henc, hwf, hb, hbw, ?_, by rw [hbr]; exact key a.validity ha⟩
  -- the stored values do not depend on the validity
  let arr' : Arr n := ⟨⟨(a.vals.map (leftPart e.rbw)).map (codeOf e.codes), .nonNullable⟩, e.codes,
    ⟨(a.vals.map (rightPart e.rbw)).map (pack e.rbw), .nonNullable⟩, e.rbw, x⟩
  have hwf' : WF arr' := ⟨by simp [PArr.WF, arr', FitsLen, mask], hwf.right, rfl, by simp [PArr.len, arr'], hwf.codes, he.atMost8, hwf.exc⟩
  obtain ⟨b', hb', hbw', hbr'⟩ := C13_decode arr' hwf'
  have hk := key .nonNullable (by simp [FitsLen, mask])
  have hv : b'.vals = a.vals := by
    have hrr : b'.rows = (PArr.mk a.vals .nonNullable).rows := by rw [hbr']; exact hk
    have hval : b'.validity = .allValid := by
      simp only [decode, Res.bind_eq_ok] at hb'
      obtain ⟨_, _, _, _, h⟩ := hb'
      cases h; rfl
    have hl : b'.vals.length = a.vals.length := by
      have h1 := PArr.rows_len hbw'
      rw [hrr, PArr.rows_len (by simp [PArr.WF, FitsLen, mask])] at h1
      exact h1.symm
    apply List.ext_getElem?
    intro i
    have hgi := congrArg (fun l => l[i]?) hrr
    simp only [PArr.rows, Vx.rows_getElem?, hval, mask, List.getElem?_replicate, hl] at hgi
    by_cases hi : i < a.vals.length
    · have h2 : i < b'.vals.length := by omega
      simp only [hi, if_true, List.getElem?_eq_getElem h2, List.getElem?_eq_getElem hi, Option.some.injEq] at hgi
      rw [List.getElem?_eq_getElem h2, List.getElem?_eq_getElem hi]
      simpa using hgi
    · rw [List.getElem?_eq_none (by omega), List.getElem?_eq_none (by omega)]
  have hsame : b.vals = b'.vals := by
    simp only [decode, Res.bind_eq_ok] at hb hb'
    obtain ⟨p, hp, v, hv, h⟩ := hb
    obtain ⟨p', hp', v', hv', h'⟩ := hb'
    have : excParts arr = excParts arr' := rfl
    rw [this, hp'] at hp
    cases hp
    have : rdDecode arr.left.vals arr.dict arr.rbw arr.right.vals p.1 p.2 = rdDecode arr'.left.vals arr'.dict arr'.rbw arr'.right.vals p.1 p.2 := rfl
    have this := hv.symm.trans (this.trans hv')
    cases this
    cases h; cases h'; rfl
  rw [hsame, hv]

/-- **C13 (scalar_at).** Reading one row agrees with the decoded rows; beyond the end is an error. -/
theorem C13_scalar_at (a : Arr n) (hw : WF a) (i : Nat) :
    scalarAt a i = match (rows a)[i]? with
      | some r => .ok r
      | none => .err := by
  by_cases hi : i < a.left.len
  · obtain ⟨m, hm, hmi⟩ := PArr.isValid_mask hw.left hi
    have hmi' : (mask a.left.vals.length a.left.validity)[i]? = some m := hmi
    have hil : i < a.left.vals.length := hi
    have hir : i < a.right.vals.length := by have := hw.lens; simp only [PArr.len] at this; omega
    have hex : ∃ q, (ALP.patchRows (leftALP a))[i]? = some q ∧ excAt a.exc i = Res.ok q := by
      unfold excAt ALP.patchRows leftALP
      cases hp : a.exc with
      | none => exact ⟨none, by simp [hi], rfl⟩
      | some p =>
        obtain ⟨h1, h2, h3, h4⟩ := hw.exc p hp
        obtain ⟨r, hr, hv⟩ := Sparse.C18_is_valid h1 (i := i) (by omega)
        refine ⟨r, hr, ?_⟩
        have hs := Sparse.C18_scalar_at h1 i
        rw [dif_pos (by omega)] at hs
        obtain ⟨_, hr'⟩ := List.getElem?_eq_some_iff.mp hr
        simp only [hv, Res.ok_bind]
        cases r with
        | none => simp
        | some x => simp [hs, hr']
    obtain ⟨q, hq, hpa⟩ := hex
    have hr : (rows a)[i]? = some (if m then some (combine a.rbw (q.getD (look a.dict a.left.vals[i])) a.right.vals[i]) else none) := by
      rw [rows, List.getElem?_zipWith, ALP.rows, List.getElem?_zipWith, hq, right_rows hw, List.getElem?_map, List.getElem?_eq_getElem hir]
      simp only [leftALP]
      rw [PArr.rows, Vx.rows_getElem?, hmi', List.getElem?_eq_getElem hil]
      cases m <;> rfl
    rw [hr]
    simp only [scalarAt, show ¬ i ≥ a.left.len by omega, if_false, hm, Res.ok_bind]
    cases m with
    | false => simp
    | true =>
      have hrs : a.right.scalarAt i = .ok (some a.right.vals[i]) := by
        simp [PArr.scalarAt, PArr.len, hir, hw.rnn, Validity.isValid, idx_lt hir]
      have hl : leftAt a i = .ok (q.getD (look a.dict a.left.vals[i])) := by
        unfold leftAt
        rw [hpa, Res.ok_bind]
        cases q with
        | some x => rfl
        | none =>
          have hc := hw.codes _ (List.getElem_mem hil)
          have : a.left.scalarAt i = .ok (some a.left.vals[i]) := by
            simp [PArr.scalarAt, show ¬ a.left.len ≤ i by omega, hm, idx_lt hil]
          simp only [this, Res.ok_bind, idx_lt hc, Option.getD_none, look, List.getElem?_eq_getElem hc, Option.getD_some]
      simp [hl, hrs]
  · rw [List.getElem?_eq_none (by rw [rows_length hw]; omega)]
    simp [scalarAt, show i ≥ a.left.len by omega]

/-! ### slice, take, filter -/

theorem mem_slice_vals {a b : PArr α} {s e : Nat} (h : a.slice s e = .ok b) : b.validity = .nonNullable ∨ a.validity ≠ .nonNullable := by
  simp only [PArr.slice, Res.bind_eq_ok] at h
  obtain ⟨_, _, v, hv, h⟩ := h
  cases h
  cases hav : a.validity <;> simp [hav, Validity.slice] at hv ⊢
  exact hv.symm

theorem each_ok {a : Arr n} (hw : WF a) {f : ∀ {X : Type}, PArr X → Res (PArr X)} {g : Sparse (BitVec 16) → Res (Sparse (BitVec 16))} {k : Nat}
    (G : ∀ {X : Type}, List X → List X)
    (hG : G (List.replicate a.left.len (none : Option (BitVec 16))) = List.replicate k none)
    (hsub : ∀ {X : Type} (xs : List X), ∀ x ∈ G xs, x ∈ xs)
    (hf : ∀ {X : Type} (p : PArr X), p.WF → p.len = a.left.len → ∃ e, f p = .ok e ∧ e.vals = G p.vals ∧ e.rows = G p.rows ∧ e.WF ∧ e.len = k ∧
      (p.validity = .nonNullable → e.validity = .nonNullable))
    (hg : ∀ p, a.exc = some p → ∃ b, g p = .ok b ∧ b.WF ∧ b.len = k ∧ b.rows = G p.rows ∧ b.fill = p.fill ∧ b.values.validity = .allValid)
    (hz : ∀ {X Y Z : Type} (h : X → Y → Z) (xs : List X) (ys : List Y), xs.length = a.left.len → ys.length = a.left.len →
      G (List.zipWith h xs ys) = List.zipWith h (G xs) (G ys)) :
    ∃ b, each f g a = .ok b ∧ WF b ∧ rows b = G (rows a) := by
  obtain ⟨l, hl, hlv, hlr, hlw, hll, _⟩ := hf a.left hw.left rfl
  obtain ⟨r, hr, hrv, hrr, hrw, hrl, hrn⟩ := hf a.right hw.right hw.lens
  have hx : ∃ x, optExc g a.exc = Res.ok x ∧ (∀ p, x = some p → p.WF ∧ p.fill = none ∧ p.values.validity = .allValid ∧ p.len = k) ∧
      ALP.patchRows ⟨l, x⟩ = G (ALP.patchRows (leftALP a)) := by
    cases hp : a.exc with
    | none =>
      refine ⟨none, rfl, by simp, ?_⟩
      simp only [ALP.patchRows, leftALP, hp, hll]; exact hG.symm
    | some p =>
      obtain ⟨b, hb, hbw, hbl, hbr, hbf, hbv⟩ := hg p hp
      refine ⟨some b, by simp [optExc, hb], ?_, by simp only [ALP.patchRows, leftALP, hp]; exact hbr⟩
      intro q hq
      obtain rfl := Option.some.inj hq
      exact ⟨hbw, by rw [hbf]; exact (hw.exc p hp).2.1, hbv, hbl⟩
  obtain ⟨x, hx1, hx2, hx3⟩ := hx
  refine ⟨⟨l, a.dict, r, a.rbw, x⟩, ?_, ⟨hlw, hrw, hrn hw.rnn, by rw [hrl, hll], ?_, hw.dict, ?_⟩, ?_⟩
  · unfold each
    rw [hx1]
    simp [hl, hr, tryNew, hrl, hll, Res.guard, hrn hw.rnn, Validity.nullable, Res.assert, hw.dict]
  · intro c hc
    rw [show l.vals = G a.left.vals from hlv] at hc
    exact hw.codes c (hsub _ c hc)
  · intro p hp
    obtain ⟨g1, g2, g3, g4⟩ := hx2 p hp
    exact ⟨g1, g2, g3, by rw [g4]; exact hll.symm⟩
  · have h1 := ALP.rows_length (dec := look a.dict) (leftWF hw)
    have h2 := PArr.rows_len hw.right
    have h3 := ALP.patchRows_length (leftWF hw)
    have h4 := PArr.rows_len hw.left
    simp only [rows]
    rw [hz _ _ _ h1 (h2.trans hw.lens)]
    simp only [leftALP, ALP.rows] at *
    rw [hz _ _ _ h4 h3, hrr, hlr, hx3]

theorem slice_sub (xs : List α) (s e : Nat) : ∀ x ∈ Spec.slice xs s e, x ∈ xs := fun _ hx => List.mem_of_mem_take (List.mem_of_mem_drop hx)

theorem take_sub (xs : List α) (is : List Nat) : ∀ x ∈ Spec.take xs is, x ∈ xs := by
  intro x hx
  obtain ⟨i, _, h⟩ := List.mem_filterMap.mp hx
  exact List.mem_of_getElem? h

theorem filter_sub (xs : List α) (m : List Bool) : ∀ x ∈ Spec.filter xs m, x ∈ xs := by
  induction xs generalizing m with
  | nil => intro x hx; simp [Spec.filter] at hx
  | cons y ys ih =>
    intro x hx
    cases m with
    | nil => simp [Spec.filter] at hx
    | cons b m =>
      cases b with
      | false => exact List.mem_cons_of_mem _ (ih m x hx)
      | true =>
        rcases List.mem_cons.mp hx with rfl | h
        · simp
        · exact List.mem_cons_of_mem _ (ih m x h)

/-- **C13 (slice).** -/
theorem C13_slice (a : Arr n) (hw : WF a) (s e : Nat) (h : InBounds a.left.len s e) :
    ∃ b, slice a s e = .ok b ∧ WF b ∧ rows b = Spec.slice (rows a) s e := by
  have hb := h
  unfold InBounds at hb
  refine each_ok (k := e - s) hw (f := fun p => p.slice s e) (fun xs => Spec.slice xs s e) ?_ (fun xs => slice_sub xs s e) ?_ ?_ ?_
  · rw [slice_replicate]; congr 1; omega
  · intro X p hp hl
    have hb' : InBounds p.len s e := by rw [hl]; exact h
    obtain ⟨b, h1, h2, h3, h4⟩ := PArr.slice_ok hp hb'
    refine ⟨b, h1, ?_, h2, h3, h4, ?_⟩
    · simp only [PArr.slice, sliceList_ok hb', Res.bind_eq_ok] at h1
      obtain ⟨_, he, v, hv, h⟩ := h1
      cases he; cases h; rfl
    · intro hn
      simp only [PArr.slice, hn, Validity.slice, Res.bind_eq_ok] at h1
      obtain ⟨_, he, v, hv, h⟩ := h1
      cases hv; cases h; rfl
  · intro p hp
    obtain ⟨h1, h2, h3, h4⟩ := hw.exc p hp
    obtain ⟨b, g1, g2, g3, g4⟩ := (Sparse.C18_slice h1 s e).1 (by rw [h4]; exact h)
    obtain ⟨k1, k2⟩ := ALP.slice_keeps g1 h3
    exact ⟨b, g1, g2, g3, g4, k1, k2⟩
  · intro X Y Z f xs ys _ _; exact slice_zipWith f _ _ s e

/-- **C13 (take).** -/
theorem C13_take (a : Arr n) (hw : WF a) (is : List Nat) (h : ∀ i ∈ is, i < a.left.len) :
    ∃ b, take a is = .ok b ∧ WF b ∧ rows b = Spec.take (rows a) is := by
  refine each_ok (k := is.length) hw (f := fun p => p.take is) (fun xs => Spec.take xs is) ?_ (fun xs => take_sub xs is) ?_ ?_ ?_
  · apply List.ext_getElem?
    intro j
    rw [Spec.take_getElem? (by simpa using h)]
    by_cases hj : j < is.length
    · have := h is[j] (List.getElem_mem _)
      simp [hj, List.getElem?_eq_getElem hj, this]
    · simp [hj, List.getElem?_eq_none (show is.length ≤ j by omega)]
  · intro X p hp hl
    have h' : ∀ i ∈ is, i < p.len := by rw [hl]; exact h
    obtain ⟨b, h1, h2, h3, h4⟩ := PArr.take_ok hp h'
    refine ⟨b, h1, ?_, h2, h3, h4, ?_⟩
    · simp only [PArr.take, takeList_ok h', Res.bind_eq_ok] at h1
      obtain ⟨v, hv, _, he, h⟩ := h1
      cases he; cases h; rfl
    · intro hn
      simp only [PArr.take, hn, Validity.take, Res.bind_eq_ok] at h1
      obtain ⟨v, hv, _, he, h⟩ := h1
      cases hv; cases h; rfl
  · intro p hp
    obtain ⟨h1, h2, h3, h4⟩ := hw.exc p hp
    obtain ⟨b, g1, g2, g3, g4⟩ := Sparse.C18_take h1 is (by rw [h4]; exact h)
    obtain ⟨k1, k2⟩ := ALP.take_keeps g1 h3
    exact ⟨b, g1, g2, g3, g4, k1, k2⟩
  · intro X Y Z f xs ys hx hy
    exact ALP.take_zipWith f _ _ is (by rw [hx, hy]) (by rw [hx]; exact h)

/-- **C13 (filter).** -/
theorem C13_filter (a : Arr n) (hw : WF a) (m : List Bool) (h : m.length = a.left.len) :
    ∃ b, filter a m = .ok b ∧ WF b ∧ rows b = Spec.filter (rows a) m := by
  refine each_ok (k := m.count true) hw (f := fun p => p.filter m) (fun xs => Spec.filter xs m) ?_ (fun xs => filter_sub xs m) ?_ ?_ ?_
  · exact filter_replicate _ none m h
  · intro X p hp hl
    have h' : m.length = p.len := by rw [hl]; exact h
    obtain ⟨b, h1, h2, h3, h4⟩ := PArr.filter_ok hp h'
    refine ⟨b, h1, ?_, h2, h3, h4, ?_⟩
    · simp only [PArr.filter, filterList_ok h', Res.bind_eq_ok] at h1
      obtain ⟨v, hv, _, he, h⟩ := h1
      cases he; cases h; rfl
    · intro hn
      simp only [PArr.filter, hn, Validity.filter, Res.bind_eq_ok] at h1
      obtain ⟨v, hv, _, he, h⟩ := h1
      cases hv; cases h; rfl
  · intro p hp
    obtain ⟨h1, h2, h3, h4⟩ := hw.exc p hp
    obtain ⟨b, g1, g2, g3, g4⟩ := (Sparse.C18_filter h1 m).1 (by rw [h4]; exact h)
    obtain ⟨k1, k2⟩ := ALP.filter_keeps g1 h3
    exact ⟨b, g1, g2, g3, g4, k1, k2⟩
  · intro X Y Z f xs ys hx hy
    exact filter_zipWith f _ _ m (by rw [hx, hy])

/-! ### building the encoder -/

theorem eraseDups_ne_nil {l : List (BitVec 16)} (h : l ≠ []) : l.eraseDups ≠ [] := by
  cases l with
  | nil => exact absurd rfl h
  | cons x xs => rw [List.eraseDups_cons]; simp

theorem buildDict_ok {hash : List (BitVec 16 × Nat) → List (BitVec 16 × Nat)} (hh : ∀ l, (hash l).Perm l) {samples : List (BitVec n)}
    (hs : samples ≠ []) {p : Nat} (hp : 1 ≤ p ∧ p ≤ 16) :
    ∃ c, buildDict hash samples (n - p) = .ok c ∧ c.codes ≠ [] ∧ c.codes.length ≤ 8 ∧ c.rbw = n - p := by
  have hne : (hash (counts (samples.map (leftPart (n - p))))).mergeSort (fun a b => decide (a.2 ≥ b.2)) ≠ [] := by
    intro h
    have h1 := (List.mergeSort_perm (hash (counts (samples.map (leftPart (n - p))))) (fun a b => decide (a.2 ≥ b.2))).trans (hh _)
    rw [h] at h1
    have h2 : counts (samples.map (leftPart (n - p))) = [] := h1.symm.eq_nil
    simp only [counts, List.map_eq_nil_iff] at h2
    exact eraseDups_ne_nil (by simpa using hs) h2
  generalize hm : (hash (counts (samples.map (leftPart (n - p))))).mergeSort (fun a b => decide (a.2 ≥ b.2)) = sorted at hne
  have hl : 0 < ((sorted.take 8).map (·.1)).length := by
    have := List.length_pos_iff.mpr hne
    simp only [List.length_map, List.length_take]; omega
  refine ⟨⟨(sorted.take 8).map (·.1), n - p, bitWidth (((sorted.take 8).map (·.1)).length - 1), ((sorted.drop 8).map (·.2)).sum⟩, ?_, ?_, ?_, rfl⟩
  · simp only [buildDict, hm, show (n - p ≥ n - 16) by omega, decide_true, Res.assert, if_true, Res.ok_bind, Res.sub_of_le (show 1 ≤ ((sorted.take 8).map (·.1)).length from hl)]
  · exact List.length_pos_iff.mp hl
  · simp only [List.length_map, List.length_take]; omega

theorem bestLoop_ok {hash : List (BitVec 16 × Nat) → List (BitVec 16 × Nat)} (hh : ∀ l, (hash l).Perm l) (less : Nat → Cand → Option Cand → Bool)
    {samples : List (BitVec n)} (hs : samples ≠ []) (hn : 16 < n) (ps : List Nat) (hp : ∀ p ∈ ps, 1 ≤ p ∧ p ≤ 16) (best : Option Cand)
    (hb : ∀ c, best = some c → GoodEncoder n ⟨c.rbw, c.codes⟩) (hl : best = none → ps ≠ [] ∧ ∀ c, less samples.length c none = true) :
    ∃ c, bestLoop hash less samples ps best = .ok (some c) ∧ GoodEncoder n ⟨c.rbw, c.codes⟩ := by
  induction ps generalizing best with
  | nil =>
    cases best with
    | none => exact absurd rfl (hl rfl).1
    | some c => exact ⟨c, rfl, hb c rfl⟩
  | cons p ps ih =>
    have hpp := hp p (by simp)
    obtain ⟨c, h1, h2, h3, h4⟩ := buildDict_ok hh hs hpp
    have hc : GoodEncoder n ⟨c.rbw, c.codes⟩ := ⟨h2, h3, by simp only [h4]; omega, by simp only [h4]; omega⟩
    simp only [bestLoop, h1, Res.ok_bind]
    apply ih (fun q hq => hp q (by simp [hq]))
    · intro d hd
      by_cases hlt : less samples.length c best = true
      · rw [if_pos hlt] at hd; obtain rfl := Option.some.inj hd; exact hc
      · rw [if_neg hlt] at hd; exact hb d hd
    · intro hnone
      by_cases hlt : less samples.length c best = true
      · rw [if_pos hlt] at hnone; cases hnone
      · rw [if_neg hlt] at hnone
        exact absurd ((hl hnone).2 c) (by rw [hnone] at hlt; exact hlt)

/-- **C13 (new encoder).** From any nonempty sample of f32 or f64 values (`16 < n`), whatever the iteration order of the hash map and
however the size estimates compare (as long as an estimate is below `f64::MAX`), the encoder is one the round trip holds for. -/
theorem C13_new_encoder {hash : List (BitVec 16 × Nat) → List (BitVec 16 × Nat)} (hh : ∀ l, (hash l).Perm l)
    (less : Nat → Cand → Option Cand → Bool) (hless : ∀ k c, less k c none = true) (hn : 16 < n) (samples : List (BitVec n)) (hs : samples ≠ []) :
    ∃ e, newEncoder hash less samples = .ok e ∧ GoodEncoder n e := by
  obtain ⟨c, h1, h2⟩ := bestLoop_ok hh less hs hn ((List.range 16).map (· + 1)) (by
    intro p hp
    obtain ⟨q, hq, rfl⟩ := List.mem_map.mp hp
    simp only [List.mem_range] at hq
    exact ⟨by omega, by omega⟩) none (by simp) (by intro _; exact ⟨by decide, hless _⟩)
  exact ⟨_, by simp [newEncoder, h1], h2⟩

/-- **C13, end to end**: sample, encode, decode. -/
theorem C13_end_to_end {hash : List (BitVec 16 × Nat) → List (BitVec 16 × Nat)} (hh : ∀ l, (hash l).Perm l)
    (less : Nat → Cand → Option Cand → Bool) (hless : ∀ k c, less k c none = true) (hn : 16 < n) (samples : List (BitVec n)) (hs : samples ≠ [])
    (a : PArr (BitVec n)) (ha : a.WF) :
    ∃ e arr b, newEncoder hash less samples = .ok e ∧ encode e a = .ok arr ∧ decode arr = .ok b ∧ b.vals = a.vals ∧ b.rows = a.rows := by
  obtain ⟨e, h1, h2⟩ := C13_new_encoder hh less hless hn samples hs
  obtain ⟨arr, b, h3, _, h4, _, h5, h6⟩ := C13_roundtrip e h2 a ha
  exact ⟨e, arr, b, h1, h3, h4, h5, h6⟩

/-- An empty sample makes `RDEncoder::new` panic (`dictionary.len() - 1`). -/
theorem C13_empty_sample_panics (hash : List (BitVec 16 × Nat) → List (BitVec 16 × Nat)) (hh : ∀ l, (hash l).Perm l)
    (less : Nat → Cand → Option Cand → Bool) : newEncoder hash less ([] : List (BitVec n)) = .panic := by
  have h0 : hash [] = [] := (hh []).eq_nil
  have : (List.range 16).map (· + 1) = 1 :: ((List.range 15).map (· + 2)) := by decide
  rw [newEncoder, this, bestLoop]
  have hb : buildDict hash ([] : List (BitVec n)) (n - 1) = .panic := by
    simp [buildDict, counts, h0, Res.assert, Res.sub, show n - 16 ≤ n - 1 by omega]
  rw [hb]; rfl

/-- Decoding turns a non-nullable array into a nullable one: the validity comes back as `AllValid`. -/
theorem C13_nullability_lost (a b : PArr (BitVec n)) (e : Encoder) (arr : Arr n) (hn : a.validity = .nonNullable)
    (h1 : encode e a = .ok arr) (h2 : decode arr = .ok b) : b.validity = .allValid := by
  have hv : arr.left.validity = .nonNullable := by
    simp only [encode, Res.bind_eq_ok] at h1
    obtain ⟨_, _, h1⟩ := h1
    obtain ⟨x, _, h1⟩ := h1
    split at h1
    · rename_i h3
      cases h1
      simp only [tryNew, Res.bind_eq_ok] at h3
      obtain ⟨_, _, _, _, _, _, h3⟩ := h3
      cases h3
      exact hn
    · cases h1
  simp only [decode, Res.bind_eq_ok] at h2
  obtain ⟨_, _, _, _, h2⟩ := h2
  cases h2
  simp [hv, Validity.toLogical, LogicalValidity.intoValidity]

/-! ### Concrete cases -/

/-- 0.1, -0.0, a NaN with payload and a huge outlier (f32). -/
example : ∃ arr, encode (n := 32) ⟨20, [0x3dc#16, 0x800#16]⟩ ⟨[0x3dcccccd#32, 0x80000000#32, 0x7fc00001#32, 0x6a1b0000#32], .array [true, true, true, false]⟩ = .ok arr ∧
    arr.exc = some ⟨[2, 3], ⟨[0x7fc#16, 0x6a1#16], .allValid⟩, 4, 0, none⟩ ∧
    decode arr = .ok ⟨[0x3dcccccd#32, 0x80000000#32, 0x7fc00001#32, 0x6a1b0000#32], .array [true, true, true, false]⟩ := by
  refine ⟨_, rfl, by decide +kernel, by decide +kernel⟩

example : GoodEncoder 32 ⟨20, [0x3dc#16, 0x800#16]⟩ := ⟨by decide, by decide, by decide, by decide⟩

/-- The exact size estimate as a comparison that meets the hypothesis of `C13_new_encoder`. -/
example : ∀ k c, (fun (k : Nat) (c : Cand) (b : Option Cand) => match b with
    | none => true
    | some b => decide ((c.rbw + c.lbw) * k + 32 * c.exceptions < (b.rbw + b.lbw) * k + 32 * b.exceptions)) k c none = true := fun _ _ => rfl

end Vx.ALPRD
