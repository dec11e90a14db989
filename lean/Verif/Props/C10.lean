import Verif.Lemmas.BitPack
/-! # C10: bit packing gives back the original rows

Every theorem holds for every implementation `fl` of the 1024-value kernels that meets `FL.Lawful` (an instance is given at the end). -/

namespace Vx.BitPack
open Spec

variable {fl : FL T}

/-- The values the packed buffer holds for the rows of the array. -/
def stored (fl : FL T) (a : Arr T) : List (BitVec T) :=
  ((decodeAll fl a.packed a.w ((a.len + a.offset + 1023) / 1024)).drop a.offset).take a.len

/-- The packed values with the patches on top. -/
def view (fl : FL T) (a : Arr T) : ALP.Arr (BitVec T) (BitVec T) := ⟨⟨stored fl a, a.validity⟩, a.patches⟩

/-- The rows a bit-packed array stands for: null where invalid, else the patch if there is one, else the packed value. -/
def rows (fl : FL T) (a : Arr T) : List (Option (BitVec T)) := ALP.rows id (view fl a)

/-- What every bit-packed array built by the library satisfies. -/
structure WF (a : Arr T) : Prop where
  width : a.w ≤ T
  offset : a.offset ≤ 1023
  packed : a.packed.length = (a.len + a.offset + 1023) / 1024 * (128 * a.w)
  validity : FitsLen a.validity a.len
  patches : ∀ p, a.patches = some p → p.WF ∧ p.fill = none ∧ p.values.validity = .allValid ∧ p.len = a.len ∧ p.indices ≠ []

theorem stored_length (hfl : fl.Lawful) {a : Arr T} (h : WF a) : (stored fl a).length = a.len := by
  simp only [stored, List.length_take, List.length_drop, decodeAll_length hfl h.width h.packed]; omega

theorem view_WF (hfl : fl.Lawful) {a : Arr T} (h : WF a) : ALP.WF (view fl a) := by
  refine ⟨?_, ?_⟩
  · unfold PArr.WF view
    simp only [stored_length hfl h]; exact h.validity
  · intro p hp
    obtain ⟨h1, h2, h3, h4, _⟩ := h.patches p hp
    exact ⟨h1, h2, h3, by rw [h4]; exact (stored_length hfl h).symm⟩

theorem view_len (hfl : fl.Lawful) {a : Arr T} (h : WF a) : (view fl a).encoded.len = a.len := stored_length hfl h

theorem rows_length (hfl : fl.Lawful) {a : Arr T} (h : WF a) : (rows fl a).length = a.len := by
  rw [rows, ALP.rows_length (view_WF hfl h), view_len hfl h]

theorem unpack_eq (hT : IsWidth T) (hfl : fl.Lawful) {a : Arr T} (h : WF a) : unpack fl a = ALP.decompress id (view fl a) := by
  have hm : ∀ p : PArr (BitVec T), p.map id = p := by intro p; simp [PArr.map]
  simp only [unpack, unpackAll_ok hT hfl h.width h.offset h.packed, Res.ok_bind, ALP.decompress, hm, view, stored]
  cases a.patches <;> rfl

/-- **C10 (unpacking).** Unpacking never fails and yields exactly the rows. -/
theorem C10_unpack (hT : IsWidth T) (hfl : fl.Lawful) (a : Arr T) (h : WF a) : ∃ b, unpack fl a = .ok b ∧ b.WF ∧ b.rows = rows fl a := by
  rw [unpack_eq hT hfl h]
  exact ALP.C11_decompress (view fl a) (view_WF hfl h)

/-- Is row `i` of an array valid? -/
def validAt (a : PArr α) (i : Nat) : Bool := ((mask a.vals.length a.validity)[i]?).getD false

theorem mem_exceptions {w : Nat} {a : PArr (BitVec T)} {v : BitVec T} {i : Nat} (hw : w < T) :
    (decide (T - bitLen v.toNat < T - w) && ((mask a.vals.length a.validity)[i]?).getD false) = (decide (w < bitLen v.toNat) && validAt a i) := by
  have h1 : bitLen v.toNat ≤ T := bitLen_le_of_lt v.isLt
  have : (T - bitLen v.toNat < T - w) ↔ (w < bitLen v.toNat) := by omega
  rw [decide_eq_decide.mpr this]; rfl

theorem rows_valid {a : PArr α} {i : Nat} {v : α} (hv : a.vals[i]? = some v) (h : validAt a i = true) : a.rows[i]? = some (some v) := by
  rw [PArr.rows, Vx.rows_getElem?, hv]
  unfold validAt at h
  cases hm : (mask a.vals.length a.validity)[i]? with
  | none => simp [hm] at h
  | some b => simp [hm] at h; subst h; rfl

theorem sum_zero {l : List Nat} (h : l.sum = 0) : ∀ x ∈ l, x = 0 := by
  induction l with
  | nil => simp
  | cons a l ih =>
    simp only [List.sum_cons] at h
    intro x hx
    rcases List.mem_cons.mp hx with rfl | hx
    · omega
    · exact ih (by omega) x hx

/-- The statistics of a nonempty array always contain the bit width frequencies. -/
theorem freq_some (a : PArr (BitVec T)) (hw : a.WF) (hne : a.vals ≠ []) :
    ∃ freq, (primStats (intElem false T) a).bitWidthFreq = some freq ∧ freq.length = T + 1 ∧
      ∀ (i : Nat) (v : BitVec T), a.rows[i]? = some (some v) → ∃ c, freq[bitLen v.toNat]? = some c ∧ 0 < c := by
  by_cases hv : valid a.rows = []
  · rw [C25_all_null (intElem false T) a hw hne hv]
    refine ⟨_, rfl, by simp [intElem], ?_⟩
    intro i v h
    have : v ∈ valid a.rows := mem_valid.mpr (List.mem_of_getElem? h)
    rw [hv] at this; cases this
  · have h1 := (C25_integer false T a hw hv).1.bitWidthFreq
    refine ⟨_, h1, by simp [histogram, intElem], ?_⟩
    intro i v h
    have hb : bitLen v.toNat < T + 1 := by have := bitLen_le_of_lt v.isLt; omega
    refine ⟨a.rows.countP (fun x => rowBw (intElem false T) x == bitLen v.toNat), ?_, ?_⟩
    · simp [histogram, intElem, hb]
    · rw [List.countP_pos_iff]
      exact ⟨some v, List.mem_of_getElem? h, by simp [rowBw, intElem]⟩

theorem exceptions_nil {w : Nat} {a : PArr (BitVec T)} (hwT : w < T) {freq : List Nat} (hl : freq.length = T + 1)
    (hf : ∀ (i : Nat) (v : BitVec T), a.rows[i]? = some (some v) → ∃ c, freq[bitLen v.toNat]? = some c ∧ 0 < c)
    (h0 : countExceptions w freq = 0) : exceptions w a = [] := by
  rw [exceptions, List.filter_eq_nil_iff]
  rintro ⟨v, i⟩ hm hP
  rw [mem_exceptions hwT] at hP
  simp only [Bool.and_eq_true, decide_eq_true_eq] at hP
  have hv : a.vals[i]? = some v := List.mem_zipIdx_iff_getElem?.mp hm
  obtain ⟨c, hc, hpos⟩ := hf i v (rows_valid hv hP.2)
  unfold countExceptions at h0
  rw [if_neg (by omega)] at h0
  have : c ∈ freq.drop (w + 1) := by
    rw [List.mem_iff_getElem?]
    refine ⟨bitLen v.toNat - (w + 1), ?_⟩
    rw [List.getElem?_drop]
    rw [show w + 1 + (bitLen v.toNat - (w + 1)) = bitLen v.toNat by omega]; exact hc
  have := sum_zero h0 c this
  omega

theorem exceptions_filter {w : Nat} {a : PArr (BitVec T)} (hwT : w < T) :
    exceptions w a = (a.vals.zipIdx).filter (fun p => decide (w < bitLen p.1.toNat) && validAt a p.2) := by
  rw [exceptions]
  apply List.filter_congr
  rintro ⟨v, i⟩ _
  exact mem_exceptions hwT

/-- The optional patches that a list of exceptions turns into. -/
def patchesOf (w : Nat) (a : PArr (BitVec T)) : Option (Sparse (BitVec T)) :=
  if (exceptions w a).isEmpty then none
  else some ⟨(exceptions w a).map (·.2), ⟨(exceptions w a).map (·.1), .allValid⟩, a.vals.length, 0, none⟩

theorem gather_eq {w : Nat} {a : PArr (BitVec T)} (hwT : w < T) : gatherPatches w a = .ok (patchesOf w a) := by
  have hg := gathered_ok a.vals (fun p => decide (w < bitLen p.1.toNat) && validAt a p.2)
  simp only [← exceptions_filter hwT] at hg
  unfold gatherPatches patchesOf
  simp only
  by_cases he : (exceptions w a).isEmpty = true
  · simp [he]
  · rw [if_neg he, if_neg he, hg.1]

theorem patches_gate {w : Nat} {a : PArr (BitVec T)} (hw : a.WF) (hne : a.vals ≠ []) (hwT : w < T) {freq : List Nat}
    (hf : (primStats (intElem false T) a).bitWidthFreq = some freq) :
    (if 0 < countExceptions w freq then gatherPatches w a else .ok none) = .ok (patchesOf w a) := by
  obtain ⟨freq', h1, h2, h3⟩ := freq_some a hw hne
  rw [hf] at h1
  obtain rfl := Option.some.inj h1
  split
  · exact gather_eq hwT
  · rename_i h
    rw [patchesOf, exceptions_nil hwT h2 h3 (by omega)]; rfl

/-- The array that encoding produces. -/
def encoded (fl : FL T) (w : Nat) (a : PArr (BitVec T)) : Arr T := ⟨packAll fl w a.vals, a.validity, patchesOf w a, w, a.vals.length, 0⟩

theorem encoded_WF (hfl : fl.Lawful) {w : Nat} {a : PArr (BitVec T)} (hw : a.WF) (hwT : w < T) : WF (encoded fl w a) := by
  refine ⟨by simp only [encoded]; omega, by simp [encoded], by simpa [encoded] using packAll_length hfl (Nat.le_of_lt hwT) a.vals, hw, ?_⟩
  intro p hp
  simp only [encoded, patchesOf] at hp
  split at hp
  · cases hp
  · rename_i he
    obtain rfl := Option.some.inj hp
    have hg := (gathered_ok a.vals (fun p => decide (w < bitLen p.1.toNat) && validAt a p.2)).2.1
    simp only [← exceptions_filter hwT] at hg
    exact ⟨hg, rfl, rfl, rfl, by simpa using he⟩

theorem encode_eq (hfl : fl.Lawful) (hT64 : T ≤ 64) {w : Nat} {a : PArr (BitVec T)} (hw : a.WF) (hne : a.vals ≠ []) (hwT : w < T) :
    encode fl a w = .ok (encoded fl w a) := by
  obtain ⟨freq, h1, h2, h3⟩ := freq_some a hw hne
  have hwf := encoded_WF hfl hw hwT
  have hcheck : checkPatches a.vals.length (patchesOf w a) = .ok () := by
    cases hp : patchesOf w a with
    | none => rfl
    | some p =>
      obtain ⟨_, _, _, h4, h5⟩ := hwf.patches p hp
      have h4' : p.len = a.vals.length := h4
      have h6 : p.indices.isEmpty = false := by simpa using h5
      simp [checkPatches, h4', h6, Res.guard]
  have hpk := hwf.packed
  simp only [encoded] at hpk
  simp only [encode, h1, Res.ofOption_some, Res.ok_bind, Res.guard, hwT, decide_true, if_true, patches_gate hw hne hwT h1, tryNew,
    show w ≤ 64 by omega, show (0 ≤ 1023) by omega, hpk, beq_self_eq_true, hcheck, Compare.checkLen_of_fits hw, encoded]

theorem stored_encoded (hfl : fl.Lawful) {w : Nat} (hwT : w ≤ T) (a : PArr (BitVec T)) : stored fl (encoded fl w a) = a.vals.map (low w) := by
  simp only [stored, encoded, Nat.add_zero, List.drop_zero, decodeAll_packAll hfl hwT, padded, List.map_append]
  rw [List.take_append_of_le_length (by simp), List.take_of_length_le (by simp)]

/-- The rows of the encoded array are the rows that were encoded. -/
theorem rows_encoded (hfl : fl.Lawful) {w : Nat} {a : PArr (BitVec T)} (hw : a.WF) (hwT : w < T) : rows fl (encoded fl w a) = a.rows := by
  have hwf := encoded_WF hfl hw hwT
  apply List.ext_getElem?
  intro i
  by_cases hi : i < a.vals.length
  · have hv : a.vals[i]? = some a.vals[i] := List.getElem?_eq_getElem hi
    have hpr : (ALP.patchRows (view fl (encoded fl w a)))[i]? = some (if (decide (w < bitLen a.vals[i].toNat) && validAt a i) then some a.vals[i] else none) := by
      have hg := (gathered_ok a.vals (fun p => decide (w < bitLen p.1.toNat) && validAt a p.2)).2.2 i _ hv
      simp only [← exceptions_filter hwT] at hg
      rw [← hg]
      unfold ALP.patchRows view encoded patchesOf
      simp only
      by_cases he : (exceptions w a).isEmpty = true
      · rw [if_pos he]
        simp only [PArr.len]
        have := stored_encoded (fl := fl) hfl (Nat.le_of_lt hwT) a
        unfold encoded patchesOf at this
        rw [if_pos he] at this
        rw [this]
        have he' : exceptions w a = [] := by simpa using he
        rw [Sparse.rows_getElem? _ i hi]
        simp [he', hi, Sparse.rows_getElem?, patchOr]
      · rw [if_neg he]
    rw [rows, ALP.rows, List.getElem?_zipWith, hpr]
    simp only [view]
    rw [PArr.rows, Vx.rows_getElem?, stored_encoded hfl (Nat.le_of_lt hwT), PArr.rows, Vx.rows_getElem?, List.getElem?_map, hv]
    simp only [List.length_map, Option.map_some, encoded]
    cases hm : (mask a.vals.length a.validity)[i]? with
    | none =>
      exfalso
      have : (mask a.vals.length a.validity).length = a.vals.length := hw
      rw [List.getElem?_eq_none_iff] at hm; omega
    | some m =>
      have hva : validAt a i = m := by simp [validAt, hm]
      cases m with
      | false => simp
      | true =>
        simp only [Option.map_some, hva, Bool.and_true, decide_eq_true_eq]
        by_cases hb : w < bitLen a.vals[i].toNat
        · simp [hb]
        · simp only [if_neg hb, Option.getD_none, id, low_of_lt _ (lt_of_bitLen (Nat.le_of_not_lt hb))]
  · rw [List.getElem?_eq_none (by rw [rows_length hfl hwf]; simp only [encoded]; omega),
      List.getElem?_eq_none (by rw [PArr.rows_len hw]; exact Nat.le_of_not_lt hi)]

/-- **C10 (round trip).** For every unsigned type, every bit width below it and every nonempty array with any nulls: packing succeeds and
unpacking returns the original rows. -/
theorem C10_roundtrip (hT : IsWidth T) (hfl : fl.Lawful) (a : PArr (BitVec T)) (hw : a.WF) (hne : a.vals ≠ []) (w : Nat) (hwT : w < T) :
    ∃ arr b, encode fl a w = .ok arr ∧ WF arr ∧ rows fl arr = a.rows ∧ unpack fl arr = .ok b ∧ b.WF ∧ b.rows = a.rows := by
  have hwf := encoded_WF hfl hw hwT
  obtain ⟨b, h1, h2, h3⟩ := C10_unpack hT hfl _ hwf
  have hr := rows_encoded hfl hw hwT
  exact ⟨_, b, encode_eq hfl (by rcases hT with rfl | rfl | rfl | rfl <;> omega) hw hne hwT, hwf, hr, h1, h2, by rw [h3, hr]⟩

/-- A width that does not save anything is refused. -/
theorem C10_width_refused (a : PArr (BitVec T)) (w : Nat) (hwT : T ≤ w) : encode fl a w = .err := by
  unfold encode
  cases (primStats (intElem false T) a).bitWidthFreq with
  | none => rfl
  | some f => simp [Res.guard, show ¬ w < T by omega]

/-- An empty non-null array cannot be packed: it has no bit width statistics. -/
theorem C10_empty_refused (w : Nat) : encode fl (⟨[], .nonNullable⟩ : PArr (BitVec T)) w = .err := rfl

/-- **C10 (scalar_at).** Reading one row agrees with unpacking everything, also in a sliced array; beyond the end is an error. -/
theorem C10_scalar_at (hT : IsWidth T) (hfl : fl.Lawful) (a : Arr T) (h : WF a) (i : Nat) :
    scalarAt fl a i = match (rows fl a)[i]? with
      | some r => .ok r
      | none => .err := by
  have key : scalarAt fl a i = ALP.scalarAt id (view fl a) i := by
    unfold scalarAt ALP.scalarAt
    rw [view_len hfl h]
    by_cases hi : i < a.len
    · have hst : i < (stored fl a).length := by rw [stored_length hfl h]; exact hi
      obtain ⟨x, hx, hxd⟩ := unpackSingle_ok hT hfl (j := i + a.offset) h.width h.packed (by have := h.offset; omega)
      have hidx : idx (stored fl a) i = .ok x := by
        unfold idx stored
        rw [List.getElem?_take, if_pos hi, List.getElem?_drop, Nat.add_comm a.offset i, hxd]; rfl
      have hp : patchAt a.patches i = ALP.patchAt (view fl a) i := by
        unfold patchAt ALP.patchAt view
        cases a.patches <;> rfl
      simp only [hx, Res.ok_bind, hp, view, hidx, id]
      congr 1
      congr 1
      funext v
      congr 1
      congr 1
      funext r
      cases r <;> rfl
    · simp [show a.len ≤ i by omega]
  rw [key, ALP.C11_scalar_at (view fl a) (view_WF hfl h) i, rows]
  cases (ALP.rows id (view fl a))[i]? <;> rfl

/-! ### slice -/

theorem decodeAll_bytes (hfl : fl.Lawful) {packed : List (BitVec 8)} {w n q r : Nat} (hw : w ≤ T) (hp : packed.length = n * (128 * w)) (hqr : q ≤ r) (hr : r ≤ n) :
    decodeAll fl ((packed.take (r * (128 * w))).drop (q * (128 * w))) w (r - q) = ((decodeAll fl packed w n).drop (q * 1024)).take ((r - q) * 1024) := by
  have hrn : r * (128 * w) ≤ n * (128 * w) := Nat.mul_le_mul_right _ hr
  have hpl : ((packed.take (r * (128 * w))).drop (q * (128 * w))).length = (r - q) * (128 * w) := by
    rw [List.length_drop, List.length_take, hp, Nat.min_eq_left hrn, Nat.sub_mul]
  apply List.ext_getElem?
  intro j
  rw [List.getElem?_take]
  by_cases hj : j < (r - q) * 1024
  · rw [if_pos hj, List.getElem?_drop, decodeAll_getElem? hfl hw hpl hj, decodeAll_getElem? hfl hw hp (by omega)]
    have e1 : (q * 1024 + j) / 1024 = q + j / 1024 := by omega
    have e2 : (q * 1024 + j) % 1024 = j % 1024 := by omega
    rw [e1, e2]
    congr 2
    unfold chunkAt
    apply List.ext_getElem?
    intro i
    rw [List.getElem?_take, List.getElem?_take]
    by_cases hi : i < 128 * w
    · rw [if_pos hi, if_pos hi, List.getElem?_drop, List.getElem?_drop, List.getElem?_drop, List.getElem?_take, Nat.add_mul]
      have hk : (j / 1024 + 1) * (128 * w) ≤ (r - q) * (128 * w) := Nat.mul_le_mul_right _ (by omega)
      rw [Nat.succ_mul, Nat.sub_mul] at hk
      have hqr' : q * (128 * w) ≤ r * (128 * w) := Nat.mul_le_mul_right _ hqr
      rw [if_pos (by omega), Nat.add_assoc]
    · rw [if_neg hi, if_neg hi]
  · rw [if_neg hj, List.getElem?_eq_none (by rw [decodeAll_length hfl hw hpl]; omega)]

/-- Slicing inside the bounds, with what happens to the patches. -/
theorem slice_full (hT : IsWidth T) (hfl : fl.Lawful) (a : Arr T) (h : WF a) (s e : Nat) (hb : InBounds a.len s e) :
    ∃ b, slice a s e = .ok b ∧ WF b ∧ b.len = e - s ∧ rows fl b = Spec.slice (rows fl a) s e ∧
      ALP.patchRows (view fl b) = Spec.slice (ALP.patchRows (view fl a)) s e ∧ b.w = a.w := by
  have hse : s ≤ e := hb.1
  have hel : e ≤ a.len := hb.2
  have ho := h.offset
  -- block arithmetic
  obtain ⟨q, hq⟩ : ∃ q, q = (s + a.offset) / 1024 := ⟨_, rfl⟩
  obtain ⟨r, hr⟩ : ∃ r, r = (e + a.offset + 1023) / 1024 := ⟨_, rfl⟩
  have hqr : q ≤ r := by omega
  have hrn : r ≤ (a.len + a.offset + 1023) / 1024 := by omega
  have hstart : (s + a.offset - (s + a.offset) % 1024) / 8 * a.w = q * (128 * a.w) := by
    have : s + a.offset - (s + a.offset) % 1024 = q * 128 * 8 := by omega
    rw [this, Nat.mul_div_cancel _ (by omega), Nat.mul_assoc]
  have hstop : (e + a.offset + 1023) / 1024 * 1024 / 8 * a.w = r * (128 * a.w) := by
    have : (e + a.offset + 1023) / 1024 * 1024 = r * 128 * 8 := by omega
    rw [this, Nat.mul_div_cancel _ (by omega), Nat.mul_assoc]
  have hle1 : q * (128 * a.w) ≤ r * (128 * a.w) := Nat.mul_le_mul_right _ hqr
  have hle2 : r * (128 * a.w) ≤ a.packed.length := by rw [h.packed]; exact Nat.mul_le_mul_right _ hrn
  have hnew : (e - s + (s + a.offset) % 1024 + 1023) / 1024 = r - q := by omega
  have hbl : ((a.packed.take (r * (128 * a.w))).drop (q * (128 * a.w))).length = (r - q) * (128 * a.w) := by
    rw [List.length_drop, List.length_take, Nat.min_eq_left hle2, Nat.sub_mul]
  obtain ⟨v, hv1, hv2, hv3, _⟩ := mask_slice h.validity hb
  have hsp : ∃ p', slicePatches a.patches s e = .ok p' ∧
      (∀ p, p' = some p → p.WF ∧ p.fill = none ∧ p.values.validity = .allValid ∧ p.len = e - s ∧ p.indices ≠ []) ∧
      (∀ enc : PArr (BitVec T), enc.len = e - s → ALP.patchRows (⟨enc, p'⟩ : ALP.Arr (BitVec T) (BitVec T)) = Spec.slice (ALP.patchRows (view fl a)) s e) := by
    unfold slicePatches
    cases hp : a.patches with
    | none =>
      refine ⟨none, rfl, by simp, ?_⟩
      intro enc henc
      simp only [ALP.patchRows, view, hp, henc]
      rw [slice_replicate]
      have : (PArr.mk (stored fl a) a.validity).len = a.len := stored_length hfl h
      rw [this, Nat.min_eq_left hel]
    | some p =>
      obtain ⟨h1, h2, h3, h4, h5⟩ := h.patches p hp
      obtain ⟨b, g1, g2, g3, g4⟩ := (Sparse.C18_slice h1 s e).1 (by rw [h4]; exact hb)
      obtain ⟨k1, k2⟩ := ALP.slice_keeps g1 h3
      simp only [g1, Res.ok_bind]
      by_cases he : b.indices.isEmpty = true
      · refine ⟨none, by rw [if_pos he], by simp, ?_⟩
        intro enc henc
        simp only [ALP.patchRows, view, hp, henc]
        rw [← g4]
        have he' : b.indices = [] := by simpa using he
        apply List.ext_getElem?
        intro j
        by_cases hj : j < b.len
        · rw [Sparse.rows_getElem? b j hj]
          simp [he', patchOr, k1, h2, ← g3, hj]
        · rw [List.getElem?_eq_none (by simp; omega), List.getElem?_eq_none (by rw [Sparse.rows_length]; omega)]
      · refine ⟨some b, by rw [if_neg he], ?_, ?_⟩
        · intro q hq
          obtain rfl := Option.some.inj hq
          exact ⟨g2, by rw [k1, h2], k2, g3, by simpa using he⟩
        · intro enc _
          simp only [ALP.patchRows, view, hp]
          exact g4
  obtain ⟨p', hp1, hp2, hp3⟩ := hsp
  have hcheck : checkPatches (e - s) p' = .ok () := by
    cases hp : p' with
    | none => rfl
    | some p =>
      obtain ⟨_, _, _, h4, h5⟩ := hp2 p hp
      have h6 : p.indices.isEmpty = false := by simpa using h5
      simp [checkPatches, h4, h6, Res.guard]
  have hw64 : a.w ≤ 64 := by have := h.width; rcases hT with rfl | rfl | rfl | rfl <;> omega
  let b : Arr T := ⟨(a.packed.take (r * (128 * a.w))).drop (q * (128 * a.w)), v, p', a.w, e - s, (s + a.offset) % 1024⟩
  have hwb : WF b := ⟨h.width, by simp only [b]; omega, by simp only [b, hbl, hnew], hv3, hp2⟩
  refine ⟨b, ?_, hwb, rfl, ?_, hp3 _ (stored_length hfl hwb), rfl⟩
  · unfold slice
    rw [if_neg (by omega), if_neg (by omega), if_neg (by omega)]
    simp only [hstart, hstop, bytes, hle1, hle2, and_self, if_true, Res.ok_bind, hv1, hp1, tryNew, Res.guard, hw64, decide_true,
      show (s + a.offset) % 1024 ≤ 1023 by omega, hbl, hnew, beq_self_eq_true, hcheck, Compare.checkLen_of_fits hv3, b]
  · have hst : stored fl b = Spec.slice (stored fl a) s e := by
      have hdl := decodeAll_length hfl h.width h.packed
      simp only [stored, b, hnew, decodeAll_bytes hfl h.width h.packed hqr hrn]
      apply List.ext_getElem?
      intro j
      rw [slice_getElem?]
      simp only [List.getElem?_take, List.getElem?_drop]
      by_cases hj : j < e - s
      · rw [if_pos hj, if_pos (by omega), if_pos (by omega), if_pos (by omega)]
        congr 1; omega
      · rw [if_neg hj, if_neg (by omega)]
    have hlen : (PArr.mk (stored fl b) b.validity).len = e - s := stored_length hfl hwb
    simp only [rows, ALP.rows]
    rw [slice_zipWith]
    congr 1
    · simp only [view, PArr.rows]
      rw [stored_length hfl hwb, stored_length hfl h]
      simp only [Spec.rows]
      rw [slice_zipWith, ← hv2, hst]
    · exact hp3 _ hlen

/-- **C10 (slice).** Slicing inside the bounds yields an array of exactly those rows (so unpacking and single access agree with it);
outside the bounds it is an error. -/
theorem C10_slice (hT : IsWidth T) (hfl : fl.Lawful) (a : Arr T) (h : WF a) (s e : Nat) :
    (InBounds a.len s e → ∃ b, slice a s e = .ok b ∧ WF b ∧ b.len = e - s ∧ rows fl b = Spec.slice (rows fl a) s e) ∧
    (¬ InBounds a.len s e → slice a s e = .err) := by
  constructor
  · intro hb
    obtain ⟨b, h1, h2, h3, h4, _⟩ := slice_full hT hfl a h s e hb
    exact ⟨b, h1, h2, h3, h4⟩
  · intro hb
    unfold InBounds at hb
    unfold slice
    by_cases h1 : s > a.len
    · rw [if_pos h1]
    · rw [if_neg h1]
      by_cases h2 : e > a.len
      · rw [if_pos h2]
      · rw [if_neg h2, if_pos (by omega)]

/-! ### take -/

theorem groups_spec (is : List Nat) : ((groups is).flatMap (·.2)) = is ∧ ∀ g ∈ groups is, ∀ i ∈ g.2, i / 1024 = g.1 := by
  induction is with
  | nil => simp [groups]
  | cons i is ih =>
    obtain ⟨h1, h2⟩ := ih
    unfold groups
    cases hg : groups is with
    | nil =>
      rw [hg] at h1
      simp at h1
      subst h1
      simp
    | cons g rest =>
      obtain ⟨k, g⟩ := g
      rw [hg] at h1 h2
      simp only
      by_cases hk : k = i / 1024
      · rw [if_pos hk]
        refine ⟨by simpa using h1, ?_⟩
        intro g' hg' j hj
        rcases List.mem_cons.mp hg' with rfl | hg'
        · rcases List.mem_cons.mp hj with rfl | hj
          · exact hk.symm
          · exact h2 (k, g) (by simp) j hj
        · exact h2 g' (by simp [hg']) j hj
      · rw [if_neg hk]
        refine ⟨by simpa using h1, ?_⟩
        intro g' hg' j hj
        rcases List.mem_cons.mp hg' with rfl | hg'
        · simp at hj; subst hj; rfl
        · exact h2 g' hg' j hj

theorem takeGroups_ok (hT : IsWidth T) (hfl : fl.Lawful) {packed : List (BitVec 8)} {w n : Nat} (hw : w ≤ T) (hp : packed.length = n * (128 * w))
    (gs : List (Nat × List Nat)) (hk : ∀ g ∈ gs, ∀ i ∈ g.2, i / 1024 = g.1) (hn : ∀ g ∈ gs, g.2 ≠ []) (hi : ∀ i ∈ gs.flatMap (·.2), i < n * 1024) :
    ∃ outs, Res.mapM (takeGroup fl packed w) gs = .ok outs ∧
      outs.flatten = (gs.flatMap (·.2)).map (fun i => fl.single w (chunkAt packed w (i / 1024)) (i % 1024)) := by
  refine ⟨gs.map (fun g => g.2.map (fun i => fl.single w (chunkAt packed w (i / 1024)) (i % 1024))), ?_, ?_⟩
  · apply Res.mapM_ok
    intro g hg
    have hkn : g.1 < n := by
      obtain ⟨i, hi'⟩ := List.exists_mem_of_ne_nil _ (hn g hg)
      have h1 := hk g hg i hi'
      have h2 := hi i (List.mem_flatMap.mpr ⟨g, hg, hi'⟩)
      omega
    simp only [takeGroup, words_ok hT hp hkn, Res.ok_bind, List.length_map]
    have hm : g.2.map (fun i => fl.single w (chunkAt packed w (i / 1024)) (i % 1024)) = (g.2.map (· % 1024)).map (fl.single w (chunkAt packed w g.1)) := by
      rw [List.map_map]
      apply List.map_congr_left
      intro i hi'
      simp only [Function.comp, hk g hg i hi']
    split
    · rw [hm]
      apply Res.mapM_ok
      intro i hi'
      obtain ⟨j, _, rfl⟩ := List.mem_map.mp hi'
      unfold idx
      rw [hfl.single_eq w _ _ hw (chunkAt_length hp hkn) (Nat.mod_lt _ (by omega))]; rfl
    · rw [hm]
  · rw [List.map_flatMap, List.flatMap_def]

theorem groups_ne_nil (is : List Nat) : ∀ g ∈ groups is, g.2 ≠ [] := by
  induction is with
  | nil => simp [groups]
  | cons i is ih =>
    unfold groups
    cases hg : groups is with
    | nil => simp
    | cons g rest =>
      obtain ⟨k, g⟩ := g
      rw [hg] at ih
      simp only
      split
      · intro g' hg'
        rcases List.mem_cons.mp hg' with rfl | hg'
        · simp
        · exact ih g' (by simp [hg'])
      · intro g' hg'
        rcases List.mem_cons.mp hg' with rfl | hg'
        · simp
        · exact ih g' hg'

/-- **C10 (take), partial.** Taking any in-range indices returns those rows, when the array has no patches, or more than an eighth of the
array is taken, or the indices visit more than one 1024-block per 64 of them. What is missing (patches, and long runs of few indices in
the same blocks) is false: `C10_take_patches_misplaced`. -/
theorem C10_take_partial (hT : IsWidth T) (hfl : fl.Lawful) (a : Arr T) (h : WF a) (is : List Nat) (hi : ∀ i ∈ is, i < a.len)
    (hpath : a.patches = none ∨ is.length * 8 > a.len ∨ (groups (is.map (· + a.offset))).length * 64 > is.length) :
    ∃ b, take fl a is = .ok b ∧ b.WF ∧ b.rows = Spec.take (rows fl a) is := by
  by_cases hd : is.length * 8 > a.len
  · obtain ⟨u, h1, h2, h3⟩ := C10_unpack hT hfl a h
    have hul : u.len = a.len := by rw [← PArr.rows_len h2, h3, rows_length hfl h]
    obtain ⟨b, g1, g2, g3, g4⟩ := PArr.take_ok h2 (is := is) (by rw [hul]; exact hi)
    exact ⟨b, by simp only [take, if_pos hd, h1, Res.ok_bind, g1], g3, by rw [g2, h3]⟩
  · obtain ⟨c, hc1, hc2, hc3⟩ := ALP.C11_take (dec := id) (view fl a) (view_WF hfl h) is (by rw [view_len hfl h]; exact hi)
    obtain ⟨b, hb1, hb2, hb3⟩ := ALP.C11_decompress (dec := id) c hc2
    refine ⟨b, ?_, hb2, by rw [hb3, hc3]; rfl⟩
    rw [← hb1]
    obtain ⟨v, hv1, hv2, hv3, _⟩ := mask_take (is := is) h.validity hi
    have hlen := stored_length hfl h
    have htl : takeList (stored fl a) is = .ok (Spec.take (stored fl a) is) := takeList_ok (by rw [hlen]; exact hi)
    have hm : ∀ p : PArr (BitVec T), p.map id = p := by intro p; simp [PArr.map]
    by_cases hem : is = []
    · subst hem
      simp only [take, List.length_nil, Nat.zero_mul, show ¬ (0 > a.len) by omega, if_false, hv1, Res.ok_bind, takePrim, List.isEmpty_nil, if_true]
      simp only [ALP.take, ALP.both, view, PArr.take, hv1, htl, Res.ok_bind] at hc1
      have ht0 : Spec.take (stored fl a) [] = [] := rfl
      cases hp : a.patches with
      | none =>
        simp only [hp, ALP.tryNew] at hc1
        cases hc1
        simp [ALP.decompress, ht0, hm]
      | some p =>
        simp only [hp, Res.bind_eq_ok] at hc1
        obtain ⟨p', hp', hc1⟩ := hc1
        simp only [ALP.tryNew, Res.bind_eq_ok] at hc1
        obtain ⟨_, _, hc1⟩ := hc1
        cases hc1
        have hpw := hc2.patches p' rfl
        have hidx : p'.indices = [] := by
          cases hi' : p'.indices with
          | nil => rfl
          | cons x xs =>
            have h1 := hpw.1.lower x (by simp [hi'])
            have h2 := hpw.1.upper x (by simp [hi'])
            have h3 := hpw.2.2.2
            simp [PArr.len, ht0] at h3
            omega
        have hvl : p'.values.vals = [] := by
          have := hpw.1.lens
          rw [hidx] at this
          exact List.eq_nil_of_length_eq_zero this.symm
        simp [ALP.decompress, hm, PArr.patchSparse, Sparse.resolvedIndices, hidx, PArr.patch, hvl, Res.assert, setLoop, ht0]
    · have hne : is.isEmpty = false := by simpa using hem
      obtain ⟨hg1, hg2⟩ := groups_spec (is.map (· + a.offset))
      have hbound : ∀ i ∈ (groups (is.map (· + a.offset))).flatMap (·.2), i < (a.len + a.offset + 1023) / 1024 * 1024 := by
        rw [hg1]
        intro i hi'
        obtain ⟨j, hj, rfl⟩ := List.mem_map.mp hi'
        have := hi j hj
        have := h.offset
        omega
      obtain ⟨outs, ho1, ho2⟩ := takeGroups_ok hT hfl h.width h.packed _ hg2 (groups_ne_nil _) hbound
      have hout : outs.flatten = Spec.take (stored fl a) is := by
        rw [ho2, hg1, List.map_map]
        apply List.ext_getElem?
        intro j
        rw [Spec.take_getElem? (by rw [hlen]; exact hi), List.getElem?_map]
        cases hj : is[j]? with
        | none => rfl
        | some i =>
          have hil := hi i (List.mem_of_getElem? hj)
          simp only [Option.map_some, Option.bind_some, Function.comp, stored]
          rw [List.getElem?_take, if_pos hil, List.getElem?_drop, Nat.add_comm a.offset i, decodeAll_getElem? hfl h.width h.packed (by have := h.offset; omega)]
      simp only [ALP.take, ALP.both, view, PArr.take, hv1, htl, Res.ok_bind] at hc1
      simp only [take, if_neg hd, hv1, Res.ok_bind, takePrim, hne, Bool.false_eq_true, if_false, ho1, hout]
      cases hp : a.patches with
      | none =>
        simp only [hp, ALP.tryNew] at hc1
        cases hc1
        simp [ALP.decompress, hm]
      | some p =>
        have hbulk : (groups (is.map (· + a.offset))).length * 64 > is.length := by
          rcases hpath with h1 | h1 | h1
          · rw [hp] at h1; cases h1
          · exact absurd h1 hd
          · exact h1
        simp only [hp, Res.bind_eq_ok] at hc1
        obtain ⟨p', hp', hc1⟩ := hc1
        simp only [ALP.tryNew, Res.bind_eq_ok] at hc1
        obtain ⟨_, _, hc1⟩ := hc1
        cases hc1
        have hsl : (Spec.take (stored fl a) is).length = is.length := Spec.take_length (by rw [hlen]; exact hi)
        simp only [patchTaken, if_pos hbulk, innerPatch, hp', Res.ok_bind, hsl, Res.sub_of_le (Nat.le_refl _), Nat.sub_self, ALP.decompress, hm,
          PArr.patchSparse, PArr.patch]
        have hz : ∀ l : List Nat, l.map (0 + ·) = l := by intro l; simp
        simp only [hz]
        cases p'.resolvedIndices with
        | err => rfl
        | panic => rfl
        | ok ri =>
          simp only [Res.ok_bind]
          cases Res.assert (ri.length == p'.values.vals.length) with
          | err => rfl
          | panic => rfl
          | ok _ => simp only [Res.ok_bind]

end Vx.BitPack
