import Verif.Model.FoR
import Verif.Props.C25
import Verif.Props.C23
/-! # C08: frame-of-reference round trip -/

namespace Vx
open Spec FoR

theorem low_bits_iff {w : Nat} (x : BitVec w) (s : Nat) (_hs : s ≤ w) :
    (∀ i, i < s → x.getLsbD i = false) ↔ 2 ^ s ∣ x.toNat := by
  rw [Nat.dvd_iff_mod_eq_zero]
  constructor
  · intro h
    apply Nat.eq_of_testBit_eq
    intro i
    rw [Nat.testBit_mod_two_pow, Nat.zero_testBit]
    by_cases hi : i < s
    · have := h i hi
      simp only [BitVec.getLsbD] at this
      simp [hi, this]
    · simp [hi]
  · intro h i hi
    have := Nat.testBit_mod_two_pow x.toNat s i
    rw [h, Nat.zero_testBit] at this
    simp only [BitVec.getLsbD]
    simpa [hi] using this.symm

theorem dvd_sub {w s : Nat} (hs : s ≤ w) (x y : BitVec w) (hx : 2 ^ s ∣ x.toNat) (hy : 2 ^ s ∣ y.toNat) :
    2 ^ s ∣ (x - y).toNat := by
  rw [BitVec.toNat_sub]
  have hp : 2 ^ s ∣ 2 ^ w := Nat.pow_dvd_pow 2 hs
  rw [Nat.dvd_mod_iff hp]
  exact Nat.dvd_add (Nat.dvd_sub hp hy) hx

theorem shr_shl {w s : Nat} (signed : Bool) (x : BitVec w) (h : ∀ i, i < s → x.getLsbD i = false) :
    (shr signed x s) <<< s = x := by
  apply BitVec.eq_of_getLsbD_eq
  intro i hi
  rw [BitVec.getLsbD_shiftLeft]
  by_cases his : i < s
  · simp [his, h i his]
  · cases signed
    · simp [shr, hi, his, show s + (i - s) = i by omega]
    · simp only [shr, if_true, BitVec.getLsbD_sshiftRight]
      simp [hi, his, show s + (i - s) = i by omega, show i - s < w by omega]

/-- Value level: subtracting the reference and shifting is undone exactly when both the value and the reference have `shift`
zero low bits. -/
theorem C08_value_roundtrip {w s : Nat} (hs : s ≤ w) (signed : Bool) (v m : BitVec w) (hv : 2 ^ s ∣ v.toNat) (hm : 2 ^ s ∣ m.toNat) :
    decompressVal m s (compressVal signed m s v) = v := by
  unfold decompressVal compressVal
  by_cases h : 0 < s
  · simp only [h, if_true]
    rw [shr_shl signed _ ((low_bits_iff _ s hs).mpr (dvd_sub hs v m hv hm))]
    exact BitVec.sub_add_cancel v m
  · simp only [h, if_false]
    exact BitVec.sub_add_cancel v m

theorem trailingZeros_dvd {w : Nat} (x : BitVec w) {s : Nat} (h : s ≤ trailingZeros x) (hs : s ≤ w) : 2 ^ s ∣ x.toNat := by
  rw [← low_bits_iff x s hs]
  intro i hi
  unfold trailingZeros at h
  cases hf : (List.range w).find? (fun i => x.getLsbD i) with
  | none =>
    rw [List.find?_eq_none] at hf
    have := hf i (by simp; omega)
    simpa using this
  | some j =>
    rw [hf] at h
    simp at h
    have := List.find?_range_eq_some.mp hf
    simpa using this.2.2 i (by omega)

theorem trailingZeros_full {w : Nat} (x : BitVec w) (h : w ≤ trailingZeros x) : x = 0#w := by
  have h1 := trailingZeros_dvd x h (Nat.le_refl _)
  apply BitVec.eq_of_toNat_eq
  have := Nat.eq_zero_of_dvd_of_lt h1 x.isLt
  simpa using this

/-- The shift chosen from the statistics is at most every valid value's trailing zero count, and one row attains it. -/
theorem shift_spec {α : Type} [DecidableEq α] {E : Elem α} {key : α → Int} (hE : LawfulElem E key) {s : StatsSet α} {rs : List (Option α)}
    (h : StatsTrue E key s rs) (hne : rs ≠ []) :
    trailingZerosStat s ≤ E.bits ∧ ∀ x ∈ valid rs, trailingZerosStat s ≤ E.tz x := by
  simp only [trailingZerosStat, h.tzFreq, Option.getD_some]
  have hle : ∀ o : Option α, rowTz E o ≤ E.bits := by
    intro o; cases o with
    | none => exact Nat.le_refl _
    | some x => exact hE.tz x
  have hpos : ∀ o ∈ rs, ∃ v, (histogram (E.bits + 1) (rowTz E) rs)[rowTz E o]? = some v ∧ 0 < v := by
    intro o ho
    rw [histogram_getElem?, if_pos (Nat.lt_succ_of_le (hle o))]
    exact ⟨_, rfl, List.countP_pos_iff.mpr ⟨o, ho, by simp⟩⟩
  cases hf : (histogram (E.bits + 1) (rowTz E) rs).findIdx? (fun v => decide (0 < v)) with
  | none =>
    rw [List.findIdx?_eq_none_iff] at hf
    obtain ⟨o, ho⟩ := List.exists_mem_of_ne_nil rs hne
    obtain ⟨v, h1, h2⟩ := hpos o ho
    have := hf v (List.mem_of_getElem? h1)
    simp at this; omega
  | some k =>
    rw [List.findIdx?_eq_some_iff_getElem] at hf
    obtain ⟨hk, _, hb⟩ := hf
    have key : ∀ o ∈ rs, k ≤ rowTz E o := by
      intro o ho
      rcases Nat.lt_or_ge (rowTz E o) k with hlt | hge
      · exfalso
        obtain ⟨v, h1, h2⟩ := hpos o ho
        have := hb (rowTz E o) hlt
        rw [List.getElem?_eq_getElem (by omega)] at h1
        simp at h1
        rw [h1] at this
        simp at this; omega
      · exact hge
    simp only [Option.getD_some]
    refine ⟨?_, fun x hx => key (some x) (mem_valid.mp hx)⟩
    obtain ⟨o, ho⟩ := List.exists_mem_of_ne_nil rs hne
    exact Nat.le_trans (key o ho) (hle o)

theorem rows_mem_valid {a : PArr α} {i : Nat} {x : α} (h : a.rows[i]? = some (some x)) : x ∈ valid a.rows :=
  mem_valid.mpr (List.mem_of_getElem? h)

/-- **C08.** For every integer width, signedness and array with at least one non-null row: compression succeeds (no error, no
panic) and the result has exactly the original rows. -/
theorem C08_roundtrip (signed : Bool) (w : Nat) (a : PArr (BitVec w)) (hw : a.WF) (hv : valid a.rows ≠ []) :
    ∃ r, forCompress signed a = .ok r ∧ r.rows = a.rows := by
  have hst := (C25_integer signed w a hw hv).1
  have hne : a.rows ≠ [] := by intro h; rw [h] at hv; exact hv rfl
  obtain ⟨hs1, hs2⟩ := shift_spec (intElem_lawful signed w) hst hne
  obtain ⟨m, hm, hmin⟩ := hst.min
  generalize hsh : trailingZerosStat (primStats (intElem signed w) a) = shift at hs1 hs2
  have hs1' : shift ≤ w := hs1
  by_cases hfull : shift = w
  · have hz : ∀ x ∈ valid a.rows, x = 0#w := fun x hx => trailingZeros_full x (by
      have h9 : shift ≤ trailingZeros x := hs2 x hx
      omega)
    have hzr : ∀ i x, a.rows[i]? = some (some x) → x = 0#w := fun i x h => hz x (rows_mem_valid h)
    have hlen : a.rows.length = a.len := PArr.rows_len hw
    have htl : (a.validity.toLogical a.len).intoBools = mask a.len a.validity := (C23_to_logical a.validity a.len hw).1
    simp only [forCompress, hm, Res.ofOption_some, Res.ok_bind, hsh, hfull, if_true]
    have hmaskget : ∀ i, i < a.len → a.rows[i]? = (((a.validity.toLogical a.len).intoBools)[i]?).map
        (fun b => if b then some (a.vals[i]?.getD 0#w) else none) := by
      intro i hi
      rw [htl]
      have hr := rows_getElem? a.vals (mask a.vals.length a.validity) i
      have hi' : i < a.vals.length := hi
      simp only [PArr.rows, PArr.len] at hr ⊢
      rw [hr, List.getElem?_eq_getElem hi']
      cases hmi : (mask a.vals.length a.validity)[i]? with
      | none => simp
      | some b => cases b <;> simp
    cases hL : a.validity.toLogical a.len with
    | allValid l =>
      refine ⟨_, rfl, ?_⟩
      have hll : l = a.len := by
        have := congrArg List.length htl
        rw [hL] at this
        simp [LogicalValidity.intoBools] at this
        rw [this]; exact hw
      subst hll
      simp only [Encoded.rows]
      apply List.ext_getElem?
      intro i
      by_cases hi : i < a.len
      · have := hmaskget i hi
        rw [hL] at this
        simp [LogicalValidity.intoBools, hi] at this
        rw [List.getElem?_replicate, if_pos hi, this, hzr i _ this]
      · rw [List.getElem?_replicate, if_neg hi, List.getElem?_eq_none (by omega)]
    | allInvalid l =>
      refine ⟨_, rfl, ?_⟩
      have hll : l = a.len := by
        have := congrArg List.length htl
        rw [hL] at this
        simp [LogicalValidity.intoBools] at this
        rw [this]; exact hw
      subst hll
      simp only [Encoded.rows]
      apply List.ext_getElem?
      intro i
      by_cases hi : i < a.len
      · have := hmaskget i hi
        rw [hL] at this
        simp [LogicalValidity.intoBools, hi] at this
        rw [List.getElem?_replicate, if_pos hi, this]
      · rw [List.getElem?_replicate, if_neg hi, List.getElem?_eq_none (by omega)]
    | array bits =>
      refine ⟨_, rfl, ?_⟩
      have hbl : bits.length = a.len := by
        have := congrArg List.length htl
        rw [hL] at this
        simp only [LogicalValidity.intoBools] at this
        rw [this]; exact hw
      simp only [Encoded.rows]
      apply List.ext_getElem?
      intro i
      by_cases hi : i < a.len
      · have := hmaskget i hi
        rw [hL] at this
        simp only [LogicalValidity.intoBools, List.getElem?_eq_getElem (show i < bits.length by omega), Option.map_some] at this
        rw [List.getElem?_map, List.getElem?_range hi, this]
        simp only [Option.map_some, setIdx, List.mem_filter, List.mem_range, hbl, hi, true_and,
          List.getElem?_eq_getElem (show i < bits.length by omega), Option.getD_some]
        by_cases hb : bits[i]
        · simp only [hb, if_true] at this ⊢
          rw [hzr i _ this]
        · simp [hb]
      · rw [List.getElem?_eq_none (by simp; omega), List.getElem?_eq_none (by omega)]
  · have hlt : shift < w := by omega
    refine ⟨.forArr (a.map (compressVal signed m shift)) m shift, ?_, ?_⟩
    · simp [forCompress, hm, hsh, hfull, Res.assert, hlt]
    · simp only [Encoded.rows, decompress, PArr.rows_map, List.map_map]
      have hmd : 2 ^ shift ∣ m.toNat := trailingZeros_dvd m (hs2 m hmin.1) hs1'
      refine Eq.trans (List.map_congr_left ?_) (List.map_id a.rows)
      intro o ho
      cases o with
      | none => rfl
      | some x =>
        have hx := hs2 x (mem_valid.mpr ho)
        simp only [Function.comp, Option.map_some, id, Option.some.injEq]
        exact C08_value_roundtrip hs1' signed x m (trailingZeros_dvd x hx hs1') hmd

/-- An array without any non-null value is rejected with an error, never a panic. -/
theorem C08_no_valid_rows_err (signed : Bool) (w : Nat) (hpos : 0 < w) (a : PArr (BitVec w)) (hw : a.WF)
    (hv : valid a.rows = []) : forCompress signed a = .err := by
  by_cases hne : a.vals = []
  · obtain ⟨vals, v⟩ := a
    simp only at hne; subst hne
    cases v with
    | array m =>
      simp only [PArr.WF, FitsLen, mask, List.length_nil, List.length_eq_zero_iff] at hw
      subst hw
      rfl
    | allInvalid =>
      simp [forCompress, primStats, Validity.toLogical, StatsSet.nullsPrim, trailingZerosStat, intElem,
        List.replicate_succ, List.findIdx?_cons, hpos, show (0:Nat) ≠ w by omega]
    | _ => rfl
  · rw [forCompress, C25_all_null _ a hw hne hv]
    simp [StatsSet.nullsPrim, trailingZerosStat, intElem,
        List.replicate_succ, List.findIdx?_cons, hpos, show (0:Nat) ≠ w by omega]

/-- Random access into a `FoRArray` agrees with decompression, for every in-range row; out of range is an error. -/
theorem C08_scalar_at (w : Nat) (enc : PArr (BitVec w)) (hw : enc.WF) (r : BitVec w) (s i : Nat) :
    (enc.len ≤ i → FoR.scalarAt enc r s i = .err) ∧
    (i < enc.len → ∃ x, FoR.scalarAt enc r s i = .ok x ∧ (decompress enc r s).rows[i]? = some x) := by
  constructor
  · intro h; simp [FoR.scalarAt, PArr.scalarAt_err h]
  · intro h
    obtain ⟨e, h1, h2⟩ := PArr.scalarAt_ok hw h
    refine ⟨e.map (fun (x : BitVec w) => (x <<< s) + r), by simp [FoR.scalarAt, h1], ?_⟩
    simp only [decompress, PArr.rows_map, List.getElem?_map, h2, Option.map_some, Option.some.injEq]
    cases e with
    | none => rfl
    | some x =>
      simp only [Option.map_some, decompressVal, Option.some.injEq]
      by_cases hs : 0 < s
      · simp [hs]
      · have : s = 0 := by omega
        subst this; simp

/-- Slicing, taking and filtering the encoded child (compute.rs:38-96) give the sliced/taken/filtered rows. -/
theorem C08_slice_take_filter (w : Nat) (enc : PArr (BitVec w)) (hw : enc.WF) (r : BitVec w) (s : Nat) :
    (∀ st en, InBounds enc.len st en → ∃ b, enc.slice st en = .ok b ∧ (decompress b r s).rows = slice (decompress enc r s).rows st en) ∧
    (∀ is, (∀ i ∈ is, i < enc.len) → ∃ b, enc.take is = .ok b ∧ (decompress b r s).rows = take (decompress enc r s).rows is) ∧
    (∀ m : List Bool, m.length = enc.len → ∃ b, enc.filter m = .ok b ∧ (decompress b r s).rows = filter (decompress enc r s).rows m) := by
  refine ⟨?_, ?_, ?_⟩
  · intro st en h
    obtain ⟨b, h1, h2, _⟩ := PArr.slice_ok hw h
    exact ⟨b, h1, by simp [decompress, PArr.rows_map, h2, slice_map]⟩
  · intro is h
    obtain ⟨b, h1, h2, _⟩ := PArr.take_ok hw h
    exact ⟨b, h1, by simp [decompress, PArr.rows_map, h2, take_map]⟩
  · intro m h
    obtain ⟨b, h1, h2, _⟩ := PArr.filter_ok hw h
    exact ⟨b, h1, by simp [decompress, PArr.rows_map, h2, filter_map]⟩

/-- Non-vacuity: signed bytes spanning the whole range with shift 1 and a null. -/
example : let a : PArr (BitVec 8) := ⟨[128#8, 3#8, 126#8], .array [true, false, true]⟩
    a.WF ∧ valid a.rows = [128#8, 126#8] ∧ ∃ e, forCompress true a = .ok (.forArr e 128#8 1) := by
  refine ⟨by decide, by decide, ⟨[0#8, 193#8, 255#8], .array [true, false, true]⟩, by decide +kernel⟩

end Vx
