import Verif.Model.ZigZag
import Verif.Lemmas.Primitive
/-! # C07: ZigZag round trip -/

namespace Vx
open ZigZag

theorem zigzag_sign {w : Nat} (x : BitVec w) (hw : 0 < w) :
    x.sshiftRight (w - 1) = if x.msb then BitVec.allOnes w else 0#w := by
  apply BitVec.eq_of_getLsbD_eq
  intro i hi
  rw [BitVec.getLsbD_sshiftRight]
  by_cases h0 : i = 0
  · subst h0
    have h1 : w - 1 + 0 < w := by omega
    by_cases hm : x.msb
    · have := hm
      rw [BitVec.msb_eq_getLsbD_last] at this
      simp [hm, h1, hw, this]; omega
    · have := hm
      rw [BitVec.msb_eq_getLsbD_last] at this
      simp [hm, h1, hw, this]
  · have : ¬ (w - 1 + i < w) := by omega
    by_cases hm : x.msb
    · rw [if_neg this, hm]; simp [hi]
    · rw [if_neg this]; simp [hm]

theorem zigzag_encode_eq {w : Nat} (x : BitVec w) (hw : 0 < w) :
    encode x = if x.msb then ~~~(x <<< 1) else x <<< 1 := by
  unfold encode
  rw [zigzag_sign x hw]
  split <;> simp [BitVec.xor_allOnes]

theorem zigzag_encode_toNat {w : Nat} (x : BitVec w) (hw : 0 < w) :
    (encode x).toNat = if x.msb then 2 ^ w - 1 - (2 * x.toNat) % 2 ^ w else (2 * x.toNat) % 2 ^ w := by
  rw [zigzag_encode_eq x hw]
  split <;> simp [BitVec.toNat_not, Nat.shiftLeft_eq, Nat.mul_comm]

/-- **C07, value level.** The encoded value is `2x` for non-negative `x` and `-2x-1` for negative `x`, at every width. -/
theorem C07_encode_value {w : Nat} (hw : 0 < w) (x : BitVec w) :
    ((encode x).toNat : Int) = if 0 ≤ x.toInt then 2 * x.toInt else -2 * x.toInt - 1 := by
  rw [zigzag_encode_toNat x hw]
  obtain ⟨k, rfl⟩ : ∃ k, w = k + 1 := ⟨w - 1, by omega⟩
  have hp : (2:Nat) ^ (k + 1) = 2 * 2 ^ k := by rw [Nat.pow_succ, Nat.mul_comm]
  have hlt := x.isLt
  by_cases hm : x.msb
  · have hge : 2 ^ k ≤ x.toNat := by simpa using BitVec.msb_eq_true_iff_two_mul_ge.mp hm |> fun h => by omega
    have hint : x.toInt = (x.toNat : Int) - (2 ^ (k + 1) : Nat) := BitVec.toInt_eq_toNat_cond x ▸ by
      rw [if_neg (by omega)]
    have hmod : (2 * x.toNat) % 2 ^ (k + 1) = 2 * x.toNat - 2 ^ (k + 1) := by
      rw [Nat.mod_eq_sub_mod (by omega), Nat.mod_eq_of_lt (by omega)]
    rw [if_pos hm, hmod, hint, if_neg (by omega)]
    omega
  · have hlt' : x.toNat < 2 ^ k := by
      have : ¬ (2 ^ (k + 1) ≤ 2 * x.toNat) := fun h => hm (BitVec.msb_eq_true_iff_two_mul_ge.mpr h)
      omega
    have hint : x.toInt = (x.toNat : Int) := BitVec.toInt_eq_toNat_cond x ▸ by rw [if_pos (by omega)]
    have hmod : (2 * x.toNat) % 2 ^ (k + 1) = 2 * x.toNat := Nat.mod_eq_of_lt (by omega)
    rw [if_neg hm, hmod, hint, if_pos (by omega)]
    omega

/-- Small magnitudes get small codes. -/
theorem C07_small {w : Nat} (hw : 0 < w) (x : BitVec w) (k : Nat) (h1 : -(k : Int) ≤ x.toInt) (h2 : x.toInt ≤ k) :
    (encode x).toNat ≤ 2 * k := by
  have := C07_encode_value hw x
  split at this <;> omega

/-- **C07, value level round trip**, for every width and every value including MIN and MAX. -/
theorem C07_roundtrip {w : Nat} (x : BitVec w) : decode (encode x) = x := by
  rcases Nat.eq_zero_or_pos w with rfl | hw
  · exact Subsingleton.elim _ _
  unfold decode
  rw [zigzag_encode_eq x hw]
  apply BitVec.eq_of_getLsbD_eq
  intro i hi
  by_cases hm : x.msb
  · have h1 : (~~~(x <<< 1) &&& 1#w) = 1#w := by
      apply BitVec.eq_of_getLsbD_eq
      intro j hj
      by_cases h0 : j = 0
      · subst h0; simp [hw]
      · simp [h0]
    simp only [hm, if_true, h1]
    rw [BitVec.neg_one_eq_allOnes]
    simp only [BitVec.getLsbD_xor, BitVec.getLsbD_ushiftRight, BitVec.getLsbD_not, BitVec.getLsbD_shiftLeft,
      BitVec.getLsbD_allOnes, hi]
    by_cases hl : i = w - 1
    · have : ¬ (1 + i < w) := by omega
      rw [BitVec.msb_eq_getLsbD_last, ← hl] at hm
      simp [this, hm]
    · have h2 : 1 + i < w := by omega
      simp [h2]
  · have h1 : ((x <<< 1) &&& 1#w) = 0#w := by
      apply BitVec.eq_of_getLsbD_eq
      intro j hj
      by_cases h0 : j = 0
      · subst h0; simp
      · simp [h0]
    simp only [hm, if_false, h1, Bool.false_eq_true]
    simp only [BitVec.getLsbD_xor, BitVec.getLsbD_ushiftRight, BitVec.getLsbD_shiftLeft, BitVec.neg_zero, BitVec.getLsbD_zero]
    by_cases hl : i = w - 1
    · have : ¬ (1 + i < w) := by omega
      rw [BitVec.msb_eq_getLsbD_last, ← hl] at hm
      simp [this, hm]
    · have h2 : 1 + i < w := by omega
      simp [h2]

/-- **C07, array level.** Encoding a signed primitive array succeeds; decoding gives back every row and the validity; unsigned and
float arrays are rejected. -/
theorem C07_array_roundtrip {w : Nat} (a : PArr (BitVec w)) :
    (∃ enc, zigzagEncode .signed a = .ok enc ∧ zigzagDecode .unsigned enc = .ok a ∧ enc.validity = a.validity) ∧
      zigzagEncode .unsigned a = .err ∧ zigzagEncode .float a = .err := by
  refine ⟨⟨a.map encode, rfl, ?_, rfl⟩, rfl, rfl⟩
  simp only [zigzagDecode, PArr.map, List.map_map, Res.ok.injEq]
  have : (decode ∘ encode : BitVec w → BitVec w) = id := funext C07_roundtrip
  rw [this, List.map_id]

/-- **C07, random access and slices of the encoded array agree with the original array.** -/
theorem C07_access {w : Nat} (a : PArr (BitVec w)) (hw : a.WF) :
    (∀ i, ZigZag.scalarAt (a.map encode) i = a.scalarAt i) ∧
    (∀ s e, Spec.InBounds a.len s e → ∃ b c, ZigZag.slice (a.map encode) s e = .ok b ∧
      zigzagDecode .unsigned b = .ok c ∧ c.rows = Spec.slice a.rows s e) := by
  constructor
  · intro i
    unfold ZigZag.scalarAt PArr.scalarAt
    simp only [PArr.map, PArr.len, List.length_map]
    by_cases h : i ≥ a.vals.length
    · simp [h]
    · simp only [ge_iff_le, Nat.not_le] at h
      simp [Nat.not_le.mpr h, idx, List.getElem?_map, List.getElem?_eq_getElem h, C07_roundtrip]
  · intro s e h
    have hw' : (a.map encode).WF := (PArr.WF_map _ _).mpr hw
    obtain ⟨b, h1, h2, h3, h4⟩ := PArr.slice_ok hw' (s := s) (e := e) (by simpa [PArr.len, PArr.map] using h)
    refine ⟨b, b.map decode, h1, rfl, ?_⟩
    rw [PArr.rows_map, h2, PArr.rows_map, Spec.slice_map, List.map_map]
    have : (Option.map decode ∘ Option.map encode : Option (BitVec w) → _) = id := by
      funext o; cases o <;> simp [C07_roundtrip]
    rw [this, List.map_id]

example : encode (BitVec.ofInt 8 (-128)) = 255#8 ∧ decode 255#8 = BitVec.ofInt 8 (-128) := by decide
example : (⟨[BitVec.ofInt 8 (-128), 5#8, 127#8], .array [true, false, true]⟩ : PArr (BitVec 8)).WF := by decide

end Vx
