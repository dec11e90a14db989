import Verif.Props.C10
/-! # C10, continued: choosing the width, an instance of the kernels, and the case `take` gets wrong -/

namespace Vx.BitPack
open Spec

variable {fl : FL T}

/-! ### the widths -/

theorem foldl_max_spec (l : List Nat) : ∀ a : Nat, (a ≤ l.foldl max a) ∧ (∀ x ∈ l, x ≤ l.foldl max a) ∧ (l.foldl max a = a ∨ l.foldl max a ∈ l) := by
  induction l with
  | nil => simp
  | cons y l ih =>
    intro a
    obtain ⟨h1, h2, h3⟩ := ih (max a y)
    simp only [List.foldl_cons]
    refine ⟨by omega, ?_, ?_⟩
    · intro x hx
      rcases List.mem_cons.mp hx with rfl | hx
      · omega
      · exact h2 x hx
    · rcases h3 with h3 | h3
      · rcases Nat.le_total a y with h | h
        · right; rw [h3, Nat.max_eq_right h]; simp
        · left; rw [h3, Nat.max_eq_left h]
      · right; simp [h3]

theorem minPatchless_spec {freq : List Nat} (hne : freq ≠ []) :
    ∃ w, minPatchless freq = .ok w ∧ w < freq.length ∧ countExceptions w freq = 0 := by
  obtain ⟨h1, h2, h3⟩ := foldl_max_spec (((freq.zipIdx).filter (fun p : Nat × Nat => decide (0 < p.1))).map (fun p : Nat × Nat => p.2)) 0
  refine ⟨_, by rw [minPatchless, if_neg (by simpa using hne)], ?_, ?_⟩
  · rcases h3 with h3 | h3
    · rw [h3]; exact List.length_pos_iff.mpr hne
    · obtain ⟨⟨v, i⟩, hm, hi⟩ := List.mem_map.mp h3
      have := List.mem_zipIdx_iff_getElem?.mp (List.mem_filter.mp hm).1
      have := (List.getElem?_eq_some_iff.mp this).1
      simp only at hi
      omega
  · unfold countExceptions
    split
    · rfl
    · rw [List.sum_eq_zero_iff_forall_eq_nat]
      intro x hx
      obtain ⟨j, hj⟩ := List.mem_iff_getElem?.mp hx
      rw [List.getElem?_drop] at hj
      by_contra hx0
      have := h2 _ (List.mem_map.mpr ⟨(x, _), List.mem_filter.mpr ⟨List.mem_zipIdx_iff_getElem?.mpr hj, by simp; omega⟩, rfl⟩)
      simp only at this
      omega

/-- **C10 (patchless width).** The width `find_min_patchless_bit_width` returns is at most the type's width; when it is below, packing with
it needs no patches and gives back the rows. -/
theorem C10_patchless (hT : IsWidth T) (hfl : fl.Lawful) (a : PArr (BitVec T)) (hw : a.WF) (hne : a.vals ≠ []) :
    ∃ freq w, (primStats (intElem false T) a).bitWidthFreq = some freq ∧ minPatchless freq = .ok w ∧ w ≤ T ∧
      (∀ v, some v ∈ a.rows → v.toNat < 2 ^ w) ∧
      (w < T → ∃ arr, encode fl a w = .ok arr ∧ arr.patches = none ∧ rows fl arr = a.rows) := by
  obtain ⟨freq, h1, h2, h3⟩ := freq_some a hw hne
  obtain ⟨w, g1, g2, g3⟩ := minPatchless_spec (freq := freq) (by intro h; simp [h] at h2)
  refine ⟨freq, w, h1, g1, by omega, ?_, ?_⟩
  · intro v hv
    obtain ⟨i, hi⟩ := List.mem_iff_getElem?.mp hv
    obtain ⟨c, hc, hpos⟩ := h3 i v hi
    apply lt_of_bitLen
    by_contra hlt
    unfold countExceptions at g3
    rw [if_neg (by omega)] at g3
    have : c ∈ freq.drop (w + 1) := by
      rw [List.mem_iff_getElem?]
      exact ⟨bitLen v.toNat - (w + 1), by rw [List.getElem?_drop, show w + 1 + (bitLen v.toNat - (w + 1)) = bitLen v.toNat by omega]; exact hc⟩
    have := sum_zero g3 c this
    omega
  · intro hwT
    refine ⟨_, encode_eq hfl (by rcases hT with rfl | rfl | rfl | rfl <;> omega) hw hne hwT, ?_, rows_encoded hfl hw hwT⟩
    simp only [encoded, patchesOf, exceptions_nil hwT h2 h3 g3, List.isEmpty_nil, if_true]

/-- The size in bytes that width `w` is estimated to need, from the width histogram: every value is packed in `w` bits, every wider one
costs `perExc` bytes more. -/
def estimate (freq : List Nat) (perExc w : Nat) : Nat := (freq.drop (w + 1)).sum * perExc + (w * freq.sum + 7) / 8

theorem take_drop_sum (l : List Nat) (n : Nat) : (l.take n).sum + (l.drop n).sum = l.sum := by
  rw [← List.sum_append, List.take_append_drop]

theorem bestLoop_spec (freq : List Nat) (perExc : Nat) : ∀ (fs : List Nat) (bw packed cost width : Nat),
    fs = freq.drop bw → bw ≤ freq.length → packed = (freq.take bw).sum → 0 < bw → width < bw → cost = estimate freq perExc width →
    (∀ w, w < bw → cost ≤ estimate freq perExc w) →
    bestLoop freq.sum perExc fs bw (packed, cost, width) < freq.length ∧
    ∀ w, w < freq.length → estimate freq perExc (bestLoop freq.sum perExc fs bw (packed, cost, width)) ≤ estimate freq perExc w := by
  intro fs
  induction fs with
  | nil =>
    intro bw packed cost width hfs hb _ _ hwid hc hmin
    have : freq.length ≤ bw := by
      have := congrArg List.length hfs
      simp at this; omega
    simp only [bestLoop]
    exact ⟨by omega, fun w hw => by rw [← hc]; exact hmin w (by omega)⟩
  | cons f fs ih =>
    intro bw packed cost width hfs hb hp h0 hwid hc hmin
    have hbl : bw < freq.length := by
      have := congrArg List.length hfs
      simp at this; omega
    have hd := List.drop_eq_getElem_cons hbl
    rw [hd] at hfs
    have hfs' := (List.cons.inj hfs).2
    obtain rfl : f = freq[bw] := (List.cons.inj hfs).1
    have hp' : packed + freq[bw] = (freq.take (bw + 1)).sum := by
      rw [hp, List.take_add_one, List.getElem?_eq_getElem hbl, Option.toList_some, List.sum_append, List.sum_singleton]
    have hest : (freq.sum - (packed + freq[bw])) * perExc + (bw * freq.sum + 7) / 8 = estimate freq perExc bw := by
      unfold estimate
      have := take_drop_sum freq (bw + 1)
      rw [hp', show freq.sum - (freq.take (bw + 1)).sum = (freq.drop (bw + 1)).sum by omega]
    simp only [bestLoop, hest]
    by_cases hlt : estimate freq perExc bw < cost
    · rw [if_pos hlt]
      exact ih (bw + 1) _ _ _ hfs' hbl hp' (by omega) (by omega) rfl (fun w hw => by
        rcases Nat.lt_or_ge w bw with h | h
        · have := hmin w h; omega
        · rw [show w = bw by omega])
    · rw [if_neg hlt]
      exact ih (bw + 1) _ _ _ hfs' hbl hp' (by omega) (by omega) hc (fun w hw => by
        rcases Nat.lt_or_ge w bw with h | h
        · exact hmin w h
        · rw [show w = bw by omega]; omega)

/-- **C10 (best width).** The width `find_best_bit_width` chooses has the smallest estimated size among all widths of the histogram. -/
theorem C10_best_width (freq : List Nat) (hne : freq ≠ []) (hl : freq.length ≤ 255) (perExc : Nat) :
    ∃ w, bestBitWidth freq perExc = .ok w ∧ w < freq.length ∧ ∀ w', w' < freq.length → estimate freq perExc w ≤ estimate freq perExc w' := by
  refine ⟨_, by rw [bestBitWidth, if_neg (by omega)], ?_⟩
  cases hf : freq with
  | nil => exact absurd hf hne
  | cons f fs =>
    have h0 : estimate freq perExc 0 = (freq.sum - f) * perExc := by
      simp [estimate, hf]
    have hle : (freq.sum - f) * perExc ≤ freq.sum * perExc := Nat.mul_le_mul_right _ (by omega)
    rw [← hf]
    have hstep : bestLoop freq.sum perExc freq 0 (0, freq.sum * perExc, 0) =
        bestLoop freq.sum perExc fs 1 (f, estimate freq perExc 0, 0) := by
      have e : bestLoop freq.sum perExc freq 0 (0, freq.sum * perExc, 0) = bestLoop freq.sum perExc (f :: fs) 0 (0, freq.sum * perExc, 0) := by rw [← hf]
      rw [e]
      simp only [bestLoop, Nat.zero_add, Nat.zero_mul, Nat.reduceDiv, Nat.add_zero, ← h0]
      by_cases h : estimate freq perExc 0 < freq.sum * perExc
      · rw [if_pos h]
      · rw [if_neg h, show freq.sum * perExc = estimate freq perExc 0 by omega]
    rw [hstep]
    exact bestLoop_spec freq perExc fs 1 f _ 0 (by simp [hf]) (by simp [hf]) (by simp [hf]) (by omega) (by omega) rfl
      (fun w hw => by rw [show w = 0 by omega])

/-- **C10 (unchecked packing).** `bitpack_encode_unchecked` of values that all fit the width keeps every row. -/
theorem C10_unchecked (hT : IsWidth T) (hfl : fl.Lawful) (a : PArr (BitVec T)) (hw : a.WF) (w : Nat) (hwT : w ≤ T)
    (hfit : ∀ v ∈ a.vals, v.toNat < 2 ^ w) :
    ∃ arr, encodeUnchecked fl a w = .ok arr ∧ WF arr ∧ rows fl arr = a.rows := by
  let arr : Arr T := ⟨packAll fl w a.vals, a.validity, none, w, a.vals.length, 0⟩
  have hpk : (packAll fl w a.vals).length = (a.vals.length + 0 + 1023) / 1024 * (128 * w) := by simpa using packAll_length hfl hwT a.vals
  have hwf : WF arr := ⟨hwT, by simp [arr], hpk, hw, by simp [arr]⟩
  refine ⟨arr, ?_, hwf, ?_⟩
  · have h64 : w ≤ 64 := by rcases hT with rfl | rfl | rfl | rfl <;> omega
    simp only [encodeUnchecked, tryNew, Res.guard, h64, decide_true, if_true, Res.ok_bind, hpk, beq_self_eq_true, checkPatches,
      Compare.checkLen_of_fits hw, show (0 ≤ 1023) by omega, arr]
  · have hst : stored fl arr = a.vals := by
      simp only [stored, arr, Nat.add_zero, List.drop_zero, decodeAll_packAll hfl hwT, padded, List.map_append]
      rw [List.take_append_of_le_length (by simp), List.take_of_length_le (by simp)]
      exact (List.map_congr_left (fun v hv => low_of_lt v (hfit v hv))).trans (List.map_id _)
    have hp : (arr.patches) = none := rfl
    have hv : arr.validity = a.validity := rfl
    simp only [rows, ALP.rows, view, hst, ALP.patchRows, hp, hv]
    apply List.ext_getElem?
    intro i
    have hl := PArr.rows_len hw
    rw [List.getElem?_zipWith]
    by_cases hi : i < a.len
    · obtain ⟨r, hr⟩ : ∃ r, a.rows[i]? = some r := ⟨_, List.getElem?_eq_getElem (by rw [hl]; exact hi)⟩
      rw [show PArr.rows ⟨a.vals, a.validity⟩ = a.rows from rfl, hr, List.getElem?_replicate, if_pos (show i < (PArr.mk a.vals a.validity).len from hi)]
      cases r <;> rfl
    · rw [List.getElem?_eq_none (l := PArr.rows ⟨a.vals, a.validity⟩) (by rw [show PArr.rows ⟨a.vals, a.validity⟩ = a.rows from rfl, hl]; omega)]

/-! ### an instance of the kernels -/

/-- Little-endian digits in base `b`. -/
def ofD (b : Nat) : List Nat → Nat
  | [] => 0
  | x :: xs => x + b * ofD b xs

/-- Digit `i` in base `b` of `n`, for `i < k`. -/
def digits (b n : Nat) (k : Nat) : List Nat := (List.range k).map (fun i => n / b ^ i % b)

theorem ofD_digit (b : Nat) (l : List Nat) (h : ∀ x ∈ l, x < b) (i : Nat) (hi : i < l.length) : ofD b l / b ^ i % b = l[i] := by
  induction l generalizing i with
  | nil => cases hi
  | cons x l ih =>
    have hx := h x (by simp)
    cases i with
    | zero =>
      simp only [ofD, Nat.pow_zero, Nat.div_one, List.getElem_cons_zero, Nat.add_mul_mod_self_left]
      exact Nat.mod_eq_of_lt hx
    | succ i =>
      simp only [ofD, List.getElem_cons_succ]
      rw [Nat.pow_succ', ← Nat.div_div_eq_div_mul, Nat.add_mul_div_left _ _ (by omega), Nat.div_eq_of_lt hx, Nat.zero_add]
      exact ih (fun y hy => h y (by simp [hy])) i (by simpa using hi)

theorem ofD_lt (b : Nat) (l : List Nat) (h : ∀ x ∈ l, x < b) : ofD b l < b ^ l.length := by
  induction l with
  | nil => simp [ofD]
  | cons x l ih =>
    have hx := h x (by simp)
    have := ih (fun y hy => h y (by simp [hy]))
    simp only [ofD, List.length_cons, Nat.pow_succ']
    calc x + b * ofD b l < b + b * ofD b l := by omega
      _ = b * (ofD b l + 1) := by rw [Nat.mul_add]; omega
      _ ≤ b * b ^ l.length := Nat.mul_le_mul_left _ this

theorem ofD_digits (b n k : Nat) : ofD b (digits b n k) = n % b ^ k := by
  induction k generalizing n with
  | zero => simp [digits, ofD, Nat.mod_one]
  | succ k ih =>
    have : digits b n (k + 1) = n % b :: digits b (n / b) k := by
      simp only [digits, List.range_succ_eq_map, List.map_cons, List.map_map, Nat.pow_zero, Nat.div_one]
      congr 1
      apply List.map_congr_left
      intro i _
      simp only [Function.comp, Nat.pow_succ', Nat.div_div_eq_div_mul, Nat.succ_eq_add_one]
    rw [this, ofD, ih, Nat.pow_succ', Nat.mod_mul]

/-- Kernels that store value `i` in bits `i * w ..< (i + 1) * w` of the little-endian byte string (the real kernels interleave lanes). -/
def plainFL (T : Nat) : FL T where
  pack w xs := (digits 256 (ofD (2 ^ w) (xs.map (fun x => x.toNat % 2 ^ w))) (128 * w)).map (BitVec.ofNat 8)
  unpack w bs := let n := ofD 256 (bs.map (·.toNat)); (List.range 1024).map (fun i => BitVec.ofNat T (n / (2 ^ w) ^ i % 2 ^ w))
  single w bs i := BitVec.ofNat T (ofD 256 (bs.map (·.toNat)) / (2 ^ w) ^ i % 2 ^ w)

/-- The kernel contract can be met. -/
theorem plainFL_lawful (T : Nat) : (plainFL T).Lawful := by
  refine ⟨?_, ?_, ?_, ?_⟩
  · intro w xs _ _
    simp [plainFL, digits]
  · intro w bs _ _
    simp only [plainFL, List.length_map, List.length_range]
  · intro w xs _ hx
    have hd : ∀ y ∈ xs.map (fun x => x.toNat % 2 ^ w), y < 2 ^ w := by
      intro y hy
      obtain ⟨x, _, rfl⟩ := List.mem_map.mp hy
      exact Nat.mod_lt _ (Nat.two_pow_pos w)
    have hb : ((digits 256 (ofD (2 ^ w) (xs.map (fun x => x.toNat % 2 ^ w))) (128 * w)).map (BitVec.ofNat 8)).map (·.toNat)
        = digits 256 (ofD (2 ^ w) (xs.map (fun x => x.toNat % 2 ^ w))) (128 * w) := by
      rw [List.map_map]
      refine (List.map_congr_left ?_).trans (List.map_id _)
      intro d hd
      obtain ⟨i, _, rfl⟩ := List.mem_map.mp hd
      simp
    have hlt := ofD_lt _ _ hd
    simp only [List.length_map, hx, ← Nat.pow_mul] at hlt
    simp only [plainFL, hb, ofD_digits]
    rw [show (256 : Nat) = 2 ^ 8 from rfl, ← Nat.pow_mul, Nat.mod_eq_of_lt (by rw [show 8 * (128 * w) = w * 1024 by omega]; exact hlt)]
    apply List.ext_getElem
    · simp [hx]
    · intro i h1 h2
      have hi : i < xs.length := by simpa using h2
      simp only [List.getElem_map, List.getElem_range]
      rw [ofD_digit _ _ hd i (by simpa using hi)]
      simp [low]
  · intro w bs i _ _ hi
    simp only [plainFL, List.getElem?_map, List.getElem?_range hi, Option.map_some]

/-- All hypotheses of the round trip can be met: four 8-bit values with a null and an exception, packed in two bits. -/
example : ∃ arr b, encode (plainFL 8) ⟨[1, 2, 200, 3], .array [true, true, true, false]⟩ 2 = .ok arr ∧ WF arr ∧
    unpack (plainFL 8) arr = .ok b ∧ b.rows = [some 1, some 2, some 200, none] := by
  obtain ⟨arr, b, h1, h2, _, h4, _, h6⟩ := C10_roundtrip (Or.inl rfl) (plainFL_lawful 8) ⟨[1, 2, 200, 3], .array [true, true, true, false]⟩ (by decide) (by decide) 2 (by decide)
  exact ⟨arr, b, h1, h2, h4, by rw [h6]; decide⟩

example : bestBitWidth [0, 0, 5, 90, 3, 1] 5 = .ok 4 := by decide

/-! ### where `take` is wrong -/

/-- 512 bytes: 2 at row 0, 0 elsewhere, packed in one bit, so that row 0 is an exception. -/
def badTake : Arr 8 := encoded (plainFL 8) 1 ⟨2 :: List.replicate 511 0, .nonNullable⟩

/-- Row 0 and then row 1 sixty-three times. -/
def badIndices : List Nat := 0 :: List.replicate 63 1

/-- **C10 (take) fails in general.** A legally packed array whose row 0 holds 2: taking row 0 and then sixty-three times row 1 yields 2 in
the last row instead of the first. (The patches that are left after filtering by block are placed relative to the end of the output.) -/
theorem C10_take_patches_misplaced : encode (plainFL 8) ⟨2 :: List.replicate 511 0, .nonNullable⟩ 1 = .ok badTake ∧
    Spec.take (rows (plainFL 8) badTake) badIndices = some 2 :: List.replicate 63 (some 0) ∧
    (∃ b, take (plainFL 8) badTake badIndices = .ok b ∧ b.rows = List.replicate 63 (some 0) ++ [some 2]) := by
  refine ⟨encode_eq (plainFL_lawful 8) (by decide) (by decide +kernel) (by decide +kernel) (by decide), ?_, ?_⟩
  · unfold badTake
    rw [rows_encoded (plainFL_lawful 8) (by decide +kernel) (by decide)]
    decide +kernel
  · exact ⟨⟨List.replicate 63 0 ++ [2], .nonNullable⟩, by decide +kernel, by decide +kernel⟩

end Vx.BitPack
