import Verif.Props.C01
import Verif.Props.C08
import Mathlib.Data.Int.Order.Basic
/-! # C02 (frame-of-reference part): searching the encoded child equals searching the decoded values -/

namespace Vx
open FoR Spec

/-- Searching a primitive array whose nulls (if any) come last, by any integer-valued order key. -/
theorem searchSlice_key {α : Type} (key : α → Int) (ys : List α) (v : α) (side : Side)
    (hs : (ys.map key).Pairwise (· ≤ ·)) :
    searchSlice (fun x y => compare (key x) (key y)) ys v side = .ok (Spec.searchSorted (ys.map key) (key v) side) := by
  rw [← C01_search_sorted_slice (ys.map key) (key v) side hs]
  have : sliceIndexCmp (fun x y => compare (key x) (key y)) ys v = sliceIndexCmp compare (ys.map key) (key v) := by
    funext i
    simp only [sliceIndexCmp, idx, List.getElem?_map]
    cases ys[i]? <;> rfl
  simp [searchSlice, this]

theorem searchNullsLast_key {α : Type} (key : α → Int) (ys : List α) (k : Nat) (v : α) (side : Side)
    (hs : (ys.map key).Pairwise (· ≤ ·)) :
    searchNullsLast (fun x y => compare (key x) (key y)) (ys.map some ++ List.replicate k none) v side =
      .ok (Spec.searchSorted (ys.map key) (key v) side) := by
  rw [← C01_search_sorted_nulls_last (ys.map key) k (key v) side hs]
  have h1 : (ys.map key).map some ++ List.replicate k none = (ys.map some ++ List.replicate k none).map (Option.map key) := by
    simp
  rw [h1]
  generalize ys.map some ++ List.replicate k none = rs
  have : nullsLastIndexCmp (fun x y => compare (key x) (key y)) rs v =
      nullsLastIndexCmp compare (rs.map (Option.map key)) (key v) := by
    funext i
    simp only [nullsLastIndexCmp, idx, List.getElem?_map]
    cases rs[i]? with
    | none => rfl
    | some o => cases o <;> rfl
  simp [searchNullsLast, this]

theorem primSearch_spec {α : Type} (key : α → Int) (a : PArr α) (hw : a.WF) (ys : List α) (k : Nat)
    (hr : a.rows = ys.map some ++ List.replicate k none) (hs : (ys.map key).Pairwise (· ≤ ·)) (v : α) (side : Side) :
    primSearch key a v side = .ok (Spec.searchSorted (ys.map key) (key v) side) := by
  obtain ⟨vals, va⟩ := a
  have hall : Spec.rows vals (List.replicate vals.length true) = vals.map some := by
    apply List.ext_getElem <;> simp [Spec.rows]
  have hnone : Spec.rows vals (List.replicate vals.length false) = List.replicate vals.length none := by
    apply List.ext_getElem <;> simp [Spec.rows]
  have key1 : vals.map some = ys.map some ++ List.replicate k none → vals = ys := by
    intro h
    have hk : k = 0 := by
      rcases Nat.eq_zero_or_pos k with h0 | h0
      · exact h0
      · have : none ∈ vals.map some := by rw [h]; simp; omega
        simp at this
    subst hk
    simp at h
    exact (List.map_inj_right (fun _ _ => by simp)).mp h
  cases va with
  | nonNullable =>
    simp only [PArr.rows, mask, hall] at hr
    rw [key1 hr]; exact searchSlice_key key ys v side hs
  | allValid =>
    simp only [PArr.rows, mask, hall] at hr
    rw [key1 hr]; exact searchSlice_key key ys v side hs
  | allInvalid =>
    simp only [PArr.rows, mask, hnone] at hr
    have : ys = [] := by
      cases ys with
      | nil => rfl
      | cons y ys =>
        have : some y ∈ List.replicate vals.length none := by rw [hr]; simp
        simp at this
    subst this
    cases side <;> simp [primSearch, Spec.searchSorted, insertionPoint]
  | array bits =>
    have h2 := searchNullsLast_key key ys k v side hs
    rw [← hr] at h2
    exact h2

/-! ### arithmetic of the encoding -/

theorem sub_toNat_key {w : Nat} (signed : Bool) (x r : BitVec w) (h : intKey signed r ≤ intKey signed x) :
    ((x - r).toNat : Int) = intKey signed x - intKey signed r := by
  rw [BitVec.toNat_sub]
  have hx := x.isLt
  have hr := r.isLt
  cases signed
  · simp only [intKey, Bool.false_eq_true, if_false] at h ⊢
    have h' : r.toNat ≤ x.toNat := by omega
    have : 2 ^ w - r.toNat + x.toNat = 2 ^ w + (x.toNat - r.toNat) := by omega
    rw [this, Nat.add_mod_left, Nat.mod_eq_of_lt (by omega)]
    omega
  · simp only [intKey, if_true] at h ⊢
    rw [BitVec.toInt_eq_toNat_cond, BitVec.toInt_eq_toNat_cond] at *
    rcases Nat.lt_or_ge (x.toNat) r.toNat with hlt | hge
    · have h3 : 2 ^ w - r.toNat + x.toNat < 2 ^ w := by omega
      rw [Nat.mod_eq_of_lt h3]
      split at h <;> split at h <;> rename_i h1 h2 <;> simp only [h1, h2, if_true, if_false] <;> omega
    · have : 2 ^ w - r.toNat + x.toNat = 2 ^ w + (x.toNat - r.toNat) := by omega
      rw [this, Nat.add_mod_left, Nat.mod_eq_of_lt (by omega)]
      split at h <;> split at h <;> rename_i h1 h2 <;> simp only [h1, h2, if_true, if_false] <;> omega

/-- The encoded value as a function of the quotient. -/
theorem shr_toNat {w s : Nat} (hs : s < w) (signed : Bool) (x : BitVec w) :
    (shr signed x s).toNat = if signed && decide (2 ^ (w - 1 - s) ≤ x.toNat / 2 ^ s)
      then 2 ^ w - 2 ^ (w - s) + x.toNat / 2 ^ s else x.toNat / 2 ^ s := by
  cases signed
  · simp [shr, Nat.shiftRight_eq_div_pow]
  · simp only [shr, if_true, Bool.true_and, decide_eq_true_eq]
    have hp : 2 ^ w = 2 ^ s * 2 ^ (w - s) := by rw [← Nat.pow_add]; congr 1; omega
    have hp1 : 2 ^ (w - 1) = 2 ^ s * 2 ^ (w - 1 - s) := by rw [← Nat.pow_add]; congr 1; omega
    have hw2 : 2 ^ w = 2 * 2 ^ (w - 1) := by rw [← Nat.pow_succ']; congr 1; omega
    have hmsb : x.msb = true ↔ 2 ^ (w - 1 - s) ≤ x.toNat / 2 ^ s := by
      rw [BitVec.msb_eq_true_iff_two_mul_ge, Nat.le_div_iff_mul_le (Nat.two_pow_pos s), Nat.mul_comm (2 ^ (w - 1 - s)), ← hp1]
      omega
    by_cases hm : x.msb = true
    · rw [if_pos (hmsb.mp hm), BitVec.sshiftRight_eq_of_msb_true hm, BitVec.toNat_not, BitVec.toNat_ushiftRight, BitVec.toNat_not,
        Nat.shiftRight_eq_div_pow]
      have hlt := x.isLt
      have hsp := Nat.two_pow_pos s
      have hdm := Nat.div_add_mod x.toNat (2 ^ s)
      have hml := Nat.mod_lt x.toNat hsp
      have hq : x.toNat / 2 ^ s < 2 ^ (w - s) := by
        rw [Nat.div_lt_iff_lt_mul hsp, Nat.mul_comm, ← hp]; exact hlt
      have hdiv : (2 ^ w - 1 - x.toNat) / 2 ^ s = 2 ^ (w - s) - 1 - x.toNat / 2 ^ s := by
        generalize x.toNat / 2 ^ s = q at *
        generalize x.toNat % 2 ^ s = r at *
        have h5 : 2 ^ w - 1 - x.toNat = 2 ^ s * (2 ^ (w - s) - 1 - q) + (2 ^ s - 1 - r) := by
          rw [hp, ← hdm]
          generalize 2 ^ (w - s) = M at *
          obtain ⟨c, rfl⟩ : ∃ c, M = q + 1 + c := ⟨M - (q + 1), by omega⟩
          have : q + 1 + c - 1 - q = c := by omega
          rw [this, Nat.mul_add, Nat.mul_add]
          omega
        rw [h5, Nat.mul_add_div hsp, Nat.div_eq_of_lt (by omega), Nat.add_zero]
      rw [hdiv]
      have hle : 2 ^ (w - s) ≤ 2 ^ w := Nat.pow_le_pow_right (by omega) (by omega)
      clear hp hp1 hw2 hdm hdiv hmsb hml
      generalize x.toNat / 2 ^ s = q at *
      generalize 2 ^ (w - s) = M at *
      generalize 2 ^ w = N at *
      omega
    · rw [if_neg (fun h => hm (hmsb.mpr h)), BitVec.sshiftRight_eq_of_msb_false (by simpa using hm), BitVec.toNat_ushiftRight,
        Nat.shiftRight_eq_div_pow]

theorem quot_lt {w s : Nat} (hs : s < w) (x : BitVec w) : x.toNat / 2 ^ s < 2 ^ (w - s) := by
  have hp : 2 ^ w = 2 ^ s * 2 ^ (w - s) := by rw [← Nat.pow_add]; congr 1; omega
  rw [Nat.div_lt_iff_lt_mul (Nat.two_pow_pos s), Nat.mul_comm, ← hp]
  exact x.isLt

/-- Encoded values compare like quotients. -/
theorem shr_lt_iff {w s : Nat} (hs : s < w) (signed : Bool) (x y : BitVec w) :
    (shr signed x s).toNat < (shr signed y s).toNat ↔ x.toNat / 2 ^ s < y.toNat / 2 ^ s := by
  rw [shr_toNat hs, shr_toNat hs]
  have hx := quot_lt hs x
  have hy := quot_lt hs y
  have hle : 2 ^ (w - s) ≤ 2 ^ w := Nat.pow_le_pow_right (by omega) (by omega)
  cases signed
  · simp
  · simp only [Bool.true_and, decide_eq_true_eq]
    by_cases hs0 : s = 0
    · subst hs0; simp only [Nat.sub_zero, Nat.sub_self, Nat.zero_add]; split <;> split <;> omega
    · have h2 : 2 * 2 ^ (w - s) ≤ 2 ^ w := by
        rw [← Nat.pow_succ']; exact Nat.pow_le_pow_right (by omega) (by omega)
      split <;> split <;> omega

theorem shr_eq_iff {w s : Nat} (hs : s < w) (signed : Bool) (x y : BitVec w) :
    (shr signed x s).toNat = (shr signed y s).toNat ↔ x.toNat / 2 ^ s = y.toNat / 2 ^ s := by
  have h1 := shr_lt_iff hs signed x y
  have h2 := shr_lt_iff hs signed y x
  omega

theorem representable_iff {w s : Nat} (hs : s ≤ w) (signed : Bool) (v r : BitVec w) :
    ((shr signed (v - r) s) <<< s) + r = v ↔ 2 ^ s ∣ (v - r).toNat := by
  constructor
  · intro h
    have h2 : (shr signed (v - r) s) <<< s = v - r := by
      rw [← BitVec.add_sub_cancel ((shr signed (v - r) s) <<< s) r, h]
    rw [← low_bits_iff _ s hs]
    intro i hi
    rw [← h2, BitVec.getLsbD_shiftLeft]
    simp [hi]
  · intro h
    rw [shr_shl signed _ ((low_bits_iff _ s hs).mpr h)]
    exact BitVec.sub_add_cancel v r

/-- What `for_compress` guarantees about the non-null decoded values `xs` of a `FoRArray` with the given reference and shift. -/
structure ForPre (signed : Bool) (xs : List (BitVec w)) (r : BitVec w) (s : Nat) : Prop where
  shift_lt : s < w
  lower : ∀ x ∈ xs, intKey signed r ≤ intKey signed x
  multiple : ∀ x ∈ xs, 2 ^ s ∣ (x - r).toNat

theorem countP_map_congr {α β : Type} (f : α → β) (p : β → Bool) (q : α → Bool) (xs : List α) (h : ∀ x ∈ xs, p (f x) = q x) :
    (xs.map f).countP p = xs.countP q := by
  rw [List.countP_map]
  apply List.countP_congr
  intro x hx
  simp [h x hx]

/-- **C02, frame of reference.** Let the decoded non-null values be `xs` (sorted, any number of nulls after them), stored as a
`FoRArray`. Searching the encoded array for a probe of the type gives exactly the answer for the decoded values, for both sides
and whether or not the probe is representable in the encoded domain. Partial: for signed types the probe must not exceed
`reference + 2^w - 2^shift`; beyond that the code is wrong, see `C02_for_search_wraps`. -/
theorem C02_for_search_partial {w : Nat} (signed : Bool) (enc : PArr (BitVec w)) (hwf : enc.WF) (xs : List (BitVec w)) (k : Nat)
    (r : BitVec w) (s : Nat) (hpre : ForPre signed xs r s)
    (hrows : enc.rows = (xs.map (compressVal signed r s)).map some ++ List.replicate k none)
    (hsorted : (xs.map (intKey signed)).Pairwise (· ≤ ·)) (v : BitVec w) (side : Side)
    (hrange : signed = true → intKey signed v - intKey signed r ≤ 2 ^ w - 2 ^ s) :
    FoR.searchSorted signed enc r s v side = .ok (Spec.searchSorted (xs.map (intKey signed)) (intKey signed v) side) := by
  have hs := hpre.shift_lt
  have hcv : ∀ x : BitVec w, compressVal signed r s x = shr signed (x - r) s := by
    intro x
    unfold compressVal
    by_cases h0 : 0 < s
    · simp [h0]
    · have : s = 0 := by omega
      subst this
      cases signed <;> simp [shr]
  have hd : ∀ x ∈ xs, ((x - r).toNat : Int) = intKey signed x - intKey signed r :=
    fun x hx => sub_toNat_key signed x r (hpre.lower x hx)
  have hq : ∀ x ∈ xs, (x - r).toNat = 2 ^ s * ((x - r).toNat / 2 ^ s) := by
    intro x hx
    exact (Nat.mul_div_cancel' (hpre.multiple x hx)).symm
  -- the encoded child is sorted
  have hsortE : ((xs.map (compressVal signed r s)).map (intKey false)).Pairwise (· ≤ ·) := by
    rw [List.pairwise_map] at hsorted
    rw [List.pairwise_map, List.pairwise_map]
    refine List.Pairwise.imp_of_mem ?_ hsorted
    intro a b ha hb hab
    simp only [intKey, hcv, Bool.false_eq_true, if_false]
    have h1 := shr_lt_iff hs signed (b - r) (a - r)
    have h2 := hd a ha
    have h3 := hd b hb
    have h4 : (a - r).toNat / 2 ^ s ≤ (b - r).toNat / 2 ^ s := Nat.div_le_div_right (by omega)
    omega
  unfold FoR.searchSorted
  by_cases hlt : intKey signed v < intKey signed r
  · rw [if_pos hlt]
    have hnm : intKey signed v ∉ xs.map (intKey signed) := by
      intro hm
      obtain ⟨x, hx, he⟩ := List.mem_map.mp hm
      have := hpre.lower x hx
      omega
    have hz : insertionPoint (xs.map (intKey signed)) (intKey signed v) side = 0 := by
      cases side
      · simp only [insertionPoint]
        rw [List.countP_eq_zero]
        intro y hy
        obtain ⟨x, hx, rfl⟩ := List.mem_map.mp hy
        have := hpre.lower x hx
        simp; omega
      · simp only [insertionPoint]
        rw [List.countP_eq_zero]
        intro y hy
        obtain ⟨x, hx, rfl⟩ := List.mem_map.mp hy
        have := hpre.lower x hx
        simp; omega
    simp [Spec.searchSorted, hnm, hz]
  · rw [if_neg hlt]
    have hdv := sub_toNat_key signed v r (by omega)
    have hps := Nat.two_pow_pos s
    have hdmv := Nat.div_add_mod (v - r).toNat (2 ^ s)
    have hmlv := Nat.mod_lt (v - r).toNat hps
    by_cases hrep : ((shr signed (v - r) s) <<< s) + r = v
    · have hdvd := (representable_iff (Nat.le_of_lt hs) signed v r).mp hrep
      have hqv : (v - r).toNat = 2 ^ s * ((v - r).toNat / 2 ^ s) := (Nat.mul_div_cancel' hdvd).symm
      simp only [hrep, beq_self_eq_true, if_true]
      rw [primSearch_spec (intKey false) enc hwf _ k hrows hsortE]
      have hcmp : ∀ x ∈ xs, (intKey false (compressVal signed r s x) < intKey false (shr signed (v - r) s) ↔
          intKey signed x < intKey signed v) ∧ (intKey false (compressVal signed r s x) = intKey false (shr signed (v - r) s) ↔
          intKey signed x = intKey signed v) := by
        intro x hx
        simp only [hcv, intKey, Bool.false_eq_true, if_false]
        have h1 := shr_lt_iff hs signed (x - r) (v - r)
        have h2 := shr_eq_iff hs signed (x - r) (v - r)
        have h3 := hd x hx
        have h4 := hq x hx
        simp only [intKey] at h3 hdv
        have h5 : (x - r).toNat / 2 ^ s < (v - r).toNat / 2 ^ s ↔ (x - r).toNat < (v - r).toNat := by
          constructor
          · intro h; rw [h4, hqv]; exact (Nat.mul_lt_mul_left hps).mpr h
          · intro h; rw [h4, hqv] at h; exact (Nat.mul_lt_mul_left hps).mp h
        have h6 : (x - r).toNat / 2 ^ s = (v - r).toNat / 2 ^ s ↔ (x - r).toNat = (v - r).toNat := by
          constructor
          · intro h; rw [h4, hqv, h]
          · intro h; rw [h]
        constructor <;> omega
      have hmem : intKey false (shr signed (v - r) s) ∈ (xs.map (compressVal signed r s)).map (intKey false) ↔
          intKey signed v ∈ xs.map (intKey signed) := by
        simp only [List.mem_map, exists_exists_and_eq_and]
        constructor
        · rintro ⟨x, hx, he⟩; exact ⟨x, hx, ((hcmp x hx).2).mp he⟩
        · rintro ⟨x, hx, he⟩; exact ⟨x, hx, ((hcmp x hx).2).mpr he⟩
      have hip : insertionPoint ((xs.map (compressVal signed r s)).map (intKey false)) (intKey false (shr signed (v - r) s)) side =
          insertionPoint (xs.map (intKey signed)) (intKey signed v) side := by
        cases side
        · simp only [insertionPoint, List.countP_map]
          apply List.countP_congr
          intro x hx
          have := (hcmp x hx).1
          simp only [Function.comp, decide_eq_true_eq]
          exact this
        · simp only [insertionPoint, List.countP_map]
          apply List.countP_congr
          intro x hx
          have h1 := (hcmp x hx).1
          have h2 := (hcmp x hx).2
          simp only [Function.comp, decide_eq_true_eq]
          omega
      simp only [Res.ok_bind, Spec.searchSorted, hmem, hip]
      by_cases hM : intKey signed v ∈ xs.map (intKey signed) <;> simp only [hM, if_true, if_false]
    · have hndvd : ¬ 2 ^ s ∣ (v - r).toNat := fun h => hrep ((representable_iff (Nat.le_of_lt hs) signed v r).mpr h)
      have hrep' : (((shr signed (v - r) s) <<< s) + r == v) = false := by simpa using hrep
      simp only [hrep', Bool.false_eq_true, if_false]
      have hmodpos : 0 < (v - r).toNat % 2 ^ s := Nat.pos_of_ne_zero (fun h => hndvd (Nat.dvd_of_mod_eq_zero h))
      have hs0 : 0 < s := by
        rcases Nat.eq_zero_or_pos s with h | h
        · subst h; simp at hmodpos; omega
        · exact h
      -- no wrap
      have hnowrap : (shr signed (v - r) s).toNat + 1 < 2 ^ w := by
        rw [shr_toNat hs]
        have hqv := quot_lt hs (v - r)
        have hle : 2 * 2 ^ (w - s) ≤ 2 ^ w := by
          rw [← Nat.pow_succ']; exact Nat.pow_le_pow_right (by omega) (by omega)
        have hp2 := Nat.two_pow_pos (w - s)
        split
        · rename_i hsg
          simp only [Bool.and_eq_true] at hsg
          have hr := hrange hsg.1
          have hp : 2 ^ w = 2 ^ s * 2 ^ (w - s) := by rw [← Nat.pow_add]; congr 1; omega
          have hdl : (v - r).toNat ≤ 2 ^ w - 2 ^ s := by
            have : (2:Nat) ^ s ≤ 2 ^ w := Nat.pow_le_pow_right (by omega) (by omega)
            have e1 : ((2 ^ w : Nat) : Int) = 2 ^ w := by push_cast; rfl
            have e2 : ((2 ^ s : Nat) : Int) = 2 ^ s := by push_cast; rfl
            omega
          have hq2 : (v - r).toNat / 2 ^ s < 2 ^ (w - s) - 1 := by
            rw [Nat.div_lt_iff_lt_mul hps, Nat.sub_mul, Nat.mul_comm, ← hp, Nat.one_mul]
            have : (v - r).toNat ≠ 2 ^ w - 2 ^ s := by
              intro h
              apply hndvd
              rw [h, hp]
              exact Nat.dvd_sub (Nat.dvd_mul_right _ _) (Nat.dvd_refl _)
            omega
          generalize (v - r).toNat / 2 ^ s = q at *
          omega
        · generalize (v - r).toNat / 2 ^ s = q at *
          omega
      have htgt : ((shr signed (v - r) s) + 1#w).toNat = (shr signed (v - r) s).toNat + 1 := by
        rw [BitVec.toNat_add]
        have : (1#w).toNat = 1 := by
          rw [BitVec.toNat_ofNat]; exact Nat.mod_eq_of_lt (Nat.one_lt_two_pow (by omega))
        rw [this, Nat.mod_eq_of_lt hnowrap]
      rw [primSearch_spec (intKey false) enc hwf _ k hrows hsortE]
      have hcmp : ∀ x ∈ xs, (intKey false (compressVal signed r s x) < intKey false ((shr signed (v - r) s) + 1#w) ↔
          intKey signed x < intKey signed v) ∧ intKey signed x ≠ intKey signed v := by
        intro x hx
        simp only [hcv, intKey, Bool.false_eq_true, if_false, htgt]
        have h1 := shr_lt_iff hs signed (v - r) (x - r)
        have h3 := hd x hx
        have h4 := hq x hx
        simp only [intKey] at h3 hdv
        have h5 : (v - r).toNat / 2 ^ s < (x - r).toNat / 2 ^ s ↔ (v - r).toNat < (x - r).toNat := by
          constructor
          · intro h
            rw [h4]
            exact (Nat.div_lt_iff_lt_mul hps).mp h |> fun h => by rw [Nat.mul_comm]; exact h
          · intro h
            rw [h4, Nat.mul_comm] at h
            exact (Nat.div_lt_iff_lt_mul hps).mpr h
        have h6 : (v - r).toNat ≠ (x - r).toNat := by
          intro h; exact hndvd (h ▸ hpre.multiple x hx)
        constructor <;> omega
      have hnm : intKey signed v ∉ xs.map (intKey signed) := by
        intro hm
        obtain ⟨x, hx, he⟩ := List.mem_map.mp hm
        exact (hcmp x hx).2 he
      have hip : insertionPoint ((xs.map (compressVal signed r s)).map (intKey false)) (intKey false (shr signed (v - r) s + 1#w)) .left =
          insertionPoint (xs.map (intKey signed)) (intKey signed v) side := by
        cases side
        · simp only [insertionPoint, List.countP_map]
          apply List.countP_congr
          intro x hx
          simp only [Function.comp, decide_eq_true_eq]
          exact (hcmp x hx).1
        · simp only [insertionPoint, List.countP_map]
          apply List.countP_congr
          intro x hx
          have h1 := (hcmp x hx).1
          have h2 := (hcmp x hx).2
          simp only [Function.comp, decide_eq_true_eq]
          omega
      simp only [Res.ok_bind, Spec.searchSorted, hnm, if_false]
      rw [hip]
      split <;> rename_i heq <;> split at heq <;> cases heq <;> rfl

/-- The excluded case is a real defect: signed bytes `[-128, 126]` are stored with reference -128 and shift 1; searching for 127
returns position 0 although 127 is greater than every element (the answer should be 2). -/
theorem C02_for_search_wraps :
    ∃ enc, forCompress true (⟨[128#8, 126#8], .nonNullable⟩ : PArr (BitVec 8)) = .ok (.forArr enc 128#8 1) ∧
      FoR.searchSorted true enc 128#8 1 127#8 .left = .ok (.notFound 0) ∧
      Spec.searchSorted ([128#8, 126#8].map (intKey true)) (intKey true 127#8) .left = .notFound 2 :=
  ⟨⟨[0#8, 255#8], .nonNullable⟩, by decide +kernel, by decide +kernel, by decide +kernel⟩

/-- Non-vacuity: signed, shift 2, a probe between representable values. -/
example : ForPre true [BitVec.ofInt 8 (-100), 4#8, 4#8, 24#8] (BitVec.ofInt 8 (-100)) 2 ∧
    FoR.searchSorted true ⟨[0#8, 26#8, 26#8, 31#8], .nonNullable⟩ (BitVec.ofInt 8 (-100)) 2 5#8 .right = .ok (.notFound 3) := by
  refine ⟨⟨by decide, by decide, by decide⟩, by decide +kernel⟩

end Vx
