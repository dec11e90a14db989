import Verif.Spec.Stored
import Verif.Lemmas.Tree
import Verif.Props.C91
/-! # Lemmas for C102 -/
namespace Vx.Store
open Own
open Vx.Tree (TVal Kind Codec)

variable {L : Type}

/-! ## Buffers -/

theorem testBit_byteOf : ∀ b0 b1 b2 b3 b4 b5 b6 b7 : Bool,
    let n := byteOf b0 b1 b2 b3 b4 b5 b6 b7
    n.testBit 0 = b0 ∧ n.testBit 1 = b1 ∧ n.testBit 2 = b2 ∧ n.testBit 3 = b3 ∧ n.testBit 4 = b4 ∧ n.testBit 5 = b5 ∧ n.testBit 6 = b6 ∧ n.testBit 7 = b7 := by
  decide +kernel

theorem testBit_pack (xs : List SV) (i : Nat) (hi : i < xs.length) : ((packBits xs).getD (i / 8) 0).testBit (i % 8) = bitAt xs i := by
  have hj : i / 8 < (xs.length + 7) / 8 := by omega
  unfold packBits
  rw [List.getD_eq_getElem?_getD, List.getElem?_map, List.getElem?_range hj]
  simp only [Option.map_some, Option.getD_some]
  have h := testBit_byteOf (bitAt xs (8 * (i / 8))) (bitAt xs (8 * (i / 8) + 1)) (bitAt xs (8 * (i / 8) + 2)) (bitAt xs (8 * (i / 8) + 3))
    (bitAt xs (8 * (i / 8) + 4)) (bitAt xs (8 * (i / 8) + 5)) (bitAt xs (8 * (i / 8) + 6)) (bitAt xs (8 * (i / 8) + 7))
  simp only at h
  obtain ⟨h0, h1, h2, h3, h4, h5, h6, h7⟩ := h
  have hc : i % 8 = 0 ∨ i % 8 = 1 ∨ i % 8 = 2 ∨ i % 8 = 3 ∨ i % 8 = 4 ∨ i % 8 = 5 ∨ i % 8 = 6 ∨ i % 8 = 7 := by omega
  rcases hc with hc | hc | hc | hc | hc | hc | hc | hc <;> rw [hc]
  · rw [h0]; congr 1; omega
  · rw [h1]; congr 1; omega
  · rw [h2]; congr 1; omega
  · rw [h3]; congr 1; omega
  · rw [h4]; congr 1; omega
  · rw [h5]; congr 1; omega
  · rw [h6]; congr 1; omega
  · rw [h7]; congr 1; omega

theorem unpack_pack (xs : List SV) (h : ∀ x ∈ xs, Kind.bool.has x = true) : unpackBits (packBits xs) 0 xs.length = xs := by
  apply List.ext_getElem
  · simp [unpackBits]
  · intro i h1 h2
    simp only [unpackBits, List.getElem_map, List.getElem_range, Nat.zero_add, testBit_pack xs i h2]
    have := h xs[i] (List.getElem_mem h2)
    unfold bitAt
    rw [List.getElem?_eq_getElem h2]
    generalize xs[i] = x at this ⊢
    cases x <;> simp_all [Kind.has]

theorem prims_back (p : PType) (xs : List SV) (h : ∀ x ∈ xs, (Kind.prim p).has x = true) : (xs.map numOf).map (primOf p) = xs := by
  rw [List.map_map]
  refine (List.map_congr_left (g := id) (fun x hx => ?_)).trans (List.map_id _)
  have := h x hx
  cases x with
  | prim q =>
    obtain ⟨pt, b⟩ := q
    simp only [Kind.has, beq_iff_eq] at this
    subst this
    simp [numOf, primOf]
  | _ => simp [Kind.has] at this

theorem get32_le32 {n : Nat} (h : n < 2 ^ 32) : get32 (le32 n) = n := by
  simp only [get32, le32]; omega

theorem le32_length (n : Nat) : (le32 n).length = 4 := rfl

theorem viewOf_length (off : Nat) (bs : List Nat) : (viewOf off bs).length = 16 := by
  unfold viewOf
  split
  · simp [le32_length]; omega
  · simp [le32_length]; omega

theorem readView_viewOf (pre bs post : List Nat) (h : pre.length + bs.length < 2 ^ 32 ∨ bs.length ≤ 12) (buf : List Nat)
    (hb : 12 < bs.length → buf = pre ++ bs ++ post) : readView [buf] (viewOf pre.length bs) = some bs := by
  unfold readView viewOf
  by_cases hs : bs.length ≤ 12
  · have e : (le32 bs.length ++ (bs ++ List.replicate (12 - bs.length) 0)).take 4 = le32 bs.length := by
      rw [List.take_append_of_le_length (by simp [le32_length])]; rfl
    simp only [if_pos hs, e]
    rw [get32_le32 (by omega), if_pos hs]
    rw [show (4 : Nat) = (le32 bs.length).length from rfl, List.drop_left, List.take_left]
  · have e : (le32 bs.length ++ (bs.take 4 ++ (le32 0 ++ le32 pre.length))).take 4 = le32 bs.length := by
      rw [List.take_append_of_le_length (by simp [le32_length])]; rfl
    have h4 : (bs.take 4).length = 4 := by simp; omega
    have d8 : (le32 bs.length ++ (bs.take 4 ++ (le32 0 ++ le32 pre.length))).drop 8 = le32 0 ++ le32 pre.length := by
      rw [← List.append_assoc]
      have : (8 : Nat) = (le32 bs.length ++ bs.take 4).length := by simp only [List.length_append, h4, le32_length]
      rw [this, List.drop_left]
    have d12 : (le32 bs.length ++ (bs.take 4 ++ (le32 0 ++ le32 pre.length))).drop 12 = le32 pre.length := by
      rw [← List.append_assoc, ← List.append_assoc]
      have : (12 : Nat) = (le32 bs.length ++ bs.take 4 ++ le32 0).length := by simp only [List.length_append, h4, le32_length]
      rw [this, List.drop_left]
    have t0 : (le32 0 ++ le32 pre.length).take 4 = le32 0 := by
      rw [List.take_append_of_le_length (by simp [le32_length])]; rfl
    have t1 : (le32 pre.length).take 4 = le32 pre.length := rfl
    simp only [if_neg hs, e, d8, d12, t0, t1]
    have hh : pre.length + bs.length < 2 ^ 32 := by rcases h with h | h <;> omega
    rw [get32_le32 (by omega), if_neg hs, get32_le32 (by omega : (0 : Nat) < 2 ^ 32), get32_le32 (by omega)]
    have hb' := hb (by omega)
    subst hb'
    simp only [List.getElem?_cons_zero]
    rw [if_pos (by simp)]
    simp only [List.append_assoc, List.drop_left, List.take_left]

theorem buildViews_prefix : ∀ (vs : List (List Nat)) (buf : List Nat), ∃ more, (buildViews buf vs).2 = buf ++ more
  | [], buf => ⟨[], by simp [buildViews]⟩
  | bs :: rest, buf => by
    obtain ⟨more, h⟩ := buildViews_prefix rest (if bs.length ≤ 12 then buf else buf ++ bs)
    simp only [buildViews]
    rw [h]
    split
    · exact ⟨more, rfl⟩
    · exact ⟨bs ++ more, by simp⟩

theorem buildViews_length : ∀ (vs : List (List Nat)) (buf : List Nat), (buildViews buf vs).1.length = 16 * vs.length ∧
    (buildViews buf vs).2.length ≤ buf.length + (vs.map List.length).sum
  | [], buf => by simp [buildViews]
  | bs :: rest, buf => by
    obtain ⟨h1, h2⟩ := buildViews_length rest (if bs.length ≤ 12 then buf else buf ++ bs)
    simp only [buildViews, List.length_append, viewOf_length, h1, List.length_cons, List.map_cons, List.sum_cons]
    refine ⟨by omega, ?_⟩
    have : (if bs.length ≤ 12 then buf else buf ++ bs).length ≤ buf.length + bs.length := by split <;> simp
    omega

theorem readViews_build : ∀ (vs : List (List Nat)) (buf : List Nat) (big : List Nat), (∃ more, big = (buildViews buf vs).2 ++ more) → big.length < 2 ^ 32 →
    readViews [big] vs.length (buildViews buf vs).1 = some vs
  | [], buf, big, _, _ => rfl
  | bs :: rest, buf, big, ⟨more, hm⟩, hl => by
    simp only [buildViews, List.length_cons, readViews]
    have t : (viewOf buf.length bs ++ (buildViews (if bs.length ≤ 12 then buf else buf ++ bs) rest).1).take 16 = viewOf buf.length bs := by
      rw [show (16 : Nat) = (viewOf buf.length bs).length from (viewOf_length _ _).symm, List.take_left]
    have d : (viewOf buf.length bs ++ (buildViews (if bs.length ≤ 12 then buf else buf ++ bs) rest).1).drop 16 =
        (buildViews (if bs.length ≤ 12 then buf else buf ++ bs) rest).1 := by
      rw [show (16 : Nat) = (viewOf buf.length bs).length from (viewOf_length _ _).symm, List.drop_left]
    rw [t, d]
    have ih := readViews_build rest (if bs.length ≤ 12 then buf else buf ++ bs) big ⟨more, by rw [hm]; simp only [buildViews]⟩ hl
    obtain ⟨m2, hm2⟩ := buildViews_prefix rest (if bs.length ≤ 12 then buf else buf ++ bs)
    have hbig : 12 < bs.length → big = buf ++ bs ++ (m2 ++ more) := by
      intro h12
      rw [hm]
      simp only [buildViews]
      rw [hm2, if_neg (by omega)]
      simp
    have hv : readView [big] (viewOf buf.length bs) = some bs := by
      apply readView_viewOf buf bs (m2 ++ more) _ big hbig
      by_cases h12 : bs.length ≤ 12
      · exact .inr h12
      · left
        have := hbig (by omega)
        have hl' := congrArg List.length this
        simp only [List.length_append] at hl'
        omega
    rw [hv, ih]
    rfl

theorem strings_back (k : Kind) (hk : k = .utf8 ∨ k = .binary) (xs : List SV) (h : ∀ x ∈ xs, k.has x = true) : (xs.map bytesOf).map (strOf k) = xs := by
  rw [List.map_map]
  refine (List.map_congr_left (g := id) (fun x hx => ?_)).trans (List.map_id _)
  have := h x hx
  have hu : ∀ bs : List UInt8, (bs.map UInt8.toNat).map UInt8.ofNat = bs := by
    intro bs
    rw [List.map_map]
    refine (List.map_congr_left (g := id) (fun b _ => ?_)).trans (List.map_id _)
    simp
  rcases hk with rfl | rfl <;> cases x <;> simp_all [Kind.has, bytesOf, strOf]

end Vx.Store
