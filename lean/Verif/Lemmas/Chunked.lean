import Verif.Spec.Chunked
import Verif.Lemmas.RunEnd
import Verif.Props.C15
/-! # Chunk addressing -/

namespace Vx.Chunked
open Spec

/-- Rows before chunk `k`. -/
abbrev pre (lens : List Nat) (k : Nat) : Nat := (lens.take k).sum

theorem pre_succ {lens : List Nat} {k : Nat} (h : k < lens.length) : pre lens (k + 1) = pre lens k + lens[k] := by
  simp only [pre]
  rw [List.take_add_one, List.getElem?_eq_getElem h, List.sum_append]
  simp only [Option.toList_some, List.sum_cons, List.sum_nil, Nat.add_zero]

theorem pre_mono (lens : List Nat) {a b : Nat} (h : a ≤ b) : pre lens a ≤ pre lens b := by
  induction b with
  | zero => have : a = 0 := by omega
            subst this; exact Nat.le_refl _
  | succ b ih =>
    by_cases hab : a = b + 1
    · rw [hab]
    · by_cases hb : b < lens.length
      · rw [pre_succ hb]; have := ih (by omega); omega
      · have e : pre lens (b + 1) = pre lens b := by
          simp only [pre]; rw [List.take_of_length_le (by omega), List.take_of_length_le (by omega)]
        rw [e]; exact ih (by omega)

theorem pre_all (lens : List Nat) : pre lens lens.length = lens.sum := by simp [pre]

theorem pre_le_sum (lens : List Nat) (k : Nat) : pre lens k ≤ lens.sum := by
  by_cases h : k ≤ lens.length
  · rw [← pre_all]; exact pre_mono lens h
  · simp [pre, List.take_of_length_le (show lens.length ≤ k by omega)]

theorem scan_length (acc : Nat) (l : List Nat) : (scan acc l).length = l.length := by
  induction l generalizing acc with
  | nil => rfl
  | cons a l ih => simp [scan, ih]

theorem scan_getElem? (acc : Nat) (l : List Nat) (k : Nat) (h : k < l.length) : (scan acc l)[k]? = some (acc + (l.take (k + 1)).sum) := by
  induction l generalizing acc k with
  | nil => simp at h
  | cons a l ih =>
    cases k with
    | zero => simp [scan]
    | succ k =>
      simp only [scan, List.getElem?_cons_succ, List.take_succ_cons, List.sum_cons]
      rw [ih (acc + a) k (by simpa using h)]
      congr 1; omega

theorem offsets_length (lens : List Nat) : (offsets lens).length = lens.length + 1 := by simp [offsets, scan_length]

theorem offsets_getElem? (lens : List Nat) (k : Nat) (h : k ≤ lens.length) : (offsets lens)[k]? = some (pre lens k) := by
  rw [offsets, scan_getElem? 0 _ k (by simp; omega)]
  simp [pre]

theorem offsets_getElem {lens : List Nat} {k : Nat} (h : k < (offsets lens).length) : (offsets lens)[k] = pre lens k := by
  have h1 := offsets_getElem? lens k (by rw [offsets_length] at h; omega)
  rw [List.getElem?_eq_getElem h] at h1
  simpa using h1

theorem offsets_sorted (lens : List Nat) : (offsets lens).Pairwise (· ≤ ·) := by
  rw [List.pairwise_iff_getElem]
  intro i j hi hj hij
  rw [offsets_getElem, offsets_getElem]
  exact pre_mono lens (by omega)

/-- In a sorted list the number of elements `≤ v` is a split point. -/
theorem countP_le_split' {xs : List Nat} (hs : xs.Pairwise (· ≤ ·)) (v : Nat) :
    ∀ i (h : i < xs.length), i < xs.countP (fun x => decide (x ≤ v)) ↔ xs[i] ≤ v := by
  induction xs with
  | nil => intro i h; simp at h
  | cons x xs ih =>
    have hp := List.pairwise_cons.mp hs
    intro i h
    by_cases hx : x ≤ v
    · rw [List.countP_cons_of_pos (by simpa using hx)]
      cases i with
      | zero => simp [hx]
      | succ i => simpa using ih hp.2 i (by simpa using h)
    · have h0 : (x :: xs).countP (fun x => decide (x ≤ v)) = 0 := by
        rw [List.countP_eq_zero]
        intro y hy
        rcases List.mem_cons.mp hy with rfl | hy
        · simpa using hx
        · have := hp.1 y hy; simp; omega
      rw [h0]
      have : x ≤ (x :: xs)[i] := by
        cases i with
        | zero => simp
        | succ i => simpa using hp.1 _ (List.getElem_mem _)
      constructor
      · intro h'; omega
      · intro h'; omega

theorem search_right_index' (xs : List Nat) (hs : xs.Pairwise (· ≤ ·)) (v : Nat) :
    ∃ r, searchSlice compare xs v .right = .ok r ∧ r.toIndex = xs.countP (fun x => decide (x ≤ v)) := by
  refine ⟨_, C01_search_sorted_slice xs v .right hs, ?_⟩
  unfold Spec.searchSorted
  split <;> rfl

theorem search_left_index' (xs : List Nat) (hs : xs.Pairwise (· ≤ ·)) (v : Nat) :
    ∃ r, searchSlice compare xs v .left = .ok r ∧ r.toIndex = xs.countP (fun x => decide (x < v)) := by
  refine ⟨_, C01_search_sorted_slice xs v .left hs, ?_⟩
  unfold Spec.searchSorted
  split <;> rfl

/-- Where a row lives. -/
structure At (lens : List Nat) (i k j : Nat) : Prop where
  lt : k < lens.length
  inside : j < lens[k]
  pos : pre lens k + j = i

theorem findChunkEnds_ok (lens : List Nat) (i : Nat) (hi : i < lens.sum) :
    ∃ k j, findChunkEnds (offsets lens) i = .ok (k, j) ∧ At lens i k j := by
  obtain ⟨r, hr, hidx⟩ := search_right_index' (offsets lens) (offsets_sorted lens) i
  have hsp := countP_le_split' (offsets_sorted lens) i
  rw [← hidx] at hsp
  have hl := offsets_length lens
  have h0 : 0 < r.toIndex := by
    rw [hsp 0 (by omega), offsets_getElem]; simp [pre]
  have hn : ¬ lens.length < r.toIndex := by
    rw [hsp lens.length (by omega), offsets_getElem, pre_all]; omega
  have hp1 : (offsets lens)[r.toIndex - 1]'(by omega) ≤ i := (hsp (r.toIndex - 1) (by omega)).mp (by omega)
  have hp2 : ¬ (offsets lens)[r.toIndex]'(by omega) ≤ i := fun h => by
    have := (hsp r.toIndex (by omega)).mpr h; omega
  rw [offsets_getElem] at hp1 hp2
  have hs := pre_succ (lens := lens) (k := r.toIndex - 1) (by omega)
  rw [show r.toIndex - 1 + 1 = r.toIndex by omega] at hs
  refine ⟨r.toIndex - 1, i - pre lens (r.toIndex - 1), ?_, ⟨by omega, by omega, by omega⟩⟩
  simp only [findChunkEnds, hr, Res.ok_bind, SearchResult.toEndsIndex, hl, show ¬ r.toIndex = lens.length + 1 by omega, if_false]
  rw [idx_lt (by omega)]
  simp only [Res.ok_bind, offsets_getElem, Res.sub_of_le hp1]

theorem findChunkIdx_eq (lens : List Nat) (i : Nat) (hi : i ≤ lens.sum) : findChunkIdx lens i = findChunkEnds (offsets lens) i := by
  simp [findChunkIdx, findChunkEnds, Res.assert, hi, offsets_length]

theorem findChunkIdx_ok (lens : List Nat) (i : Nat) (hi : i < lens.sum) :
    ∃ k j, findChunkIdx lens i = .ok (k, j) ∧ At lens i k j := by
  rw [findChunkIdx_eq lens i (by omega)]; exact findChunkEnds_ok lens i hi

theorem findChunkIdx_end (lens : List Nat) (hn : 0 < lens.length) :
    findChunkIdx lens lens.sum = .ok (lens.length - 1, lens[lens.length - 1]) := by
  rw [findChunkIdx_eq lens _ (Nat.le_refl _)]
  obtain ⟨r, hr, hidx⟩ := search_right_index' (offsets lens) (offsets_sorted lens) lens.sum
  have hl := offsets_length lens
  have hall : r.toIndex = lens.length + 1 := by
    rw [hidx, ← hl, List.countP_eq_length]
    intro x hx
    obtain ⟨k, hk, rfl⟩ := List.getElem_of_mem hx
    rw [offsets_getElem]; simpa using pre_le_sum lens k
  have hs := pre_succ (lens := lens) (k := lens.length - 1) (by omega)
  rw [show lens.length - 1 + 1 = lens.length by omega, pre_all] at hs
  simp only [findChunkEnds, hr, Res.ok_bind, SearchResult.toEndsIndex, hl, hall, if_true]
  rw [Res.sub_of_le (by omega)]
  simp only [Res.ok_bind, Nat.add_sub_cancel]
  rw [idx_lt (by omega)]
  simp only [Res.ok_bind, offsets_getElem]
  rw [Res.sub_of_le (by omega)]
  simp only [Res.ok_bind, hs]
  congr 2
  omega

/-! ### flattening -/

theorem flatten_split {ls : List (List R)} {k : Nat} (h : k < ls.length) :
    ls.flatten = (ls.take k).flatten ++ ls[k] ++ (ls.drop (k + 1)).flatten := by
  conv => lhs; rw [← List.take_append_drop k ls, List.drop_eq_getElem_cons h]
  rw [List.flatten_append, List.flatten_cons, List.append_assoc]

theorem flatten_length_take (ls : List (List R)) (k : Nat) : (ls.take k).flatten.length = pre (ls.map List.length) k := by
  simp [pre, List.length_flatten, List.map_take]

theorem flatten_getElem? {ls : List (List R)} {i k j : Nat} (h : At (ls.map List.length) i k j) :
    ls.flatten[i]? = (ls[k]'(by simpa using h.lt))[j]? := by
  have hk : k < ls.length := by simpa using h.lt
  have hin := h.inside; have hpos := h.pos
  simp only [List.getElem_map] at hin
  rw [flatten_split hk, List.append_assoc, List.getElem?_append_right (by rw [flatten_length_take]; omega), flatten_length_take,
    List.getElem?_append_left (by omega)]
  congr 1; omega

theorem flatten_take {ls : List (List R)} {k j : Nat} (hk : k < ls.length) (hj : j ≤ ls[k].length) :
    ls.flatten.take (pre (ls.map List.length) k + j) = (ls.take k).flatten ++ ls[k].take j := by
  rw [flatten_split hk, List.append_assoc, List.take_append, flatten_length_take]
  simp only [Nat.add_sub_cancel_left]
  rw [List.take_of_length_le (by rw [flatten_length_take]; omega), List.take_append_of_le_length hj]

theorem flatten_slice_same {ls : List (List R)} {k j j' : Nat} (hk : k < ls.length) (hj' : j' ≤ ls[k].length) :
    Spec.slice ls.flatten (pre (ls.map List.length) k + j) (pre (ls.map List.length) k + j') = Spec.slice ls[k] j j' := by
  rw [Spec.slice, flatten_take hk hj', ← flatten_length_take, List.drop_length_add_append]
  rfl

theorem flatten_slice_across {ls : List (List R)} {k j k' j' : Nat} (hk : k < k') (hk' : k' < ls.length)
    (hj : j ≤ (ls[k]'(by omega)).length) (hj' : j' ≤ ls[k'].length) :
    Spec.slice ls.flatten (pre (ls.map List.length) k + j) (pre (ls.map List.length) k' + j')
      = (ls[k]'(by omega)).drop j ++ ((ls.take k').drop (k + 1)).flatten ++ ls[k'].take j' := by
  have hl : (ls.take k').length = k' := by simp; omega
  rw [Spec.slice, flatten_take hk' hj', flatten_split (ls := ls.take k') (k := k) (by omega), ← flatten_length_take]
  rw [List.take_take, Nat.min_eq_left (by omega), List.append_assoc, List.append_assoc, List.drop_length_add_append]
  rw [List.getElem_take, List.drop_append_of_le_length hj, List.append_assoc]

end Vx.Chunked
