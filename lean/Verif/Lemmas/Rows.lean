import Verif.Spec.Rows
import Verif.Basic
/-! # Facts about the row-level specifications -/

namespace Vx.Spec

theorem slice_length (xs : List α) (s e : Nat) : (slice xs s e).length = min e xs.length - s := by
  simp [slice]

theorem slice_length' {xs : List α} {s e : Nat} (h : InBounds xs.length s e) : (slice xs s e).length = e - s := by
  rw [slice_length, Nat.min_eq_left h.2]

theorem slice_getElem? (xs : List α) (s e i : Nat) :
    (slice xs s e)[i]? = if s + i < e then xs[s + i]? else none := by
  simp [slice, List.getElem?_drop, List.getElem?_take]

theorem slice_getElem {xs : List α} {s e i : Nat} (h : i < (slice xs s e).length) :
    (slice xs s e)[i] = xs[s + i]'(by rw [slice_length] at h; omega) := by
  simp [slice, List.getElem_drop, List.getElem_take]

theorem slice_slice (xs : List α) (s e s' e' : Nat) (h : e' ≤ e - s) :
    slice (slice xs s e) s' e' = slice xs (s + s') (s + e') := by
  apply List.ext_getElem?
  intro i
  simp only [slice_getElem?]
  by_cases h1 : s' + i < e'
  · have h2 : s + (s' + i) < e := by omega
    have h3 : s + s' + i < s + e' := by omega
    simp [h1, h2, h3, Nat.add_assoc]
  · have h3 : ¬ s + s' + i < s + e' := by omega
    simp [h1, h3]

@[simp] theorem slice_full (xs : List α) : slice xs 0 xs.length = xs := by simp [slice]

theorem slice_eq_drop_take (xs : List α) (s e : Nat) : slice xs s e = (xs.drop s).take (e - s) := by
  simp [slice, List.drop_take]

theorem slice_map (f : α → β) (xs : List α) (s e : Nat) : slice (xs.map f) s e = (slice xs s e).map f := by
  simp [slice, List.map_drop, List.map_take]

theorem slice_zipWith (f : α → β → γ) (xs : List α) (ys : List β) (s e : Nat) :
    slice (List.zipWith f xs ys) s e = List.zipWith f (slice xs s e) (slice ys s e) := by
  simp [slice, List.drop_zipWith, List.take_zipWith]

theorem slice_replicate (n : Nat) (a : α) (s e : Nat) :
    slice (List.replicate n a) s e = List.replicate (min e n - s) a := by
  simp [slice]

theorem take_length {xs : List α} {is : List Nat} (h : ∀ i ∈ is, i < xs.length) : (take xs is).length = is.length := by
  induction is with
  | nil => rfl
  | cons i is ih =>
    have h1 := h i (by simp)
    have h2 := ih (fun j hj => h j (by simp [hj]))
    simp only [take] at h2
    simp [take, List.filterMap_cons, List.getElem?_eq_getElem h1, h2]

theorem take_cons {xs : List α} {i : Nat} {is : List Nat} (h : i < xs.length) :
    take xs (i :: is) = xs[i] :: take xs is := by
  simp [take, List.filterMap_cons, List.getElem?_eq_getElem h]

@[simp] theorem take_nil (xs : List α) : take xs [] = [] := rfl

theorem take_append (xs : List α) (is js : List Nat) : take xs (is ++ js) = take xs is ++ take xs js := by
  simp [take, List.filterMap_append]

theorem take_getElem? {xs : List α} {is : List Nat} (h : ∀ i ∈ is, i < xs.length) (k : Nat) :
    (take xs is)[k]? = is[k]?.bind (fun i => xs[i]?) := by
  induction is generalizing k with
  | nil => simp
  | cons i is ih =>
    rw [take_cons (h i (by simp))]
    cases k with
    | zero => simp [List.getElem?_eq_getElem (h i (by simp))]
    | succ k => simpa using ih (fun j hj => h j (by simp [hj])) k

theorem take_map (f : α → β) (xs : List α) (is : List Nat) : take (xs.map f) is = (take xs is).map f := by
  simp only [take, List.map_filterMap, List.getElem?_map]

@[simp] theorem filter_nil (bs : List Bool) : filter ([] : List α) bs = [] := by cases bs <;> rfl
@[simp] theorem filter_nil' (xs : List α) : filter xs [] = [] := by cases xs <;> rfl
@[simp] theorem filter_true (x : α) (xs : List α) (bs : List Bool) : filter (x :: xs) (true :: bs) = x :: filter xs bs := rfl
@[simp] theorem filter_false (x : α) (xs : List α) (bs : List Bool) : filter (x :: xs) (false :: bs) = filter xs bs := rfl

theorem filter_length {xs : List α} {bs : List Bool} (h : xs.length = bs.length) :
    (filter xs bs).length = bs.count true := by
  induction xs generalizing bs with
  | nil => cases bs <;> simp at h ⊢
  | cons x xs ih =>
    cases bs with
    | nil => simp at h
    | cons b bs => cases b <;> simp [ih (by simpa using h)]

theorem filter_append {xs ys : List α} {bs cs : List Bool} (h : xs.length = bs.length) :
    filter (xs ++ ys) (bs ++ cs) = filter xs bs ++ filter ys cs := by
  induction xs generalizing bs with
  | nil => cases bs <;> simp at h ⊢
  | cons x xs ih =>
    cases bs with
    | nil => simp at h
    | cons b bs => cases b <;> simp [ih (by simpa using h)]

theorem filter_map (f : α → β) (xs : List α) (bs : List Bool) : filter (xs.map f) bs = (filter xs bs).map f := by
  induction xs generalizing bs with
  | nil => simp
  | cons x xs ih =>
    cases bs with
    | nil => simp
    | cons b bs => cases b <;> simp [ih]

theorem filter_zipWith (f : α → β → γ) (xs : List α) (ys : List β) (bs : List Bool) (h : xs.length = ys.length) :
    filter (List.zipWith f xs ys) bs = List.zipWith f (filter xs bs) (filter ys bs) := by
  induction xs generalizing ys bs with
  | nil => simp
  | cons x xs ih =>
    cases ys with
    | nil => simp at h
    | cons y ys =>
      cases bs with
      | nil => simp
      | cons b bs => cases b <;> simp [ih ys bs (by simpa using h)]

theorem filter_replicate (n : Nat) (a : α) (bs : List Bool) (h : bs.length = n) :
    filter (List.replicate n a) bs = List.replicate (bs.count true) a := by
  induction bs generalizing n with
  | nil => simp
  | cons b bs ih =>
    cases n with
    | zero => simp at h
    | succ n => cases b <;> simp [List.replicate_succ, ih n (by simpa using h)]

/-- The indices of the set bits. -/
def setIndices (bs : List Bool) : List Nat := (List.range bs.length).filter (fun i => bs[i]?.getD false)

/-- Filtering is taking the set indices. -/
theorem filter_eq_take (xs : List α) (bs : List Bool) (h : xs.length = bs.length) :
    filter xs bs = take xs (setIndices bs) := by
  suffices H : ∀ (n : Nat) (pre : List α) (xs : List α) (bs : List Bool), pre.length = n → xs.length = bs.length →
      filter xs bs = take (pre ++ xs) (((List.range bs.length).filter (fun i => bs[i]?.getD false)).map (n + ·)) by
    have := H 0 [] xs bs rfl h
    simpa [setIndices] using this
  intro n pre xs
  induction xs generalizing n pre with
  | nil => intro bs _ h; cases bs <;> simp_all
  | cons x xs ih =>
    intro bs hn h
    cases bs with
    | nil => simp at h
    | cons b bs =>
      have h' : xs.length = bs.length := by simpa using h
      have := ih (n + 1) (pre ++ [x]) bs (by simp [hn]) h'
      rw [List.length_cons, List.range_succ_eq_map, List.filter_cons, List.filter_map]
      have e : (fun i => ((b :: bs)[i]?).getD false) ∘ Nat.succ = fun i => (bs[i]?).getD false := by
        funext i; simp
      rw [e]
      have e2 : ∀ l : List Nat, List.map (fun x => n + x) (List.map Nat.succ l) = List.map (fun x => n + 1 + x) l := by
        intro l; simp; intro a _; omega
      cases b with
      | false =>
        simp only [filter_false, List.getElem?_cons_zero, Option.getD_some, Bool.false_eq_true, if_false, e2]
        rw [this]; simp
      | true =>
        simp only [filter_true, List.getElem?_cons_zero, Option.getD_some, if_true, List.map_cons, e2, Nat.add_zero]
        rw [take_cons (by simp [hn]), this]
        simp [hn]

end Vx.Spec

namespace Vx
open Spec

theorem res_mapM_idx {xs : List α} {is : List Nat} (h : ∀ i ∈ is, i < xs.length) :
    Res.mapM (idx xs) is = .ok (take xs is) := by
  induction is with
  | nil => rfl
  | cons i is ih =>
    rw [Res.mapM_cons, idx_lt (h i (by simp)), ih (fun j hj => h j (by simp [hj])), take_cons (h i (by simp))]
    rfl

end Vx
