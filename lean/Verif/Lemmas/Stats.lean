import Verif.Model.Stats
import Verif.Spec.Stats
import Verif.Lemmas.Primitive
/-! The accumulator invariant. -/

namespace Vx
open Spec

/-- What the accumulator needs to know about the element operations: a total order with equality, bit counts in range. -/
structure LawfulElem (E : Elem α) (key : α → Int) : Prop where
  inj : ∀ a b, key a = key b → a = b
  cmp : ∀ a b, E.cmp a b = compare (key a) (key b)
  isEq : ∀ a b, E.isEq a b = true ↔ a = b
  bw : ∀ a, E.bitWidth a ≤ E.bits
  tz : ∀ a, E.tz a ≤ E.bits

theorem bitLen_le {n w : Nat} (h : n < 2 ^ w) : bitLen n ≤ w := by
  unfold bitLen
  split
  · omega
  · rename_i h0
    have := (Nat.log2_lt h0).mpr h
    omega

theorem trailingZeros_le (x : BitVec w) : trailingZeros x ≤ w := by
  unfold trailingZeros
  cases h : (List.range w).find? (fun i => x.getLsbD i) with
  | none => simp
  | some i =>
    have := List.mem_of_find?_eq_some h
    simp at this
    simp; omega

theorem intKey_inj (signed : Bool) (a b : BitVec w) (h : intKey signed a = intKey signed b) : a = b := by
  cases signed
  · simp [intKey] at h
    exact BitVec.eq_of_toNat_eq (by omega)
  · exact BitVec.eq_of_toInt_eq (by simpa [intKey] using h)

theorem intElem_lawful (signed : Bool) (w : Nat) : LawfulElem (intElem signed w) (intKey signed) where
  inj := intKey_inj signed
  cmp _ _ := rfl
  isEq a b := by simp [intElem]
  bw a := bitLen_le a.isLt
  tz a := trailingZeros_le a

/-! ### histograms -/

theorem bump_getElem? (l : List Nat) (i n j : Nat) :
    (bump l i n)[j]? = (l[j]?).map (fun v => if i = j then v + n else v) := by
  rw [bump, List.getElem?_modify]
  by_cases h : i = j
  · subst h; cases l[i]? <;> simp
  · cases l[j]? <;> simp [h]

theorem histogram_getElem? (n : Nat) (f : α → Nat) (xs : List α) (j : Nat) :
    (histogram n f xs)[j]? = if j < n then some (xs.countP (fun x => f x == j)) else none := by
  unfold histogram
  rw [List.getElem?_map]
  by_cases h : j < n
  · simp [h, List.getElem?_range h]
  · simp [h]

theorem histogram_bump (n : Nat) (f : α → Nat) (xs : List α) (x : α) (k : Nat) :
    bump (histogram n f xs) (f x) k = histogram n f (xs ++ List.replicate k x) := by
  apply List.ext_getElem?
  intro j
  rw [bump_getElem?, histogram_getElem?, histogram_getElem?]
  by_cases h : j < n
  · simp [h, List.countP_append, List.countP_replicate]
    split <;> simp
  · simp [h]

theorem histogram_perm (n : Nat) (f : α → Nat) (xs ys : List α) :
    histogram n f (xs ++ ys) = histogram n f (ys ++ xs) := by
  simp [histogram, List.countP_append, Nat.add_comm]

theorem histogram_empty (n : Nat) (f : α → Nat) : histogram n f [] = List.replicate n 0 := by
  apply List.ext_getElem?
  intro j
  rw [histogram_getElem?, List.getElem?_replicate]
  rfl

/-! ### runs -/

theorem runs_snoc [DecidableEq α] (vs : List α) (p x : α) (h : vs.getLast? = some p) :
    runs (vs ++ [x]) = runs vs + if x = p then 0 else 1 := by
  induction vs with
  | nil => simp at h
  | cons a vs ih =>
    cases vs with
    | nil =>
      simp at h; subst h
      simp only [List.cons_append, List.nil_append, runs]
      by_cases hx : a = x
      · simp [hx]
      · simp [hx, Ne.symm hx]
    | cons b vs =>
      rw [List.getLast?_cons_cons] at h
      have := ih h
      simp only [List.cons_append] at this ⊢
      simp only [runs, this]; omega

/-! ### the invariant -/

def rowBw (E : Elem α) : Option α → Nat
  | some x => E.bitWidth x
  | none => 0

def rowTz (E : Elem α) : Option α → Nat
  | some x => E.tz x
  | none => E.bits

structure AccInv (E : Elem α) (key : α → Int) [DecidableEq α] (a : Acc α) (rs : List (Option α)) : Prop where
  last : (valid rs).getLast? = some a.prev
  min : IsMin key a.min (valid rs)
  max : IsMax key a.max (valid rs)
  sorted : a.isSorted = true ↔ (valid rs).Pairwise (fun x y => key x ≤ key y)
  strict : (a.isSorted && a.isStrictSorted) = true ↔ (valid rs).Pairwise (fun x y => key x < key y)
  runCount : a.runCount = runs (valid rs)
  nulls : a.nullCount = rs.count none
  nan : a.nanCount = (valid rs).countP E.isNan
  bw : a.bitWidths = histogram (E.bits + 1) (rowBw E) rs
  tz : a.tz = histogram (E.bits + 1) (rowTz E) rs
  len : a.len = rs.length

theorem valid_append (as bs : List (Option α)) : valid (as ++ bs) = valid as ++ valid bs := by simp [valid, List.filterMap_append]

theorem valid_replicate_none (k : Nat) : valid (List.replicate k (none : Option α)) = [] := by
  simp [valid, List.filterMap_replicate_of_none]

theorem count_none_append [DecidableEq α] (as bs : List (Option α)) : (as ++ bs).count none = as.count none + bs.count none :=
  List.count_append

theorem accInv_init [DecidableEq α] (E : Elem α) (key : α → Int) (x : α) (k : Nat) :
    AccInv E key ((Acc.new E x).nNulls E k) (List.replicate k none ++ [some x]) := by
  have hv : valid (List.replicate k none ++ [some x]) = [x] := by
    rw [valid_append, valid_replicate_none]; rfl
  constructor
  · rw [hv]; rfl
  · rw [hv]; exact ⟨by simp [Acc.nNulls, Acc.new], by simp [Acc.nNulls, Acc.new]⟩
  · rw [hv]; exact ⟨by simp [Acc.nNulls, Acc.new], by simp [Acc.nNulls, Acc.new]⟩
  · rw [hv]; simp [Acc.nNulls, Acc.new]
  · rw [hv]; simp [Acc.nNulls, Acc.new]
  · rw [hv]; simp [Acc.nNulls, Acc.new, runs]
  · simp [Acc.nNulls, Acc.new, List.count_append, List.count_cons]
  · rw [hv]; simp only [Acc.nNulls, Acc.new, List.countP_cons, List.countP_nil]; split <;> simp_all
  · simp only [Acc.nNulls, Acc.new]
    rw [← histogram_empty (E.bits + 1) (rowBw E), show E.bitWidth x = rowBw E (some x) from rfl, histogram_bump,
      show (0:Nat) = rowBw E none from rfl, histogram_bump, histogram_perm]
    rfl
  · simp only [Acc.nNulls, Acc.new]
    rw [← histogram_empty (E.bits + 1) (rowTz E), show E.tz x = rowTz E (some x) from rfl, histogram_bump,
      show bump _ E.bits k = bump _ (rowTz E none) k from rfl, histogram_bump, histogram_perm]
    rfl
  · simp [Acc.nNulls, Acc.new]; omega

theorem accInv_null [DecidableEq α] {E : Elem α} {key : α → Int} {a : Acc α} {rs : List (Option α)} (h : AccInv E key a rs) :
    AccInv E key (a.nNulls E 1) (rs ++ [none]) := by
  have hv : valid (rs ++ [none]) = valid rs := by rw [valid_append]; simp [valid]
  constructor
  · rw [hv]; exact h.last
  · rw [hv]; exact h.min
  · rw [hv]; exact h.max
  · rw [hv]; exact h.sorted
  · rw [hv]; exact h.strict
  · rw [hv]; exact h.runCount
  · rw [List.count_append]; simp [Acc.nNulls, h.nulls]
  · rw [hv]; exact h.nan
  · simp only [Acc.nNulls]
    rw [h.bw, show (0:Nat) = rowBw E none from rfl, histogram_bump]; rfl
  · simp only [Acc.nNulls]
    rw [h.tz, show bump _ E.bits 1 = bump _ (rowTz E none) 1 from rfl, histogram_bump]; rfl
  · simp [Acc.nNulls, h.len]

theorem pairwise_snoc {R : α → α → Prop} (htr : ∀ a b c, R a b → R b c → R a c) (vs : List α) (p x : α)
    (hl : vs.getLast? = some p) : (vs ++ [x]).Pairwise R ↔ vs.Pairwise R ∧ R p x := by
  obtain ⟨ini, rfl⟩ : ∃ ini, vs = ini ++ [p] := by
    refine ⟨vs.dropLast, ?_⟩
    have hne : vs ≠ [] := by intro h; subst h; simp at hl
    have := List.dropLast_concat_getLast hne
    rw [List.getLast?_eq_some_getLast hne] at hl
    simp at hl
    rw [hl] at this
    exact this.symm
  constructor
  · intro h
    rw [List.pairwise_append] at h
    exact ⟨h.1, h.2.2 p (by simp) x (by simp)⟩
  · rintro ⟨h1, h2⟩
    rw [List.pairwise_append]
    refine ⟨h1, by simp, ?_⟩
    intro a ha b hb
    simp at hb; subst hb
    rw [List.pairwise_append] at h1
    rcases List.mem_append.mp ha with ha | ha
    · exact htr _ _ _ (h1.2.2 a ha p (by simp)) h2
    · simp at ha; subst ha; exact h2

theorem cmp_lt_iff {E : Elem α} {key : α → Int} (hE : LawfulElem E key) (a b : α) : E.cmp a b = .lt ↔ key a < key b := by
  rw [hE.cmp]; exact Int.compare_eq_lt

theorem cmp_gt_iff {E : Elem α} {key : α → Int} (hE : LawfulElem E key) (a b : α) : E.cmp a b = .gt ↔ key b < key a := by
  rw [hE.cmp]; exact Int.compare_eq_gt

theorem accInv_next [DecidableEq α] {E : Elem α} {key : α → Int} (hE : LawfulElem E key) {a : Acc α} {rs : List (Option α)}
    (h : AccInv E key a rs) (x : α) : AccInv E key (a.next E x) (rs ++ [some x]) := by
  have hv : valid (rs ++ [some x]) = valid rs ++ [x] := by rw [valid_append]; rfl
  have hmem := h.min.1
  constructor
  · rw [hv]; simp [Acc.next]
  · rw [hv]
    simp only [Acc.next]
    constructor
    · split
      · simp
      · simp [hmem]
    · intro y hy
      rcases List.mem_append.mp hy with hy | hy
      · have := h.min.2 y hy
        split
        · rename_i hlt; rw [cmp_lt_iff hE] at hlt; omega
        · exact this
      · simp at hy; subst hy
        split
        · exact Int.le_refl _
        · rename_i hlt; rw [cmp_lt_iff hE] at hlt; omega
  · rw [hv]
    simp only [Acc.next]
    have hmm := h.max.2 _ h.min.1
    constructor
    · split
      · simp [h.max.1]
      · split
        · simp
        · simp [h.max.1]
    · intro y hy
      rcases List.mem_append.mp hy with hy | hy
      · have := h.max.2 y hy
        split
        · exact this
        · split
          · rename_i hgt; rw [cmp_gt_iff hE] at hgt; omega
          · exact this
      · simp at hy; subst hy
        split
        · rename_i hlt; rw [cmp_lt_iff hE] at hlt; omega
        · split
          · exact Int.le_refl _
          · rename_i hgt; rw [cmp_gt_iff hE] at hgt; omega
  · rw [hv, pairwise_snoc (R := fun x y => key x ≤ key y) (fun _ _ _ => Int.le_trans) _ _ _ h.last, ← h.sorted]
    simp only [Acc.next]
    by_cases he : E.isEq x a.prev = true
    · have := (hE.isEq _ _).mp he
      simp only [he, if_true]
      simp [this]
    · simp only [he, Bool.false_eq_true, if_false]
      by_cases hlt : E.cmp x a.prev = .lt
      · have h2 := (cmp_lt_iff hE _ _).mp hlt
        simp [hlt]; intro _; omega
      · have h2 : ¬ key x < key a.prev := fun hh => hlt ((cmp_lt_iff hE _ _).mpr hh)
        simp [hlt]; intro _; omega
  · rw [hv, pairwise_snoc (R := fun x y => key x < key y) (fun _ _ _ => Int.lt_trans) _ _ _ h.last, ← h.strict]
    simp only [Acc.next]
    by_cases he : E.isEq x a.prev = true
    · have := (hE.isEq _ _).mp he
      simp only [he, if_true]
      simp [this]
    · simp only [he, Bool.false_eq_true, if_false]
      by_cases hlt : E.cmp x a.prev = .lt
      · have h2 := (cmp_lt_iff hE _ _).mp hlt
        simp [hlt]; intro _ _; omega
      · have h2 : ¬ key x < key a.prev := fun hh => hlt ((cmp_lt_iff hE _ _).mpr hh)
        have h3 : key x ≠ key a.prev := fun hh => he ((hE.isEq _ _).mpr (hE.inj _ _ hh))
        simp only [hlt, if_false, Bool.and_eq_true, iff_self_and, and_imp]
        intro _ _; omega
  · rw [hv, runs_snoc _ _ _ h.last]
    simp only [Acc.next, h.runCount]
    by_cases he : E.isEq x a.prev = true
    · simp only [he, if_true]
      simp [(hE.isEq _ _).mp he]
    · have : x ≠ a.prev := fun hh => he ((hE.isEq _ _).mpr hh)
      simp [he, this]
  · rw [List.count_append]; simp [Acc.next, h.nulls, List.count_cons]
  · rw [hv, List.countP_append, ← h.nan]
    simp only [Acc.next, List.countP_cons, List.countP_nil]
    split <;> simp_all
  · simp only [Acc.next]
    rw [h.bw, show E.bitWidth x = rowBw E (some x) from rfl, histogram_bump]; rfl
  · simp only [Acc.next]
    rw [h.tz, show E.tz x = rowTz E (some x) from rfl, histogram_bump]; rfl
  · simp [Acc.next, h.len]

theorem accInv_fold [DecidableEq α] {E : Elem α} {key : α → Int} (hE : LawfulElem E key) (more : List (Option α)) {a : Acc α}
    {rs : List (Option α)} (h : AccInv E key a rs) : AccInv E key (more.foldl (Acc.nullableNext E) a) (rs ++ more) := by
  induction more generalizing a rs with
  | nil => simpa using h
  | cons o more ih =>
    have : AccInv E key (Acc.nullableNext E a o) (rs ++ [o]) := by
      cases o with
      | none => exact accInv_null h
      | some x => exact accInv_next hE h x
    simpa using ih this

theorem statsSlice_inv [DecidableEq α] {E : Elem α} {key : α → Int} (hE : LawfulElem E key) (xs : List α) (hne : xs ≠ []) :
    ∃ a, AccInv E key a (xs.map some) ∧ statsSlice E xs = a.finish E := by
  cases xs with
  | nil => exact absurd rfl hne
  | cons x xs =>
    refine ⟨xs.foldl (Acc.next E) (Acc.new E x), ?_, rfl⟩
    have h0 := accInv_init E key x 0
    have h0' : (Acc.new E x).nNulls E 0 = Acc.new E x := by
      simp only [Acc.nNulls, Nat.add_zero]
      have : ∀ (l : List Nat) i, bump l i 0 = l := by
        intro l i
        apply List.ext_getElem?
        intro j
        rw [bump_getElem?]; cases l[j]? <;> simp
      rw [this, this]
    rw [h0'] at h0
    have := accInv_fold hE (xs.map some) h0
    rw [List.foldl_map] at this
    exact this

/-- Split the rows at the first valid one. -/
theorem rows_split (vals : List α) (m : List Bool) (k : Nat) (hlen : m.length = vals.length) (hkv : k < vals.length)
    (hkl : k < m.length) (hkt : m[k] = true) (hkb : ∀ (j : Nat) (hji : j < k), ¬m[j] = true) :
    Spec.rows vals m = List.replicate k none ++ [some vals[k]] ++
      ((vals.zip m).drop (k + 1)).map (fun p => if p.2 then some p.1 else none) := by
  apply List.ext_getElem
  · simp [Spec.rows, hlen]; omega
  · intro i h1 h2
    simp only [Spec.rows, List.getElem_zipWith]
    rcases Nat.lt_trichotomy i k with h | h | h
    · have := hkb i h
      simp [List.getElem_append, h, show i < k + 1 by omega, this]
    · subst h
      simp [List.getElem_append, hkt]
    · rw [List.getElem_append_right (by simp; omega)]
      simp [show k + 1 + (i - (k + 1)) = i by omega]

/-- The rows seen by `NullableValues` are the rows of the array. -/
theorem statsNullable_inv [DecidableEq α] {E : Elem α} {key : α → Int} (hE : LawfulElem E key) (vals : List α) (m : List Bool)
    (hlen : m.length = vals.length) (hv : true ∈ m) :
    ∃ a, AccInv E key a (Spec.rows vals m) ∧ statsNullable E vals m = a.finish E := by
  obtain ⟨k, hk⟩ : ∃ k, m.findIdx? (fun b => b) = some k := by
    cases h : m.findIdx? (fun b => b) with
    | some k => exact ⟨k, rfl⟩
    | none =>
      rw [List.findIdx?_eq_none_iff] at h
      exact absurd (h true hv) (by simp)
  rw [List.findIdx?_eq_some_iff_getElem] at hk
  obtain ⟨hkl, hkt, hkb⟩ := hk
  have hk' : m.findIdx? (fun b => b) = some k := by
    rw [List.findIdx?_eq_some_iff_getElem]; exact ⟨hkl, hkt, hkb⟩
  have hkv : k < vals.length := by omega
  have hne : vals.isEmpty = false := by cases vals <;> simp at hkv ⊢
  have hrow := rows_split vals m k hlen hkv hkl hkt hkb
  refine ⟨(((vals.zip m).drop (k + 1)).map (fun p => if p.2 then some p.1 else none)).foldl (Acc.nullableNext E)
    ((Acc.new E vals[k]).nNulls E k), ?_, ?_⟩
  · rw [hrow]
    exact accInv_fold hE _ (accInv_init E key _ k)
  · unfold statsNullable
    simp only [hne, Bool.false_eq_true, if_false, hk', List.getElem?_eq_getElem hkv]

end Vx
