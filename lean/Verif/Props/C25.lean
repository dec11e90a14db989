import Verif.Lemmas.Stats
import Mathlib.Order.Defs.LinearOrder
import Mathlib.Data.Nat.Basic
/-! # C25: statistics are exactly what the data implies -/

namespace Vx
open Spec

/-- Everything the statistics of a column with at least one non-null row must say. `key` is the order of the values. -/
structure StatsTrue [DecidableEq α] (E : Elem α) (key : α → Int) (s : StatsSet α) (rs : List (Option α)) : Prop where
  min : ∃ m, s.min = some (some m) ∧ IsMin key m (valid rs)
  max : ∃ m, s.max = some (some m) ∧ IsMax key m (valid rs)
  sorted : ∃ b, s.isSorted = some b ∧ (b = true ↔ (valid rs).Pairwise (fun x y => key x ≤ key y))
  strict : ∃ b, s.isStrictSorted = some b ∧ (b = true ↔ (valid rs).Pairwise (fun x y => key x < key y))
  runCount : s.runCount = some (runs (valid rs))
  nullCount : s.nullCount = some (rs.count none)
  bitWidthFreq : s.bitWidthFreq = some (histogram (E.bits + 1) (rowBw E) rs)
  tzFreq : s.tzFreq = some (histogram (E.bits + 1) (rowTz E) rs)

theorem statsTrue_of_inv [DecidableEq α] {E : Elem α} {key : α → Int} {a : Acc α} {rs : List (Option α)}
    (h : AccInv E key a rs) : StatsTrue E key (a.finish E) rs :=
  ⟨⟨_, rfl, h.min⟩, ⟨_, rfl, h.max⟩, ⟨_, rfl, h.sorted⟩, ⟨_, rfl, h.strict⟩, by simp [Acc.finish, h.runCount],
    by simp [Acc.finish, h.nulls], by simp [Acc.finish, h.bw], by simp [Acc.finish, h.tz]⟩

theorem count_none_eq [DecidableEq α] (rs : List (Option α)) : rs.count none + (valid rs).length = rs.length := by
  induction rs with
  | nil => rfl
  | cons o rs ih =>
    cases o with
    | none =>
      have : valid (none :: rs) = valid rs := rfl
      rw [this, List.count_cons]; simp; omega
    | some x =>
      have : valid (some x :: rs) = x :: valid rs := rfl
      rw [this, List.count_cons]; simp; omega

theorem mem_valid {rs : List (Option α)} {x : α} : x ∈ valid rs ↔ some x ∈ rs := by
  simp [valid]

theorem isConstant_of_inv [DecidableEq α] {E : Elem α} {key : α → Int} (hE : LawfulElem E key)
    (hn : ∀ a b, E.natEq a b = E.isEq a b) (hnan : ∀ a, E.isNan a = false) {a : Acc α} {rs : List (Option α)}
    (h : AccInv E key a rs) : ∃ b, (a.finish E).isConstant = some b ∧ (b = true ↔ AllSame rs) := by
  refine ⟨_, rfl, ?_⟩
  have hc := count_none_eq rs
  have hpos : 0 < (valid rs).length := List.length_pos_of_mem h.min.1
  have hnc : ¬ (a.nullCount = a.len) := by rw [h.nulls, h.len]; omega
  have hnan0 : a.nanCount = 0 := by rw [h.nan]; simp [hnan]
  simp only [hnan0, Bool.or_eq_true, Bool.and_eq_true, beq_iff_eq, hnc, or_false, hn, hE.isEq, and_true]
  constructor
  · rintro ⟨hmm, hz⟩
    rw [h.nulls] at hz
    have hall : ∀ o ∈ rs, o = some a.min := by
      intro o ho
      cases o with
      | none => exact absurd ho (List.count_eq_zero.mp hz)
      | some x =>
        have hx := mem_valid.mpr ho
        have h1 := h.min.2 x hx
        have h2 := h.max.2 x hx
        rw [← hmm] at h2
        rw [hE.inj x a.min (by omega)]
    intro x hx y hy
    rw [hall x hx, hall y hy]
  · intro hs
    have h1 := mem_valid.mp h.min.1
    have h2 := mem_valid.mp h.max.1
    refine ⟨by simpa using hs _ h1 _ h2, ?_⟩
    rw [h.nulls, List.count_eq_zero]
    intro hnone
    cases hs _ hnone _ h1

theorem PArr.primStats_inv [DecidableEq α] {E : Elem α} {key : α → Int} (hE : LawfulElem E key) (a : PArr α) (hw : a.WF)
    (hv : valid a.rows ≠ []) : ∃ acc, AccInv E key acc a.rows ∧ primStats E a = acc.finish E := by
  obtain ⟨vals, v⟩ := a
  have hne : vals ≠ [] := by rintro rfl; exact hv (by simp [PArr.rows, Spec.rows, valid])
  have hall : Spec.rows vals (List.replicate vals.length true) = vals.map some := by
    apply List.ext_getElem <;> simp [Spec.rows]
  have hnone : valid (Spec.rows vals (List.replicate vals.length false)) = [] := by
    have : Spec.rows vals (List.replicate vals.length false) = List.replicate vals.length none := by
      apply List.ext_getElem <;> simp [Spec.rows]
    rw [this, valid_replicate_none]
  cases v with
  | nonNullable =>
    have := statsSlice_inv hE vals hne
    simpa [PArr.rows, mask, hall, primStats, Validity.toLogical] using this
  | allValid =>
    have := statsSlice_inv hE vals hne
    simpa [PArr.rows, mask, hall, primStats, Validity.toLogical] using this
  | allInvalid => exact absurd (by simpa [PArr.rows, mask] using hnone) hv
  | array m =>
    simp only [PArr.WF, FitsLen, mask] at hw
    have hmne : m ≠ [] := by rintro rfl; simp at hw; exact hne (List.length_eq_zero_iff.mp hw.symm)
    simp only [PArr.rows, mask] at hv ⊢
    simp only [primStats, Validity.toLogical, PArr.len, Validity.boolMin, Validity.boolMax, List.isEmpty_iff, hmne, if_false,
      Option.getD_some, Option.map_some, beq_iff_eq]
    by_cases h1 : m.count true = m.length
    · have := count_true_eq_length.mp h1
      rw [if_pos h1]
      rw [this, hw, hall]
      exact statsSlice_inv hE vals hne
    · rw [if_neg h1]
      by_cases h2 : m.count true = 0
      · have := count_true_eq_zero.mp h2
        rw [this, hw] at hv
        exact absurd hnone hv
      · have hpos : decide (0 < m.count true) = true := decide_eq_true (Nat.pos_of_ne_zero h2)
        simp only [hpos, Bool.not_true, Bool.false_eq_true, if_false]
        exact statsNullable_inv hE vals m hw (List.count_pos_iff.mp (Nat.pos_of_ne_zero h2))

/-- **C25, primitive arrays.** For every primitive array with a non-null row (any null pattern, any element type with a total
order), every statistic is exactly what the rows imply. -/
theorem C25_primitive [DecidableEq α] {E : Elem α} {key : α → Int} (hE : LawfulElem E key) (a : PArr α) (hw : a.WF)
    (hv : valid a.rows ≠ []) : StatsTrue E key (primStats E a) a.rows := by
  obtain ⟨acc, h1, h2⟩ := PArr.primStats_inv hE a hw hv
  rw [h2]; exact statsTrue_of_inv h1

/-- **C25, integer arrays**, every width and signedness, including the `is_constant` statistic. -/
theorem C25_integer (signed : Bool) (w : Nat) (a : PArr (BitVec w)) (hw : a.WF) (hv : valid a.rows ≠ []) :
    StatsTrue (intElem signed w) (intKey signed) (primStats (intElem signed w) a) a.rows ∧
      ∃ b, (primStats (intElem signed w) a).isConstant = some b ∧ (b = true ↔ AllSame a.rows) := by
  obtain ⟨acc, h1, h2⟩ := PArr.primStats_inv (intElem_lawful signed w) a hw hv
  rw [h2]
  exact ⟨statsTrue_of_inv h1, isConstant_of_inv (intElem_lawful signed w) (fun _ _ => rfl) (fun _ => rfl) h1⟩

theorem valid_rows_nil {vals : List α} {m : List Bool} (hl : m.length = vals.length) (h : valid (Spec.rows vals m) = []) :
    true ∉ m := by
  intro ht
  obtain ⟨i, hi, hit⟩ := List.mem_iff_getElem.mp ht
  have : some vals[i] ∈ Spec.rows vals m := by
    rw [List.mem_iff_getElem]
    exact ⟨i, by simp [Spec.rows, hl]; omega, by simp [Spec.rows, hit]⟩
  have := mem_valid.mpr this
  rw [h] at this
  cases this

/-- **C25, all rows null** (at least one row): min and max are null scalars, the null count is the length. -/
theorem C25_all_null {α : Type} (E : Elem α) (a : PArr α) (hw : a.WF) (hne : a.vals ≠ []) (hv : valid a.rows = []) :
    primStats E a = StatsSet.nullsPrim E.bits a.len := by
  obtain ⟨vals, v⟩ := a
  have hnr := valid_rows_nil (m := mask vals.length v) hw hv
  cases v with
  | nonNullable => exact absurd (by simp [mask]; simpa using hne) hnr
  | allValid => exact absurd (by simp [mask]; simpa using hne) hnr
  | allInvalid => rfl
  | array m =>
    simp only [PArr.WF, FitsLen, mask] at hw hnr
    have hmne : m ≠ [] := by rintro rfl; simp at hw; exact hne (List.length_eq_zero_iff.mp hw.symm)
    have hc : m.count true = 0 := List.count_eq_zero.mpr hnr
    have hlen : 0 < m.length := List.length_pos_iff.mpr hmne
    simp only [primStats, Validity.toLogical, PArr.len, Validity.boolMin, Validity.boolMax, List.isEmpty_iff, hmne, if_false,
      Option.getD_some, Option.map_some, beq_iff_eq, hc]
    simp [show ¬ (0 = m.length) by omega]

/-- For floats `is_constant` is decided with `==`, which identifies `0.0` and `-0.0`: whenever `==` identifies two distinct bit
patterns (neither a NaN), some column of two different rows is reported constant. -/
theorem C25_float_is_constant_unsound [DecidableEq α] (E : Elem α) (p n : α) (hne : p ≠ n) (hcmp : E.cmp p n = .lt)
    (heq : E.natEq p n = true) (hp : E.isNan p = false) (hn : E.isNan n = false) (hself : E.cmp n p = .gt) :
    let a : PArr α := ⟨[p, n], .nonNullable⟩
    (primStats E a).isConstant = some true ∧ ¬ AllSame a.rows := by
  refine ⟨?_, ?_⟩
  · simp [primStats, Validity.toLogical, statsSlice, Acc.finish, Acc.next, Acc.new, hself, heq, hp, hn]
  · intro h
    have := h (some p) (by simp [PArr.rows, Spec.rows, mask]) (some n) (by simp [PArr.rows, Spec.rows, mask])
    exact hne (by simpa using this)

/-! ### booleans -/

structure BoolAccInv (a : BoolAcc) (rs : List (Option Bool)) : Prop where
  last : (valid rs).getLast? = some a.prev
  sorted : a.isSorted = true ↔ (valid rs).Pairwise (fun x y => x.toNat ≤ y.toNat)
  runCount : a.runCount = runs (valid rs)
  nulls : a.nullCount = rs.count none
  trues : a.trueCount = rs.count (some true)
  len : a.len = rs.length

theorem boolInv_init (x : Bool) (k : Nat) : BoolAccInv ((BoolAcc.new x).nNulls k) (List.replicate k none ++ [some x]) := by
  have hv : valid (List.replicate k none ++ [some x]) = [x] := by
    rw [valid_append, valid_replicate_none]; rfl
  constructor
  · rw [hv]; rfl
  · rw [hv]; simp [BoolAcc.new, BoolAcc.nNulls]
  · rw [hv]; rfl
  · simp [BoolAcc.new, BoolAcc.nNulls, List.count_append, List.count_cons]
  · cases x <;> simp [BoolAcc.new, BoolAcc.nNulls, List.count_append, List.count_cons, List.count_replicate]
  · simp [BoolAcc.new, BoolAcc.nNulls]; omega

theorem boolInv_step {a : BoolAcc} {rs : List (Option Bool)} (h : BoolAccInv a rs) (o : Option Bool) :
    BoolAccInv (a.nullableNext o) (rs ++ [o]) := by
  cases o with
  | none =>
    have hv : valid (rs ++ [none]) = valid rs := by rw [valid_append]; simp [valid]
    constructor
    · rw [hv]; exact h.last
    · rw [hv]; exact h.sorted
    · rw [hv]; exact h.runCount
    · rw [List.count_append]; simp [BoolAcc.nullableNext, BoolAcc.nNulls, h.nulls]
    · rw [List.count_append]; simp [BoolAcc.nullableNext, BoolAcc.nNulls, h.trues, List.count_cons]
    · simp [BoolAcc.nullableNext, BoolAcc.nNulls, h.len]
  | some x =>
    have hv : valid (rs ++ [some x]) = valid rs ++ [x] := by rw [valid_append]; rfl
    constructor
    · rw [hv]
      simp only [BoolAcc.nullableNext, BoolAcc.next, List.getLast?_append, List.getLast?_singleton, Option.some_or, Option.some.injEq]
      cases x <;> cases a.prev <;> rfl
    · rw [hv, pairwise_snoc (R := fun x y => x.toNat ≤ y.toNat) (fun _ _ _ => Nat.le_trans) _ _ _ h.last, ← h.sorted]
      simp only [BoolAcc.nullableNext, BoolAcc.next]
      cases x <;> cases hp : a.prev <;> simp
    · rw [hv, runs_snoc _ _ _ h.last, ← h.runCount]
      simp only [BoolAcc.nullableNext, BoolAcc.next]
      cases x <;> cases hp : a.prev <;> simp
    · rw [List.count_append]; simp [BoolAcc.nullableNext, BoolAcc.next, h.nulls, List.count_cons]
    · rw [List.count_append]
      cases x <;> simp [BoolAcc.nullableNext, BoolAcc.next, h.trues, List.count_cons]
    · simp [BoolAcc.nullableNext, BoolAcc.next, h.len]

theorem boolInv_fold (more : List (Option Bool)) {a : BoolAcc} {rs : List (Option Bool)} (h : BoolAccInv a rs) :
    BoolAccInv (more.foldl BoolAcc.nullableNext a) (rs ++ more) := by
  induction more generalizing a rs with
  | nil => simpa using h
  | cons o more ih => simpa using ih (boolInv_step h o)

theorem boolStats_inv (a : PArr Bool) (hw : a.WF) (hv : valid a.rows ≠ []) :
    ∃ acc, BoolAccInv acc a.rows ∧ boolStats a = acc.finish := by
  obtain ⟨vals, v⟩ := a
  have hall : Spec.rows vals (List.replicate vals.length true) = vals.map some := by
    apply List.ext_getElem <;> simp [Spec.rows]
  have hnone : valid (Spec.rows vals (List.replicate vals.length false)) = [] := by
    have : Spec.rows vals (List.replicate vals.length false) = List.replicate vals.length none := by
      apply List.ext_getElem <;> simp [Spec.rows]
    rw [this, valid_replicate_none]
  cases hvals : vals with
  | nil => subst hvals; exact absurd (by simp [PArr.rows, Spec.rows, valid]) hv
  | cons x xs =>
    have hslice : ∃ acc, BoolAccInv acc (vals.map some) ∧ (xs.foldl BoolAcc.next (BoolAcc.new x)).finish = acc.finish := by
      refine ⟨_, ?_, rfl⟩
      have := boolInv_fold (xs.map some) (boolInv_init x 0)
      rw [List.foldl_map] at this
      rw [hvals]
      exact this
    rw [hvals] at hslice
    subst hvals
    cases v with
    | nonNullable =>
      simp only [PArr.rows, mask, hall]
      simpa [boolStats, Validity.toLogical] using hslice
    | allValid =>
      simp only [PArr.rows, mask, hall]
      simpa [boolStats, Validity.toLogical] using hslice
    | allInvalid => exact absurd (by simpa [PArr.rows, mask] using hnone) hv
    | array m =>
      simp only [PArr.WF, FitsLen, mask] at hw
      have hmne : m ≠ [] := by rintro rfl; simp at hw
      simp only [PArr.rows, mask] at hv ⊢
      simp only [boolStats, Validity.toLogical, PArr.len, Validity.boolMin, Validity.boolMax, List.isEmpty_iff, hmne, if_false,
        Option.getD_some, Option.map_some, beq_iff_eq]
      by_cases h1 : m.count true = m.length
      · have := count_true_eq_length.mp h1
        rw [if_pos h1]
        rw [this, hw, hall]
        exact hslice
      · rw [if_neg h1]
        by_cases h2 : m.count true = 0
        · have := count_true_eq_zero.mp h2
          rw [this, hw] at hv
          exact absurd hnone hv
        · have hpos : decide (0 < m.count true) = true := decide_eq_true (Nat.pos_of_ne_zero h2)
          simp only [hpos, Bool.not_true, Bool.false_eq_true, if_false]
          have hmem : true ∈ m := List.count_pos_iff.mp (Nat.pos_of_ne_zero h2)
          obtain ⟨k, hk⟩ : ∃ k, m.findIdx? (fun b => b) = some k := by
            cases h : m.findIdx? (fun b => b) with
            | some k => exact ⟨k, rfl⟩
            | none =>
              rw [List.findIdx?_eq_none_iff] at h
              exact absurd (h true hmem) (by simp)
          have hk' := hk
          rw [List.findIdx?_eq_some_iff_getElem] at hk
          obtain ⟨hkl, hkt, hkb⟩ := hk
          have hkv : k < (x :: xs).length := by omega
          have hrow := rows_split (x :: xs) m k hw hkv hkl hkt hkb
          refine ⟨((((x :: xs).zip m).drop (k + 1)).map (fun p => if p.2 then some p.1 else none)).foldl BoolAcc.nullableNext
            ((BoolAcc.new (x :: xs)[k]).nNulls k), ?_, ?_⟩
          · rw [hrow]; exact boolInv_fold _ (boolInv_init _ k)
          · unfold statsNullableBools
            simp only [hk', List.getElem?_eq_getElem hkv]

/-- **C25, boolean arrays.** Exact for max, is_constant, is_sorted, run_count and true_count under every null pattern; min and
is_strict_sorted are exact when there are no nulls. With nulls, min is only a lower bound and a claimed is_strict_sorted is true
(the claim may be missing); see `C25_bool_min_not_attained`. -/
theorem C25_bool_partial (a : PArr Bool) (hw : a.WF) (hv : valid a.rows ≠ []) :
    let s := boolStats a
    let vs := valid a.rows
    s.max = some (some (decide (true ∈ vs))) ∧
    (∃ b, s.isConstant = some b ∧ (b = true ↔ AllSame a.rows)) ∧
    (∃ b, s.isSorted = some b ∧ (b = true ↔ vs.Pairwise (fun x y => x.toNat ≤ y.toNat))) ∧
    s.runCount = some (runs vs) ∧
    s.trueCount = some (vs.count true) ∧
    (∃ m, s.min = some (some m) ∧ ∀ x ∈ vs, m.toNat ≤ x.toNat) ∧
    (∃ b, s.isStrictSorted = some b ∧ (b = true → vs.Pairwise (fun x y => x.toNat < y.toNat))) ∧
    (none ∉ a.rows →
      (∃ m, s.min = some (some m) ∧ m ∈ vs) ∧
      (∃ b, s.isStrictSorted = some b ∧ (b = true ↔ vs.Pairwise (fun x y => x.toNat < y.toNat)))) := by
  obtain ⟨acc, h, he⟩ := boolStats_inv a hw hv
  simp only [he]
  generalize a.rows = rs at *
  have hcn := count_none_eq rs
  have hct : rs.count (some true) = (valid rs).count true := by
    clear h he hcn hv
    induction rs with
    | nil => rfl
    | cons o rs ih =>
      cases o with
      | none => simpa [valid, List.count_cons] using ih
      | some x => cases x <;> simpa [valid, List.count_cons] using ih
  have hcf : rs.count (some false) = (valid rs).count false := by
    clear h he hcn hv hct
    induction rs with
    | nil => rfl
    | cons o rs ih =>
      cases o with
      | none => simpa [valid, List.count_cons] using ih
      | some x => cases x <;> simpa [valid, List.count_cons] using ih
  have htf : (valid rs).count true + (valid rs).count false = (valid rs).length := by
    generalize valid rs = vs
    induction vs with
    | nil => rfl
    | cons x xs ih => cases x <;> simp [List.count_cons] <;> omega
  have hvpos : 0 < (valid rs).length := List.length_pos_iff.mpr hv
  have htl : acc.trueCount = acc.len ↔ rs.count none = 0 ∧ (valid rs).count false = 0 := by
    rw [h.trues, h.len, hct]; omega
  have hallT : (valid rs).count false = 0 → ∀ x ∈ valid rs, x = true := by
    intro h0 x hx
    cases x
    · exact absurd hx (List.count_eq_zero.mp h0)
    · rfl
  have hpw : ∀ vs : List Bool, vs.Pairwise (fun x y => x.toNat < y.toNat) ↔
      vs.Pairwise (fun x y => x.toNat ≤ y.toNat) ∧ (vs.length < 2 ∨ (vs.length = 2 ∧ vs.count true = 1)) := by
    intro vs
    rcases vs with _ | ⟨x, _ | ⟨y, _ | ⟨z, vs⟩⟩⟩
    · simp
    · simp
    · cases x <;> cases y <;> simp
    · simp only [List.pairwise_cons]
      constructor
      · intro hp
        have h1 := hp.1 y (by simp)
        have h2 := hp.2.1 z (by simp)
        cases x <;> cases y <;> cases z <;> simp at h1 h2
      · intro hp
        have := hp.2
        simp only [List.length_cons] at this
        omega
  refine ⟨?_, ⟨_, rfl, ?_⟩, ⟨_, rfl, h.sorted⟩, ?_, ?_, ⟨_, rfl, ?_⟩, ⟨_, rfl, ?_⟩, ?_⟩
  · simp only [BoolAcc.finish, h.trues, hct, Option.some.injEq, decide_eq_decide]
    exact List.count_pos_iff
  · have hnl : ¬ acc.nullCount = acc.len := by rw [h.nulls, h.len]; omega
    simp only [Bool.or_eq_true, Bool.and_eq_true, beq_iff_eq, hnl, or_false, htl]
    rw [h.nulls]
    constructor
    · rintro ⟨h0, h1⟩
      have key : ∃ b, ∀ o ∈ rs, o = some b := by
        rcases h1 with h1 | h1
        · refine ⟨true, fun o ho => ?_⟩
          cases o with
          | none => exact absurd ho (List.count_eq_zero.mp h0)
          | some x => rw [hallT h1.2 x (mem_valid.mpr ho)]
        · refine ⟨false, fun o ho => ?_⟩
          cases o with
          | none => exact absurd ho (List.count_eq_zero.mp h0)
          | some x =>
            rw [h.trues] at h1
            cases x
            · rfl
            · exact absurd ho (List.count_eq_zero.mp h1)
      obtain ⟨b, hb⟩ := key
      intro x hx y hy
      rw [hb x hx, hb y hy]
    · intro hs
      obtain ⟨x, hx⟩ := List.exists_mem_of_length_pos hvpos
      have hx' := mem_valid.mp hx
      have h0 : rs.count none = 0 := by
        rw [List.count_eq_zero]; intro hh; cases hs _ hh _ hx'
      refine ⟨h0, ?_⟩
      cases x
      · right
        rw [h.trues, List.count_eq_zero]; intro hh; simpa using hs _ hh _ hx'
      · left
        refine ⟨h0, ?_⟩
        rw [← hcf, List.count_eq_zero]; intro hh; simpa using hs _ hh _ hx'
  · simp [BoolAcc.finish, h.runCount]
  · simp [BoolAcc.finish, h.trues, hct]
  · intro x hx
    by_cases ht : acc.trueCount = acc.len
    · rw [hallT (htl.mp ht).2 x hx]; exact Bool.toNat_le _
    · rw [beq_eq_false_iff_ne.mpr ht]; exact Nat.zero_le _
  · intro hb
    simp only [Bool.and_eq_true, Bool.or_eq_true, decide_eq_true_eq, beq_iff_eq] at hb
    rw [hpw]
    refine ⟨h.sorted.mp hb.1, ?_⟩
    rw [h.len, h.trues, hct] at hb
    omega
  · intro hnn
    have h0 : rs.count none = 0 := List.count_eq_zero.mpr hnn
    refine ⟨⟨_, rfl, ?_⟩, ⟨_, rfl, ?_⟩⟩
    · by_cases ht : acc.trueCount = acc.len
      · have := (htl.mp ht).2
        simp only [ht, beq_self_eq_true]
        exact List.count_pos_iff.mp (by omega)
      · simp only [beq_eq_false_iff_ne.mpr ht]
        have : ¬ (valid rs).count false = 0 := fun hh => ht (htl.mpr ⟨h0, hh⟩)
        exact List.count_pos_iff.mp (Nat.pos_of_ne_zero this)
    · simp only [Bool.and_eq_true, Bool.or_eq_true, decide_eq_true_eq, beq_iff_eq]
      rw [hpw, h.sorted, h.len, h.trues, hct]
      have : rs.length = (valid rs).length := by omega
      rw [this]

/-- The code reports `min = false` for `[true, null]`: the minimum of the non-null values is `true`. -/
theorem C25_bool_min_not_attained :
    let a : PArr Bool := ⟨[true, false], .array [true, false]⟩
    a.WF ∧ valid a.rows = [true] ∧ (boolStats a).min = some (some false) := by decide

/-! ### strings and binaries -/

section VarBin
variable {α : Type} [LinearOrder α]

structure VbInv (a : VbAcc α) (rs : List (Option α)) : Prop where
  last : (valid rs).getLast? = some a.last
  min : a.min ∈ valid rs ∧ ∀ x ∈ valid rs, a.min ≤ x
  max : a.max ∈ valid rs ∧ ∀ x ∈ valid rs, x ≤ a.max
  sorted : a.isSorted = true ↔ (valid rs).Pairwise (· ≤ ·)
  strict : a.isStrictSorted = true ↔ (valid rs).Pairwise (· < ·)
  runs : a.runs = Spec.runs (valid rs)
  nulls : a.nullCount = rs.count none
  len : a.len = rs.length

theorem vbInv_init (x : α) (k : Nat) : VbInv ((VbAcc.new x).nNulls k) (List.replicate k none ++ [some x]) := by
  have hv : valid (List.replicate k none ++ [some x]) = [x] := by
    rw [valid_append, valid_replicate_none]; rfl
  constructor
  · rw [hv]; rfl
  · rw [hv]; simp [VbAcc.new, VbAcc.nNulls]
  · rw [hv]; simp [VbAcc.new, VbAcc.nNulls]
  · rw [hv]; simp [VbAcc.new, VbAcc.nNulls]
  · rw [hv]; simp [VbAcc.new, VbAcc.nNulls]
  · rw [hv]; rfl
  · simp [VbAcc.new, VbAcc.nNulls, List.count_append, List.count_cons]
  · simp [VbAcc.new, VbAcc.nNulls]; omega

theorem vbInv_step {a : VbAcc α} {rs : List (Option α)} (h : VbInv a rs) (o : Option α) :
    VbInv (a.nullableNext compare o) (rs ++ [o]) := by
  cases o with
  | none =>
    have hv : valid (rs ++ [none]) = valid rs := by rw [valid_append]; simp [valid]
    constructor
    · rw [hv]; exact h.last
    · rw [hv]; exact h.min
    · rw [hv]; exact h.max
    · rw [hv]; exact h.sorted
    · rw [hv]; exact h.strict
    · rw [hv]; exact h.runs
    · rw [List.count_append]; simp [VbAcc.nullableNext, VbAcc.nNulls, h.nulls]
    · simp [VbAcc.nullableNext, VbAcc.nNulls, h.len]
  | some x =>
    have hv : valid (rs ++ [some x]) = valid rs ++ [x] := by rw [valid_append]; rfl
    have hmin : (a.next compare x).min = if x < a.min then x else a.min := by
      simp only [VbAcc.next]
      cases compare x a.last <;> simp [compare_lt_iff_lt]
    have hmax : (a.next compare x).max = if x < a.min then a.max else if a.max < x then x else a.max := by
      simp only [VbAcc.next]
      cases compare x a.last <;> simp [compare_lt_iff_lt, compare_gt_iff_gt]
    have hlen : (a.next compare x).len = a.len + 1 := by
      simp only [VbAcc.next]; cases compare x a.last <;> rfl
    have hnull : (a.next compare x).nullCount = a.nullCount := by
      simp only [VbAcc.next]; cases compare x a.last <;> rfl
    have hcmp : ∀ P : VbAcc α → Prop, (x < a.last → P (a.next compare x)) → (x = a.last → P (a.next compare x)) →
        (a.last < x → P (a.next compare x)) → P (a.next compare x) := by
      intro P h1 h2 h3
      rcases lt_trichotomy x a.last with h | h | h
      · exact h1 h
      · exact h2 h
      · exact h3 h
    have hlt : x < a.last → compare x a.last = .lt := compare_lt_iff_lt.mpr
    have heq : x = a.last → compare x a.last = .eq := compare_eq_iff_eq.mpr
    have hgt : a.last < x → compare x a.last = .gt := compare_gt_iff_gt.mpr
    have hlast : (a.next compare x).last = x := by
      rcases lt_trichotomy x a.last with h | h | h
      · simp [VbAcc.next, hlt h]
      · simp [VbAcc.next, heq h]; exact h.symm
      · simp [VbAcc.next, hgt h]
    simp only [VbAcc.nullableNext]
    constructor
    · rw [hv, hlast]; simp
    · rw [hv, hmin]
      constructor
      · split
        · simp
        · simp [h.min.1]
      · intro y hy
        rcases List.mem_append.mp hy with hy | hy
        · have := h.min.2 y hy
          split
          · rename_i hx; exact le_trans (le_of_lt hx) this
          · exact this
        · simp at hy; subst hy
          split
          · exact le_refl _
          · rename_i hx; exact not_lt.mp hx
    · rw [hv, hmax]
      constructor
      · split
        · simp [h.max.1]
        · split
          · simp
          · simp [h.max.1]
      · intro y hy
        rcases List.mem_append.mp hy with hy | hy
        · have := h.max.2 y hy
          split
          · exact this
          · split
            · rename_i hx; exact le_trans this (le_of_lt hx)
            · exact this
        · simp at hy; subst hy
          split
          · rename_i hx; exact le_trans (le_of_lt hx) (h.max.2 _ h.min.1)
          · split
            · exact le_refl _
            · rename_i hx; exact not_lt.mp hx
    · rw [hv, pairwise_snoc (R := (· ≤ ·)) (fun _ _ _ => le_trans) _ _ _ h.last, ← h.sorted]
      rcases lt_trichotomy x a.last with hx | hx | hx
      · simp [VbAcc.next, hlt hx, hx]
      · simp [VbAcc.next, heq hx]; exact fun _ => le_of_eq hx.symm
      · simp [VbAcc.next, hgt hx]; exact fun _ => le_of_lt hx
    · rw [hv, pairwise_snoc (R := (· < ·)) (fun _ _ _ => lt_trans) _ _ _ h.last, ← h.strict]
      rcases lt_trichotomy x a.last with hx | hx | hx
      · simp [VbAcc.next, hlt hx]; exact fun _ => le_of_lt hx
      · simp [VbAcc.next, heq hx]; exact fun _ => le_of_eq hx
      · simp [VbAcc.next, hgt hx]; exact fun _ => hx
    · rw [hv, runs_snoc _ _ _ h.last, ← h.runs]
      rcases lt_trichotomy x a.last with hx | hx | hx
      · simp [VbAcc.next, hlt hx, ne_of_lt hx]
      · simp [VbAcc.next, heq hx, hx]
      · simp [VbAcc.next, hgt hx, ne_of_gt hx]
    · rw [List.count_append, hnull]; simp [h.nulls, List.count_cons]
    · rw [hlen]; simp [h.len]

theorem vbInv_fold (more : List (Option α)) {a : VbAcc α} {rs : List (Option α)} (h : VbInv a rs) :
    VbInv (more.foldl (VbAcc.nullableNext compare) a) (rs ++ more) := by
  induction more generalizing a rs with
  | nil => simpa using h
  | cons o more ih => simpa using ih (vbInv_step h o)

theorem varbinStatsFrom_spec (rs : List (Option α)) (k : Nat) (hv : valid rs ≠ []) :
    ∃ acc, VbInv acc (List.replicate k none ++ rs) ∧ varbinStatsFrom compare k rs = acc.finish := by
  induction rs generalizing k with
  | nil => exact absurd rfl hv
  | cons o rs ih =>
    cases o with
    | none =>
      obtain ⟨acc, h1, h2⟩ := ih (k + 1) hv
      refine ⟨acc, ?_, h2⟩
      have : List.replicate k none ++ none :: rs = List.replicate (k + 1) (none : Option α) ++ rs := by
        rw [List.replicate_succ', List.append_assoc]; rfl
      rw [this]; exact h1
    | some x =>
      refine ⟨_, ?_, rfl⟩
      have := vbInv_fold rs (vbInv_init x k)
      simpa using this

/-- **C25, string and binary arrays** (any totally ordered byte-string type): every statistic is exact. -/
theorem C25_varbin (rs : List (Option α)) (hv : valid rs ≠ []) :
    let s := varbinStats compare rs
    let vs := valid rs
    (∃ m, s.min = some (some m) ∧ m ∈ vs ∧ ∀ x ∈ vs, m ≤ x) ∧
    (∃ m, s.max = some (some m) ∧ m ∈ vs ∧ ∀ x ∈ vs, x ≤ m) ∧
    (∃ b, s.isConstant = some b ∧ (b = true ↔ AllSame rs)) ∧
    (∃ b, s.isSorted = some b ∧ (b = true ↔ vs.Pairwise (· ≤ ·))) ∧
    (∃ b, s.isStrictSorted = some b ∧ (b = true ↔ vs.Pairwise (· < ·))) ∧
    s.runCount = some (runs vs) ∧ s.nullCount = some (rs.count none) := by
  obtain ⟨acc, h, he⟩ := varbinStatsFrom_spec rs 0 hv
  simp only [List.replicate_zero, List.nil_append] at h
  have hne : rs.isEmpty = false := by
    cases rs with
    | nil => exact absurd rfl hv
    | cons _ _ => rfl
  simp only [varbinStats, hne, Bool.false_eq_true, if_false, he]
  refine ⟨⟨_, rfl, h.min⟩, ⟨_, rfl, h.max⟩, ⟨_, rfl, ?_⟩, ⟨_, rfl, h.sorted⟩, ⟨_, rfl, h.strict⟩, by simp [VbAcc.finish, h.runs],
    by simp [VbAcc.finish, h.nulls]⟩
  have hcn := count_none_eq rs
  have hvpos : 0 < (valid rs).length := List.length_pos_iff.mpr hv
  have hnl : ¬ acc.nullCount = acc.len := by rw [h.nulls, h.len]; omega
  simp only [Bool.or_eq_true, Bool.and_eq_true, beq_iff_eq, hnl, or_false, decide_eq_true_eq]
  constructor
  · rintro ⟨hmm, h0⟩
    rw [h.nulls] at h0
    have hall : ∀ o ∈ rs, o = some acc.min := by
      intro o ho
      cases o with
      | none => exact absurd ho (List.count_eq_zero.mp h0)
      | some x =>
        have hx := mem_valid.mpr ho
        exact congrArg some (le_antisymm (hmm ▸ h.max.2 x hx) (h.min.2 x hx))
    intro x hx y hy
    rw [hall x hx, hall y hy]
  · intro hs
    refine ⟨by simpa using hs _ (mem_valid.mp h.min.1) _ (mem_valid.mp h.max.1), ?_⟩
    rw [h.nulls, List.count_eq_zero]
    intro hh
    cases hs _ hh _ (mem_valid.mp h.min.1)

end VarBin

/-- **C25, constant arrays**: both reported statistics are true of the repeated scalar. -/
theorem C25_constant (o : Option Bool) (n : Nat) :
    AllSame (List.replicate n o) ∧ (constantStats (α := Bool) o n).isConstant = some true ∧
      (∀ c, (constantStats (α := Bool) o n).trueCount = some c → c = (List.replicate n o).count (some true)) := by
  refine ⟨?_, rfl, ?_⟩
  · intro x hx y hy
    rw [(List.mem_replicate.mp hx).2, (List.mem_replicate.mp hy).2]
  · intro c hc
    cases o with
    | none => cases hc
    | some b => cases b <;> simp [constantStats] at hc <;> subst hc <;> simp [List.count_replicate]

/-- The statistics of a column of `n` rows, all null: null extremes, constant, one run, sorted, strictly so when there is no pair of rows, `n` nulls. -/
def Spec.AllNullStats (s : StatsSet α) (n : Nat) : Prop :=
  s.min = some none ∧ s.max = some none ∧ s.isConstant = some true ∧ s.isSorted = some true ∧ s.isStrictSorted = some (decide (n < 2)) ∧
  s.runCount = some 1 ∧ s.nullCount = some n

/-- **C25, all rows null**: primitive, boolean and string columns report all these statistics (a boolean column also no true row). -/
theorem C25_all_null_stats {α : Type} (E : Elem α) (a : PArr α) (hw : a.WF) (hne : a.vals ≠ []) (hv : valid a.rows = []) :
    Spec.AllNullStats (primStats E a) a.len := by
  rw [C25_all_null E a hw hne hv]; exact ⟨rfl, rfl, rfl, rfl, rfl, rfl, rfl⟩

theorem C25_bool_all_null (a : PArr Bool) (hw : a.WF) (hne : a.vals ≠ []) (hv : valid a.rows = []) :
    Spec.AllNullStats (boolStats a) a.len ∧ (boolStats a).trueCount = some 0 := by
  obtain ⟨vals, v⟩ := a
  have hnr := valid_rows_nil (m := mask vals.length v) hw hv
  have h : boolStats ⟨vals, v⟩ = StatsSet.nullsBool vals.length := by
    cases vals with
    | nil => exact absurd rfl hne
    | cons x xs =>
      cases v with
      | nonNullable => exact absurd (by simp [mask]) hnr
      | allValid => exact absurd (by simp [mask]) hnr
      | allInvalid => rfl
      | array m =>
        simp only [PArr.WF, FitsLen, mask] at hw hnr
        have hmne : m ≠ [] := by rintro rfl; simp at hw
        have hc : m.count true = 0 := List.count_eq_zero.mpr hnr
        have hlen : 0 < m.length := List.length_pos_iff.mpr hmne
        simp only [boolStats, Validity.toLogical, PArr.len, Validity.boolMin, Validity.boolMax, List.isEmpty_iff, hmne, if_false,
          Option.getD_some, Option.map_some, beq_iff_eq, hc]
        simp [show ¬ (0 = m.length) by omega]
  rw [h]; exact ⟨⟨rfl, rfl, rfl, rfl, rfl, rfl, rfl⟩, rfl⟩

theorem varbinStatsFrom_nulls [DecidableEq α] (cmp : α → α → Ordering) (n k : Nat) :
    varbinStatsFrom cmp k (List.replicate n none) = StatsSet.nullsOther (k + n) := by
  induction n generalizing k with
  | zero => rfl
  | succ n ih => rw [List.replicate_succ, varbinStatsFrom, ih]; congr 1; omega

theorem C25_varbin_all_null [DecidableEq α] (cmp : α → α → Ordering) (rs : List (Option α)) (hne : rs ≠ []) (hv : valid rs = []) :
    Spec.AllNullStats (varbinStats cmp rs) rs.length := by
  have hr : rs = List.replicate rs.length none := by
    refine List.eq_replicate_iff.mpr ⟨rfl, fun o ho => ?_⟩
    cases o with
    | none => rfl
    | some x =>
      have := mem_valid.mpr ho
      rw [hv] at this; cases this
  unfold varbinStats
  rw [if_neg (by simpa using hne)]
  have h2 := varbinStatsFrom_nulls cmp rs.length 0
  rw [← hr, Nat.zero_add] at h2
  rw [h2]; exact ⟨rfl, rfl, rfl, rfl, rfl, rfl, rfl⟩

example : Spec.AllNullStats (boolStats ⟨[true, false], .array [false, false]⟩) 2 :=
  (C25_bool_all_null ⟨[true, false], .array [false, false]⟩ (by decide) (by simp) (by decide)).1

/-- Non-vacuity: a nullable array with nulls at both ends and a duplicate. -/
example : let a : PArr (BitVec 8) := ⟨[9#8, 3#8, 3#8, 254#8, 0#8], .array [false, true, true, true, false]⟩
    a.WF ∧ valid a.rows = [3#8, 3#8, 254#8] ∧ (primStats (intElem true 8) a).min = some (some 254#8) ∧
    (primStats (intElem false 8) a).isSorted = some true ∧ (primStats (intElem true 8) a).nullCount = some 2 := by decide +kernel

end Vx
