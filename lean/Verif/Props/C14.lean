import Verif.Model.Dict
import Verif.Lemmas.Primitive
/-! # C14: dictionary encoding -/

namespace Vx
open Spec
namespace Dict

/-- Codes point into the dictionary. -/
structure WF (a : Dict α) : Prop where
  values : a.values.WF
  codes : ∀ c ∈ a.codes, c < a.values.len

/-- Row `i` is the dictionary entry numbered `codes[i]`. -/
def rows (a : Dict α) : List (Option α) := Spec.take a.values.rows a.codes

theorem rows_length {a : Dict α} (hw : a.WF) : a.rows.length = a.len := by
  rw [rows, Spec.take_length (by intro c hc; rw [PArr.rows_len hw.values]; exact hw.codes c hc)]; rfl

theorem rows_getElem? {a : Dict α} (hw : a.WF) (i : Nat) : a.rows[i]? = (a.codes[i]?).bind (fun c => a.values.rows[c]?) := by
  rw [rows, Spec.take_getElem? (by intro c hc; rw [PArr.rows_len hw.values]; exact hw.codes c hc)]

/-! ### encoding -/

variable {α : Type} [DecidableEq α]

/-- Invariant of the encoder: `base` is 1 when code 0 is reserved for null. -/
structure Inv (base : Nat) (zero : α) (st : Enc α) (done : List (Option α)) : Prop where
  prefix_ : st.values = List.replicate base zero ++ st.lookup.map (·.1)
  lookup : ∀ k (h : k < st.lookup.length), (st.lookup[k]).2 = base + k
  nodup : (st.lookup.map (·.1)).Nodup
  codes : st.codes.length = done.length
  row : ∀ (i : Nat) (r : Option α), done[i]? = some r → match r with
    | none => st.codes[i]? = some 0
    | some v => ∃ c, st.codes[i]? = some c ∧ base ≤ c ∧ st.values[c]? = some v

theorem find_lookup {base : Nat} {zero : α} {st : Enc α} {done : List (Option α)} (h : Inv base zero st done) {v : α} {p : α × Nat}
    (hp : st.lookup.find? (fun p => p.1 == v) = some p) : base ≤ p.2 ∧ st.values[p.2]? = some v := by
  have h1 := List.find?_some hp
  have h2 := List.mem_of_find?_eq_some hp
  obtain ⟨k, hk, rfl⟩ := List.getElem_of_mem h2
  have h3 := h.lookup k hk
  rw [h3]
  refine ⟨by omega, ?_⟩
  rw [h.prefix_, List.getElem?_append_right (by simp)]
  simp only [List.length_replicate, Nat.add_sub_cancel_left, List.getElem?_map, List.getElem?_eq_getElem hk, Option.map_some]
  simpa using h1

theorem inv_step {base : Nat} {zero : α} {st : Enc α} {done : List (Option α)} (h : Inv base zero st done) (r : Option α) :
    Inv base zero (step st r) (done ++ [r]) := by
  have hmono : ∀ (codes : List Nat) (x : Nat) (i : Nat) (c : Nat), codes[i]? = some c → (codes ++ [x])[i]? = some c := by
    intro codes x i c hc
    rw [List.getElem?_append_left (List.getElem?_eq_some_iff.mp hc).1, hc]
  cases r with
  | none =>
    refine ⟨h.prefix_, h.lookup, h.nodup, by simp [step, h.codes], ?_⟩
    intro i r hi
    by_cases hlt : i < done.length
    · rw [List.getElem?_append_left hlt] at hi
      have := h.row i r hi
      cases r with
      | none => exact hmono _ _ _ _ this
      | some v => obtain ⟨c, h1, h2, h3⟩ := this; exact ⟨c, hmono _ _ _ _ h1, h2, h3⟩
    · rw [List.getElem?_append_right (by omega)] at hi
      have hi0 : i = done.length := by
        have := (List.getElem?_eq_some_iff.mp hi).1; simp at this; omega
      subst hi0
      simp at hi; subst hi
      simp [step, ← h.codes]
  | some v =>
    simp only [step]
    split
    · rename_i p hp
      obtain ⟨hb, hv⟩ := find_lookup h hp
      refine ⟨h.prefix_, h.lookup, h.nodup, by simp [h.codes], ?_⟩
      intro i r hi
      by_cases hlt : i < done.length
      · rw [List.getElem?_append_left hlt] at hi
        have := h.row i r hi
        cases r with
        | none => exact hmono _ _ _ _ this
        | some v => obtain ⟨c, h1, h2, h3⟩ := this; exact ⟨c, hmono _ _ _ _ h1, h2, h3⟩
      · rw [List.getElem?_append_right (by omega)] at hi
        have hi0 : i = done.length := by
          have := (List.getElem?_eq_some_iff.mp hi).1; simp at this; omega
        subst hi0
        simp at hi; subst hi
        exact ⟨p.2, by simp [← h.codes], hb, hv⟩
    · rename_i hnone
      have hnew : v ∉ st.lookup.map (·.1) := by
        intro hm
        obtain ⟨p, hp, rfl⟩ := List.mem_map.mp hm
        have := List.find?_eq_none.mp hnone p hp
        simp at this
      have hlen : st.values.length = base + st.lookup.length := by rw [h.prefix_]; simp
      refine ⟨?_, ?_, ?_, by simp [h.codes], ?_⟩
      · simp only [h.prefix_, List.map_append, List.map_cons, List.map_nil, List.append_assoc]
      · intro k hk
        simp only [List.length_append, List.length_cons, List.length_nil] at hk
        by_cases hk2 : k < st.lookup.length
        · rw [List.getElem_append_left hk2]; exact h.lookup k hk2
        · have : k = st.lookup.length := by omega
          subst this
          simp [hlen]
      · simp only [List.map_append, List.map_cons, List.map_nil]
        rw [List.nodup_append]
        refine ⟨h.nodup, by simp, ?_⟩
        intro a ha b hb
        simp at hb; subst hb
        intro hc; subst hc; exact hnew ha
      · intro i r hi
        by_cases hlt : i < done.length
        · rw [List.getElem?_append_left hlt] at hi
          have := h.row i r hi
          cases r with
          | none => exact hmono _ _ _ _ this
          | some v =>
            obtain ⟨c, h1, h2, h3⟩ := this
            refine ⟨c, hmono _ _ _ _ h1, h2, ?_⟩
            rw [List.getElem?_append_left (List.getElem?_eq_some_iff.mp h3).1, h3]
        · rw [List.getElem?_append_right (by omega)] at hi
          have hi0 : i = done.length := by
            have := (List.getElem?_eq_some_iff.mp hi).1; simp at this; omega
          subst hi0
          simp at hi; subst hi
          exact ⟨st.values.length, by simp [← h.codes], by omega, by simp⟩

theorem inv_fold {base : Nat} {zero : α} (rs : List (Option α)) {st : Enc α} {done : List (Option α)} (h : Inv base zero st done) :
    Inv base zero (rs.foldl step st) (done ++ rs) := by
  induction rs generalizing st done with
  | nil => simpa using h
  | cons r rs ih => simpa using ih (inv_step h r)

theorem encode_inv (zero : α) (nullable : Bool) (rs : List (Option α)) :
    ∃ st : Enc α, Inv (if nullable then 1 else 0) zero st rs ∧ encode zero nullable rs = ⟨st.codes, ⟨st.values,
      if nullable then Validity.ofVec ((List.replicate st.values.length true).set 0 false) else .nonNullable⟩⟩ := by
  refine ⟨rs.foldl step { lookup := [], codes := [], values := if nullable then [zero] else [] }, ?_, rfl⟩
  have h0 : Inv (if nullable then 1 else 0) zero
      ({ lookup := [], codes := [], values := if nullable then [zero] else [] } : Enc α) [] := by
    refine ⟨by cases nullable <;> rfl, by simp, by simp, rfl, by simp⟩
  simpa using inv_fold rs h0

theorem set_false_mask (n : Nat) (hn : 0 < n) :
    mask n (Validity.ofVec ((List.replicate n true).set 0 false)) = false :: List.replicate (n - 1) true := by
  have h := mask_ofVec ((List.replicate n true).set 0 false)
  simp only [List.length_set, List.length_replicate] at h
  rw [h]
  obtain ⟨m, rfl⟩ : ∃ m, n = m + 1 := ⟨n - 1, by omega⟩
  simp [List.replicate_succ]

/-- The rows of the dictionary the encoder builds: a leading null when the array is nullable, then distinct values. -/
theorem encode_values (zero : α) (nullable : Bool) (rs : List (Option α)) :
    let d := encode zero nullable rs
    d.values.WF ∧ ∃ vs : List α, vs.Nodup ∧ d.values.rows = (if nullable then [none] else []) ++ vs.map some := by
  obtain ⟨st, hi, he⟩ := encode_inv zero nullable rs
  simp only [he]
  have hpos : nullable = true → 0 < st.values.length := by
    intro h; rw [hi.prefix_, h]; simp
  cases nullable with
  | false =>
    refine ⟨by simp [PArr.WF, FitsLen, mask], st.lookup.map (·.1), hi.nodup, ?_⟩
    have hp := hi.prefix_
    simp at hp
    simp only [PArr.rows, mask, Bool.false_eq_true, if_false, hp, List.nil_append]
    generalize st.lookup.map (·.1) = l
    induction l with
    | nil => rfl
    | cons x l ih => simpa [Spec.rows, List.replicate_succ] using ih
  | true =>
    have hl := hpos rfl
    have hm := set_false_mask st.values.length hl
    refine ⟨?_, st.lookup.map (·.1), hi.nodup, ?_⟩
    · simp only [PArr.WF, FitsLen, if_true, hm]; simp; omega
    · simp only [PArr.rows, if_true, hm]
      have hp := hi.prefix_
      simp at hp
      simp only [hp, Spec.rows, List.length_cons, Nat.add_sub_cancel, List.zipWith_cons_cons, Bool.false_eq_true, if_false,
        List.cons_append, List.nil_append, List.cons.injEq, true_and]
      generalize st.lookup.map (·.1) = l
      induction l with
      | nil => rfl
      | cons x l ih => simpa [List.replicate_succ] using ih

/-- **C14, round trip.** For every sequence of optional values (any element type with exact equality: integers, float bit
patterns, byte strings), the dictionary array built from it is well formed and stands for exactly those rows. -/
theorem C14_encode (zero : α) (nullable : Bool) (rs : List (Option α)) (hnn : nullable = false → none ∉ rs) :
    let d := encode zero nullable rs
    d.WF ∧ d.len = rs.length ∧ d.rows = rs := by
  obtain ⟨st, hi, he⟩ := encode_inv zero nullable rs
  obtain ⟨hvw, -⟩ := encode_values zero nullable rs
  simp only [he] at hvw ⊢
  have hpos : nullable = true → 0 < st.values.length := by
    intro h; rw [hi.prefix_, h]; simp
  -- every code leads to its row
  have hrow : ∀ (i : Nat) (r : Option α), rs[i]? = some r → ∃ c, st.codes[i]? = some c ∧ c < st.values.length ∧
      (⟨st.values, if nullable then Validity.ofVec ((List.replicate st.values.length true).set 0 false) else .nonNullable⟩ : PArr α).rows[c]? =
        some r := by
    intro i r hr
    have h := hi.row i r hr
    cases r with
    | none =>
      have hn : nullable = true := by
        cases nullable with
        | true => rfl
        | false => exact absurd (List.mem_iff_getElem?.mpr ⟨i, hr⟩) (hnn rfl)
      subst hn
      have hp := hpos rfl
      refine ⟨0, h, hp, ?_⟩
      simp only [PArr.rows, if_true, Vx.rows_getElem?, set_false_mask _ hp, List.getElem?_cons_zero, List.getElem?_eq_getElem hp]
    | some v =>
      obtain ⟨c, h1, h2, h3⟩ := h
      have hlt := (List.getElem?_eq_some_iff.mp h3).1
      refine ⟨c, h1, hlt, ?_⟩
      simp only [PArr.rows, Vx.rows_getElem?, h3]
      cases nullable with
      | false => simp [mask, hlt]
      | true =>
        simp only [if_true, set_false_mask _ (hpos rfl)]
        simp only [if_true] at h2
        obtain ⟨k, rfl⟩ : ∃ k, c = k + 1 := ⟨c - 1, by omega⟩
        simp [show k < st.values.length - 1 by omega]
  have hcodes : ∀ c ∈ st.codes, c < st.values.length := by
    intro c hc
    obtain ⟨i, hi'⟩ := List.mem_iff_getElem?.mp hc
    have hlt : i < rs.length := by rw [← hi.codes]; exact (List.getElem?_eq_some_iff.mp hi').1
    obtain ⟨c', h1, h2, _⟩ := hrow i _ (List.getElem?_eq_getElem hlt)
    rw [hi'] at h1; simp at h1; omega
  have hw : (⟨st.codes, ⟨st.values, if nullable then Validity.ofVec ((List.replicate st.values.length true).set 0 false) else
      .nonNullable⟩⟩ : Dict α).WF := ⟨hvw, hcodes⟩
  refine ⟨hw, hi.codes, ?_⟩
  apply List.ext_getElem?
  intro i
  rw [rows_getElem? hw]
  by_cases hlt : i < rs.length
  · obtain ⟨c, h1, _, h3⟩ := hrow i _ (List.getElem?_eq_getElem hlt)
    simp only [h1, Option.bind_some, h3, List.getElem?_eq_getElem hlt]
  · simp only [List.getElem?_eq_none (show st.codes.length ≤ i by rw [hi.codes]; omega), Option.bind_none,
      List.getElem?_eq_none (show rs.length ≤ i by omega)]

/-- The reserved null code: in a nullable dictionary entry 0 is null and no other entry is. -/
def NullCode (a : Dict α) : Prop := a.values.validity.nullable = true → ∀ c < a.values.len, a.values.rows[c]? = some none ↔ c = 0

omit [DecidableEq α] in
theorem ofVec_nullable (l : List Bool) : (Validity.ofVec l).nullable = true := by
  unfold Validity.ofVec
  split
  · rfl
  · split <;> rfl

/-- **C14, dictionary.** Its values are pairwise distinct, every code is in range, null rows have code 0 and only they do. -/
theorem C14_dictionary (zero : α) (nullable : Bool) (rs : List (Option α)) (hnn : nullable = false → none ∉ rs) :
    let d := encode zero nullable rs
    (d.values.rows.filterMap id).Nodup ∧ (∀ c ∈ d.codes, c < d.values.len) ∧ NullCode d ∧
    (nullable = true → ∀ i : Nat, rs[i]? = some none ↔ d.codes[i]? = some 0) := by
  obtain ⟨hw, hlen, hr⟩ := C14_encode zero nullable rs hnn
  obtain ⟨hvw, vs, hnd, hvr⟩ := encode_values zero nullable rs
  have hNC : NullCode (encode zero nullable rs) := by
    intro hn c hc
    cases nullable with
    | false => simp [encode, Validity.nullable] at hn
    | true =>
      rw [hvr]
      simp only [if_true, List.cons_append, List.nil_append]
      cases c with
      | zero => simp
      | succ c => simp
  refine ⟨?_, hw.codes, hNC, ?_⟩
  · rw [hvr]
    cases nullable <;> simpa using hnd
  · intro hn i
    have h1 := rows_getElem? hw i
    rw [hr] at h1
    rw [h1]
    have hval : (encode zero nullable rs).values.validity.nullable = true := by
      simp only [encode, hn, if_true]; exact ofVec_nullable _
    cases hc : (encode zero nullable rs).codes[i]? with
    | none => simp
    | some c =>
      have := hNC hval c (hw.codes c (List.mem_iff_getElem?.mpr ⟨i, hc⟩))
      simp only [Option.bind_some, Option.some.injEq]
      exact this

omit [DecidableEq α] in
/-- **C14, decoding.** The canonical form has the dictionary array's rows. -/
theorem C14_canonical (a : Dict α) (hw : a.WF) : ∃ p, a.canonical = .ok p ∧ p.WF ∧ p.rows = a.rows := by
  obtain ⟨p, h1, h2, h3, _⟩ := PArr.take_ok hw.values (is := a.codes) hw.codes
  exact ⟨p, h1, h3, h2⟩

omit [DecidableEq α] in
/-- **C14, scalar_at** is the row; out of bounds is an error. -/
theorem C14_scalar_at (a : Dict α) (hw : a.WF) (i : Nat) :
    (a.len ≤ i → a.scalarAt i = .err) ∧ (i < a.len → ∃ r, a.scalarAt i = .ok r ∧ a.rows[i]? = some r) := by
  refine ⟨fun h => by simp [scalarAt, h], fun hi => ?_⟩
  have hi' : i < a.codes.length := hi
  have hc : a.codes[i] < a.values.len := hw.codes _ (List.getElem_mem hi')
  obtain ⟨b, hb, hm⟩ := PArr.isValid_mask hw.values hc
  have hr : a.rows[i]? = some (if b then some (a.values.vals[a.codes[i]]'hc) else none) := by
    rw [rows_getElem? hw, List.getElem?_eq_getElem hi', Option.bind_some, PArr.rows, Vx.rows_getElem?, hm,
      List.getElem?_eq_getElem (show a.codes[i] < a.values.vals.length from hc)]
    cases b <;> rfl
  cases b with
  | false =>
    exact ⟨none, by simp [scalarAt, Nat.not_le.mpr hi, isValid, idx_lt hi', hc, hb], by simpa using hr⟩
  | true =>
    exact ⟨some (a.values.vals[a.codes[i]]'hc), by
      simp [scalarAt, Nat.not_le.mpr hi, isValid, idx_lt hi', hc, hb, idx_lt (show a.codes[i] < a.values.vals.length from hc)]; rfl,
      by simpa using hr⟩

omit [DecidableEq α] in
/-- **C14, slice / take / filter** return the corresponding rows and keep the dictionary (so codes keep meaning the same entries,
and the null code stays reserved). -/
theorem C14_access (a : Dict α) (hw : a.WF) :
    (∀ s e, InBounds a.len s e → ∃ b, a.slice s e = .ok b ∧ b.WF ∧ b.values = a.values ∧ b.rows = Spec.slice a.rows s e) ∧
    (∀ s e, ¬ InBounds a.len s e → a.slice s e = .err) ∧
    (∀ is, (∀ i ∈ is, i < a.len) → ∃ b, a.take is = .ok b ∧ b.WF ∧ b.values = a.values ∧ b.rows = Spec.take a.rows is) ∧
    (∀ m, m.length = a.len → ∃ b, a.filter m = .ok b ∧ b.WF ∧ b.values = a.values ∧ b.rows = Spec.filter a.rows m) := by
  have hmap : ∀ cs : List Nat, (∀ c ∈ cs, c < a.values.len) → Spec.take a.values.rows cs = cs.map (fun c => (a.values.rows[c]?).getD none) := by
    intro cs hcs
    apply List.ext_getElem?
    intro k
    rw [Spec.take_getElem? (by intro c hc; rw [PArr.rows_len hw.values]; exact hcs c hc), List.getElem?_map]
    cases hk : cs[k]? with
    | none => rfl
    | some c =>
      have : c < a.values.rows.length := by rw [PArr.rows_len hw.values]; exact hcs c (List.mem_iff_getElem?.mpr ⟨k, hk⟩)
      simp [this]
  have hsub : ∀ cs : List Nat, (∀ c ∈ cs, c ∈ a.codes) → (⟨cs, a.values⟩ : Dict α).WF :=
    fun cs h => ⟨hw.values, fun c hc => hw.codes c (h c hc)⟩
  refine ⟨?_, ?_, ?_, ?_⟩
  · intro s e h
    have hm : ∀ c ∈ Spec.slice a.codes s e, c ∈ a.codes := by
      intro c hc
      exact List.mem_of_mem_take (List.mem_of_mem_drop hc)
    refine ⟨⟨Spec.slice a.codes s e, a.values⟩, by simp [slice, sliceList_ok (show InBounds a.codes.length s e from h)], hsub _ hm, rfl, ?_⟩
    rw [rows, rows, hmap _ (fun c hc => hw.codes c (hm c hc)), hmap _ hw.codes, slice_map]
  · intro s e h
    simp [slice, sliceList_err (show ¬ InBounds a.codes.length s e from h)]
  · intro is h
    have hm : ∀ c ∈ Spec.take a.codes is, c ∈ a.codes := by
      intro c hc
      simp only [Spec.take, List.mem_filterMap] at hc
      obtain ⟨i, _, hi⟩ := hc
      exact List.mem_iff_getElem?.mpr ⟨i, hi⟩
    refine ⟨⟨Spec.take a.codes is, a.values⟩, by simp [take, takeList_ok (show ∀ i ∈ is, i < a.codes.length from h)], hsub _ hm, rfl, ?_⟩
    rw [rows, rows, hmap _ (fun c hc => hw.codes c (hm c hc)), hmap _ hw.codes, Spec.take_map]
  · intro m h
    have hm : ∀ c ∈ Spec.filter a.codes m, c ∈ a.codes := by
      intro c hc
      rw [filter_eq_take _ _ (show a.codes.length = m.length from h.symm)] at hc
      simp only [Spec.take, List.mem_filterMap] at hc
      obtain ⟨i, _, hi⟩ := hc
      exact List.mem_iff_getElem?.mpr ⟨i, hi⟩
    refine ⟨⟨Spec.filter a.codes m, a.values⟩, by simp [filter, filterList_ok (show m.length = a.codes.length from h)], hsub _ hm, rfl, ?_⟩
    rw [rows, rows, hmap _ (fun c hc => hw.codes c (hm c hc)), hmap _ hw.codes, filter_map]

omit [DecidableEq α] in
/-- **C14, validity.** With the reserved null code (all arrays produced by the encoder and by slicing, taking, filtering them) the
logical validity says exactly which rows are not null. -/
theorem C14_logical_validity_partial (a : Dict α) (hw : a.WF) (hn : NullCode a) :
    a.logicalValidity.intoBools = a.rows.map Option.isSome := by
  apply List.ext_getElem?
  intro i
  rw [List.getElem?_map, rows_getElem? hw]
  unfold logicalValidity
  cases hnl : a.values.validity.nullable with
  | true =>
    simp only [if_true, LogicalValidity.intoBools, List.getElem?_map]
    cases hc : a.codes[i]? with
    | none => rfl
    | some c =>
      have hlt := hw.codes c (List.mem_iff_getElem?.mpr ⟨i, hc⟩)
      have h := hn hnl c hlt
      have hlt' : c < a.values.rows.length := by rw [PArr.rows_len hw.values]; exact hlt
      rw [List.getElem?_eq_getElem hlt'] at h
      simp only [Option.map_some, Option.bind_some, List.getElem?_eq_getElem hlt', Option.some.injEq]
      simp only [Option.some.injEq] at h
      cases hr : a.values.rows[c] with
      | none => have := h.mp hr; simp [this]
      | some v =>
        have : c ≠ 0 := fun h0 => by have := h.mpr h0; rw [hr] at this; cases this
        simp [this]
  | false =>
    simp only [Bool.false_eq_true, if_false, LogicalValidity.intoBools]
    have hv : a.values.validity = .nonNullable := by
      cases hv : a.values.validity <;> simp_all [Validity.nullable]
    cases hc : a.codes[i]? with
    | none => simp [List.getElem?_eq_none_iff] at hc ⊢; simp [len]; omega
    | some c =>
      have hlt := hw.codes c (List.mem_iff_getElem?.mpr ⟨i, hc⟩)
      have hil : i < a.len := (List.getElem?_eq_some_iff.mp hc).1
      have hlt' : c < a.values.vals.length := hlt
      simp [PArr.rows, Vx.rows_getElem?, hv, mask, hlt', hil]

omit [DecidableEq α] in
/-- The null-code invariant depends on the dictionary values only. -/
theorem NullCode_congr {a b : Dict α} (h : b.values = a.values) (hn : NullCode a) : NullCode b := by
  unfold NullCode at *; rw [h]; exact hn

/-- A dictionary array may legally be built with a nullable dictionary whose entry 0 is not null; then the reported validity is
wrong in both directions. -/
theorem C14_validity_wrong_without_null_code :
    let a : Dict (BitVec 8) := ⟨[0, 1], ⟨[5#8, 0#8], .array [true, false]⟩⟩
    a.WF ∧ a.rows = [some 5#8, none] ∧ a.logicalValidity.intoBools = [false, true] :=
  ⟨⟨by decide, by decide⟩, by decide, by decide⟩

/-- Non-vacuity: `-0.0` and `0.0` (different bits) keep different codes, nulls get code 0, a value equal to the placeholder does not. -/
example :
    encode (0 : BitVec 8) true [some 7#8, none, some 0#8, some 7#8] = ⟨[1, 0, 2, 1], ⟨[0#8, 7#8, 0#8], .array [false, true, true]⟩⟩ ∧
    (encode (0 : BitVec 8) true [some 7#8, none, some 0#8, some 7#8]).canonical = .ok ⟨[7#8, 0#8, 0#8, 7#8], .array [true, false, true, true]⟩ := by
  decide

end Dict
end Vx
