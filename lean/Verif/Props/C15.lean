import Verif.Lemmas.RunEnd
import Verif.Spec.Stats
/-! # C15: run-end encoding -/

namespace Vx
open Spec
namespace RunEnd

/-! ### encoding -/

theorem encodeLoop_lens (ne : α → α → Bool) (xs : List α) (last : α) (stop : Nat) :
    (encodeLoop ne xs last stop).1.length = (encodeLoop ne xs last stop).2.length := by
  induction xs generalizing last stop with
  | nil => rfl
  | cons x xs ih => rw [encodeLoop]; split <;> simp [ih]

theorem encodeLoop_ends (ne : α → α → Bool) (xs : List α) (last : α) (stop : Nat) :
    let r := encodeLoop ne xs last stop
    r.1.Pairwise (· < ·) ∧ (∀ e ∈ r.1, stop ≤ e) ∧ r.1.getLast? = some (stop + xs.length) := by
  induction xs generalizing last stop with
  | nil => simp [encodeLoop]
  | cons x xs ih =>
    obtain ⟨h1, h2, h3⟩ := ih x (stop + 1)
    simp only [encodeLoop]
    split
    · refine ⟨List.pairwise_cons.mpr ⟨fun e he => by have := h2 e he; omega, h1⟩, ?_, ?_⟩
      · intro e he
        rcases List.mem_cons.mp he with rfl | he
        · exact Nat.le_refl _
        · have := h2 e he; omega
      · rw [List.getLast?_cons, h3]; simp; omega
    · refine ⟨h1, fun e he => by have := h2 e he; omega, ?_⟩
      rw [h3]; simp; omega

/-- Reading the encoded runs back, from one before the first unread element. Each row comes back as itself, or as a value that
`!=` does not tell apart from it. -/
theorem encodeLoop_expand (ne : α → α → Bool) (htr : ∀ a b c, ne a b = false → ne b c = false → ne a c = false)
    (xs : List α) (last : α) (stop start : Nat) (h : start < stop) :
    let r := encodeLoop ne xs last stop
    (List.replicate (stop - start) (expandFrom start r.1 r.2)).length = stop - start ∧
    (expandFrom start r.1 r.2).length = stop - start + xs.length ∧
    (∀ i, i < stop - start → ∃ y, (expandFrom start r.1 r.2)[i]? = some y ∧ (y = last ∨ ne y last = false)) ∧
    (∀ i (hi : i < xs.length), ∃ y, (expandFrom start r.1 r.2)[stop - start + i]? = some y ∧ (y = xs[i] ∨ ne y xs[i] = false)) := by
  induction xs generalizing last stop start with
  | nil =>
    simp only [encodeLoop, expandFrom, List.append_nil]
    refine ⟨by simp, by simp, fun i hi => ⟨last, by simp [hi], .inl rfl⟩, fun i hi => by simp at hi⟩
  | cons x xs ih =>
    simp only [encodeLoop]
    split
    · rename_i hne
      obtain ⟨_, h1, h2, h3⟩ := ih x (stop + 1) stop (by omega)
      refine ⟨by simp, ?_, ?_, ?_⟩
      · simp only [expandFrom, List.length_append, List.length_replicate, h1, List.length_cons]; omega
      · intro i hi
        exact ⟨last, by simp [expandFrom, List.getElem?_append_left, hi], .inl rfl⟩
      · intro i hi
        simp only [expandFrom]
        rw [List.getElem?_append_right (by simp)]
        simp only [List.length_replicate, Nat.add_sub_cancel_left]
        cases i with
        | zero =>
          obtain ⟨y, hy, hc⟩ := h2 0 (by omega)
          exact ⟨y, hy, hc⟩
        | succ i =>
          obtain ⟨y, hy, hc⟩ := h3 i (by simpa using hi)
          refine ⟨y, ?_, by simpa using hc⟩
          rw [← hy]; congr 1; omega
    · rename_i hne
      have hne : ne x last = false := by simpa using hne
      obtain ⟨_, h1, h2, h3⟩ := ih x (stop + 1) start (by omega)
      refine ⟨by simp, ?_, ?_, ?_⟩
      · rw [h1, List.length_cons]; omega
      · intro i hi
        obtain ⟨y, hy, hc⟩ := h2 i (by omega)
        refine ⟨y, hy, .inr ?_⟩
        rcases hc with rfl | hc
        · exact hne
        · exact htr _ _ _ hc hne
      · intro i hi
        cases i with
        | zero =>
          obtain ⟨y, hy, hc⟩ := h2 (stop - start) (by omega)
          exact ⟨y, hy, hc⟩
        | succ i =>
          obtain ⟨y, hy, hc⟩ := h3 i (by simpa using hi)
          refine ⟨y, ?_, by simpa using hc⟩
          rw [← hy]; congr 1; omega

/-- **C15, run structure.** The ends of an encoded array are strictly increasing and finish at the length, there is one value per
end, and adjacent runs hold different values. -/
theorem C15_runs (ne : α → α → Bool) (xs : List α) :
    let r := encodePrimitive ne xs
    r.1.length = r.2.length ∧ r.1.Pairwise (· < ·) ∧ (∀ e ∈ r.1, 0 < e) ∧ r.1.getLast?.getD 0 = xs.length := by
  cases xs with
  | nil => simp [encodePrimitive]
  | cons x xs =>
    obtain ⟨h1, h2, h3⟩ := encodeLoop_ends ne xs x 1
    refine ⟨encodeLoop_lens ne xs x 1, h1, fun e he => h2 e he, ?_⟩
    simp only [encodePrimitive, h3, List.length_cons, Option.getD_some]; omega

theorem encodeLoop_values [DecidableEq α] (xs : List α) (last : α) (stop : Nat) :
    let r := encodeLoop (fun a b => decide (a ≠ b)) xs last stop
    r.2.head? = some last ∧ r.2.length = runs (last :: xs) ∧ ∀ i (h : i + 1 < r.2.length), r.2[i] ≠ r.2[i + 1] := by
  induction xs generalizing last stop with
  | nil => simp [encodeLoop, runs]
  | cons x xs ih =>
    obtain ⟨h1, h2, h3⟩ := ih x (stop + 1)
    simp only [encodeLoop, decide_eq_true_eq]
    split
    · rename_i hne
      refine ⟨rfl, ?_, ?_⟩
      · simp only [List.length_cons, h2, runs, if_neg (Ne.symm hne)]; omega
      · intro i hi
        cases i with
        | zero =>
          simp only [List.getElem_cons_zero, List.getElem_cons_succ]
          rw [List.head?_eq_getElem?, List.getElem?_eq_some_iff] at h1
          obtain ⟨_, h1⟩ := h1
          rw [h1]; exact Ne.symm hne
        | succ i => simpa using h3 i (by simpa using hi)
    · rename_i hne
      have : x = last := Classical.not_not.mp hne
      subst this
      exact ⟨h1, by rw [h2, runs, if_pos rfl, Nat.zero_add], h3⟩

/-- **C15, run structure with exact comparison.** The number of runs is the number of maximal runs of the input, and adjacent
runs hold different values. -/
theorem C15_run_count [DecidableEq α] (xs : List α) :
    let r := encodePrimitive (fun a b => decide (a ≠ b)) xs
    r.2.length = runs xs ∧ ∀ i (h : i + 1 < r.2.length), r.2[i] ≠ r.2[i + 1] := by
  cases xs with
  | nil => exact ⟨rfl, fun i h => by simp [encodePrimitive] at h⟩
  | cons x xs => exact ⟨(encodeLoop_values xs x 1).2.1, (encodeLoop_values xs x 1).2.2⟩

theorem encode_expand (ne : α → α → Bool) (htr : ∀ a b c, ne a b = false → ne b c = false → ne a c = false) (xs : List α) :
    let r := encodePrimitive ne xs
    (expand r.1 r.2).length = xs.length ∧
    ∀ i (hi : i < xs.length), ∃ y, (expand r.1 r.2)[i]? = some y ∧ (y = xs[i] ∨ ne y xs[i] = false) := by
  cases xs with
  | nil => exact ⟨rfl, fun i hi => by simp at hi⟩
  | cons x xs =>
    obtain ⟨_, h1, h2, h3⟩ := encodeLoop_expand ne htr xs x 1 0 (by omega)
    refine ⟨by rw [expand]; simp only [encodePrimitive]; rw [h1, List.length_cons]; omega, ?_⟩
    intro i hi
    cases i with
    | zero => exact h2 0 (by omega)
    | succ i =>
      obtain ⟨y, hy, hc⟩ := h3 i (by simpa using hi)
      refine ⟨y, ?_, by simpa using hc⟩
      rw [← hy, Nat.add_comm i 1]; rfl

/-- `encode` succeeds on every array and yields a well-formed array of the same length. -/
theorem encode_ok (ne : α → α → Bool) (a : PArr α) (hw : a.WF) :
    ∃ r, encode ne a = .ok r ∧ r.WF ∧ r.length = a.len ∧ r.offset = 0 ∧ r.validity = a.validity ∧
      r.ends = (encodePrimitive ne a.vals).1 ∧ r.values.vals = (encodePrimitive ne a.vals).2 := by
  obtain ⟨h1, h2, h3, h4⟩ := C15_runs ne a.vals
  refine ⟨⟨(encodePrimitive ne a.vals).1, ⟨(encodePrimitive ne a.vals).2, if a.validity.nullable then .allValid else .nonNullable⟩,
    a.validity, 0, a.len⟩, ?_, ⟨h2, h1, rfl, .inl rfl, ?_, hw⟩, rfl, rfl, rfl, rfl, rfl⟩
  · unfold encode tryNew
    simp only [h4]
    apply withOffset_ok
    · simp only []; split <;> simp_all [Validity.nullable]
    · exact .inl rfl
    · exact h2
    · exact hw
  · simp only [h4, Nat.zero_add]; exact Nat.le_refl _

/-! ### decoding -/

theorem decodeLoop_spec (offset length : Nat) (ends : List Nat) (vals : List α) (P : List α) (hs : ends.Pairwise (· < ·))
    (hlo : ∀ e ∈ ends, P.length ≤ e ∧ offset ≤ e) (hl : ends.length = vals.length) :
    decodeLoop ((P.drop offset).take length) ((ends.map (fun e => min (e - offset) length)).zip vals) =
      .ok (((P ++ expandFrom P.length ends vals).drop offset).take length) := by
  induction ends generalizing vals P with
  | nil => cases vals <;> simp_all [decodeLoop, expandFrom]
  | cons e es ih =>
    cases vals with
    | nil => simp at hl
    | cons v vs =>
      have hp := List.pairwise_cons.mp hs
      obtain ⟨h1, h2⟩ := hlo e (by simp)
      have hlen : ((P.drop offset).take length).length = min length (P.length - offset) := by simp
      simp only [List.map_cons, List.zip_cons_cons, decodeLoop]
      rw [hlen, Res.sub_of_le (by omega), Res.ok_bind]
      have hstep : (P.drop offset).take length ++ List.replicate (min (e - offset) length - min length (P.length - offset)) v =
          ((P ++ List.replicate (e - P.length) v).drop offset).take length := by
        rw [List.drop_append, List.take_append, List.drop_replicate, List.take_replicate]
        simp only [List.length_drop]
        congr 2
        omega
      rw [hstep, ih vs _ hp.2 (fun x hx => ?_) (by simpa using hl)]
      · simp only [expandFrom, List.append_assoc, List.length_append, List.length_replicate]
        rw [show P.length + (e - P.length) = e by omega]
      · have a1 := hp.1 x hx
        have a2 := (hlo x (by simp [hx])).2
        simp only [List.length_append, List.length_replicate]
        omega

theorem ends_ge_offset {a : RunEnd α} (hw : a.WF) : ∀ e ∈ a.ends, a.offset ≤ e := by
  intro e he
  rcases hw.first with h | h
  · omega
  · cases hh : a.ends with
    | nil => simp [hh] at he
    | cons f fs =>
      have h1 := h f (by simp [hh])
      have hs := hw.strict
      rw [hh] at he hs
      rcases List.mem_cons.mp he with rfl | he
      · omega
      · have := (List.pairwise_cons.mp hs).1 e he; omega

/-- **C15, decoding.** The canonical form has exactly the rows the runs stand for. -/
theorem C15_canonical (a : RunEnd α) (hw : a.WF) : ∃ p, a.canonical = .ok p ∧ p.WF ∧ p.rows = a.rows ∧ p.vals = a.window := by
  have hge := ends_ge_offset hw
  have hl : a.ends.length = a.values.vals.length := hw.lens
  have h1 : decodePrimitive a.ends a.values.vals a.offset a.length = .ok a.window := by
    unfold decodePrimitive
    rw [Res.mapM_ok (g := fun e => min (e - a.offset) a.length) (fun e he => by rw [Res.sub_of_le (hge e he)]; rfl)]
    have := decodeLoop_spec a.offset a.length a.ends a.values.vals [] hw.strict (fun e he => ⟨Nat.zero_le _, hge e he⟩) hl
    simp only [List.drop_nil, List.take_nil, List.nil_append, List.length_nil] at this
    simp only [Res.ok_bind, List.length_map, hl, beq_self_eq_true, Res.assert, if_true, this]
    rw [window, slice_eq_drop_take, Nat.add_sub_cancel_left, expand]
  have hwl := window_length hw
  refine ⟨⟨a.window, a.validity⟩, by simp [canonical, h1], ?_, ?_, rfl⟩
  · simp only [PArr.WF, hwl]; exact hw.fits
  · simp only [PArr.rows, hwl, rows]

/-- **C15, round trip.** Encoding any primitive array and canonicalising the result gives back the same values (also those under
nulls) and the same validity, whenever `!=` is exact inequality (integers). -/
theorem C15_roundtrip [DecidableEq α] (a : PArr α) (hw : a.WF) :
    ∃ r, encode (fun a b => decide (a ≠ b)) a = .ok r ∧ r.WF ∧ r.length = a.len ∧ r.rows = a.rows ∧ r.canonical = .ok a := by
  obtain ⟨r, h1, h2, h3, h4, h5, h6, h7⟩ := encode_ok (fun a b => decide (a ≠ b)) a hw
  obtain ⟨e1, e2⟩ := encode_expand (fun a b : α => decide (a ≠ b)) (by intro a b c h1 h2; simp_all) a.vals
  have hwin : r.window = a.vals := by
    rw [window, h4, h3, h6, h7, Nat.zero_add]
    apply List.ext_getElem?
    intro i
    rw [slice_getElem?]
    by_cases hi : i < a.vals.length
    · rw [if_pos (by simp [PArr.len]; omega), Nat.zero_add]
      obtain ⟨y, hy, hc⟩ := e2 i hi
      rw [hy, List.getElem?_eq_getElem hi]
      rcases hc with h | h
      · rw [h]
      · simpa using h
    · rw [if_neg (by simp [PArr.len]; omega), List.getElem?_eq_none (by omega)]
  have hr : r.rows = a.rows := by simp only [rows, PArr.rows, hwin, h3, h5, PArr.len]
  refine ⟨r, h1, h2, h3, hr, ?_⟩
  obtain ⟨p, p1, _, p3, p4⟩ := C15_canonical r h2
  rw [p1]
  have hp : p = ⟨r.window, r.validity⟩ := by
    simp only [canonical, Res.bind_eq_ok] at p1
    obtain ⟨xs, _, hx⟩ := p1
    have : (⟨xs, r.validity⟩ : PArr α) = p := by simpa using hx
    subst this
    simp only [] at p4
    rw [p4]
  rw [hp, hwin, h5]

/-- **C15, round trip up to `==`.** For any element type whose "not `!=`" is transitive (floats: `0.0 == -0.0`, `NaN != NaN`) the
canonical form has the same length and validity, and every value is bitwise the original or `==` to it. -/
theorem C15_roundtrip_upto (ne : α → α → Bool) (htr : ∀ a b c, ne a b = false → ne b c = false → ne a c = false)
    (a : PArr α) (hw : a.WF) :
    ∃ r p, encode ne a = .ok r ∧ r.WF ∧ r.canonical = .ok p ∧ p.WF ∧ p.rows = r.rows ∧ p.len = a.len ∧ r.validity = a.validity ∧
      ∀ i (hi : i < a.vals.length), ∃ y, p.vals[i]? = some y ∧ (y = a.vals[i] ∨ ne y a.vals[i] = false) := by
  obtain ⟨r, h1, h2, h3, h4, h5, h6, h7⟩ := encode_ok ne a hw
  obtain ⟨p, p1, p2, p3, p4⟩ := C15_canonical r h2
  obtain ⟨e1, e2⟩ := encode_expand ne htr a.vals
  refine ⟨r, p, h1, h2, p1, p2, p3, ?_, h5, ?_⟩
  · rw [PArr.len, p4, window_length h2, h3]
  · intro i hi
    obtain ⟨y, hy, hc⟩ := e2 i hi
    refine ⟨y, ?_, hc⟩
    rw [p4, window, slice_getElem?, if_pos (by rw [h4, h3]; simp [PArr.len]; omega), h4, h6, h7, Nat.zero_add, hy]

/-! ### element access, slicing, taking -/

theorem scalar_row {a : RunEnd α} (hw : a.WF) {i : Nat} (hi : i < a.length) :
    a.runOf (i + a.offset) < a.values.vals.length ∧ a.window[i]? = a.values.vals[a.runOf (i + a.offset)]? := by
  have h1 := runOf_lt hw (v := i + a.offset) (by have := hw.last; omega)
  have hl : a.ends.length = a.values.vals.length := hw.lens
  exact ⟨by omega, by rw [window_getElem? hw hi, Nat.add_comm]⟩

/-- **C15, scalar_at** is the row; out of bounds is an error. -/
theorem C15_scalar_at (a : RunEnd α) (hw : a.WF) (i : Nat) :
    (a.length ≤ i → a.scalarAt i = .err) ∧ (i < a.length → ∃ r, a.scalarAt i = .ok r ∧ a.rows[i]? = some r) := by
  refine ⟨fun h => by simp [scalarAt, h], fun hi => ?_⟩
  obtain ⟨b, hb, hm⟩ := PArr.isValid_mask hw.fits hi
  obtain ⟨h1, h2⟩ := scalar_row hw hi
  have hr : a.rows[i]? = some (if b then some (a.values.vals[a.runOf (i + a.offset)]) else none) := by
    rw [rows, rows_getElem?, hm, h2, List.getElem?_eq_getElem h1]
    cases b <;> rfl
  cases b with
  | false => exact ⟨none, by simp [scalarAt, Nat.not_le.mpr hi, hb], by simpa using hr⟩
  | true =>
    obtain ⟨r, hr1, hr2⟩ := PArr.scalarAt_ok (values_wf hw) (i := a.runOf (i + a.offset)) h1
    refine ⟨r, ?_, ?_⟩
    · simp only [scalarAt, ge_iff_le, Nat.not_le.mpr hi, if_false, hb, Res.ok_bind, Bool.not_true, findPhysicalIndex]
      rw [physical_lt hw (by have := hw.last; omega)]
      simpa using hr1
    · rw [hr]
      rw [values_rows hw, List.getElem?_map, List.getElem?_eq_getElem h1] at hr2
      simpa using hr2

theorem slice_runs {a : RunEnd α} (hw : a.WF) (hn : 0 < a.ends.length) {s e : Nat} (h : InBounds a.length s e)
    (hs : a.offset + s < a.ends.getLast?.getD 0) :
    ∃ b t es vs v, a.findPhysicalIndex s = .ok b ∧ a.findPhysicalIndex e = .ok t ∧ b ≤ t ∧ t < a.ends.length ∧
      b = a.runOf (s + a.offset) ∧ (t = a.runOf (e + a.offset) ∨ (t = a.ends.length - 1 ∧ a.runOf (e + a.offset) = a.ends.length)) ∧
      sliceList a.ends b (t + 1) = .ok es ∧ es = Spec.slice a.ends b (t + 1) ∧
      a.values.slice b (t + 1) = .ok vs ∧ vs = ⟨Spec.slice a.values.vals b (t + 1), a.values.validity⟩ ∧
      a.validity.slice s e = .ok v ∧ mask (e - s) v = Spec.slice (mask a.length a.validity) s e ∧ FitsLen v (e - s) ∧
      v.nullable = a.validity.nullable := by
  obtain ⟨v, v1, v2, v3, v4⟩ := mask_slice hw.fits h
  have hl : a.ends.length = a.values.vals.length := hw.lens
  have hb := physical_lt hw (v := s + a.offset) (by omega)
  have ht := physical_ok hw hn (e + a.offset)
  have hbl := runOf_lt hw (v := s + a.offset) (by omega)
  have hmono : a.runOf (s + a.offset) ≤ a.runOf (e + a.offset) :=
    List.countP_mono_left (fun x _ hx => by simp at hx ⊢; have := h.1; omega)
  have htl : a.runOf (e + a.offset) ≤ a.ends.length := List.countP_le_length
  have key : ∃ t, a.findPhysicalIndex e = .ok t ∧ a.runOf (s + a.offset) ≤ t ∧ t < a.ends.length ∧
      (t = a.runOf (e + a.offset) ∨ (t = a.ends.length - 1 ∧ a.runOf (e + a.offset) = a.ends.length)) := by
    refine ⟨_, ht, ?_, ?_, ?_⟩
    · split <;> omega
    · split <;> omega
    · split
      · exact .inr ⟨rfl, by assumption⟩
      · exact .inl rfl
  obtain ⟨t, t1, t2, t3, t4⟩ := key
  have hib : InBounds a.ends.length (a.runOf (s + a.offset)) (t + 1) := ⟨by omega, by omega⟩
  have hib2 : InBounds a.values.vals.length (a.runOf (s + a.offset)) (t + 1) := by rw [← hl]; exact hib
  refine ⟨_, t, _, _, v, hb, t1, t2, t3, rfl, t4, sliceList_ok hib, rfl, ?_, rfl, v1, v2, v3, ?_⟩
  · unfold PArr.slice
    rw [sliceList_ok hib2, Res.ok_bind]
    have : a.values.validity.slice (a.runOf (s + a.offset)) (t + 1) = .ok a.values.validity := by
      rw [hw.values]; split <;> rfl
    rw [this]; rfl
  · cases hv : a.validity with
    | array bits =>
      rw [hv] at v1
      simp only [Validity.slice, Res.bind_eq_ok] at v1
      obtain ⟨b, _, hb⟩ := v1
      have : Validity.array b = v := by simpa using hb
      rw [← this]; rfl
    | _ => rw [hv] at v1; simp [Validity.slice] at v1; rw [← v1]

/-- **C15, slice.** Slicing at bounds that leave the first row before the end of the last run gives exactly those rows, again as a
well-formed run-end array, so slices can be sliced again. Partial: an empty slice at the very end of the last run is refused
(`C15_slice_at_end_err`), and an array without runs panics (`C15_slice_empty_panics`). -/
theorem C15_slice_partial (a : RunEnd α) (hw : a.WF) (s e : Nat) (h : InBounds a.length s e)
    (hs : a.offset + s < a.ends.getLast?.getD 0) :
    ∃ b, a.slice s e = .ok b ∧ b.WF ∧ b.length = e - s ∧ b.rows = Spec.slice a.rows s e := by
  have hn : 0 < a.ends.length := by
    cases h : a.ends with
    | nil => simp [h] at hs
    | cons => simp
  obtain ⟨b, t, es, vs, v, hb, ht, hbt, htl, hbe, hte, he1, he2, hv1, hv2, hm1, hm2, hm3, hm4⟩ := slice_runs hw hn h hs
  have hsp := countP_le_split hw.strict
  have hel : es.length = t + 1 - b := by rw [he2]; exact slice_length' ⟨by omega, by omega⟩
  have hget : ∀ k (hk : k < es.length), ∃ h' : b + k < a.ends.length, es[k] = a.ends[b + k] := by
    intro k hk
    have h1 := slice_getElem? a.ends b (t + 1) k
    rw [← he2, List.getElem?_eq_getElem hk, if_pos (by omega), List.getElem?_eq_getElem (by omega)] at h1
    exact ⟨by omega, by simpa using h1⟩
  have hstrict : es.Pairwise (· < ·) := by
    rw [List.pairwise_iff_getElem]
    intro i j hi hj hij
    obtain ⟨g1, g2⟩ := hget i hi
    obtain ⟨g3, g4⟩ := hget j hj
    rw [g2, g4]
    exact strict_getElem_lt hw.strict g1 g3 (by omega)
  have hnull : vs.validity.nullable = v.nullable := by
    rw [hv2, hm4]; simp only [hw.values]; split <;> simp_all [Validity.nullable]
  have hbgt : ∀ h : b < a.ends.length, s + a.offset < a.ends[b] := by
    intro h
    have := hsp (s + a.offset) b h
    unfold runOf at hbe
    omega
  have hfirst : (s + a.offset = 0 ∨ ∀ e ∈ es.head?, s + a.offset < e) := by
    right
    intro x hx
    rw [List.head?_eq_getElem?, List.getElem?_eq_getElem (by omega)] at hx
    obtain ⟨g1, g2⟩ := hget 0 (by omega)
    have : x = a.ends[b + 0] := by rw [← g2]; simpa using hx.symm
    rw [this]
    exact hbgt g1
  have hb1 : withOffsetAndLength es vs v (s + a.offset) (e - s) = .ok ⟨es, vs, v, s + a.offset, e - s⟩ :=
    withOffset_ok hnull hfirst hstrict hm3
  have hlast : es.getLast?.getD 0 = a.ends[t] := by
    rw [List.getLast?_eq_getElem?, List.getElem?_eq_getElem (by omega), Option.getD_some]
    obtain ⟨g1, g2⟩ := hget (es.length - 1) (by omega)
    rw [g2]; congr 1; omega
  have hlast2 : e + a.offset ≤ a.ends[t] := by
    rcases hte with h1 | ⟨h1, h2⟩
    · have := hsp (e + a.offset) t htl
      unfold runOf at h1
      omega
    · have h3 := hw.last
      rw [last_eq hn] at h3
      have := h.2
      subst h1
      omega
  have hlv : a.ends.length = a.values.vals.length := hw.lens
  have hvl : vs.vals.length = es.length := by
    rw [hv2, hel]; exact slice_length' ⟨by omega, by omega⟩
  have hWF : (⟨es, vs, v, s + a.offset, e - s⟩ : RunEnd α).WF := by
    refine ⟨hstrict, hvl.symm, ?_, hfirst, ?_, hm3⟩
    · simp only [hv2, hm4]; exact hw.values
    · have := h.1
      simp only [hlast]; omega
  refine ⟨⟨es, vs, v, s + a.offset, e - s⟩, ?_, hWF, rfl, ?_⟩
  · have h1 := h.1
    have h2 := h.2
    simp only [slice, if_neg (show ¬ s > a.length by omega), if_neg (show ¬ e > a.length by omega), if_neg (show ¬ s > e by omega),
      hb, ht, he1, hv1, hm1, Res.ok_bind, hb1]
  · -- rows
    have hwin : (⟨es, vs, v, s + a.offset, e - s⟩ : RunEnd α).window = Spec.slice a.window s e := by
      apply List.ext_getElem?
      intro i
      by_cases hi : i < e - s
      · rw [window_getElem? hWF hi, slice_getElem?, if_pos (by omega), window_getElem? hw (by have := h.2; omega)]
        simp only [runOf]
        have hcount : es.countP (fun x => decide (x ≤ s + a.offset + i)) = a.runOf (a.offset + (s + i)) - b := by
          have hbp : b ≤ a.runOf (a.offset + (s + i)) := by
            rw [hbe]; exact List.countP_mono_left (fun x _ hx => by simp at hx ⊢; omega)
          have hpt : a.runOf (a.offset + (s + i)) ≤ t := by
            rcases Nat.lt_or_ge t (a.runOf (a.offset + (s + i))) with h1 | h1
            · have := (hsp (a.offset + (s + i)) t htl).mp h1
              omega
            · exact h1
          apply countP_eq_of_split _ _ _ (by omega)
          · intro k hk hk2
            obtain ⟨g1, g2⟩ := hget k hk
            have := (hsp (a.offset + (s + i)) (b + k) g1).mp (by unfold runOf at hk2 hbp hpt; omega)
            simp only [g2, decide_eq_true_eq]; omega
          · intro k hk hk2
            obtain ⟨g1, g2⟩ := hget k hk
            have := (not_congr (hsp (a.offset + (s + i)) (b + k) g1)).mp (by unfold runOf at hk2; omega)
            simp only [g2, decide_eq_false_iff_not]; omega
        rw [hcount, hv2]
        have hbp : b ≤ a.runOf (a.offset + (s + i)) := by
          rw [hbe]; exact List.countP_mono_left (fun x _ hx => by simp at hx ⊢; omega)
        have hpt : a.runOf (a.offset + (s + i)) ≤ t := by
          rcases Nat.lt_or_ge t (a.runOf (a.offset + (s + i))) with h1 | h1
          · have := (hsp (a.offset + (s + i)) t htl).mp h1
            omega
          · exact h1
        rw [slice_getElem?, if_pos (by omega)]
        rw [show b + (a.runOf (a.offset + (s + i)) - b) = a.runOf (a.offset + (s + i)) by omega]
        rfl
      · rw [List.getElem?_eq_none (by rw [window_length hWF]; simp only []; omega), slice_getElem?, if_neg (by omega)]
    simp only [rows, hwin, hm2, slice_rows]

/-- Bounds outside the array are an error, never a wrong answer. -/
theorem C15_slice_out_of_bounds (a : RunEnd α) (s e : Nat) (h : ¬ InBounds a.length s e) : a.slice s e = .err := by
  unfold InBounds at h
  unfold slice
  by_cases h1 : s > a.length
  · simp [h1]
  · by_cases h2 : e > a.length
    · simp [h2]
    · simp only [h1, h2, if_false]; rw [if_pos (by omega)]

/-- The code refuses the (legal) empty slice at the end of the array whenever the array ends with its last run. -/
theorem C15_slice_at_end_err :
    let a : RunEnd (BitVec 8) := ⟨[2, 5], ⟨[1#8, 2#8], .nonNullable⟩, .nonNullable, 0, 5⟩
    a.WF ∧ InBounds a.length 5 5 ∧ a.slice 5 5 = .err := by
  refine ⟨⟨by decide, rfl, rfl, by decide, by decide, by decide⟩, by decide, by decide +kernel⟩

/-- Slicing the encoding of an empty array panics. -/
theorem C15_slice_empty_panics :
    ∃ r, encode (fun a b => decide (a ≠ b)) (⟨[], .nonNullable⟩ : PArr (BitVec 8)) = .ok r ∧ r.WF ∧ r.slice 0 0 = .panic := by
  refine ⟨⟨[], ⟨[], .nonNullable⟩, .nonNullable, 0, 0⟩, by decide +kernel, ⟨by decide, rfl, rfl, by decide, by decide, by decide⟩,
    by decide +kernel⟩

/-! #### take -/

/-- The rows of the array `take` returns. -/
def Taken.rows : Taken α → List (Option α)
  | .dense a => a.rows
  | .nulls n => List.replicate n none
  | .sparse a => a.rows

/-- The arrays `take` may return are themselves well formed. -/
def Taken.WF : Taken α → Prop
  | .dense a => a.WF
  | .nulls _ => True
  | .sparse a => a.WF

theorem mem_setIndices (bs : List Bool) (j : Nat) : j ∈ setIndices bs ↔ bs[j]? = some true := by
  simp only [setIndices, List.mem_filter, List.mem_range]
  constructor
  · rintro ⟨h1, h2⟩; rw [List.getElem?_eq_getElem h1] at h2 ⊢; simpa using h2
  · intro h
    obtain ⟨h1, h2⟩ := List.getElem?_eq_some_iff.mp h
    exact ⟨h1, by rw [h]; rfl⟩

theorem setIndices_strict (bs : List Bool) : (setIndices bs).Pairwise (· < ·) := by
  unfold setIndices
  exact List.Pairwise.filter _ (List.pairwise_lt_range)

theorem setIndices_length (bs : List Bool) : (setIndices bs).length = bs.count true := by
  have h := filter_eq_take bs bs rfl
  have h1 := congrArg List.length h
  rw [filter_length rfl] at h1
  rw [h1]
  show (Spec.setIndices bs).length = _
  rw [Spec.take_length]
  intro i hi
  have := (mem_setIndices bs i).mp hi
  exact (List.getElem?_eq_some_iff.mp this).1

/-- A sparse array over the set positions of a mask, holding the filtered rows, is those rows with nulls elsewhere. -/
theorem sparse_of_mask (D : List α) (dv : List Bool) (fv : PArr α) (hl : D.length = dv.length)
    (hrows : fv.rows = Spec.filter (D.map some) dv) (hw : fv.WF) (hn : fv.validity.nullable = true) :
    ∃ sp, Sparse.tryNew (setIndices dv) fv dv.length none = .ok sp ∧ sp.WF ∧ sp.rows = Spec.rows D dv := by
  have hfl : fv.len = dv.count true := by
    rw [← PArr.rows_len hw, hrows, filter_length (by simpa using hl)]
  have hup : ∀ i ∈ setIndices dv, i < 0 + dv.length := by
    intro i hi
    have := (List.getElem?_eq_some_iff.mp ((mem_setIndices dv i).mp hi)).1
    omega
  have hlen : (setIndices dv).length = fv.len := by rw [setIndices_length, hfl]
  refine ⟨⟨setIndices dv, fv, dv.length, 0, none⟩, Sparse.tryNew_ok hlen (by simp) hup (fun _ => hn),
    ⟨setIndices_strict dv, hlen, hw, by simp, hup, fun _ => hn⟩, ?_⟩
  apply List.ext_getElem?
  intro j
  by_cases hj : j < dv.length
  · rw [Sparse.rows_getElem? _ _ hj]
    simp only [Nat.zero_add]
    have hr := rows_getElem? D dv j
    rw [List.getElem?_eq_getElem (show j < D.length by omega), List.getElem?_eq_getElem hj] at hr
    rw [hr]
    cases hb : dv[j] with
    | false =>
      have hno : j ∉ setIndices dv := by rw [mem_setIndices, List.getElem?_eq_getElem hj, hb]; simp
      rw [patchOr_none _ hno]
    | true =>
      have hm : j ∈ setIndices dv := by rw [mem_setIndices, List.getElem?_eq_getElem hj, hb]
      obtain ⟨k, hk⟩ := List.mem_iff_getElem?.mp hm
      have hv : fv.rows[k]? = some (some D[j]) := by
        rw [hrows, filter_eq_take _ _ (by simpa using hl)]
        show (Spec.take _ (setIndices dv))[k]? = _
        rw [Spec.take_getElem? (by intro i hi; have := hup i hi; simp; omega), hk]
        simp [show j < D.length by omega]
      rw [patchOr_found (setIndices_strict dv) none hk hv]
  · rw [List.getElem?_eq_none (by rw [Sparse.rows_length]; simp only []; omega),
      List.getElem?_eq_none (by rw [Vx.rows_length _ _ hl]; omega)]

/-- **C15, take** with indices in range returns exactly the requested rows, in order and with repetitions, whatever the validity. -/
theorem C15_take (a : RunEnd α) (hw : a.WF) (is : List Nat) (h : ∀ i ∈ is, i < a.length) :
    ∃ t, a.take is = .ok t ∧ t.WF ∧ t.rows = Spec.take a.rows is := by
  have hph : a.takePhysical is = .ok (is.map (fun i => a.runOf (i + a.offset))) := by
    unfold takePhysical
    rw [Res.mapM_ok (g := fun i => i + a.offset) (fun i hi => by rw [if_neg (by have := h i hi; omega)]), Res.ok_bind,
      Res.mapM_ok (g := a.runOf) (fun v hv => ?_), List.map_map]
    · rfl
    · obtain ⟨i, hi, rfl⟩ := List.mem_map.mp hv
      exact physical_lt hw (by have := hw.last; have := h i hi; omega)
  have hb : ∀ p ∈ is.map (fun i => a.runOf (i + a.offset)), p < a.values.vals.length := by
    intro p hp
    obtain ⟨i, hi, rfl⟩ := List.mem_map.mp hp
    exact (scalar_row hw (h i hi)).1
  have hwl := window_length hw
  have hD : Spec.take a.values.vals (is.map (fun i => a.runOf (i + a.offset))) = Spec.take a.window is := by
    apply List.ext_getElem?
    intro k
    rw [Spec.take_getElem? hb, Spec.take_getElem? (by intro i hi; rw [hwl]; exact h i hi), List.getElem?_map]
    cases hk : is[k]? with
    | none => rfl
    | some i => simpa using (scalar_row hw (h i (List.mem_iff_getElem?.mpr ⟨k, hk⟩))).2.symm
  have htake : a.values.take (is.map (fun i => a.runOf (i + a.offset))) = .ok ⟨Spec.take a.window is, a.values.validity⟩ := by
    unfold PArr.take
    have : a.values.validity.take (is.map (fun i => a.runOf (i + a.offset))) = .ok a.values.validity := by
      rw [hw.values]; split <;> rfl
    rw [this, Res.ok_bind, takeList_ok hb, hD]; rfl
  have hDl : (Spec.take a.window is).length = is.length := Spec.take_length (by intro i hi; rw [hwl]; exact h i hi)
  have htr : Spec.take a.rows is = Spec.rows (Spec.take a.window is) (Spec.take (mask a.length a.validity) is) := by
    rw [rows, Vx.take_rows _ _ _ (by rw [hwl]; exact hw.fits.symm) (by intro i hi; rw [hwl]; exact h i hi)]
  have hrep : ∀ b : Bool, Spec.take (List.replicate a.length b) is = List.replicate is.length b := by
    intro b
    apply List.ext_getElem?
    intro k
    rw [Spec.take_getElem? (by intro i hi; simpa using h i hi)]
    cases hk : is[k]? with
    | none => simp [List.getElem?_eq_none_iff] at hk ⊢; omega
    | some i =>
      have hi := h i (List.mem_iff_getElem?.mpr ⟨k, hk⟩)
      have hkl := (List.getElem?_eq_some_iff.mp hk).1
      simp [hi, hkl]
  simp only [take, hph, htake, Res.ok_bind]
  cases hv : a.validity with
  | nonNullable =>
    have hvv : a.values.validity = .nonNullable := by rw [hw.values, hv]; rfl
    refine ⟨.dense ⟨Spec.take a.window is, a.values.validity⟩, by simp [takeNulls, hv], ?_, ?_⟩
    · simp [Taken.WF, PArr.WF, hvv, FitsLen, mask]
    · rw [htr, hv]; simp only [Taken.rows, PArr.rows, hvv, mask, hrep, hDl]
  | allValid =>
    have hvv : a.values.validity = .allValid := by rw [hw.values, hv]; rfl
    refine ⟨.dense ⟨Spec.take a.window is, a.values.validity⟩, by simp [takeNulls, hv], ?_, ?_⟩
    · simp [Taken.WF, PArr.WF, hvv, FitsLen, mask]
    · rw [htr, hv]; simp only [Taken.rows, PArr.rows, hvv, mask, hrep, hDl]
  | allInvalid =>
    refine ⟨.nulls is.length, by simp [takeNulls, hv], trivial, ?_⟩
    rw [htr, hv]
    simp only [Taken.rows, mask, hrep]
    apply List.ext_getElem?
    intro k
    rw [rows_getElem?]
    by_cases hk : k < is.length
    · have : k < (Spec.take a.window is).length := by omega
      simp [hk, this]
    · simp [hk]
  | array bits =>
    have hbl : bits.length = a.length := by have := hw.fits; rw [hv] at this; simpa [FitsLen, mask] using this
    have hvv : a.values.validity = .allValid := by rw [hw.values, hv]; rfl
    have hdv : takeList bits is = .ok (Spec.take bits is) := takeList_ok (by intro i hi; rw [hbl]; exact h i hi)
    have hdl : (Spec.take bits is).length = is.length := Spec.take_length (by intro i hi; rw [hbl]; exact h i hi)
    have hdw : (⟨Spec.take a.window is, a.values.validity⟩ : PArr α).WF := by simp [PArr.WF, hvv, FitsLen, mask]
    have hdr : (⟨Spec.take a.window is, a.values.validity⟩ : PArr α).rows = (Spec.take a.window is).map some := by
      simp only [PArr.rows, hvv, mask]
      generalize Spec.take a.window is = l
      induction l with
      | nil => rfl
      | cons x l ih => simpa [Spec.rows, List.replicate_succ] using ih
    obtain ⟨fv, f1, f2, f3, f4⟩ := PArr.filter_ok hdw (m := Spec.take bits is) (by simp only [PArr.len, hdl, hDl])
    have hfn : fv.validity.nullable = true := by
      simp only [PArr.filter, hvv, Validity.filter, Res.ok_bind, Res.bind_eq_ok] at f1
      obtain ⟨xs, _, hx⟩ := f1
      have : (⟨xs, .allValid⟩ : PArr α) = fv := by simpa using hx
      rw [← this]; rfl
    obtain ⟨sp, s1, s2, s3⟩ := sparse_of_mask (Spec.take a.window is) (Spec.take bits is) fv (by rw [hdl, hDl]) (by rw [f2, hdr]) f3 hfn
    refine ⟨.sparse sp, ?_, s2, ?_⟩
    · simp only [takeNulls, hv, hdv, f1, s1, Res.ok_bind]
    · rw [htr, hv]; exact s3

/-- An index out of range is an error, never a wrong row. -/
theorem C15_take_out_of_bounds (a : RunEnd α) (is : List Nat) (h : ∃ i ∈ is, a.length ≤ i) : a.take is = .err := by
  have : Res.mapM (fun i => if i ≥ a.length then Res.err else .ok (i + a.offset)) is = .err := by
    induction is with
    | nil => simp at h
    | cons x xs ih =>
      by_cases hx : x ≥ a.length
      · simp [hx]
      · have := ih (by
          obtain ⟨i, hi, hle⟩ := h
          rcases List.mem_cons.mp hi with rfl | hi
          · omega
          · exact ⟨i, hi, hle⟩)
        simp [hx, this]
  simp [take, takePhysical, this]

/-- `!=` on 32-bit floats, enough to tell the zeros from everything else: equal bits compare equal, and the two zeros do. -/
def f32Ne (a b : BitVec 32) : Bool := !(a == b || ((a == 0x80000000#32 || a == 0#32) && (b == 0x80000000#32 || b == 0#32)))

/-- Floats: `0.0` and `-0.0` share a run, so the sign of the zero is lost. -/
theorem C15_float_zero_sign_lost :
    let a : PArr (BitVec 32) := ⟨[0x80000000#32, 0#32], .nonNullable⟩
    a.WF ∧ ∃ r, encode f32Ne a = .ok r ∧ r.canonical = .ok ⟨[0#32, 0#32], .nonNullable⟩ :=
  ⟨by decide, ⟨[2], ⟨[0#32], .nonNullable⟩, .nonNullable, 0, 2⟩, by decide +kernel, by decide +kernel⟩

/-- Non-vacuity: a sliced nullable array, sliced again. -/
example :
    let a : RunEnd (BitVec 8) := ⟨[2, 5, 9], ⟨[1#8, 2#8, 3#8], .allValid⟩, .array [true, false, true, true, true, false], 1, 6⟩
    a.WF ∧ a.rows = [some 1#8, none, some 2#8, some 2#8, some 3#8, none] ∧ InBounds a.length 2 5 ∧
    a.offset + 2 < a.ends.getLast?.getD 0 ∧
    (do let b ← a.slice 2 5; b.canonical) = .ok ⟨[2#8, 2#8, 3#8], .array [true, true, true]⟩ := by
  refine ⟨⟨by decide, rfl, rfl, by decide, by decide, by decide⟩, by decide, by decide, by decide, by decide +kernel⟩

/-- Non-vacuity of the float hypotheses. -/
example : ∀ a b c, f32Ne a b = false → f32Ne b c = false → f32Ne a c = false := by
  intro a b c h1 h2
  simp only [f32Ne, Bool.not_eq_false', Bool.or_eq_true, Bool.and_eq_true, beq_iff_eq] at *
  rcases h1 with rfl | ⟨h1, h1'⟩
  · exact h2
  · rcases h2 with rfl | ⟨h2, h2'⟩
    · exact .inr ⟨h1, h1'⟩
    · exact .inr ⟨h1, h2'⟩

end RunEnd
end Vx
