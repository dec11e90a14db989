import Verif.Lemmas.VarBin
import Verif.Props.C24
/-! # C21: variable-length binary arrays, offsets layout -/

namespace Vx.VarBin
open Spec

/-- **C21.** Building from rows (values and nulls) succeeds when the bytes fit the offset type, and the array holds exactly those rows. -/
theorem C21_from_iter (maxO : Nat) (nullable : Bool) (rs : List (Option (List Byte))) (hn : nullable = true ∨ ∀ r ∈ rs, r.isSome = true)
    (hb : (rs.map fun r => (r.getD []).length).sum ≤ maxO) :
    ∃ a, fromIter maxO nullable rs = .ok a ∧ WF a ∧ rows a = rs ∧ a.nullable = nullable ∧ (∀ o ∈ a.offsets, o ≤ maxO) ∧ Tight a := by
  rw [← total_eq_sum] at hb
  have h := pushAll_bst (maxO := maxO) (rs := []) (rs' := rs) (by simpa [total, vals] using hb)
  obtain ⟨a, h1, h2, h3, h4, h6, h5⟩ := finish_bst (rs := rs) hn
  rw [List.nil_append, bst_nil] at h
  exact ⟨a, by simp only [fromIter, h, Res.ok_bind, h1], h2, h3, h4, fun o ho => Nat.le_trans (h5 o ho) hb, by rw [Tight, h6, h3]⟩

/-- **C21.** More bytes than the offset type can address is a panic, never a truncated offset; so is a null in a non-nullable array. -/
theorem C21_from_iter_refuses (maxO : Nat) (nullable : Bool) (rs : List (Option (List Byte))) :
    (maxO < (rs.map fun r => (r.getD []).length).sum → fromIter maxO nullable rs = .panic) ∧
    (nullable = false → none ∈ rs → fromIter maxO nullable rs = .panic) := by
  have hbig : maxO < total rs → fromIter maxO nullable rs = .panic := by
    intro h
    have := pushAll_panic (maxO := maxO) (rs := []) (rs' := rs) (by simp [total, vals]) (by simpa [total, vals] using h)
    rw [bst_nil] at this
    simp [fromIter, this]
  constructor
  · rw [← total_eq_sum]; exact hbig
  · intro hn hm
    by_cases h : total rs ≤ maxO
    · have hp := pushAll_bst (maxO := maxO) (rs := []) (rs' := rs) (by simpa [total, vals] using h)
      rw [List.nil_append, bst_nil] at hp
      have hv : (bst rs).valid.all (fun x => x) = false := by
        rw [Bool.eq_false_iff]
        intro hall
        simp only [bst, List.all_map, List.all_eq_true] at hall
        simpa using hall none hm
      simp only [fromIter, hp, Res.ok_bind, finish, hn, hv, Bool.false_eq_true, if_false]
    · exact hbig (by omega)

/-- **C21.** `scalar_at` and `bytes_at` return the row; past the end is an error. -/
theorem C21_scalar_at (a : Arr) (hw : WF a) (i : Nat) :
    (i < a.len → ∃ r, scalarAt a i = .ok r ∧ (rows a)[i]? = some r) ∧ (a.len ≤ i → scalarAt a i = .err) := by
  refine ⟨fun h => ?_, fun h => by simp [scalarAt, h]⟩
  obtain ⟨x, h1, h2⟩ := bytesAt_ok hw h
  obtain ⟨b, h3, h4⟩ := PArr.isValid_mask hw.fits h
  refine ⟨_, ?_, row_at h2 h4⟩
  simp only [scalarAt, if_neg (show ¬ (i ≥ a.len) by omega), h3, Res.ok_bind, h1]
  cases b <;> rfl

theorem iterElem_ok {a : Arr} (hw : WF a) (b : Bool) (i : Nat) (p : Nat × Nat) (h : (a.offsets.zip a.offsets.tail)[i]? = some p) :
    ∃ x, (spans a)[i]? = some x ∧ iterElem a.bytes (p, b) = .ok (if b then some x else none) := by
  rw [List.getElem?_zip_eq_some, List.getElem?_tail] at h
  have hb := offset_bounds hw h.1 h.2
  refine ⟨Spec.slice a.bytes p.1 p.2, by simp [spans, List.getElem?_zipWith, List.getElem?_tail, h.1, h.2], ?_⟩
  cases b with
  | true => simp [iterElem, sub_ok hb]
  | false => rfl

theorem mapM_of_getElem {f : α → Res β} {xs : List α} {ys : List β} (hl : xs.length = ys.length)
    (h : ∀ (i : Nat) x, xs[i]? = some x → ∃ y, ys[i]? = some y ∧ f x = .ok y) : Res.mapM f xs = .ok ys := by
  induction xs generalizing ys with
  | nil => cases ys with
    | nil => rfl
    | cons y ys => simp at hl
  | cons x xs ih =>
    cases ys with
    | nil => simp at hl
    | cons y ys =>
      obtain ⟨y', h1, h2⟩ := h 0 x rfl
      simp at h1; subst h1
      have := ih (ys := ys) (by simpa using hl) (fun i x hx => by simpa using h (i + 1) x (by simpa using hx))
      simp [h2, this]

/-- **C21.** Iterating yields the rows in order. -/
theorem C21_iter (a : Arr) (hw : WF a) : iter a = .ok (rows a) := by
  have hsl : (a.offsets.zip a.offsets.tail).length = a.len := by simp [Arr.len]
  unfold iter
  cases hnb : nullBuffer (a.validity.toLogical a.len) with
  | none =>
    have hm := nullBuffer_none hw hnb
    rw [rows_some hm]
    simp only
    apply mapM_of_getElem (by simp [hsl, spans_length])
    intro i p hp
    obtain ⟨x, h1, h2⟩ := iterElem_ok hw true i p hp
    exact ⟨some x, by simp [h1], h2⟩
  | some nb =>
    obtain ⟨rfl, _⟩ := nullBuffer_some hw hnb
    have hml : (mask a.len a.validity).length = a.len := hw.fits
    simp only
    apply mapM_of_getElem (by rw [rows_len hw, List.length_zip, hsl, hml, Nat.min_self])
    intro i q hq
    obtain ⟨p, b⟩ := q
    rw [List.getElem?_zip_eq_some] at hq
    obtain ⟨x, h1, h2⟩ := iterElem_ok hw b i p hq.1
    exact ⟨_, row_at h1 hq.2, h2⟩

/-- **C21.** `sliced_bytes` is the concatenation of the stored values, whatever part of the byte buffer the array refers to. -/
theorem C21_sliced_bytes (a : Arr) (hw : WF a) : ∃ xs : List (List Byte), slicedBytes a = .ok xs.flatten ∧ xs.length = a.len ∧
    rows a = Spec.rows xs (mask a.len a.validity) :=
  ⟨spans a, slicedBytes_ok hw, spans_length a, rfl⟩

/-- **C21.** Slices are the slice of the rows and well-formed; out-of-range bounds are an error. -/
theorem C21_slice (a : Arr) (hw : WF a) (s e : Nat) :
    (InBounds a.len s e → ∃ b, slice a s e = .ok b ∧ WF b ∧ rows b = Spec.slice (rows a) s e ∧ b.nullable = a.nullable ∧ (Tight a → Tight b) ∧
      ∀ o ∈ b.offsets, o ∈ a.offsets) ∧
    (¬ InBounds a.len s e → slice a s e = .err) := by
  constructor
  · intro h
    have hlen : a.len + 1 = a.offsets.length := by
      have : 0 < a.offsets.length := List.length_pos_iff.mpr hw.ne
      simp only [Arr.len]; omega
    obtain ⟨w, w1, w2, w3, w4⟩ := mask_slice hw.fits h
    have hs : sliceList a.offsets s (e + 1) = .ok (Spec.slice a.offsets s (e + 1)) :=
      sliceList_ok ⟨by have := h.1; omega, by have := h.2; omega⟩
    have hl : (Spec.slice a.offsets s (e + 1)).length = e - s + 1 := by
      rw [slice_length' ⟨by have := h.1; omega, by have := h.2; omega⟩]; have := h.1; omega
    have hl2 : (Arr.mk a.nullable (Spec.slice a.offsets s (e + 1)) a.bytes w).len = e - s := by simp [Arr.len, hl]
    have hck := Compare.checkLen_of_fits w3
    refine ⟨⟨a.nullable, Spec.slice a.offsets s (e + 1), a.bytes, w⟩, ?_, ⟨?_, pairwise_slice hw.mono _ _, fun o ho => hw.inb o (mem_slice ho), ?_, ?_⟩, ?_, rfl, ?_, fun o ho => mem_slice ho⟩
    · obtain ⟨h1, h2⟩ := h
      simp only [slice, if_neg (show ¬ (s > a.len) by omega), if_neg (show ¬ (e > a.len) by omega), if_neg (show ¬ (s > e) by omega), hs, w1,
        Res.ok_bind, tryNew, hw.null, w4]
      simp [Res.guard, hl, Res.sub_of_le, hck, hw.null]
    · intro h0; simp only at h0; rw [h0] at hl; simp at hl
    · rw [hl2]; exact w3
    · show a.nullable = w.nullable
      rw [w4, hw.null]
    · rw [rows, hl2, spans_window h, w2, ← slice_rows]; rfl
    · intro ht
      rw [Tight, spans_window h, ht]
      rw [show rows ⟨a.nullable, Spec.slice a.offsets s (e + 1), a.bytes, w⟩ = Spec.slice (rows a) s e by
        rw [rows, hl2, spans_window h, w2, ← slice_rows]; rfl]
      simp only [vals, Spec.slice_map]
  · intro h
    simp only [InBounds] at h
    unfold slice
    split; · rfl
    split; · rfl
    split; · rfl
    omega

theorem finish_of {maxO : Nat} {a : Arr} (hw : WF a) {rs : List (Option (List Byte))}
    (hr : ∀ r ∈ rs, r ∈ rows a) (ht : total rs ≤ maxO) :
    ∃ b, finish (bst rs) a.nullable = .ok b ∧ WF b ∧ rows b = rs ∧ b.nullable = a.nullable ∧ (∀ o ∈ b.offsets, o ≤ maxO) ∧ Tight b := by
  have hn : a.nullable = true ∨ ∀ r ∈ rs, r.isSome = true := by
    cases hv : a.nullable with
    | true => exact Or.inl rfl
    | false =>
      right
      intro r hmem
      have hm : mask a.len a.validity = List.replicate a.len true := by
        have := hw.null
        rw [hv] at this
        cases hva : a.validity <;> rw [hva] at this <;> simp [Validity.nullable] at this
        rfl
      have := hr r hmem
      rw [rows_some hm] at this
      simp only [List.mem_map] at this
      obtain ⟨x, _, rfl⟩ := this
      rfl
  obtain ⟨b, h1, h2, h3, h4, h6, h5⟩ := finish_bst (rs := rs) hn
  exact ⟨b, h1, h2, h3, h4, fun o ho => Nat.le_trans (h5 o ho) ht, by rw [Tight, h6, h3]⟩

theorem mem_take {xs : List α} {is : List Nat} {x : α} (h : x ∈ Spec.take xs is) : x ∈ xs := by
  simp only [Spec.take, List.mem_filterMap] at h
  obtain ⟨i, _, hi⟩ := h
  exact List.mem_of_getElem? hi

theorem mem_filter {xs : List α} {bs : List Bool} {x : α} (h : x ∈ Spec.filter xs bs) : x ∈ xs := by
  induction xs generalizing bs with
  | nil => simp at h
  | cons y ys ih =>
    cases bs with
    | nil => simp at h
    | cons b bs =>
      cases b with
      | true =>
        rw [filter_true] at h
        rcases List.mem_cons.mp h with rfl | h
        · simp
        · exact List.mem_cons_of_mem _ (ih h)
      | false => exact List.mem_cons_of_mem _ (ih h)

/-- The builder state reached by `take`, and its overflow. -/
theorem take_loop (maxO : Nat) (a : Arr) (hw : WF a) (is : List Nat) (hi : ∀ i ∈ is, i < a.len) :
    take maxO a is = (do let b ← pushAll maxO .new (Spec.take (rows a) is); finish b a.nullable) := by
  unfold take
  cases hnb : nullBuffer (a.validity.toLogical a.len) with
  | some nb =>
    obtain ⟨rfl, _⟩ := nullBuffer_some hw hnb
    simp only
    rw [takeNullLoop_eq (mapM_take fun i h => nullElem_ok hw (hi i h))]
  | none =>
    simp only
    rw [takeLoop_eq (mapM_take fun i h => spanAt_ok hw (hi i h)), rows_some (nullBuffer_none hw hnb), Spec.take_map]

/-- **C21.** `take` returns the requested rows, in the requested order and multiplicity, when their bytes fit the offset type. -/
theorem C21_take (maxO : Nat) (a : Arr) (hw : WF a) (is : List Nat) (hi : ∀ i ∈ is, i < a.len)
    (hb : ((Spec.take (rows a) is).map fun r => (r.getD []).length).sum ≤ maxO) :
    ∃ b, take maxO a is = .ok b ∧ WF b ∧ rows b = Spec.take (rows a) is ∧ b.nullable = a.nullable ∧ (∀ o ∈ b.offsets, o ≤ maxO) ∧ Tight b := by
  rw [← total_eq_sum] at hb
  have h := pushAll_bst (maxO := maxO) (rs := []) (rs' := Spec.take (rows a) is) (by simpa [total, vals] using hb)
  rw [List.nil_append, bst_nil] at h
  rw [take_loop maxO a hw is hi]
  simp only [h, Res.ok_bind]
  exact finish_of hw (fun r hr => mem_take hr) hb

/-- **C21.** Taking more bytes than the offset type can address panics: no offset wraps around. -/
theorem C21_take_overflow (maxO : Nat) (a : Arr) (hw : WF a) (is : List Nat) (hi : ∀ i ∈ is, i < a.len)
    (hb : maxO < ((Spec.take (rows a) is).map fun r => (r.getD []).length).sum) : take maxO a is = .panic := by
  rw [← total_eq_sum] at hb
  have h := pushAll_panic (maxO := maxO) (rs := []) (rs' := Spec.take (rows a) is) (by simp [total, vals]) (by simpa [total, vals] using hb)
  rw [bst_nil] at h
  rw [take_loop maxO a hw is hi]
  simp only [h, Res.panic_bind]

/-- **C21.** A predicate of another length than the array is refused with an error. -/
theorem C21_filter_length_mismatch (maxO : Nat) (a : Arr) (p : BoolPred) (h : p.len ≠ a.len) : filter maxO a p = .err := by
  unfold filter
  exact if_pos h

/-- **C21.** `filter` returns the selected rows, on both of its paths (runs of selected rows, single rows), for every array whose
offsets fit the offset type and every predicate whose bits start at bit zero of its buffer. -/
theorem C21_filter (maxO : Nat) (a : Arr) (hw : WF a) (ho : ∀ o ∈ a.offsets, o ≤ maxO) (p : BoolPred) (hp : p.WF) (h0 : p.off = 0)
    (hl : p.len = a.len) :
    ∃ b, filter maxO a p = .ok b ∧ WF b ∧ rows b = Spec.filter (rows a) p.bits ∧ b.nullable = a.nullable ∧ (∀ o ∈ b.offsets, o ≤ maxO) ∧ Tight b := by
  have htot : total (rows a) ≤ maxO := by
    obtain ⟨o, h1, h2⟩ := spans_total hw
    exact Nat.le_trans (total_rows_le _ _) (Nat.le_trans h2 (ho o h1))
  have hft : total (Spec.filter (rows a) p.bits) ≤ maxO := Nat.le_trans (total_filter_le _ _) htot
  have hbl : p.bits.length = a.len := by rw [BoolPred.bits_length hp, hl]
  have hrl := rows_len hw
  obtain ⟨b, hb⟩ := finish_of (maxO := maxO) hw (rs := Spec.filter (rows a) p.bits) (fun r hr => mem_filter hr) hft
  refine ⟨b, ?_, hb.2⟩
  unfold filter
  rw [if_neg (by simp [hl])]
  split
  · -- runs
    have hflat : p.slices.flatMap (fun r => Spec.slice (rows a) r.1 r.2) = Spec.filter (rows a) p.bits := by
      rw [BoolPred.slices, BoolPred.iterBits_eq h0, BoolPred.flatMap_slicesFrom 0 none p.bits (by omega) (by simp)]
      simp [BoolPred.slice_self]
    have hin : ∀ r ∈ p.slices, InBounds a.len r.1 r.2 := by
      intro r hr
      rw [BoolPred.slices, BoolPred.iterBits_eq h0] at hr
      have := BoolPred.mem_slicesFrom (by simp) hr
      exact ⟨this.1, by omega⟩
    have ht : total [] + total (p.slices.flatMap fun r => Spec.slice (rows a) r.1 r.2) ≤ maxO := by
      rw [hflat]; simpa [total, vals] using hft
    unfold filterBySlice
    cases hnb : nullBuffer (a.validity.toLogical a.len) with
    | some nb =>
      obtain ⟨rfl, _⟩ := nullBuffer_some hw hnb
      have := runs_bst (maxO := maxO) (xs := rows a) (f := nullRun maxO a.offsets a.bytes (mask a.len a.validity))
        (loop := nullRuns maxO a.offsets a.bytes (mask a.len a.validity)) (fun _ => rfl) (fun _ _ _ => rfl)
        (fun r hr rs ht => nullRun_bst hw (hin r hr) ht) ht
      rw [bst_nil, hflat, List.nil_append] at this
      simp only [this, Res.ok_bind, hb.1]
    | none =>
      have hrs := rows_some (nullBuffer_none hw hnb)
      have := runs_bst (maxO := maxO) (xs := rows a) (f := fun b r => updateSlice maxO a.bytes a.offsets b r.1 r.2)
        (loop := plainRuns maxO a.offsets a.bytes) (fun _ => rfl) (fun _ _ _ => rfl)
        (fun r hr rs ht => by
          rw [hrs, Spec.slice_map] at ht ⊢
          exact updateSlice_bst hw (hin r hr) ht) ht
      rw [bst_nil, hflat, List.nil_append] at this
      simp only [this, Res.ok_bind, hb.1]
  · -- single rows
    have htake : Spec.take (rows a) p.indices = Spec.filter (rows a) p.bits := by
      rw [BoolPred.indices, BoolPred.iterBits_eq h0, BoolPred.take_indicesFrom 0 p.bits (by omega)]
      simp
    have hidx : ∀ i ∈ p.indices, i < a.len := by
      intro i hi
      rw [BoolPred.indices, BoolPred.iterBits_eq h0] at hi
      have := BoolPred.mem_indicesFrom hi
      omega
    have hpush := pushAll_bst (maxO := maxO) (rs := []) (rs' := Spec.filter (rows a) p.bits) (by simpa [total, vals] using hft)
    rw [List.nil_append, bst_nil] at hpush
    unfold filterByIndex
    rw [idxLoop_eq (mapM_take fun i h => idxElem_ok hw (hidx i h)), htake]
    simp only [hpush, Res.ok_bind, hb.1]

/-- Full statement of C21 for filters: every predicate. -/
def C21_filter_any_predicate : Prop := ∀ (maxO : Nat) (a : Arr), WF a → (∀ o ∈ a.offsets, o ≤ maxO) → ∀ p : BoolPred, p.WF → p.len = a.len →
  ∃ b, filter maxO a p = .ok b ∧ rows b = Spec.filter (rows a) p.bits

/-- A two-row array and the predicate `[true, false]` obtained by slicing `[false, true, false]`: bit offset 1. -/
def exArr : Arr := ⟨false, [0, 1, 2], [65#8, 66#8], .nonNullable⟩
def exPred : BoolPred := BoolPred.slice (.ofList [false, true, false]) 1 3

/-- **C21 fails for a sliced predicate**: the bit iterators start at bit zero of the buffer, so the wrong row is selected. -/
theorem C21_filter_sliced_predicate_wrong : ¬ C21_filter_any_predicate := by
  intro h
  have hw : WF exArr := ⟨by decide, by decide, by decide, by decide, rfl⟩
  obtain ⟨b, h1, h2⟩ := h 10 exArr hw (by decide) exPred (by decide) (by decide)
  have e : filter 10 exArr exPred = .ok ⟨false, [0, 1], [66#8], .nonNullable⟩ := by decide
  rw [e] at h1
  have hb := Res.ok.inj h1
  subst hb
  exact absurd h2 (by decide)

/-- **C21, partial.** All of the row-level claims for the offsets layout. Missing: predicates whose buffer starts inside a byte
(`C21_filter_sliced_predicate_wrong`). -/
theorem C21_varbin_partial (maxO : Nat) (a : Arr) (hw : WF a) (ho : ∀ o ∈ a.offsets, o ≤ maxO) :
    iter a = .ok (rows a) ∧
    (∀ s e, InBounds a.len s e → ∃ b, slice a s e = .ok b ∧ WF b ∧ rows b = Spec.slice (rows a) s e) ∧
    (∀ bs : List Bool, bs.length = a.len → ∃ b, filter maxO a (.ofList bs) = .ok b ∧ WF b ∧ rows b = Spec.filter (rows a) bs) ∧
    (∀ is : List Nat, (∀ i ∈ is, i < a.len) →
      take maxO a is = .panic ∨ ∃ b, take maxO a is = .ok b ∧ WF b ∧ rows b = Spec.take (rows a) is) := by
  refine ⟨C21_iter a hw, fun s e h => ?_, fun bs hb => ?_, fun is hi => ?_⟩
  · obtain ⟨b, h1, h2, h3, _⟩ := (C21_slice a hw s e).1 h
    exact ⟨b, h1, h2, h3⟩
  · obtain ⟨b, h1, h2, h3, _⟩ := C21_filter maxO a hw ho (.ofList bs) (by simp [BoolPred.WF, BoolPred.ofList]) rfl hb
    exact ⟨b, h1, h2, by simpa [BoolPred.bits, BoolPred.ofList] using h3⟩
  · by_cases hb : ((Spec.take (rows a) is).map fun r => (r.getD []).length).sum ≤ maxO
    · obtain ⟨b, h1, h2, h3, _⟩ := C21_take maxO a hw is hi hb
      exact Or.inr ⟨b, h1, h2, h3⟩
    · exact Or.inl (C21_take_overflow maxO a hw is hi (by omega))

/-! ### Non-vacuity -/

def exRows : List (Option (List Byte)) := [some [1#8, 2#8], none, some [], some [3#8]]

example : fromIter 255 true exRows = .ok ⟨true, [0, 2, 2, 2, 3], [1#8, 2#8, 3#8], .array [true, false, true, true]⟩ := by decide
example : (do let a ← fromIter 255 true exRows; let b ← slice a 1 4; .ok (rows b)) = .ok [none, some [], some [3#8]] := by decide
example : (do let a ← fromIter 255 true exRows; let b ← take 255 a [3, 0, 1, 0]; .ok (rows b)) =
    .ok [some [3#8], some [1#8, 2#8], none, some [1#8, 2#8]] := by decide
example : (do let a ← fromIter 255 true exRows; let s ← slice a 1 4; let b ← filter 255 s (.ofList [true, false, true]); .ok (rows b)) =
    .ok [none, some [3#8]] := by decide
example : (do let a ← fromIter 255 true exRows; let b ← filter 255 a (.ofList [true, false, false, false]); .ok (rows b)) =
    .ok [some [1#8, 2#8]] := by decide
/-- Sliced arrays keep the whole byte buffer and start past zero, and still meet `WF`. -/
example : WF ⟨true, [2, 2, 3], [1#8, 2#8, 3#8], .array [true, false]⟩ := ⟨by decide, by decide, by decide, by decide, rfl⟩

end Vx.VarBin
