import Verif.Model.ByteBool
import Verif.Model.Roaring
import Verif.Lemmas.Primitive
import Verif.Lemmas.Validity
import Verif.Lemmas.Rows
import Verif.Props.C24
import Verif.Spec.Stats
import Mathlib.Data.List.Sort
/-! # C19: byte-boolean and roaring encodings -/

namespace Vx.ByteBool
open Vx Spec

/-- Every byte is a Rust `bool`, and the validity fits. -/
structure WF (a : Arr) : Prop where
  byte : ∀ b ∈ a.bytes, b = 0 ∨ b = 1
  fits : FitsLen a.validity a.bytes.length

/-- What the array stands for. -/
def view (a : Arr) : PArr Bool := ⟨bools a, a.validity⟩

theorem view_WF {a : Arr} (hw : WF a) : (view a).WF := by simpa [PArr.WF, view, bools] using hw.fits

/-- **C19, ByteBool.** Building an array from booleans and a fitting validity succeeds; decoding returns those booleans and that
validity. -/
theorem C19_bytebool_roundtrip (bs : List Bool) (v : Validity) (h : FitsLen v bs.length) :
    ∃ a, tryFromVec bs v = .ok a ∧ WF a ∧ intoCanonical a = .ok ⟨bs, v⟩ := by
  have hc := Compare.checkLen_of_fits h
  refine ⟨⟨bs.map fun b => if b then 1 else 0, v⟩, by simp [tryFromVec, tryNew, hc], ⟨?_, by simpa using h⟩, ?_⟩
  · intro b hb
    simp only [List.mem_map] at hb
    obtain ⟨x, _, rfl⟩ := hb
    cases x <;> simp
  · have : (bs.map fun b => if b then (1 : BitVec 8) else 0).map (fun b => b != 0) = bs := by
      rw [List.map_map]
      have : ((fun b : BitVec 8 => b != 0) ∘ fun b => if b = true then 1 else 0) = id := by funext b; cases b <;> rfl
      rw [this, List.map_id]
    simp only [intoCanonical, bools, this, List.length_map, hc, Res.ok_bind]

/-- **C19, ByteBool.** Nullable input: rows come back as given. -/
theorem C19_bytebool_from_options (os : List (Option Bool)) :
    ∃ a b, fromOpts os = .ok a ∧ intoCanonical a = .ok b ∧ b.rows = os ∧ WF a := by
  have hm : mask os.length (Validity.ofVec (os.map Option.isSome)) = os.map Option.isSome := by
    have := mask_ofVec (os.map Option.isSome)
    simpa using this
  have hf : FitsLen (Validity.ofVec (os.map Option.isSome)) (os.map (·.getD false)).length := by
    simp [FitsLen, hm]
  obtain ⟨a, h1, h2, h3⟩ := C19_bytebool_roundtrip (os.map (·.getD false)) _ hf
  refine ⟨a, _, by simp [fromOpts, h1, expect], h3, ?_, h2⟩
  simp only [PArr.rows, List.length_map, hm, Spec.rows]
  clear hm hf h1 h2 h3
  induction os with
  | nil => rfl
  | cons o os ih => cases o <;> simp [ih]

/-- **C19, ByteBool.** `scalar_at` is the row of the decoded array; past the end it is an error. -/
theorem C19_bytebool_scalar_at (a : Arr) (hw : WF a) (i : Nat) :
    (i < a.bytes.length → ∃ r, scalarAt a i = .ok r ∧ (view a).rows[i]? = some r) ∧
    (a.bytes.length ≤ i → scalarAt a i = .err) := by
  refine ⟨fun h => ?_, fun h => by simp [scalarAt, h]⟩
  obtain ⟨r, h1, h2⟩ := PArr.scalarAt_ok (a := view a) (view_WF hw) (i := i) (by simpa [view, PArr.len, bools] using h)
  refine ⟨r, ?_, h2⟩
  have hn : ¬ (i ≥ a.bytes.length) := by omega
  have hn' : ¬ (i ≥ (view a).len) := by simpa [view, PArr.len, bools] using h
  simp only [PArr.scalarAt, hn', if_false] at h1
  simp only [scalarAt, hn, if_false]
  have e : (view a).validity = a.validity := rfl
  rw [e] at h1
  cases hv : a.validity.isValid i with
  | ok v =>
    rw [hv] at h1
    cases v with
    | false => simpa using h1
    | true =>
      have hb : (a.bytes[i] != 0) = (a.bytes[i] == 1) := by
        rcases hw.byte _ (List.getElem_mem h) with e | e <;> rw [e] <;> rfl
      simp only [Res.ok_bind, Bool.not_true] at h1 ⊢
      rw [idx_lt h]
      have h' : i < (view a).vals.length := by simpa [view, bools] using h
      rw [idx_lt h'] at h1
      simp only [view, bools, List.getElem_map, hb] at h1
      exact h1
  | err => rw [hv] at h1; simp at h1
  | panic => rw [hv] at h1; simp at h1

/-- **C19, ByteBool.** `slice` agrees with slicing the decoded array, and rejects bad bounds. -/
theorem C19_bytebool_slice (a : Arr) (hw : WF a) (s e : Nat) :
    (InBounds a.bytes.length s e → ∃ b, slice a s e = .ok b ∧ WF b ∧ (view b).rows = Spec.slice (view a).rows s e ∧
      b.validity.nullable = a.validity.nullable) ∧
    (¬ InBounds a.bytes.length s e → slice a s e = .err) := by
  refine ⟨fun h => ?_, fun h => by simp [slice, sliceList_err h]⟩
  obtain ⟨w, h1, h2, h3, h4⟩ := mask_slice hw.fits h
  have hl : (Spec.slice a.bytes s e).length = e - s := slice_length' h
  refine ⟨⟨Spec.slice a.bytes s e, w⟩, ?_, ⟨?_, by simp only [hl]; exact h3⟩, ?_, h4⟩
  · simp [slice, sliceList_ok h, h1, tryNew, hl, Compare.checkLen_of_fits h3]
  · intro b hb
    exact hw.byte b (List.mem_of_mem_take (List.mem_of_mem_drop hb))
  · simp only [PArr.rows, view, bools, List.length_map, hl, h2, slice_rows, slice_map]

theorem fromBools_ok (bs : List Bool) : ∃ a, fromBools bs = .ok a ∧ WF a ∧ view a = ⟨bs, .allValid⟩ := by
  obtain ⟨a, h1, h2, h3⟩ := C19_bytebool_roundtrip bs .allValid (by simp [FitsLen, mask])
  refine ⟨a, by simp [fromBools, h1, expect], h2, ?_⟩
  simp only [intoCanonical, Compare.checkLen_of_fits h2.fits, Res.ok_bind, Res.ok.injEq] at h3
  exact h3

/-- **C19, ByteBool.** `take` returns the requested rows. -/
theorem C19_bytebool_take (a : Arr) (hw : WF a) (is : List Nat) (h : ∀ i ∈ is, i < a.bytes.length) :
    ∃ b, take a is = .ok b ∧ WF b ∧ (view b).rows = Spec.take (view a).rows is := by
  have hb : ∀ i ∈ is, i < (bools a).length := by simpa [bools] using h
  have hview : ∀ b : Arr, WF b → ∀ c, intoCanonical b = .ok c → view b = c := by
    intro b hb c hc
    simp only [intoCanonical, Compare.checkLen_of_fits hb.fits, Res.ok_bind, Res.ok.injEq] at hc
    exact hc
  have valid : ∀ v, a.validity = v → mask a.bytes.length v = List.replicate a.bytes.length true →
      ∃ b, (do let bs ← takeList (bools a) is; fromBools bs) = .ok b ∧ WF b ∧ (view b).rows = Spec.take (view a).rows is := by
    intro v hv hm
    rw [takeList_ok hb]
    obtain ⟨b, h1, h2, h3⟩ := fromBools_ok (Spec.take (bools a) is)
    refine ⟨b, h1, h2, ?_⟩
    rw [h3]
    have hl : (bools a).length = a.bytes.length := by simp [bools]
    simp only [PArr.rows, view, hv, hl, hm]
    rw [Vx.take_rows _ _ _ (by simp [hl]) hb]
    congr 1
    simp only [mask, take_length hb]
    symm
    rw [List.eq_replicate_iff]
    refine ⟨take_length (by simpa using h), ?_⟩
    intro x hx
    simp only [Spec.take, List.mem_filterMap] at hx
    obtain ⟨j, _, hj⟩ := hx
    exact (List.mem_replicate.mp (List.mem_of_getElem? hj)).2
  cases hv : a.validity with
  | nonNullable => simpa only [take, hv] using valid _ hv rfl
  | allValid => simpa only [take, hv] using valid _ hv rfl
  | allInvalid =>
    obtain ⟨b, c, h1, h2, h3, h4⟩ := C19_bytebool_from_options (List.replicate is.length none)
    refine ⟨b, by simp only [take, hv]; exact h1, h4, ?_⟩
    rw [hview b h4 c h2, h3]
    have hrows : (view a).rows = List.replicate a.bytes.length none := by
      simp only [PArr.rows, view, hv, mask, Spec.rows]
      rw [List.eq_replicate_iff]
      refine ⟨by simp [bools], ?_⟩
      intro x hx
      obtain ⟨j, hj⟩ := List.getElem?_of_mem hx
      simp only [List.getElem?_zipWith] at hj
      cases h5 : (bools a)[j]? with
      | none => simp [h5] at hj
      | some y =>
        simp only [h5, List.getElem?_replicate] at hj
        by_cases hjl : j < (bools a).length
        · simpa [hjl] using hj.symm
        · simp [hjl] at hj
    rw [hrows]
    symm
    rw [List.eq_replicate_iff]
    refine ⟨take_length (by simpa using h), ?_⟩
    intro x hx
    simp only [Spec.take, List.mem_filterMap] at hx
    obtain ⟨j, _, hj⟩ := hx
    exact (List.mem_replicate.mp (List.mem_of_getElem? hj)).2
  | array bits =>
    have hlen : (view a).rows.length = a.bytes.length := by
      rw [PArr.rows_len (view_WF hw)]; simp [PArr.len, view, bools]
    have hok : Res.mapM (takeOpt a) is = .ok (Spec.take (view a).rows is) := by
      clear hview valid
      induction is with
      | nil => rfl
      | cons i is ih =>
        have hi := h i (by simp)
        obtain ⟨r, hr1, hr2⟩ := (C19_bytebool_scalar_at a hw i).1 hi
        have hi' : i < (view a).rows.length := by rw [hlen]; exact hi
        rw [List.getElem?_eq_getElem hi', Option.some.injEq] at hr2
        rw [Res.mapM_cons, ih (fun j hj => h j (by simp [hj])) (fun j hj => hb j (by simp [hj])), take_cons hi', hr2]
        have : takeOpt a i = .ok r := by
          obtain ⟨r', q1, q2⟩ := PArr.scalarAt_ok (a := view a) (view_WF hw) (i := i) (by simpa [view, PArr.len, bools] using hi)
          rw [List.getElem?_eq_getElem hi', hr2, Option.some.injEq] at q2
          subst q2
          have hn' : ¬ (i ≥ (view a).len) := by simpa [view, PArr.len, bools] using hi
          simp only [PArr.scalarAt, hn', if_false] at q1
          rw [← q1]
          simp only [takeOpt, view]
          cases hvv : a.validity.isValid i with
          | ok v => cases v <;> simp
          | err => rfl
          | panic => rfl
        rw [this]
        rfl
    obtain ⟨b, c, h1, h2, h3, h4⟩ := C19_bytebool_from_options (Spec.take (view a).rows is)
    refine ⟨b, by simp only [take, hv, hok, Res.ok_bind]; exact h1, h4, ?_⟩
    rw [hview b h4 c h2, h3]

/-- `take` on a non-nullable array returns a nullable array (its dtype changes). -/
theorem C19_bytebool_take_changes_nullability :
    ∃ a b, WF a ∧ a.validity.nullable = false ∧ take a [0] = .ok b ∧ b.validity.nullable = true :=
  ⟨⟨[1], .nonNullable⟩, ⟨[1], .allValid⟩, ⟨by decide, by decide⟩, rfl, by decide, rfl⟩

example : ∃ a, fromOpts [some true, none, some false] = .ok a ∧ (take a [2, 1, 0, 0] >>= intoCanonical).isOk = true :=
  ⟨_, rfl, by decide⟩
example : WF ⟨[1, 0, 0], .array [true, false, true]⟩ := ⟨by decide, by decide⟩

end Vx.ByteBool

namespace Vx.Roaring
open Vx Spec

/-! ## Set representation -/

/-- A bitmap in canonical form. -/
def Set32 (bm : List Nat) : Prop := bm.Pairwise (· < ·) ∧ ∀ x ∈ bm, x < u32

theorem insert_last {x : Nat} {ys : List Nat} (h : ∀ y ∈ ys, y < x) : insert x ys = ys ++ [x] := by
  induction ys with
  | nil => rfl
  | cons y ys ih =>
    have := h y (by simp)
    simp [insert, show ¬ x < y by omega, show ¬ x = y by omega, ih (fun z hz => h z (by simp [hz]))]

theorem extend_sorted {xs bm : List Nat} (h : (bm ++ xs).Pairwise (· < ·)) : extend xs bm = bm ++ xs := by
  induction xs generalizing bm with
  | nil => simp [extend]
  | cons x xs ih =>
    have h1 : insert x bm = bm ++ [x] := insert_last (by
      intro y hy
      exact (List.pairwise_append.mp h).2.2 y hy x (by simp))
    simp only [extend, List.foldl_cons, h1]
    have := ih (bm := bm ++ [x]) (by simpa using h)
    simpa [extend] using this

theorem setIdx_sorted (bs : List Bool) : (setIdx bs).Pairwise (· < ·) := List.pairwise_lt_range.filter _

theorem mem_setIdx {bs : List Bool} {i : Nat} : i ∈ setIdx bs ↔ i < bs.length ∧ bs[i]? = some true := by
  simp only [setIdx, List.mem_filter, List.mem_range]
  constructor
  · rintro ⟨h, g⟩
    refine ⟨h, ?_⟩
    rw [List.getElem?_eq_getElem h] at g ⊢
    simpa using g
  · rintro ⟨h, g⟩
    exact ⟨h, by simp [g]⟩

theorem map_mod_self {xs : List Nat} (h : ∀ x ∈ xs, x < u32) : xs.map (· % u32) = xs := by
  conv => rhs; rw [← List.map_id xs]
  exact List.map_congr_left (fun x hx => Nat.mod_eq_of_lt (h x hx))

/-! ## Booleans -/

/-- Array invariant: a canonical set of positions below the length. -/
structure BWF (a : BArr) : Prop where
  sorted : a.bitmap.Pairwise (· < ·)
  lt : ∀ x ∈ a.bitmap, x < a.len
  small : a.len < u32

/-- What the array stands for. -/
def bView (a : BArr) : List Bool := (List.range a.len).map (fun i => a.bitmap.contains i)

theorem sorted_length_aux {xs : List Nat} (h : xs.Pairwise (· < ·)) {b n : Nat} (hb : ∀ x ∈ xs, b ≤ x) (hn : ∀ x ∈ xs, x < n) :
    xs = [] ∨ xs.length + b ≤ n := by
  induction xs generalizing b with
  | nil => simp
  | cons x xs ih =>
    rw [List.pairwise_cons] at h
    have hx := hn x (by simp)
    have hbx := hb x (by simp)
    rcases ih h.2 (b := b + 1) (fun y hy => by have := h.1 y hy; omega) (fun y hy => hn y (by simp [hy])) with rfl | h'
    · right; simp; omega
    · right; simp; omega

theorem sorted_length_le {xs : List Nat} (h : xs.Pairwise (· < ·)) {n : Nat} (hn : ∀ x ∈ xs, x < n) : xs.length ≤ n := by
  rcases sorted_length_aux h (b := 0) (fun _ _ => by omega) hn with rfl | h'
  · simp
  · omega

theorem maximum_ge {bm : List Nat} (h : bm.Pairwise (· < ·)) {x : Nat} (hx : x ∈ bm) : ∃ m, maximum bm = some m ∧ x ≤ m ∧ m ∈ bm := by
  induction bm generalizing x with
  | nil => simp at hx
  | cons y ys ih =>
    rw [List.pairwise_cons] at h
    cases ys with
    | nil => simp at hx; exact ⟨y, rfl, by omega, by simp⟩
    | cons z zs =>
      have key : maximum (y :: z :: zs) = maximum (z :: zs) := by simp [maximum, List.getLast?_cons_cons]
      rw [key]
      rcases List.mem_cons.mp hx with rfl | hx
      · obtain ⟨m, h1, h2, h3⟩ := ih h.2 (x := z) (by simp)
        have := h.1 z (by simp)
        exact ⟨m, h1, by omega, by simp [h3]⟩
      · obtain ⟨m, h1, h2, h3⟩ := ih h.2 hx
        exact ⟨m, h1, h2, by simp [h3]⟩

theorem lt_words {bm : List Nat} (h : bm.Pairwise (· < ·)) {x : Nat} (hx : x ∈ bm) : x < 64 * words bm := by
  obtain ⟨m, h1, h2, _⟩ := maximum_ge h hx
  simp only [words, h1, Option.getD_some]
  omega

theorem bitset_getElem? {bm : List Nat} (h : bm.Pairwise (· < ·)) (i : Nat) :
    (bitset bm)[i]?.getD false = bm.contains i := by
  simp only [bitset, List.getElem?_map]
  by_cases hi : i < 64 * words bm
  · simp [List.getElem?_range hi]
  · have : i ∉ bm := fun hm => hi (lt_words h hm)
    rw [List.getElem?_eq_none (by simp; omega)]
    simp [this]

/-- Decoding never fails and gives `bView`. -/
theorem canonical_eq {a : BArr} (hs : a.bitmap.Pairwise (· < ·)) : bIntoCanonical a = .ok ⟨bView a, .nonNullable⟩ := by
  have hlen : (bitset a.bitmap).length = 64 * words a.bitmap := by simp [bitset]
  generalize hbits : (if (a.len + 7) / 8 > 8 * words a.bitmap then
    bitset a.bitmap ++ List.replicate (8 * ((a.len + 7) / 8 - 8 * words a.bitmap)) false else bitset a.bitmap) = bits
  have hle : a.len ≤ bits.length := by
    rw [← hbits]; split
    · simp [hlen]; omega
    · rw [hlen]; omega
  have hget : ∀ i, bits[i]?.getD false = a.bitmap.contains i := by
    intro i
    rw [← bitset_getElem? hs i, ← hbits]
    split
    · rw [List.getElem?_append]
      split
      · rfl
      · rename_i hi
        rw [List.getElem?_eq_none (l := bitset a.bitmap) (by omega), List.getElem?_replicate]
        split <;> rfl
    · rfl
  have htake : bits.take a.len = bView a := by
    apply List.ext_getElem
    · simp [bView]; omega
    · intro i h1 h2
      have hi : i < a.len := by simp [bView] at h2; exact h2
      have := hget i
      rw [List.getElem?_eq_getElem (by omega)] at this
      simp only [List.getElem_take, bView, List.getElem_map, List.getElem_range]
      simpa using this
  simp only [bIntoCanonical, booleanBuffer]
  rw [hbits]
  simp [hle, htake]

theorem bView_of_setIdx (bs : List Bool) : bView ⟨setIdx bs, bs.length⟩ = bs := by
  apply List.ext_getElem
  · simp [bView]
  · intro i h1 h2
    simp only [bView, List.getElem_map, List.getElem_range]
    rw [Bool.eq_iff_iff, List.contains_iff_mem, mem_setIdx, List.getElem?_eq_getElem h2]
    simp [h2]

theorem bEncode_eq {p : PArr Bool} (h : p.len < u32) : bEncode p = .ok ⟨setIdx p.vals, p.len⟩ := by
  have hlt : ∀ x ∈ setIdx p.vals, x < p.vals.length := fun x hx => (mem_setIdx.mp hx).1
  have h1 : (setIdx p.vals).map (· % u32) = setIdx p.vals := map_mod_self (fun x hx => Nat.lt_trans (hlt x hx) h)
  have h2 : extend (setIdx p.vals) [] = setIdx p.vals := by
    have := extend_sorted (bm := []) (xs := setIdx p.vals) (by simpa using setIdx_sorted p.vals)
    simpa using this
  have h3 : (setIdx p.vals).length ≤ p.vals.length := sorted_length_le (setIdx_sorted _) hlt
  simp [bEncode, h1, h2, bTryNew, PArr.len]
  omega

/-- **C19, roaring booleans.** A non-nullable boolean array (the only kind the compressor hands over) with at most `u32::MAX` rows
encodes, decodes without failure, and decodes to the original booleans. -/
theorem C19_roaring_bool_roundtrip (bs : List Bool) (h : bs.length < u32) :
    ∃ a, bEncode ⟨bs, .nonNullable⟩ = .ok a ∧ BWF a ∧ a.len = bs.length ∧ bIntoCanonical a = .ok ⟨bs, .nonNullable⟩ := by
  refine ⟨_, bEncode_eq h, ⟨setIdx_sorted _, fun x hx => (mem_setIdx.mp hx).1, h⟩, rfl, ?_⟩
  rw [canonical_eq (setIdx_sorted _)]
  have := bView_of_setIdx bs
  simp only [PArr.len]
  rw [this]

/-- The encoder itself does not look at the validity: a nullable array silently loses its nulls. -/
theorem C19_roaring_bool_drops_nulls :
    ∃ p : PArr Bool, p.WF ∧ p.rows = [none] ∧ ∃ a b, bEncode p = .ok a ∧ bIntoCanonical a = .ok b ∧ b.rows = [some true] :=
  ⟨⟨[true], .array [false]⟩, by decide, by decide, ⟨[0], 1⟩, ⟨[true], .nonNullable⟩, by decide, by decide +kernel, by decide⟩

/-- **C19, roaring booleans.** `scalar_at` is the row of the decoded array, an error past the end. -/
theorem C19_roaring_bool_scalar_at (a : BArr) (hw : BWF a) (i : Nat) :
    (i < a.len → ∃ r, bScalarAt a i = .ok (some r) ∧ (bView a)[i]? = some r) ∧ (a.len ≤ i → bScalarAt a i = .err) := by
  refine ⟨fun h => ⟨a.bitmap.contains i, ?_, ?_⟩, fun h => by simp [bScalarAt, h]⟩
  · have := hw.small
    simp [bScalarAt, show ¬ (i ≥ a.len) by omega, Nat.mod_eq_of_lt (show i < u32 by omega)]
  · simp [bView, List.getElem?_range h]

/-- **C19, roaring booleans.** `slice` agrees with slicing the decoded array for every bounds, including empty ones at either end;
bad bounds are an error. -/
theorem C19_roaring_bool_slice (a : BArr) (hw : BWF a) (s e : Nat) :
    (InBounds a.len s e → ∃ b, bSlice a s e = .ok b ∧ BWF b ∧ b.len = e - s ∧ bView b = Spec.slice (bView a) s e) ∧
    (¬ InBounds a.len s e → bSlice a s e = .err) := by
  constructor
  · intro h
    obtain ⟨h1, h2⟩ := h
    have hsm := hw.small
    have es : s % u32 = s := Nat.mod_eq_of_lt (by omega)
    have ee : e % u32 = e := Nat.mod_eq_of_lt (by omega)
    have hmem : ∀ x, x ∈ subOffset (andRange a.bitmap s e) s ↔ (s + x ∈ a.bitmap ∧ s + x < e) := by
      intro x
      simp only [subOffset, andRange, List.mem_map, List.mem_filter, decide_eq_true_eq, Bool.and_eq_true]
      constructor
      · rintro ⟨y, ⟨⟨hy, h3, h4⟩, _⟩, rfl⟩
        rw [show s + (y - s) = y by omega]; exact ⟨hy, h4⟩
      · rintro ⟨hx, hlt⟩
        exact ⟨s + x, ⟨⟨hx, by omega, hlt⟩, by omega⟩, by omega⟩
    have hsort : (subOffset (andRange a.bitmap s e) s).Pairwise (· < ·) := by
      simp only [subOffset]
      rw [List.pairwise_map]
      have := ((hw.sorted.filter (fun x => decide (s ≤ x) && decide (x < e))).filter (fun x => decide (s ≤ x)))
      refine List.Pairwise.imp_of_mem ?_ this
      intro x y hx hy hxy
      have hx2 := (List.mem_filter.mp hx).2
      have hy2 := (List.mem_filter.mp hy).2
      simp only [decide_eq_true_eq] at hx2 hy2
      omega
    have hlt : ∀ x ∈ subOffset (andRange a.bitmap s e) s, x < e - s := by
      intro x hx; have := (hmem x).mp hx; omega
    have hcard := sorted_length_le hsort hlt
    refine ⟨⟨subOffset (andRange a.bitmap s e) s, e - s⟩, ?_, ⟨hsort, hlt, by simp only; omega⟩, rfl, ?_⟩
    · unfold bSlice
      rw [if_neg (show ¬ s > a.len by omega), if_neg (show ¬ e > a.len by omega), if_neg (show ¬ s > e by omega), es, ee, bTryNew,
        if_neg (by omega)]
    · apply List.ext_getElem?
      intro i
      rw [slice_getElem?]
      simp only [bView, List.getElem?_map]
      by_cases hi : i < e - s
      · rw [if_pos (by omega), List.getElem?_range hi, List.getElem?_range (by omega)]
        simp only [Option.map_some, Option.some.injEq]
        rw [Bool.eq_iff_iff, List.contains_iff_mem, List.contains_iff_mem, hmem]
        constructor
        · exact fun h => h.1
        · exact fun h => ⟨h, by omega⟩
      · rw [if_neg (by omega), List.getElem?_eq_none (by simp; omega)]
        rfl
  · intro h
    simp only [InBounds] at h
    unfold bSlice
    split
    · rfl
    · split
      · rfl
      · split
        · rfl
        · omega

theorem count_contains (bs : List Bool) : (setIdx bs).length = bs.count true := by
  have := filter_length (xs := List.range bs.length) (bs := bs) (by simp)
  rw [← this]
  congr 1
  have h := filter_eq_take (List.range bs.length) bs (by simp)
  rw [h]
  simp only [Spec.take]
  have hs : setIndices bs = setIdx bs := rfl
  rw [hs]
  have : ∀ xs : List Nat, (∀ x ∈ xs, x < bs.length) → xs.filterMap (fun i => (List.range bs.length)[i]?) = xs := by
    intro xs hx
    induction xs with
    | nil => rfl
    | cons x xs ih =>
      rw [List.filterMap_cons, List.getElem?_range (hx x (by simp)), ih (fun y hy => hx y (by simp [hy]))]
  exact (this _ (fun x hx => (mem_setIdx.mp hx).1)).symm

/-- The bitmap is determined by the rows it stands for. -/
theorem bitmap_eq_setIdx {a : BArr} (hw : BWF a) : a.bitmap = setIdx (bView a) := by
  apply List.SortedLT.eq_of_mem_iff
  · exact List.sortedLT_iff_pairwise.mpr hw.sorted
  · exact List.sortedLT_iff_pairwise.mpr (setIdx_sorted _)
  · intro x
    rw [mem_setIdx]
    constructor
    · intro hx
      have := hw.lt x hx
      exact ⟨by simpa [bView] using this, by simp [bView, List.getElem?_range this, hx]⟩
    · rintro ⟨h1, h2⟩
      simp [bView] at h1
      simp [bView, List.getElem?_range h1] at h2
      exact h2

/-- **C19/C25, roaring booleans.** The statistics stored at construction are true of the rows of a non-empty array. -/
theorem C19_roaring_bool_stored_stats (a : BArr) (hw : BWF a) (hn : 0 < a.len) :
    (bStats a).trueCount = (bView a).count true ∧
    IsMin (fun b => if b then 1 else 0) (bStats a).min (bView a) ∧ IsMax (fun b => if b then 1 else 0) (bStats a).max (bView a) ∧
    ((bStats a).isConstant = true ↔ ∀ x ∈ bView a, ∀ y ∈ bView a, x = y) := by
  have hc : a.bitmap.length = (bView a).count true := by rw [← count_contains, ← bitmap_eq_setIdx hw]
  have hl : (bView a).length = a.len := by simp [bView]
  have hle : (bView a).count true ≤ (bView a).length := List.count_le_length
  have hall : (bView a).count true = (bView a).length → ∀ x ∈ bView a, x = true := by
    intro h x hx; exact ((List.count_eq_length.mp h) x hx).symm
  have hnone : (bView a).count true = 0 → ∀ x ∈ bView a, x = false := by
    intro h x hx
    cases x with
    | false => rfl
    | true => exact absurd hx (List.count_eq_zero.mp h)
  have hex : ∃ x, x ∈ bView a := List.exists_mem_of_length_pos (by rw [hl]; exact hn)
  refine ⟨hc, ?_, ?_, ?_⟩
  · simp only [bStats, hc]
    by_cases h : (bView a).count true = a.len
    · have ht := hall (by rw [hl]; exact h)
      obtain ⟨x, hx⟩ := hex
      have := ht x hx; subst this
      refine ⟨by simpa [h] using hx, fun y hy => ?_⟩
      have := ht y hy; subst this
      simp [h]
    · refine ⟨?_, fun y hy => ?_⟩
      · have e : ((bView a).count true == a.len) = false := by simpa using h
        rw [e]
        by_cases hm : false ∈ bView a
        · exact hm
        · exfalso
          apply h
          rw [← hl]
          exact List.count_eq_length.mpr (fun b hb => by cases b; exact absurd hb hm; rfl)
      · have e : ((bView a).count true == a.len) = false := by simpa using h
        rw [e]; cases y <;> simp
  · simp only [bStats, hc]
    by_cases h : (bView a).count true = 0
    · have ht := hnone h
      obtain ⟨x, hx⟩ := hex
      have := ht x hx; subst this
      refine ⟨by simpa [h] using hx, fun y hy => ?_⟩
      have := ht y hy; subst this
      simp [h]
    · have e : decide (0 < (bView a).count true) = true := by simpa using (show 0 < (bView a).count true by omega)
      rw [e]
      refine ⟨?_, fun y _ => by cases y <;> simp⟩
      exact List.count_pos_iff.mp (by omega)
  · simp only [bStats, hc, Bool.or_eq_true, beq_iff_eq]
    constructor
    · rintro (h | h) x hx y hy
      · rw [hall (by rw [hl]; exact h) x hx, hall (by rw [hl]; exact h) y hy]
      · rw [hnone h x hx, hnone h y hy]
    · intro h
      obtain ⟨x, hx⟩ := hex
      cases x with
      | true => left; rw [← hl]; exact List.count_eq_length.mpr (fun b hb => h true hx b hb)
      | false => right; exact List.count_eq_zero.mpr (fun hb => by simpa using h false hx true hb)

/-- On an empty array the stored minimum is a value that is not there. -/
theorem C19_roaring_bool_empty_min : ∃ a, bEncode ⟨[], .nonNullable⟩ = .ok a ∧ (bStats a).min = true ∧ bView a = [] :=
  ⟨⟨[], 0⟩, by decide, by decide, by decide⟩

/-- Computing sortedness panics when the last set position is in an earlier 64-bit word than the end of the array: `true` followed by
99 `false`. -/
theorem C19_roaring_bool_stats_panic :
    bCompute ⟨[0], 100⟩ = .panic ∧ bEncode ⟨true :: List.replicate 99 false, .nonNullable⟩ = .ok ⟨[0], 100⟩ := by
  constructor <;> decide +kernel

/-! ### Computed statistics -/

theorem foldl_len (bs : List Bool) (s : Acc) : (bs.foldl step s).len = s.len := by
  induction bs generalizing s with
  | nil => rfl
  | cons b bs ih =>
    rw [List.foldl_cons, ih]
    simp only [step]
    split <;> split <;> rfl

/-- One pass over `bs` from `s`, ignoring the length counter. -/
theorem foldl_step_len (bs : List Bool) (s : Acc) (n : Nat) :
    bs.foldl step { s with len := n } = { bs.foldl step s with len := n } := by
  induction bs generalizing s with
  | nil => rfl
  | cons b bs ih =>
    rw [List.foldl_cons, List.foldl_cons]
    have : step { s with len := n } b = { step s b with len := n } := by
      obtain ⟨p, srt, rc, l⟩ := s
      cases b <;> cases p <;> rfl
    rw [this, ih]

theorem nextUpTo_eq (s : Acc) (w : List Bool) (n : Nat) :
    nextUpTo s w n = { (w.take n).foldl step s with len := s.len + n } := foldl_step_len _ _ _

/-- The word loop is one pass over the bits of the whole words. -/
theorem wordLoop_eq (bits : List Bool) (k n : Nat) (s : Acc) (h : 64 * (k + n) ≤ bits.length) :
    wordLoop bits k n s = .ok { (((bits.drop (64 * k)).take (64 * n)).foldl step s) with len := s.len + 64 * n } := by
  induction n generalizing k s with
  | zero => simp [wordLoop]
  | succ n ih =>
    have hw : word bits k = .ok ((bits.drop (64 * k)).take 64) := by simp [word]; omega
    simp only [wordLoop, hw, Res.ok_bind]
    rw [ih (k + 1) _ (by omega), nextUpTo_eq]
    simp only [List.take_take, Nat.min_self]
    rw [foldl_step_len]
    have e : (bits.drop (64 * k)).take (64 * (n + 1)) =
        (bits.drop (64 * k)).take 64 ++ (bits.drop (64 * (k + 1))).take (64 * n) := by
      rw [show 64 * (n + 1) = 64 + 64 * n by omega, List.take_add, List.drop_drop]
      congr 3 <;> omega
    rw [e, List.foldl_append]
    simp only [Res.ok.injEq, Acc.mk.injEq, true_and]
    omega

/-- `prev` after the pass is the last bit seen; runs and sortedness are those of the sequence started by `prev`. -/
theorem foldl_step_spec (bs : List Bool) (s : Acc) :
    (bs.foldl step s).runCount + 1 = s.runCount + runs (s.prev :: bs) ∧
    ((bs.foldl step s).isSorted = true ↔ s.isSorted = true ∧ (s.prev :: bs).Pairwise (fun x y => x ≤ y)) := by
  induction bs generalizing s with
  | nil => simp [runs]
  | cons b bs ih =>
    rw [List.foldl_cons]
    obtain ⟨h1, h2⟩ := ih (step s b)
    have hp : (step s b).prev = b := by simp only [step]; cases b <;> cases hp : s.prev <;> simp [hp]
    rw [h2, hp] 
    rw [hp] at h1
    refine ⟨?_, ?_⟩
    · have hr : (step s b).runCount = s.runCount + (if s.prev = b then 0 else 1) := by
        simp only [step]; cases b <;> cases hp : s.prev <;> simp [hp]
      rw [h1, hr]
      simp only [runs]
      omega
    · have hs : (step s b).isSorted = (s.isSorted && !(s.prev && !b)) := by
        simp only [step]; cases b <;> cases hp : s.prev <;> simp [hp]
      rw [hs]
      rw [List.pairwise_cons (a := s.prev)]
      simp only [Bool.and_eq_true, Bool.not_eq_true', Bool.and_eq_false_iff]
      constructor
      · rintro ⟨⟨g1, g2⟩, g3⟩
        refine ⟨g1, ?_, g3⟩
        intro y hy
        have hb : ∀ y ∈ b :: bs, b ≤ y := by
          intro y hy
          rcases List.mem_cons.mp hy with rfl | hy
          · exact Bool.le_refl _
          · exact (List.pairwise_cons.mp g3).1 y hy
        have := hb y hy
        rcases g2 with g2 | g2
        · rw [g2]; exact Bool.false_le _
        · simp at g2; subst g2
          cases y with
          | false => exact absurd this (by decide)
          | true => exact Bool.le_true _
      · rintro ⟨g1, g2, g3⟩
        refine ⟨⟨g1, ?_⟩, g3⟩
        have := g2 b (by simp)
        revert this
        generalize s.prev = p
        cases b <;> cases p <;> decide

theorem bitset_take {a : BArr} (hs : a.bitmap.Pairwise (· < ·)) (h : a.len ≤ 64 * words a.bitmap) :
    (bitset a.bitmap).take a.len = bView a := by
  apply List.ext_getElem
  · simp [bView, bitset]; omega
  · intro i h1 h2
    simp [bitset, bView]

/-- **C19/C25, roaring booleans (partial).** When the bitset reaches past the end of the array, the computed statistics are exact:
sortedness, strict sortedness and the number of runs. Missing: the other arrays, where the code panics
(`C19_roaring_bool_stats_panic`). -/
theorem C19_roaring_bool_computed_stats_partial (a : BArr) (hw : BWF a) (hn : 0 < a.len)
    (hreach : a.len / 64 < words a.bitmap) :
    ∃ s, bCompute a = .ok (some s) ∧ (s.isSorted = true ↔ (bView a).Pairwise (fun x y => x ≤ y)) ∧
      (s.isStrictSorted = true ↔ (bView a).Pairwise (fun x y => x < y)) ∧ s.runCount = runs (bView a) := by
  have hlen : (bitset a.bitmap).length = 64 * words a.bitmap := by simp [bitset]
  generalize hB : bitset a.bitmap = bits at *
  have hview : bits.take a.len = bView a := by rw [← hB]; exact bitset_take hw.sorted (by omega)
  have hw0 : word bits 0 = .ok (bits.take 64) := by simp [word, hlen]; omega
  have hwl : word bits (a.len / 64) = .ok ((bits.drop (64 * (a.len / 64))).take 64) := by simp [word, hlen]; omega
  have hloop := wordLoop_eq bits 0 (a.len / 64) ⟨(bits.take 64)[0]?.getD false, true, 1, 0⟩ (by omega)
  obtain ⟨b, bs, hbs⟩ : ∃ b bs, bView a = b :: bs := by
    cases hv : bView a with
    | nil => exfalso; have := congrArg List.length hv; simp [bView] at this; omega
    | cons b bs => exact ⟨b, bs, rfl⟩
  have hfirst : (bits.take 64)[0]?.getD false = b := by
    have : (bits.take a.len)[0]? = some b := by rw [hview, hbs]; rfl
    rw [List.getElem?_take_of_lt hn] at this
    rw [List.getElem?_take_of_lt (by omega), this]; rfl
  have hsplit : bits.take (64 * (a.len / 64)) ++ ((bits.drop (64 * (a.len / 64))).take 64).take (a.len % 64) = bView a := by
    rw [← hview, List.take_take, Nat.min_eq_left (by omega)]
    conv => rhs; rw [show a.len = 64 * (a.len / 64) + a.len % 64 by omega, List.take_add]
  let fin : Acc := nextUpTo { (((bits.drop (64 * 0)).take (64 * (a.len / 64))).foldl step
    ⟨(bits.take 64)[0]?.getD false, true, 1, 0⟩) with len := 0 + 64 * (a.len / 64) } ((bits.drop (64 * (a.len / 64))).take 64) (a.len % 64)
  refine ⟨⟨fin.isSorted, fin.isSorted && (decide (fin.len < 2) || (fin.len == 2 && a.bitmap.length == 1)), fin.runCount⟩, ?_, ?_⟩
  · simp only [bCompute, if_neg (show ¬ a.len = 0 by omega), hB, hw0, Res.ok_bind, hloop, hwl]
    rfl
  · simp only [fin, nextUpTo_eq, List.drop_zero, Nat.mul_zero]
    rw [foldl_step_len, ← List.foldl_append, hsplit, hfirst]
    obtain ⟨h1, h2⟩ := foldl_step_spec (bView a) ⟨b, true, 1, 0⟩
    simp only [true_and] at h2
    have hpair : (b :: bView a).Pairwise (fun x y => x ≤ y) ↔ (bView a).Pairwise (fun x y => x ≤ y) := by
      rw [hbs, List.pairwise_cons (a := b)]
      constructor
      · exact fun h => h.2
      · intro h
        refine ⟨?_, h⟩
        intro y hy
        rcases List.mem_cons.mp hy with rfl | hy
        · exact Bool.le_refl _
        · exact (List.pairwise_cons.mp h).1 y hy
    rw [hpair] at h2
    refine ⟨h2, ?_, ?_⟩
    · rw [Bool.and_eq_true, h2]
      have hcnt : a.bitmap.length = (bView a).count true := by rw [← count_contains, ← bitmap_eq_setIdx hw]
      have hvl : (bView a).length = a.len := by simp [bView]
      rw [show 0 + 64 * (a.len / 64) + a.len % 64 = a.len by omega, hcnt, ← hvl]
      rcases hl : bView a with _ | ⟨x, _ | ⟨y, _ | ⟨z, zs⟩⟩⟩
      · simp
      · simp
      · cases x <;> cases y <;> decide
      · have : ¬ (x :: y :: z :: zs).Pairwise (fun x y => x < y) := by
          intro h
          have h1 := (List.pairwise_cons.mp h).1 y (by simp)
          have h2 := (List.pairwise_cons.mp (List.pairwise_cons.mp h).2).1 z (by simp)
          cases x <;> cases y <;> cases z <;> revert h1 h2 <;> decide
        simp [this]
    · have hr : runs (b :: bView a) = runs (bView a) := by rw [hbs]; simp [runs]
      rw [hr] at h1
      simp only at h1 ⊢
      omega

/-! ## Integers -/

/-- Array invariant. -/
structure IWF (a : IArr) : Prop where
  sorted : a.bitmap.Pairwise (· < ·)
  u32 : ∀ x ∈ a.bitmap, x < u32
  fits : ∀ x ∈ a.bitmap, x < 2 ^ a.w

theorem canonical_id {a : IArr} (hw : IWF a) : iIntoCanonical a = a.bitmap := by
  conv => rhs; rw [← List.map_id a.bitmap]
  exact List.map_congr_left (fun x hx => Nat.mod_eq_of_lt (hw.fits x hx))

theorem iTryNew_ok {bm : List Nat} {w : Nat} (h : ∀ x ∈ bm, x < 2 ^ w) : iTryNew bm w = .ok ⟨bm, w⟩ := by
  unfold iTryNew
  split
  · rename_i m hm
    have := h m (List.mem_of_getLast? hm)
    rw [if_neg (by omega)]
  · rfl

/-- **C19, roaring integers.** A strictly increasing array of unsigned values that fit the ptype and a `u32` encodes, and decodes to
itself; a value beyond `u32` is an error, never silent truncation. -/
theorem C19_roaring_int_roundtrip (w : Nat) (vals : List Nat) (hs : vals.Pairwise (· < ·)) (hf : ∀ x ∈ vals, x < 2 ^ w) :
    ((∀ x ∈ vals, x < u32) → ∃ a, iEncode w vals = .ok a ∧ IWF a ∧ a.len = vals.length ∧ iIntoCanonical a = vals) ∧
    ((∃ x ∈ vals, u32 ≤ x) → iEncode w vals = .err) := by
  constructor
  · intro hu
    have h1 : Res.mapM toU32 vals = .ok vals := by
      have := Res.mapM_ok (f := toU32) (g := id) (as := vals) (fun x hx => by simp [toU32, hu x hx])
      simpa using this
    have h2 : extend vals [] = vals := by
      have := extend_sorted (bm := []) (xs := vals) (by simpa using hs)
      simpa using this
    have hw : IWF ⟨vals, w⟩ := ⟨hs, hu, hf⟩
    exact ⟨⟨vals, w⟩, by simp [iEncode, h1, h2, iTryNew_ok hf], hw, rfl, canonical_id hw⟩
  · rintro ⟨x, hx, hxu⟩
    have : Res.mapM toU32 vals = .err := by
      clear hs hf
      induction vals with
      | nil => simp at hx
      | cons y ys ih =>
        by_cases hy : y < u32
        · rcases List.mem_cons.mp hx with rfl | hx
          · omega
          · simp [toU32, hy, ih hx]
        · simp [toU32, hy]
    simp [iEncode, this]

/-- **C19, roaring integers.** The constructor, given any bitmap (an increasing list of values): it accepts exactly the bitmaps all of
whose values fit the unsigned type, and the accepted array decodes to the values of the bitmap; anything else is an error. -/
theorem C19_roaring_int_try_new (bm : List Nat) (hs : bm.Pairwise (· < ·)) (hu : ∀ x ∈ bm, x < u32) (w : Nat) :
    ((∀ x ∈ bm, x < 2 ^ w) → ∃ a, iTryNew bm w = .ok a ∧ IWF a ∧ iIntoCanonical a = bm) ∧
    ((∃ x ∈ bm, 2 ^ w ≤ x) → iTryNew bm w = .err) := by
  refine ⟨fun h => ⟨⟨bm, w⟩, iTryNew_ok h, ⟨hs, hu, h⟩, canonical_id ⟨hs, hu, h⟩⟩, ?_⟩
  rintro ⟨x, hx, hxw⟩
  unfold iTryNew
  split
  · rename_i m hm
    have hle : x ≤ m := by
      unfold maximum at hm
      obtain ⟨l, rfl⟩ := List.getLast?_eq_some_iff.mp hm
      rw [List.pairwise_append] at hs
      rcases List.mem_append.mp hx with h | h
      · exact Nat.le_of_lt (hs.2.2 x h m (by simp))
      · simp at h; omega
    have : 0 < 2 ^ w := Nat.two_pow_pos w
    rw [if_pos (by omega)]
  · rename_i hm
    unfold maximum at hm
    simp at hm
    simp [hm] at hx

example : iTryNew [3, 256] 8 = .err ∧ iTryNew [3, 255] 8 = .ok ⟨[3, 255], 8⟩ := by decide +kernel

/-- Without the compressor's strict-sortedness check the encoder loses duplicates and order. -/
theorem C19_roaring_int_unsorted_loss : ∃ a, iEncode 32 [3, 1, 3] = .ok a ∧ iIntoCanonical a = [1, 3] :=
  ⟨⟨[1, 3], 32⟩, by decide +kernel, by decide +kernel⟩

theorem card_small {a : IArr} (hw : IWF a) : a.len ≤ u32 := sorted_length_le hw.sorted hw.u32

/-- **C19, roaring integers.** `scalar_at` is the element of the decoded array, an error past the end. -/
theorem C19_roaring_int_scalar_at (a : IArr) (hw : IWF a) (i : Nat) :
    (i < a.len → ∃ x, iScalarAt a i = .ok x ∧ (iIntoCanonical a)[i]? = some x) ∧ (a.len ≤ i → iScalarAt a i = .err) := by
  refine ⟨fun h => ?_, fun h => by simp [iScalarAt, h]⟩
  have hl : i < a.bitmap.length := h
  have := card_small hw
  refine ⟨a.bitmap[i], ?_, by rw [canonical_id hw, List.getElem?_eq_getElem hl]⟩
  simp [iScalarAt, show ¬ (i ≥ a.len) by omega, Nat.mod_eq_of_lt (show i < u32 by omega), select, List.getElem?_eq_getElem hl,
    Nat.mod_eq_of_lt (hw.fits _ (List.getElem_mem hl))]

theorem sorted_lt_iff {xs : List Nat} (h : xs.Pairwise (· < ·)) {i j : Nat} (hi : i < xs.length) (hj : j < xs.length) :
    xs[i] < xs[j] ↔ i < j := by
  rw [List.pairwise_iff_getElem] at h
  constructor
  · intro hlt
    by_contra hc
    rcases Nat.lt_or_ge j i with h1 | h1
    · have := h j i hj hi h1; omega
    · have : i = j := by omega
      subst this; omega
  · exact fun hlt => h i j hi hj hlt

/-- Elements between the `s`-th and the `(e-1)`-th. -/
theorem andRange_eq_slice {xs : List Nat} (h : xs.Pairwise (· < ·)) {s e : Nat} (hs : s < xs.length) (he : e - 1 < xs.length)
    (hse : s < e ∨ 0 < s) (hse' : s ≤ e) : andRange xs xs[s] (xs[e - 1] + 1) = Spec.slice xs s e := by
  apply List.SortedLT.eq_of_mem_iff
  · exact List.sortedLT_iff_pairwise.mpr (h.filter _)
  · exact List.sortedLT_iff_pairwise.mpr ((h.sublist (List.take_sublist _ _)).sublist (List.drop_sublist _ _))
  · intro x
    simp only [andRange, List.mem_filter, Bool.and_eq_true, decide_eq_true_eq]
    constructor
    · rintro ⟨hx, h1, h2⟩
      obtain ⟨i, hi, rfl⟩ := List.getElem_of_mem hx
      have h1' : s ≤ i := by
        by_contra hc
        have := (sorted_lt_iff h hi hs).mpr (by omega); omega
      have h2' : i ≤ e - 1 := by
        by_contra hc
        have := (sorted_lt_iff h he hi).mpr (by omega); omega
      apply List.mem_of_getElem? (i := i - s)
      rw [slice_getElem?, show s + (i - s) = i by omega, if_pos (by omega), List.getElem?_eq_getElem hi]
    · intro hx
      obtain ⟨i, hi⟩ := List.getElem?_of_mem hx
      rw [slice_getElem?] at hi
      split at hi
      · rename_i hlt
        obtain ⟨hl, rfl⟩ := List.getElem?_eq_some_iff.mp hi
        refine ⟨List.getElem_mem _, ?_, ?_⟩
        · by_cases h0 : i = 0
          · subst h0; simp
          · have := (sorted_lt_iff h hs hl).mpr (by omega); omega
        · by_cases h0 : s + i = e - 1
          · simp [h0]
          · have := (sorted_lt_iff h hl he).mpr (by omega); omega
      · simp at hi

/-- **C19, roaring integers (partial).** Every slice except an empty one at the very beginning or the very end agrees with slicing the
decoded array; bad bounds are an error. Missing: `slice(0, 0)` and `slice(len, len)`, where the code is wrong
(`C19_roaring_int_empty_slice_wrong`). -/
theorem C19_roaring_int_slice_partial (a : IArr) (hw : IWF a) (s e : Nat) :
    (InBounds a.len s e → (s < e ∨ (0 < s ∧ s < a.len)) → ∃ b, iSlice a s e = .ok b ∧ IWF b ∧ b.len = e - s ∧
      iIntoCanonical b = Spec.slice (iIntoCanonical a) s e) ∧
    (¬ InBounds a.len s e → iSlice a s e = .err) := by
  constructor
  · rintro ⟨h1, h2⟩ hne
    have hcard := card_small hw
    have hsl : s < a.bitmap.length := by change s < a.len; omega
    have hel : e - 1 < a.bitmap.length := by change e - 1 < a.len; omega
    have hsel : select a.bitmap (s % u32) = some a.bitmap[s] := by
      rw [Nat.mod_eq_of_lt (by omega)]; simp [select, List.getElem?_eq_getElem hsl]
    have hstop : stopInclusive a e = .ok a.bitmap[e - 1] := by
      unfold stopInclusive
      split
      · rename_i he
        have : a.bitmap ≠ [] := by intro h0; rw [h0] at hsl; simp at hsl
        simp only [maximum, List.getLast?_eq_getLast_of_ne_nil this, Option.getD_some, List.getLast_eq_getElem]
        have : a.bitmap.length - 1 = e - 1 := by rw [he]; rfl
        simp only [this]
      · rw [Nat.mod_eq_of_lt (by omega)]
        simp [select, List.getElem?_eq_getElem hel]
    have hr := andRange_eq_slice hw.sorted hsl hel (by omega) h1
    have hsub : ∀ x ∈ Spec.slice a.bitmap s e, x ∈ a.bitmap := fun x hx => List.mem_of_mem_take (List.mem_of_mem_drop hx)
    have hwb : IWF ⟨Spec.slice a.bitmap s e, a.w⟩ :=
      ⟨(hw.sorted.sublist (List.take_sublist _ _)).sublist (List.drop_sublist _ _), fun x hx => hw.u32 x (hsub x hx),
        fun x hx => hw.fits x (hsub x hx)⟩
    refine ⟨⟨Spec.slice a.bitmap s e, a.w⟩, ?_, hwb, slice_length' ⟨h1, h2⟩, ?_⟩
    · simp only [iSlice, if_neg (show ¬ s > a.len by omega), if_neg (show ¬ e > a.len by omega), if_neg (show ¬ s > e by omega),
        hsel, Res.ofOption_some, Res.ok_bind, hstop, hr]
      exact iTryNew_ok hwb.fits
    · rw [canonical_id hwb, canonical_id hw]
  · intro h
    simp only [InBounds] at h
    unfold iSlice
    split
    · rfl
    · split
      · rfl
      · split
        · rfl
        · omega

/-- The empty slice at the beginning has one row, and the empty slice at the end is an error. -/
theorem C19_roaring_int_empty_slice_wrong :
    ∃ a, iEncode 32 [5, 9] = .ok a ∧ IWF a ∧ iSlice a 0 0 = .ok ⟨[5], 32⟩ ∧ iSlice a 2 2 = .err :=
  ⟨⟨[5, 9], 32⟩, by decide +kernel, ⟨by decide, by decide, by decide⟩, by decide +kernel, by decide +kernel⟩

/-! ### Non-vacuity -/

example : BWF ⟨[0, 2, 3], 5⟩ := ⟨by decide, by decide, by decide⟩
example : ∃ b, bSlice ⟨[0, 2, 3], 5⟩ 1 4 = .ok b ∧ bView b = [false, true, true] := ⟨⟨[1, 2], 3⟩, by decide, by decide⟩
example : bSlice ⟨[0, 2, 3], 5⟩ 5 5 = .ok ⟨[], 0⟩ := by decide
example : bCompute ⟨[0, 2, 3], 5⟩ = .ok (some ⟨false, false, 4⟩) := by decide +kernel
example : iSlice ⟨[10, 12, 15, 19], 8⟩ 1 3 = .ok ⟨[12, 15], 8⟩ := by decide +kernel

end Vx.Roaring
