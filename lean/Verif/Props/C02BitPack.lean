import Verif.Props.C10More
import Verif.Props.C02Sparse
import Verif.Model.BitPackSearch
import Mathlib.Data.List.Sort
/-! # C02, bit-packed arrays: searching the packed values and the patches -/

namespace Vx.BitPack
open Spec FoR

variable {fl : FL T}

/-- The patches are exactly the rows that do not fit the bit width. -/
structure Tight (fl : FL T) (a : Arr T) : Prop where
  patched : ∀ (i : Nat) x, (ALP.patchRows (view fl a))[i]? = some (some x) → (rows fl a)[i]? = some (some x) ∧ 2 ^ a.w ≤ x.toNat
  packed : ∀ (i : Nat) x, (ALP.patchRows (view fl a))[i]? = some none → (rows fl a)[i]? = some (some x) → x.toNat < 2 ^ a.w

theorem patchRows_encoded (hfl : fl.Lawful) {w : Nat} {a : PArr (BitVec T)} (hw : a.WF) (hwT : w < T) {i : Nat} (hi : i < a.vals.length) :
    (ALP.patchRows (view fl (encoded fl w a)))[i]? = some (if (decide (w < bitLen a.vals[i].toNat) && validAt a i) then some a.vals[i] else none) := by
  have hwf := encoded_WF hfl hw hwT
  have hv : a.vals[i]? = some a.vals[i] := List.getElem?_eq_getElem hi
  have hg := (gathered_ok a.vals (fun p => decide (w < bitLen p.1.toNat) && validAt a p.2)).2.2 i _ hv
  simp only [← exceptions_filter hwT] at hg
  rw [← hg]
  unfold ALP.patchRows view encoded patchesOf
  simp only
  by_cases he : (exceptions w a).isEmpty = true
  · rw [if_pos he]
    have he' : exceptions w a = [] := by simpa using he
    have hl : (stored fl (encoded fl w a)).length = a.vals.length := stored_length hfl hwf
    simp only [he', List.map_nil]
    rw [Sparse.rows_getElem? _ i (by simpa using hi)]
    have : i < (stored fl (encoded fl w a)).length := by rw [hl]; exact hi
    simp only [PArr.len, List.getElem?_replicate]
    have e : stored fl ⟨packAll fl w a.vals, a.validity, none, w, a.vals.length, 0⟩ = stored fl (encoded fl w a) := rfl
    rw [e, if_pos this]
    rfl
  · rw [if_neg he]

/-- What packing produces is tight. -/
theorem encoded_tight (hfl : fl.Lawful) {w : Nat} {a : PArr (BitVec T)} (hw : a.WF) (hwT : w < T) : Tight fl (encoded fl w a) := by
  have hr := rows_encoded hfl hw hwT
  have hpl : (ALP.patchRows (view fl (encoded fl w a))).length = a.vals.length := by
    have hwf := encoded_WF hfl hw hwT
    unfold ALP.patchRows
    cases hp : (view fl (encoded fl w a)).patches with
    | none => simp only [List.length_replicate]; exact view_len hfl hwf
    | some p => rw [Sparse.rows_length]; exact (hwf.patches p hp).2.2.2.1
  constructor
  · intro i x h
    have hi : i < a.vals.length := by
      rw [← hpl]; exact (List.getElem?_eq_some_iff.mp h).1
    rw [patchRows_encoded hfl hw hwT hi] at h
    split at h
    · rename_i hc
      simp only [Bool.and_eq_true, decide_eq_true_eq] at hc
      obtain rfl := Option.some.inj (Option.some.inj h)
      refine ⟨by rw [hr]; exact rows_valid (List.getElem?_eq_getElem hi) hc.2, ?_⟩
      rcases Nat.lt_or_ge a.vals[i].toNat (2 ^ w) with h' | h'
      · have := bitLen_le_of_lt h'; omega
      · exact h'
    · cases h
  · intro i x h hx
    have hi : i < a.vals.length := by
      rw [← hpl]; exact (List.getElem?_eq_some_iff.mp h).1
    rw [patchRows_encoded hfl hw hwT hi] at h
    rw [hr, PArr.rows, Vx.rows_getElem?, List.getElem?_eq_getElem hi] at hx
    have hva : validAt a i = true ∧ x = a.vals[i] := by
      unfold validAt
      cases hm : (mask a.vals.length a.validity)[i]? with
      | none => simp [hm] at hx
      | some b => cases b <;> simp_all
    obtain ⟨hva, rfl⟩ := hva
    simp only [hva, Bool.and_true, decide_eq_true_eq] at h
    split at h
    · cases h
    · apply lt_of_bitLen
      simp only [encoded]
      omega

/-- `search_sorted` on the packed part: everything from `firstInvalid` on counts as greater. -/
theorem packed_search_spec (hT : IsWidth T) (hfl : fl.Lawful) (a : Arr T) (h : WF a) (ys : List (BitVec T)) (q : Nat) (hq : q ≤ ys.length)
    (hl : ys.length ≤ a.len) (hst : ∀ i (hi : i < q), (stored fl a)[i]? = some (ys[i]'(by omega)))
    (hs : (ys.map (intKey false)).Pairwise (· ≤ ·)) (v : BitVec T)
    (hgt : ∀ i (hi : i < ys.length), q ≤ i → intKey false v < intKey false ys[i]) (side : Side) :
    searchSorted (searchCmp fl a q v) a.len side = .ok (Spec.searchSorted (ys.map (intKey false)) (intKey false v) side) := by
  have h1 := searchNullsLast_key (intKey false) (ys.take q) (a.len - q) v side
    (by rw [List.map_take]; exact hs.sublist (List.take_sublist _ _))
  have hcmp : ∀ i, i < a.len → searchCmp fl a q v i =
      nullsLastIndexCmp (fun x y => compare (intKey false x) (intKey false y)) ((ys.take q).map some ++ List.replicate (a.len - q) none) v i := by
    intro i hi
    unfold searchCmp nullsLastIndexCmp idx
    by_cases hiq : i < q
    · rw [if_neg (by omega), List.getElem?_append_left (by simp; omega)]
      obtain ⟨x, hx, hxd⟩ := unpackSingle_ok hT hfl (j := i + a.offset) h.width h.packed (by have := h.offset; omega)
      have := hst i hiq
      unfold stored at this
      rw [List.getElem?_take, if_pos hi, List.getElem?_drop, Nat.add_comm a.offset i, hxd] at this
      obtain rfl := Option.some.inj this
      simp [hx, List.getElem?_take, hiq, show i < ys.length by omega]
    · rw [if_pos (by omega), List.getElem?_append_right (by simp; omega)]
      simp only [List.length_map, List.length_take, Nat.min_eq_left hq]
      rw [List.getElem?_replicate, if_pos (by omega)]
      rfl
  have hlen : ((ys.take q).map some ++ List.replicate (a.len - q) (none : Option (BitVec T))).length = a.len := by
    simp [Nat.min_eq_left hq]; omega
  unfold searchNullsLast at h1
  rw [hlen] at h1
  rw [searchSorted_congr hcmp, h1]
  congr 1
  -- the rows left out are all greater
  have hsplit : ys.map (intKey false) = (ys.take q).map (intKey false) ++ (ys.drop q).map (intKey false) := by
    rw [← List.map_append, List.take_append_drop]
  have hbig : ∀ y ∈ (ys.drop q).map (intKey false), intKey false v < y := by
    intro y hy
    obtain ⟨x, hx, rfl⟩ := List.mem_map.mp hy
    obtain ⟨j, hj⟩ := List.mem_iff_getElem?.mp hx
    rw [List.getElem?_drop] at hj
    obtain ⟨hlt, rfl⟩ := List.getElem?_eq_some_iff.mp hj
    exact hgt _ hlt (by omega)
  have hmem : intKey false v ∈ ys.map (intKey false) ↔ intKey false v ∈ (ys.take q).map (intKey false) := by
    rw [hsplit, List.mem_append]
    exact ⟨fun h => h.elim id (fun h => absurd (hbig _ h) (by omega)), Or.inl⟩
  have hip : insertionPoint (ys.map (intKey false)) (intKey false v) side = insertionPoint ((ys.take q).map (intKey false)) (intKey false v) side := by
    rw [hsplit]
    cases side
    · simp only [insertionPoint, List.countP_append]
      rw [Nat.add_eq_left, List.countP_eq_zero]
      intro y hy
      have := hbig y hy
      simp; omega
    · simp only [insertionPoint, List.countP_append]
      rw [Nat.add_eq_left, List.countP_eq_zero]
      intro y hy
      have := hbig y hy
      simp; omega
  simp only [Spec.searchSorted, hmem, hip]


/-- The first null of nulls-last rows. -/
theorem firstNull_eq {n : Nat} {va : Validity} (hv : FitsLen va n) {vals : List α} (hn : vals.length = n) {ys : List α} {k : Nat}
    (hr : (Spec.rows vals (mask n va)).map Option.isSome = List.replicate ys.length true ++ List.replicate k false) (hyk : ys.length + k = n) :
    firstNull va n = ys.length := by
  have hm : (Spec.rows vals (mask n va)).map Option.isSome = mask n va := by
    have hml : (mask n va).length = n := hv
    apply List.ext_getElem
    · simp [Spec.rows, hml, hn]
    · intro i h1 h2
      simp only [Spec.rows, List.getElem_map, List.getElem_zipWith]
      cases (mask n va)[i] <;> rfl
  rw [hm] at hr
  cases va with
  | nonNullable =>
    have := congrArg (List.count true) hr
    simp [mask, firstNull, List.count_append, List.count_replicate] at this ⊢; omega
  | allValid =>
    have := congrArg (List.count true) hr
    simp [mask, firstNull, List.count_append, List.count_replicate] at this ⊢; omega
  | allInvalid =>
    have := congrArg (List.count true) hr
    simp [mask, firstNull, List.count_append, List.count_replicate] at this ⊢; omega
  | array bits =>
    simp only [mask, firstNull] at hr ⊢
    rw [hr, List.countP_append, List.countP_replicate, List.countP_replicate]
    simp

/-- The rows of a bit-packed array, one at a time. -/
theorem rows_at (fl : FL T) (a : Arr T) (i : Nat) : (rows fl a)[i]? =
    match (Spec.rows (stored fl a) (mask (stored fl a).length a.validity))[i]?, (ALP.patchRows (view fl a))[i]? with
    | some e, some p => some (e.map (fun x => p.getD x))
    | _, _ => none := by
  rw [rows, ALP.rows, List.getElem?_zipWith]
  have : (view fl a).encoded.rows = Spec.rows (stored fl a) (mask (stored fl a).length a.validity) := rfl
  rw [this]
  cases (Spec.rows (stored fl a) (mask (stored fl a).length a.validity))[i]? <;> cases (ALP.patchRows (view fl a))[i]? <;> rfl

theorem patchRows_length (hfl : fl.Lawful) {a : Arr T} (h : WF a) : (ALP.patchRows (view fl a)).length = a.len := by
  unfold ALP.patchRows
  cases hp : (view fl a).patches with
  | none => simp only [List.length_replicate]; exact view_len hfl h
  | some p => rw [Sparse.rows_length]; exact (h.patches p hp).2.2.2.1

/-- An unpatched row that is not null is the packed value. -/
theorem stored_of_rows {a : Arr T} {i : Nat} {x : BitVec T} (hp : (ALP.patchRows (view fl a))[i]? = some none)
    (hr : (rows fl a)[i]? = some (some x)) : (stored fl a)[i]? = some x := by
  rw [rows_at, hp, Vx.rows_getElem?] at hr
  cases hs : (stored fl a)[i]? with
  | none => simp [hs] at hr
  | some y =>
    cases hm : (mask (stored fl a).length a.validity)[i]? with
    | none => simp [hs, hm] at hr
    | some b => cases b <;> simp_all

/-- **C02, bit-packed arrays.** For rows sorted with nulls last, packed by the library or sliced from that: searching returns the position
and tag for the decoded rows, whichever side and whether or not the probe fits the bit width. -/
theorem C02_bitpack_search (hT : IsWidth T) (hfl : fl.Lawful) (a : Arr T) (h : WF a) (hw64 : a.w < 64) (ht : Tight fl a)
    (ys : List (BitVec T)) (k : Nat) (hr : rows fl a = ys.map some ++ List.replicate k none)
    (hs : (ys.map (intKey false)).Pairwise (· ≤ ·)) (v : BitVec T) (side : Side) :
    searchNative fl a v side = .ok (Spec.searchSorted (ys.map (intKey false)) (intKey false v) side) := by
  have hlen := rows_length hfl h
  have hstl := stored_length hfl h
  have hyk : ys.length + k = a.len := by rw [← hlen, hr]; simp
  have hry : ∀ i (hi : i < ys.length), (rows fl a)[i]? = some (some ys[i]) := by
    intro i hi
    rw [hr, List.getElem?_append_left (by simpa using hi)]; simp [hi]
  have hrn : ∀ i, ys.length ≤ i → i < a.len → (rows fl a)[i]? = some none := by
    intro i h1 h2
    rw [hr, List.getElem?_append_right (by simpa using h1), List.getElem?_replicate, if_pos (by simp; omega)]
  have hle : ∀ i j (hi : i < ys.length) (hj : j < ys.length), i ≤ j → intKey false ys[i] ≤ intKey false ys[j] := by
    intro i j hi hj hij
    rcases Nat.lt_or_eq_of_le hij with hlt | rfl
    · have := List.pairwise_iff_getElem.mp hs i j (by simpa using hi) (by simpa using hj) hlt
      simpa using this
    · exact Int.le_refl _
  have hpl := patchRows_length hfl h
  have hfn : firstNull a.validity a.len = ys.length := by
    apply firstNull_eq (vals := stored fl a) (k := k) h.validity hstl ?_ hyk
    have : (Spec.rows (stored fl a) (mask a.len a.validity)).map Option.isSome = (rows fl a).map Option.isSome := by
      apply List.ext_getElem?
      intro i
      rw [List.getElem?_map, List.getElem?_map, rows_at, hstl]
      by_cases hi : i < a.len
      · have h2 : i < (ALP.patchRows (view fl a)).length := by rw [hpl]; exact hi
        rw [List.getElem?_eq_getElem h2]
        cases (Spec.rows (stored fl a) (mask a.len a.validity))[i]? with
        | none => rfl
        | some e => cases e <;> rfl
      · rw [List.getElem?_eq_none (l := ALP.patchRows (view fl a)) (by rw [hpl]; omega)]
        rw [List.getElem?_eq_none (l := Spec.rows (stored fl a) (mask a.len a.validity)) (by
          simp only [Spec.rows, List.length_zipWith]; omega)]
    rw [this, hr, List.map_append, List.map_map, List.map_replicate]
    congr 1
    apply List.ext_getElem <;> simp
  unfold searchNative
  cases hp : a.patches with
  | none =>
    have hpn : ∀ i, i < a.len → (ALP.patchRows (view fl a))[i]? = some none := by
      intro i hi
      have : (view fl a).patches = none := hp
      simp only [ALP.patchRows, this, List.getElem?_replicate]
      rw [if_pos (by rw [view_len hfl h]; exact hi)]
    simp only [packedSearch, hp, minPatch, Res.ok_bind, hfn, Nat.min_eq_right (show ys.length ≤ a.len by omega)]
    exact packed_search_spec hT hfl a h ys ys.length (Nat.le_refl _) (by omega)
      (fun i hi => stored_of_rows (hpn i (by omega)) (hry i hi)) hs v (fun i h1 h2 => by omega) side
  | some p =>
    obtain ⟨p1, p2, p3, p4, p5⟩ := h.patches p hp
    have hprow : ALP.patchRows (view fl a) = p.rows := by
      have : (view fl a).patches = some p := hp
      simp only [ALP.patchRows, this]
    -- which rows are patched
    have hvr : p.values.rows = p.values.vals.map some := by
      simp only [PArr.rows, p3, mask]
      apply List.ext_getElem
      · simp [Spec.rows]
      · intro i h1 h2; simp [Spec.rows]
    have hmem : ∀ i, i < a.len → ((p.offset + i ∈ p.indices) ↔ ∃ x, (ALP.patchRows (view fl a))[i]? = some (some x)) := by
      intro i hi
      rw [hprow, Sparse.rows_getElem? p i (by rw [p4]; exact hi)]
      constructor
      · intro hm
        obtain ⟨j, hj⟩ := List.mem_iff_getElem?.mp hm
        have hjl : j < p.values.vals.length := by
          have h1 := (List.getElem?_eq_some_iff.mp hj).1
          have := p1.lens
          simp only [PArr.len] at this; omega
        refine ⟨p.values.vals[j], ?_⟩
        rw [patchOr_found p1.strict _ hj (r := some p.values.vals[j]) (by rw [hvr]; simp [hjl])]
      · rintro ⟨x, hx⟩
        by_contra hm
        rw [patchOr_none _ hm, p2] at hx
        simp at hx
    have hin : ∀ i, i < a.len → ((p.offset + i ∈ p.indices) ↔ (∃ hi : i < ys.length, 2 ^ a.w ≤ ys[i].toNat)) := by
      intro i hi
      rw [hmem i hi]
      constructor
      · rintro ⟨x, hx⟩
        obtain ⟨h1, h2⟩ := ht.patched i x hx
        by_cases hiy : i < ys.length
        · rw [hry i hiy] at h1
          obtain rfl := Option.some.inj (Option.some.inj h1)
          exact ⟨hiy, h2⟩
        · rw [hrn i (by omega) hi] at h1; cases h1
      · rintro ⟨hiy, hge⟩
        have h2 : i < (ALP.patchRows (view fl a)).length := by rw [hpl]; exact hi
        cases hx : (ALP.patchRows (view fl a))[i]? with
        | none => rw [List.getElem?_eq_getElem h2] at hx; cases hx
        | some r =>
          cases r with
          | some x => exact ⟨x, rfl⟩
          | none =>
            have := ht.packed i _ hx (hry i hiy)
            omega
    -- the first patch
    obtain ⟨j0, js, hj0⟩ : ∃ j0 js, p.indices = j0 :: js := by
      cases hi : p.indices with
      | nil => exact absurd hi p5
      | cons j js => exact ⟨j, js, rfl⟩
    have hj0m : j0 ∈ p.indices := by rw [hj0]; simp
    have hlo := p1.lower j0 hj0m
    have hup := p1.upper j0 hj0m
    obtain ⟨m, hm⟩ : ∃ m, m = j0 - p.offset := ⟨_, rfl⟩
    have hj0e : j0 = p.offset + m := by omega
    have hma : m < a.len := by omega
    obtain ⟨hmy, hmge⟩ := (hin m hma).mp (by rw [← hj0e]; exact hj0m)
    have hfirst : ∀ j ∈ p.indices, j0 ≤ j := by
      intro j hj
      have hst := p1.strict
      rw [hj0] at hst hj
      rcases List.mem_cons.mp hj with rfl | hj
      · exact Nat.le_refl _
      · exact Nat.le_of_lt (List.rel_of_pairwise_cons hst hj)
    have hminp : minPatch (some p) a.len = .ok m := by
      simp only [minPatch, hj0, List.isEmpty_cons, Bool.false_eq_true, if_false, Sparse.minIndex, List.head?_cons]
      rw [Res.sub_of_le hlo, hm]
    have hbelow : ∀ i (hi : i < ys.length), i < m → (ALP.patchRows (view fl a))[i]? = some none := by
      intro i hi him
      have h2 : i < (ALP.patchRows (view fl a)).length := by rw [hpl]; omega
      cases hx : (ALP.patchRows (view fl a))[i]? with
      | none => rw [List.getElem?_eq_getElem h2] at hx; cases hx
      | some r =>
        cases r with
        | none => rfl
        | some x =>
          have := hfirst _ ((hmem i (by omega)).mpr ⟨x, hx⟩)
          omega
    have hge : ∀ i (hi : i < ys.length), m ≤ i → 2 ^ a.w ≤ ys[i].toNat := by
      intro i hi hmi
      have := hle m i hmy hi hmi
      simp only [intKey, Bool.false_eq_true, if_false] at this
      omega
    simp only [if_neg (show ¬ 64 ≤ a.w by omega)]
    by_cases hv : v.toNat > 2 ^ a.w - 1
    · rw [if_pos hv]
      have hpos := Nat.two_pow_pos a.w
      have hidx : p.indices = (List.range (ys.drop m).length).map (fun i => p.offset + m + i) := by
        have : p.indices.SortedLT := List.sortedLT_iff_pairwise.mpr p1.strict
        refine this.eq_of_mem_iff (List.sortedLT_iff_pairwise.mpr ?_) ?_
        · rw [List.pairwise_map]
          exact List.pairwise_lt_range.imp (by intro a b h; omega)
        · intro j
          simp only [List.mem_map, List.mem_range, List.length_drop]
          constructor
          · intro hj
            have h1 := p1.lower j hj
            have h2 := p1.upper j hj
            have h3 := hfirst j hj
            obtain ⟨hiy, _⟩ := (hin (j - p.offset) (by omega)).mp (by rw [show p.offset + (j - p.offset) = j by omega]; exact hj)
            exact ⟨j - p.offset - m, by omega, by omega⟩
          · rintro ⟨i, hi, rfl⟩
            rw [Nat.add_assoc]
            exact (hin (m + i) (by omega)).mpr ⟨by omega, hge _ _ (by omega)⟩
      have hvals : p.values.rows = (ys.drop m).map some := by
        have hll : p.values.vals.length = ys.length - m := by
          have := p1.lens
          rw [hidx] at this
          simpa [PArr.len] using this.symm
        apply List.ext_getElem?
        intro i
        by_cases hi : i < ys.length - m
        · have hxi : (p.indices)[i]? = some (p.offset + (m + i)) := by
            rw [hidx]; simp [hi]; omega
          have e1 : p.values.rows[i]? = some (some (p.values.vals[i]'(by omega))) := by rw [hvr]; simp [hll, hi]
          have h3 : (ALP.patchRows (view fl a))[m + i]? = some (some (p.values.vals[i]'(by omega))) := by
            rw [hprow, Sparse.rows_getElem? p (m + i) (by omega), patchOr_found p1.strict _ hxi e1]
          have h4 := (ht.patched _ _ h3).1
          rw [hry (m + i) (by omega)] at h4
          rw [e1, List.getElem?_map, List.getElem?_drop, List.getElem?_eq_getElem (by omega), Option.map_some]
          exact h4.symm
        · rw [List.getElem?_eq_none (by rw [hvr]; simp [hll]; omega), List.getElem?_eq_none (by simp; omega)]
      rw [sparse_search_shift (intKey false) p p1 (ys.drop m) m (by intro h; have := congrArg List.length h; simp at this; omega) hidx hvals
        (by rw [List.map_drop]; exact hs.sublist (List.drop_sublist _ _)) v side]
      congr 1
      -- the rows before the patches are all smaller
      have hsplit : ys.map (intKey false) = (ys.take m).map (intKey false) ++ (ys.drop m).map (intKey false) := by
        rw [← List.map_append, List.take_append_drop]
      have hsmall : ∀ y ∈ (ys.take m).map (intKey false), y < intKey false v := by
        intro y hy
        obtain ⟨x, hx, rfl⟩ := List.mem_map.mp hy
        obtain ⟨j, hj⟩ := List.mem_iff_getElem?.mp hx
        rw [List.getElem?_take] at hj
        split at hj
        · rename_i hjm
          obtain ⟨hlt, rfl⟩ := List.getElem?_eq_some_iff.mp hj
          have := ht.packed j _ (hbelow j hlt hjm) (hry j hlt)
          simp only [intKey, Bool.false_eq_true, if_false]
          omega
        · cases hj
      have hmem' : intKey false v ∈ ys.map (intKey false) ↔ intKey false v ∈ (ys.drop m).map (intKey false) := by
        rw [hsplit, List.mem_append]
        exact ⟨fun h => h.elim (fun h => absurd (hsmall _ h) (by omega)) id, Or.inr⟩
      have htl : ((ys.take m).map (intKey false)).length = m := by simp; omega
      have hip : insertionPoint (ys.map (intKey false)) (intKey false v) side = m + insertionPoint ((ys.drop m).map (intKey false)) (intKey false v) side := by
        rw [hsplit]
        cases side
        · simp only [insertionPoint, List.countP_append]
          congr 1
          rw [List.countP_eq_length.mpr, htl]
          intro y hy
          have := hsmall y hy
          simpa using this
        · simp only [insertionPoint, List.countP_append]
          congr 1
          rw [List.countP_eq_length.mpr, htl]
          intro y hy
          have := hsmall y hy
          simp; omega
      simp only [Spec.searchSorted, hmem', hip]
      by_cases hM : intKey false v ∈ (ys.drop m).map (intKey false)
      · simp only [hM, if_true]
      · simp only [hM, if_false]
    · rw [if_neg hv]
      simp only [packedSearch, hp, hminp, Res.ok_bind, hfn, Nat.min_eq_left (show m ≤ ys.length by omega)]
      refine packed_search_spec hT hfl a h ys m (by omega) (by omega)
        (fun i hi => stored_of_rows (hbelow i (by omega) hi) (hry i (by omega))) hs v ?_ side
      intro i hi hmi
      have := hge i hi hmi
      have := Nat.two_pow_pos a.w
      simp only [intKey, Bool.false_eq_true, if_false]
      omega

/-- Slicing keeps the patches tight, so the search above applies to slices of packed arrays. -/
theorem slice_tight (hT : IsWidth T) (hfl : fl.Lawful) {a b : Arr T} (h : WF a) (ht : Tight fl a) {s e : Nat} (hb : InBounds a.len s e)
    (hsl : slice a s e = .ok b) : Tight fl b := by
  obtain ⟨b', h1, _, _, h4, h5, h6⟩ := slice_full hT hfl a h s e hb
  rw [hsl] at h1
  obtain rfl := Res.ok.inj h1
  have key : ∀ {α} (l : List α) (i : Nat) x, (Spec.slice l s e)[i]? = some x → l[s + i]? = some x := by
    intro α l i x hx
    rw [slice_getElem?] at hx
    split at hx
    · exact hx
    · cases hx
  have key' : ∀ (i : Nat) (x y), (Spec.slice (ALP.patchRows (view fl a)) s e)[i]? = some y → (rows fl a)[s + i]? = some x → (Spec.slice (rows fl a) s e)[i]? = some x := by
    intro i x y hy hx
    rw [slice_getElem?] at hy ⊢
    split at hy
    · rename_i hlt; rw [if_pos hlt]; exact hx
    · cases hy
  constructor
  · intro i x hx
    rw [h5] at hx
    have h7 := ht.patched _ _ (key _ _ _ hx)
    rw [h4, h6]
    exact ⟨key' i _ _ hx h7.1, h7.2⟩
  · intro i x hp hx
    rw [h5] at hp
    rw [h4] at hx
    rw [h6]
    exact ht.packed _ _ (key _ _ _ hp) (key _ _ _ hx)

/-- Packing and then searching: the whole path for a freshly packed array. -/
theorem C02_bitpack_encoded_search (hT : IsWidth T) (hfl : fl.Lawful) (a : PArr (BitVec T)) (hw : a.WF) (hne : a.vals ≠ []) (w : Nat) (hwT : w < T)
    (ys : List (BitVec T)) (k : Nat) (hr : a.rows = ys.map some ++ List.replicate k none)
    (hs : (ys.map (intKey false)).Pairwise (· ≤ ·)) (v : BitVec T) (side : Side) :
    ∃ arr, encode fl a w = .ok arr ∧ searchNative fl arr v side = .ok (Spec.searchSorted (ys.map (intKey false)) (intKey false v) side) := by
  have h64 : T ≤ 64 := by rcases hT with rfl | rfl | rfl | rfl <;> omega
  exact ⟨_, encode_eq hfl h64 hw hne hwT, C02_bitpack_search hT hfl _ (encoded_WF hfl hw hwT) (by simp only [encoded]; omega)
    (encoded_tight hfl hw hwT) ys k (by rw [rows_encoded hfl hw hwT, hr]) hs v side⟩

/-- A 64-bit probe that fits the element type is searched as such; a larger one is reported behind the last row, nulls included. -/
theorem C02_bitpack_search_u64 (hT : IsWidth T) (hfl : fl.Lawful) (a : Arr T) (h : WF a) (hw64 : a.w < 64) (ht : Tight fl a)
    (ys : List (BitVec T)) (hr : rows fl a = ys.map some) (hs : (ys.map (intKey false)).Pairwise (· ≤ ·)) (v : Nat) (side : Side) :
    searchU64 fl a v side = .ok (Spec.searchSorted (ys.map (intKey false)) (v : Int) side) := by
  unfold searchU64
  split
  · rename_i hv
    rw [C02_bitpack_search hT hfl a h hw64 ht ys 0 (by simpa using hr) hs]
    have : intKey false (BitVec.ofNat T v) = (v : Int) := by
      simp only [intKey, Bool.false_eq_true, if_false, BitVec.toNat_ofNat, Nat.mod_eq_of_lt hv]
    rw [this]
  · rename_i hv
    have hl : ys.length = a.len := by rw [← rows_length hfl h, hr]; simp
    have hlt : ∀ y ∈ ys.map (intKey false), y < (v : Int) := by
      intro y hy
      obtain ⟨x, _, rfl⟩ := List.mem_map.mp hy
      have := x.isLt
      simp only [intKey, Bool.false_eq_true, if_false]
      omega
    have hnm : (v : Int) ∉ ys.map (intKey false) := fun hm => absurd (hlt _ hm) (by omega)
    have hip : insertionPoint (ys.map (intKey false)) (v : Int) side = a.len := by
      rw [← hl, show ys.length = (ys.map (intKey false)).length by simp]
      cases side
      · simp only [insertionPoint, List.countP_eq_length]
        intro y hy
        simpa using hlt y hy
      · simp only [insertionPoint, List.countP_eq_length]
        intro y hy
        have := hlt y hy
        simp; omega
    simp only [Spec.searchSorted, hnm, if_false, hip]

/-- With trailing nulls, a 64-bit probe too large for the type is placed behind the nulls, while every other large probe is placed before
them. -/
theorem C02_bitpack_u64_behind_nulls :
    let a : Arr 8 := encoded (plainFL 8) 2 ⟨[1, 2, 0], .array [true, true, false]⟩
    rows (plainFL 8) a = [some 1, some 2, none] ∧
    searchU64 (plainFL 8) a 255 .left = .ok (.notFound 2) ∧ searchU64 (plainFL 8) a 256 .left = .ok (.notFound 3) := by
  refine ⟨?_, by decide +kernel, by decide +kernel⟩
  rw [rows_encoded (plainFL_lawful 8) (by decide) (by decide)]
  decide

/-- `search_sorted_many` does not look into the patches: 5 is not found in `[1, 2, 3, 4, 5]` packed in two bits, although the search for one
value finds it. -/
theorem C02_bitpack_many_ignores_patches :
    let a : Arr 8 := encoded (plainFL 8) 2 ⟨[1, 2, 3, 4, 5], .nonNullable⟩
    searchNative (plainFL 8) a 5 .left = .ok (.found 4) ∧ searchMany (plainFL 8) a [(5, .left)] = .ok [.notFound 3] := by
  refine ⟨by decide +kernel, by decide +kernel⟩

/-- `search_sorted_u64_many` truncates the probe: 257 is found where 1 is. -/
theorem C02_bitpack_u64_many_truncates :
    let a : Arr 8 := encoded (plainFL 8) 2 ⟨[1, 2, 3], .nonNullable⟩
    searchU64 (plainFL 8) a 257 .left = .ok (.notFound 3) ∧ searchU64Many (plainFL 8) a [(257, .left)] = .ok [.found 0] := by
  refine ⟨by decide +kernel, by decide +kernel⟩

/-- Without patches, searching many values is right for each of them. -/
theorem C02_bitpack_search_many_partial (hT : IsWidth T) (hfl : fl.Lawful) (a : Arr T) (h : WF a) (hw64 : a.w < 64) (ht : Tight fl a)
    (hp : a.patches = none) (ys : List (BitVec T)) (k : Nat) (hr : rows fl a = ys.map some ++ List.replicate k none)
    (hs : (ys.map (intKey false)).Pairwise (· ≤ ·)) (vs : List (BitVec T × Side)) :
    searchMany fl a vs = .ok (vs.map (fun p => Spec.searchSorted (ys.map (intKey false)) (intKey false p.1) p.2)) := by
  apply Res.mapM_ok
  intro p _
  have := C02_bitpack_search hT hfl a h hw64 ht ys k hr hs p.1 p.2
  simpa only [searchNative, hp] using this

example : ∃ arr, encode (plainFL 8) ⟨[1, 2, 200, 201, 0], .array [true, true, true, true, false]⟩ 2 = .ok arr ∧
    searchNative (plainFL 8) arr 200 .right = .ok (.found 3) := by
  obtain ⟨arr, h1, h2⟩ := C02_bitpack_encoded_search (Or.inl rfl) (plainFL_lawful 8) ⟨[1, 2, 200, 201, 0], .array [true, true, true, true, false]⟩
    (by decide) (by decide) 2 (by decide) [1, 2, 200, 201] 1 (by decide) (by decide) 200 .right
  exact ⟨arr, h1, h2.trans (by decide)⟩

end Vx.BitPack
