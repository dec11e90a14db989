import Verif.Lemmas.Chunked
import Verif.Props.C23
/-! # C22: chunk addressing, slicing, taking, filtering and rechunking

Every theorem ranges over all lists of chunks (including empty chunks and, where it matters, no chunks at all). -/

namespace Vx.Chunked
open Spec

variable {C R : Type} {Good : C → Prop} {rowsOf : C → List R} {len : C → Nat}

theorem rows_eq_flatten (cs : List C) : rows rowsOf cs = (cs.map rowsOf).flatten := by simp [rows, List.flatMap]

theorem lens_eq (hlen : LenLaw Good rowsOf len) {cs : List C} (hg : ∀ c ∈ cs, Good c) :
    cs.map len = (cs.map rowsOf).map List.length := by
  rw [List.map_map]; apply List.map_congr_left; intro c hc; simpa using hlen c (hg c hc)

theorem sum_eq (hlen : LenLaw Good rowsOf len) {cs : List C} (hg : ∀ c ∈ cs, Good c) :
    (cs.map len).sum = (rows rowsOf cs).length := by
  rw [lens_eq hlen hg, rows_eq_flatten, List.length_flatten]

/-- **C22 (addressing).** Every row index below the length is mapped to the chunk that contains it and its position inside that
chunk: never an empty chunk, never past its end. -/
theorem C22_find_chunk (lens : List Nat) (i : Nat) (h : i < lens.sum) :
    ∃ k j, findChunkIdx lens i = .ok (k, j) ∧ ∃ hk : k < lens.length, j < lens[k] ∧ (lens.take k).sum + j = i := by
  obtain ⟨k, j, h1, h2⟩ := findChunkIdx_ok lens i h
  exact ⟨k, j, h1, h2.lt, h2.inside, h2.pos⟩

/-- An index beyond the end panics. -/
theorem C22_find_chunk_out_of_bounds (lens : List Nat) (i : Nat) (h : lens.sum < i) : findChunkIdx lens i = .panic := by
  simp [findChunkIdx, Res.assert, show ¬ i ≤ lens.sum by omega]

example : findChunkIdx [2, 0, 3] 2 = .ok (2, 0) := by decide +kernel
example : findChunkIdx [2, 0, 3] 1 = .ok (0, 1) := by decide +kernel

/-- **C22 (scalar_at).** -/
theorem C22_scalar_at {isValid : C → Nat → Res Bool} {sc : C → Nat → Res (Option R)} {rowsOf : C → List (Option R)}
    (hlen : LenLaw Good rowsOf len)
    (hv : ∀ c i r, Good c → (rowsOf c)[i]? = some r → isValid c i = .ok r.isSome)
    (hs : ∀ c i r, Good c → (rowsOf c)[i]? = some r → sc c i = .ok r)
    (cs : List C) (hg : ∀ c ∈ cs, Good c) (i : Nat) :
    scalarAt len isValid sc cs i = match (rows rowsOf cs)[i]? with
      | some r => .ok r
      | none => .err := by
  unfold scalarAt
  rw [sum_eq hlen hg]
  by_cases hi : i < (rows rowsOf cs).length
  · obtain ⟨k, j, hf, ha⟩ := findChunkIdx_ok (cs.map len) i (by rw [sum_eq hlen hg]; exact hi)
    have hk : k < cs.length := by simpa using ha.lt
    have ha' := ha
    rw [lens_eq hlen hg] at ha'
    have hrow := flatten_getElem? ha'
    rw [← rows_eq_flatten, List.getElem_map, List.getElem?_eq_getElem hi] at hrow
    have gk : Good cs[k] := hg _ (List.getElem_mem _)
    have h1 := hv cs[k] j _ gk hrow.symm
    have h2 := hs cs[k] j _ gk hrow.symm
    simp only [show ¬ i ≥ (rows rowsOf cs).length by omega, if_false, hf, Res.ok_bind, List.getElem?_eq_getElem hk, Res.unwrap_some, h1,
      chunk, Res.ofOption_some, h2, List.getElem?_eq_getElem hi]
    cases hr : (rows rowsOf cs)[i] <;> simp
  · simp [show i ≥ (rows rowsOf cs).length by omega]

theorem filterMap_congr' {f g : α → Option β} {l : List α} (h : ∀ x ∈ l, f x = g x) : l.filterMap f = l.filterMap g := by
  induction l with
  | nil => rfl
  | cons a l ih => simp [List.filterMap_cons, h a (by simp), ih (fun x hx => h x (by simp [hx]))]

theorem mapM_chunk (cs : List C) (is : List Nat) (h : ∀ i ∈ is, i < cs.length) :
    Res.mapM (chunk cs) is = .ok (Spec.take cs is) := by
  induction is with
  | nil => rfl
  | cons i is ih =>
    have hi := h i (by simp)
    simp only [Res.mapM_cons, chunk, List.getElem?_eq_getElem hi, Res.ofOption_some, Res.ok_bind]
    have := ih (fun j hj => h j (by simp [hj]))
    rw [this]
    simp [Spec.take, List.getElem?_eq_getElem hi]

theorem take_range (xs : List α) (n : Nat) (h : n ≤ xs.length) : Spec.take xs (List.range n) = xs.take n := by
  induction n with
  | zero => simp [Spec.take]
  | succ n ih =>
    rw [List.range_succ, Spec.take_append, ih (by omega), List.take_add_one, List.getElem?_eq_getElem (by omega)]
    simp [Spec.take, List.getElem?_eq_getElem (show n < xs.length by omega)]

theorem take_drop_range (xs : List α) (a b : Nat) (hab : a ≤ b) (h : b ≤ xs.length) :
    Spec.take xs ((List.range b).drop a) = (xs.take b).drop a := by
  have h1 := take_range xs b h
  rw [← List.take_append_drop a (List.range b), Spec.take_append] at h1
  have h2 : (List.range b).take a = List.range a := by
    rw [List.take_range]; congr 1; omega
  rw [h2, take_range xs a (by omega)] at h1
  have h3 : xs.take b = (xs.take b).take a ++ (xs.take b).drop a := (List.take_append_drop a _).symm
  rw [List.take_take, Nat.min_eq_left hab] at h3
  rw [h3] at h1
  simpa using h1

theorem sliceFind (lens : List Nat) (i : Nat) (hi : i ≤ lens.sum) (hn : 0 < lens.length) :
    ∃ k j, findChunkIdx lens i = .ok (k, j) ∧ ∃ h : k < lens.length, j ≤ lens[k] ∧ pre lens k + j = i ∧
      (i < lens.sum → j < lens[k]) ∧ (i = lens.sum → k = lens.length - 1) := by
  by_cases h : i < lens.sum
  · obtain ⟨k, j, h1, h2⟩ := findChunkIdx_ok lens i h
    exact ⟨k, j, h1, h2.lt, Nat.le_of_lt h2.inside, h2.pos, fun _ => h2.inside, fun h' => by omega⟩
  · have : i = lens.sum := by omega
    subst this
    have hs := pre_succ (lens := lens) (k := lens.length - 1) (by omega)
    rw [show lens.length - 1 + 1 = lens.length by omega, pre_all] at hs
    exact ⟨_, _, findChunkIdx_end lens hn, by omega, Nat.le_refl _, by omega, by omega, fun _ => rfl⟩

/-- Slicing a chunked array; the result has a chunk. The chunks' own slices only start at the very end of a chunk if `Safe`, which is
only needed when the whole slice starts at the end; they are only empty if `Loose`, only needed when the whole slice is empty. -/
theorem slice_okQ {sl : C → Nat → Nat → Res C} (Safe Loose : Prop) (hlen : LenLaw Good rowsOf len)
    (hsl : ∀ c s e, Good c → Spec.InBounds (rowsOf c).length s e → (s < (rowsOf c).length ∨ Safe) → (s < e ∨ Loose) →
      ∃ c', sl c s e = .ok c' ∧ Good c' ∧ rowsOf c' = Spec.slice (rowsOf c) s e)
    (cs : List C) (hne : cs ≠ []) (hg : ∀ c ∈ cs, Good c) (s e : Nat) (h : InBounds (rows rowsOf cs).length s e)
    (hsafe : s < (rows rowsOf cs).length ∨ Safe) (hloose : s < e ∨ Loose) :
    ∃ out, slice len sl cs s e = .ok out ∧ out ≠ [] ∧ (∀ c ∈ out, Good c) ∧ rows rowsOf out = Spec.slice (rows rowsOf cs) s e := by
  obtain ⟨hse, hen⟩ := h
  have hsum := sum_eq hlen hg
  have hcl : 0 < (cs.map len).length := by simpa using List.length_pos_iff.mpr hne
  obtain ⟨k, j, hk1, hk, hj, hkp, hkin, hkend⟩ := sliceFind (cs.map len) s (by omega) hcl
  obtain ⟨k', j', hk1', hk', hj', hkp', hkin', hkend'⟩ := sliceFind (cs.map len) e (by omega) hcl
  have hkc : k < cs.length := by simpa using hk
  have hkc' : k' < cs.length := by simpa using hk'
  have gk : Good cs[k] := hg _ (List.getElem_mem _)
  have gk' : Good cs[k'] := hg _ (List.getElem_mem _)
  have lk := hlen _ gk
  have lk' := hlen _ gk'
  rw [List.getElem_map, lk] at hj hkin
  rw [List.getElem_map, lk'] at hj' hkin'
  have hle := lens_eq hlen hg
  simp only [slice, hsum, show ¬ s > (rows rowsOf cs).length by omega, show ¬ e > (rows rowsOf cs).length by omega, show ¬ s > e by omega,
    if_false, hk1, hk1', Res.ok_bind]
  by_cases hkk : k' = k
  · subst hkk
    simp only [if_true, chunk, List.getElem?_eq_getElem hkc, Res.ofOption_some, Res.ok_bind]
    obtain ⟨c', h1, h2, h3⟩ := hsl cs[k'] j j' gk ⟨by omega, hj'⟩ (hsafe.imp_left (fun h => hkin (by omega))) (hloose.imp_left (fun h => by omega))
    refine ⟨[c'], by simp [h1], by simp, by simpa using h2, ?_⟩
    have := flatten_slice_same (ls := cs.map rowsOf) (k := k') (j := j) (j' := j') (by simpa using hkc) (by simpa using hj')
    rw [← hle, hkp, hkp', ← rows_eq_flatten, List.getElem_map] at this
    rw [this, ← h3]; simp [rows]
  · have hlt : k < k' := by
      rcases Nat.lt_or_ge k k' with h | h
      · exact h
      · exfalso
        -- k' < k, so e = pre k' + j' ≤ pre (k'+1) ≤ pre k ≤ s
        have h1 := pre_succ (lens := cs.map len) hk'
        have h2 := pre_mono (cs.map len) (show k' + 1 ≤ k by omega)
        rw [List.getElem_map, lk'] at h1
        by_cases hes : e < (cs.map len).sum
        · have := hkin' hes; omega
        · have := hkend' (by omega)
          have : k < (cs.map len).length := hk
          omega
    simp only [hkk, if_false]
    rw [mapM_chunk cs _ (by intro i hi; have := List.mem_of_mem_drop hi; simp at this; omega)]
    rw [take_drop_range cs k (k' + 1) (by omega) (by omega)]
    have hpick : (cs.take (k' + 1)).drop k = cs[k] :: ((cs.take k').drop (k + 1) ++ [cs[k']]) := by
      have e1 : cs.take (k' + 1) = cs.take k' ++ [cs[k']] := by
        rw [List.take_add_one, List.getElem?_eq_getElem hkc']; rfl
      have hlk : (cs.take k').length = k' := by simp; omega
      rw [e1, List.drop_append_of_le_length (by omega), List.drop_eq_getElem_cons (by omega), List.getElem_take]
      rfl
    rw [hpick]
    obtain ⟨c₁, h1, h2, h3⟩ := hsl cs[k] j (len cs[k]) gk ⟨by omega, by omega⟩ (hsafe.imp_left (fun h => hkin (by omega)))
      (hloose.imp_left (fun h => by have := hkin (by omega); omega))
    have hacross := flatten_slice_across (ls := cs.map rowsOf) (k := k) (j := j) (k' := k') (j' := j') hlt (by simpa using hkc')
      (by simpa using hj) (by simpa using hj')
    rw [← hle, hkp, hkp', ← rows_eq_flatten, List.getElem_map, List.getElem_map] at hacross
    have hmid : rows rowsOf ((cs.take k').drop (k + 1)) = (((cs.map rowsOf).take k').drop (k + 1)).flatten := by
      rw [rows_eq_flatten, List.map_drop, List.map_take]
    have hdrop : Spec.slice (rowsOf cs[k]) j (len cs[k]) = (rowsOf cs[k]).drop j := by
      rw [Spec.slice, lk, List.take_length]
    have gm : ∀ c ∈ (cs.take k').drop (k + 1), Good c := fun c hc => hg c (List.mem_of_mem_take (List.mem_of_mem_drop hc))
    simp only [Res.ok_bind, sliceFirst, h1, sliceLast]
    by_cases hj0 : j' = 0
    · subst hj0
      simp only [if_true]
      refine ⟨_, rfl, by rw [← List.cons_append, List.dropLast_concat]; simp, ?_, ?_⟩
      · intro c hc
        rw [← List.cons_append, List.dropLast_concat] at hc
        rcases List.mem_cons.mp hc with rfl | hc
        · exact h2
        · exact gm c hc
      · rw [← List.cons_append, List.dropLast_concat, hacross, ← hmid, ← hdrop, ← h3]
        simp [rows]
    · obtain ⟨c₂, h4, h5, h6⟩ := hsl cs[k'] 0 j' gk' ⟨by omega, by omega⟩ (.inl (by omega)) (.inl (by omega))
      simp only [hj0, if_false]
      rw [← List.cons_append, List.getLast?_concat, List.dropLast_concat]
      simp only [h4, Res.ok_bind]
      refine ⟨_, rfl, by simp, ?_, ?_⟩
      · intro c hc
        simp only [List.cons_append, List.mem_cons, List.mem_append] at hc
        rcases hc with rfl | hc | hc
        · exact h2
        · exact gm c hc
        · simp at hc; subst hc; exact h5
      · rw [hacross, ← hmid, ← hdrop, ← h3]
        have : (rowsOf cs[k']).take j' = rowsOf c₂ := by rw [h6, Spec.slice]; simp
        rw [this]; simp [rows]

/-- Slicing a chunked array; the result has a chunk. The chunks' own slices only start at the very end of a chunk if `Safe`, which is
only needed when the whole slice starts at the end. -/
theorem slice_okP {sl : C → Nat → Nat → Res C} (Safe : Prop) (hlen : LenLaw Good rowsOf len)
    (hsl : ∀ c s e, Good c → Spec.InBounds (rowsOf c).length s e → (s < (rowsOf c).length ∨ Safe) →
      ∃ c', sl c s e = .ok c' ∧ Good c' ∧ rowsOf c' = Spec.slice (rowsOf c) s e)
    (cs : List C) (hne : cs ≠ []) (hg : ∀ c ∈ cs, Good c) (s e : Nat) (h : InBounds (rows rowsOf cs).length s e)
    (hsafe : s < (rows rowsOf cs).length ∨ Safe) :
    ∃ out, slice len sl cs s e = .ok out ∧ out ≠ [] ∧ (∀ c ∈ out, Good c) ∧ rows rowsOf out = Spec.slice (rows rowsOf cs) s e :=
  slice_okQ Safe True hlen (fun c s e hg hb hs _ => hsl c s e hg hb hs) cs hne hg s e h hsafe (.inr trivial)

/-- Slicing a chunked array; the result has a chunk. -/
theorem slice_ok' {sl : C → Nat → Nat → Res C} (hlen : LenLaw Good rowsOf len) (hsl : SliceLaw Good rowsOf sl)
    (cs : List C) (hne : cs ≠ []) (hg : ∀ c ∈ cs, Good c) (s e : Nat) (h : InBounds (rows rowsOf cs).length s e) :
    ∃ out, slice len sl cs s e = .ok out ∧ out ≠ [] ∧ (∀ c ∈ out, Good c) ∧ rows rowsOf out = Spec.slice (rows rowsOf cs) s e :=
  slice_okP True hlen (fun c s e hg hb _ => hsl c s e hg hb) cs hne hg s e h (.inr trivial)

/-- **C22 (slice).** For every array with at least one chunk and all bounds `s ≤ e ≤ len`, slicing yields exactly rows `s..e`. -/
theorem C22_slice_partial {sl : C → Nat → Nat → Res C} (hlen : LenLaw Good rowsOf len) (hsl : SliceLaw Good rowsOf sl)
    (cs : List C) (hne : cs ≠ []) (hg : ∀ c ∈ cs, Good c) (s e : Nat) (h : InBounds (rows rowsOf cs).length s e) :
    ∃ out, slice len sl cs s e = .ok out ∧ (∀ c ∈ out, Good c) ∧ rows rowsOf out = Spec.slice (rows rowsOf cs) s e := by
  obtain ⟨out, h1, _, h2, h3⟩ := slice_ok' hlen hsl cs hne hg s e h
  exact ⟨out, h1, h2, h3⟩

/-- Slicing out of bounds is an error. -/
theorem C22_slice_out_of_bounds {sl : C → Nat → Nat → Res C} (hlen : LenLaw Good rowsOf len) (cs : List C) (hg : ∀ c ∈ cs, Good c) (s e : Nat)
    (h : ¬ InBounds (rows rowsOf cs).length s e) : slice len sl cs s e = .err := by
  unfold slice
  rw [sum_eq hlen hg]
  unfold InBounds at h
  by_cases h1 : s > (rows rowsOf cs).length
  · simp [h1]
  · by_cases h2 : e > (rows rowsOf cs).length
    · simp [h1, h2]
    · simp [h1, h2, show s > e by omega]

/-- What is missing from the full statement: an array without chunks cannot even be sliced to nothing. -/
theorem C22_slice_no_chunks (sl : C → Nat → Nat → Res C) : slice len sl [] 0 0 = .err := by
  have : findChunkIdx [] 0 = .ok (0, 0) := by decide +kernel
  simp [slice, this, chunk]

/-! ### take -/

theorem takeLoop_ok {tk : C → List Nat → Res C} (hlen : LenLaw Good rowsOf len) (htk : TakeLaw Good rowsOf tk) (cs : List C)
    (hg : ∀ c ∈ cs, Good c) (is : List Nat) (his : ∀ i ∈ is, i < (rows rowsOf cs).length) :
    ∀ (prev : Nat) (acc : List Nat) (hp : prev < cs.length), acc ≠ [] → (∀ j ∈ acc, j < (rowsOf cs[prev]).length) →
      ∃ out, takeLoop len tk cs prev acc is = .ok out ∧ (∀ c ∈ out, Good c) ∧
        rows rowsOf out = Spec.take (rowsOf cs[prev]) acc ++ Spec.take (rows rowsOf cs) is := by
  induction is with
  | nil =>
    intro prev acc hp hacc hin
    obtain ⟨c', h1, h2, h3⟩ := htk cs[prev] acc (hg _ (List.getElem_mem _)) hacc hin
    refine ⟨[c'], ?_, by simpa using h2, by simp [rows, h3, Spec.take]⟩
    simp [takeLoop, hacc, chunk, List.getElem?_eq_getElem hp, h1]
  | cons i is ih =>
    intro prev acc hp hacc hin
    have hi := his i (by simp)
    obtain ⟨k, j, hf, ha⟩ := findChunkIdx_ok (cs.map len) i (by rw [sum_eq hlen hg]; exact hi)
    have hk : k < cs.length := by simpa using ha.lt
    have ha' := ha
    rw [lens_eq hlen hg] at ha'
    have hrow := flatten_getElem? ha'
    rw [← rows_eq_flatten, List.getElem_map, List.getElem?_eq_getElem hi] at hrow
    have hj : j < (rowsOf cs[k]).length := by
      rcases Nat.lt_or_ge j (rowsOf cs[k]).length with h | h
      · exact h
      · rw [List.getElem?_eq_none h] at hrow; cases hrow
    have hstep : Spec.take (rows rowsOf cs) (i :: is) = (rows rowsOf cs)[i] :: Spec.take (rows rowsOf cs) is := Spec.take_cons hi
    simp only [takeLoop, hf, Res.ok_bind]
    by_cases hkp : k = prev
    · subst hkp
      simp only [ne_eq, not_true, if_false]
      obtain ⟨out, h1, h2, h3⟩ := ih (fun x hx => his x (by simp [hx])) k (acc ++ [j]) hk (by simp)
        (by intro x hx; rcases List.mem_append.mp hx with hx | hx
            · exact hin x hx
            · simp at hx; subst hx; exact hj)
      refine ⟨out, h1, h2, ?_⟩
      rw [h3, Spec.take_append, hstep, Spec.take_cons hj]
      have : (rowsOf cs[k])[j] = (rows rowsOf cs)[i] := by
        rw [List.getElem?_eq_getElem hj] at hrow; simpa using hrow.symm
      simp [Spec.take, this]
    · simp only [ne_eq, hkp, not_false_iff, if_true]
      obtain ⟨c', h1, h2, h3⟩ := htk cs[prev] acc (hg _ (List.getElem_mem _)) hacc hin
      obtain ⟨out, h4, h5, h6⟩ := ih (fun x hx => his x (by simp [hx])) k [j] hk (by simp) (by simpa using hj)
      refine ⟨c' :: out, by simp [chunk, List.getElem?_eq_getElem hp, h1, h4], ?_, ?_⟩
      · intro c hc; rcases List.mem_cons.mp hc with rfl | hc
        · exact h2
        · exact h5 c hc
      · have : (rowsOf cs[k])[j] = (rows rowsOf cs)[i] := by
          rw [List.getElem?_eq_getElem hj] at hrow; simpa using hrow.symm
        have e : rows rowsOf (c' :: out) = rowsOf c' ++ rows rowsOf out := by simp [rows]
        rw [e, h3, h6, hstep, Spec.take_cons hj]
        simp [Spec.take, this]

theorem takeLoop_start {tk : C → List Nat → Res C} (cs : List C) (i k j : Nat) (is : List Nat)
    (h : findChunkIdx (cs.map len) i = .ok (k, j)) : takeLoop len tk cs k [] (i :: is) = takeLoop len tk cs k [j] is := by
  rw [takeLoop]; simp [h]

/-- A strictly increasing list of `n` numbers below `n` is `0, 1, …, n-1`. -/
theorem strict_full (is : List Nat) (hs : is.Pairwise (· < ·)) (h : ∀ i ∈ is, i < is.length) : is = List.range is.length := by
  have hge : ∀ k (hk : k < is.length), k ≤ is[k] := by
    intro k
    induction k with
    | zero => intro _; omega
    | succ k ih =>
      intro hk
      have := ih (by omega)
      have := strict_getElem_lt hs (show k < is.length by omega) hk (by omega)
      omega
  have hle : ∀ d k (hk : k < is.length), is.length - 1 - k = d → is[k] ≤ k := by
    intro d
    induction d with
    | zero =>
      intro k hk hd
      have := h is[k] (List.getElem_mem _); omega
    | succ d ih =>
      intro k hk hd
      have h1 := ih (k + 1) (by omega) (by omega)
      have := strict_getElem_lt hs hk (show k + 1 < is.length by omega) (by omega)
      omega
  apply List.ext_getElem (by simp)
  intro k h1 h2
  have := hge k h1; have := hle _ k h1 rfl
  simp; omega

/-- Rows contributed by the per-chunk index lists of `take_strict_sorted`. -/
def groupRows (rowsOf : C → List R) : List C → List (Option (List Nat)) → List R
  | c :: cs, g :: gs => (g.elim [] (Spec.take (rowsOf c))) ++ groupRows rowsOf cs gs
  | _, _ => []

theorem groupRows_append (rowsOf : C → List R) (cs : List C) (g h : List (Option (List Nat))) (hl : g.length ≤ cs.length) :
    groupRows rowsOf cs (g ++ h) = groupRows rowsOf cs g ++ groupRows rowsOf (cs.drop g.length) h := by
  induction g generalizing cs with
  | nil => cases cs <;> simp [groupRows]
  | cons a g ih =>
    cases cs with
    | nil => simp at hl
    | cons c cs => simp [groupRows, ih cs (by simpa using hl)]

theorem groupRows_none (rowsOf : C → List R) (cs : List C) (n : Nat) : groupRows rowsOf cs (List.replicate n none) = [] := by
  induction n generalizing cs with
  | zero => cases cs <;> simp [groupRows]
  | succ n ih => cases cs <;> simp [groupRows, List.replicate_succ, ih]

/-- Per-chunk index lists are non-empty and in range. -/
def GroupsOk (rowsOf : C → List R) (cs : List C) (bc : List (Option (List Nat))) : Prop :=
  ∀ k (is : List Nat) (h : k < cs.length), bc[k]? = some (some is) → is ≠ [] ∧ ∀ i ∈ is, i < (rowsOf cs[k]).length

theorem countP_lt_split' {xs : List Nat} (hs : xs.Pairwise (· ≤ ·)) (v : Nat) :
    ∀ i (h : i < xs.length), i < xs.countP (fun x => decide (x < v)) ↔ xs[i] < v := by
  cases v with
  | zero => intro i h; simp
  | succ v =>
    intro i h
    rw [← countP_le_eq_lt, countP_le_split' hs v i h]; omega

theorem strictLoop_ok (hlen : LenLaw Good rowsOf len) (cs : List C) (hg : ∀ c ∈ cs, Good c) (is : List Nat) (hs : is.Pairwise (· < ·))
    (his : ∀ i ∈ is, i < (rows rowsOf cs).length) :
    ∀ (fuel pos m : Nat) (G : List (Option (List Nat))), is.length ≤ pos + fuel → m ≤ cs.length → G.length = m →
      pos = is.countP (fun x => decide (x < pre (cs.map len) m)) →
      groupRows rowsOf cs G = Spec.take (rows rowsOf cs) (is.take pos) → GroupsOk rowsOf cs G →
      ∃ bc, strictLoop (cs.map len) is fuel pos (G ++ List.replicate (cs.length - m) none) = .ok bc ∧ bc.length = cs.length ∧
        GroupsOk rowsOf cs bc ∧ groupRows rowsOf cs bc = Spec.take (rows rowsOf cs) is := by
  have hs' := strict_le hs
  intro fuel
  induction fuel with
  | zero =>
    intro pos m G hf hm hG hpos hrows hok
    refine ⟨G ++ List.replicate (cs.length - m) none, by simp [strictLoop, show ¬ pos < is.length by omega], by simp; omega, ?_, ?_⟩
    · intro k l hk hkl
      by_cases hkG : k < G.length
      · rw [List.getElem?_append_left hkG] at hkl; exact hok k l hk hkl
      · rw [List.getElem?_append_right (by omega), List.getElem?_replicate] at hkl
        split at hkl <;> simp at hkl
    · rw [groupRows_append _ _ _ _ (by omega), groupRows_none, hrows, List.append_nil, List.take_of_length_le (by omega)]
  | succ fuel ih =>
    intro pos m G hf hm hG hpos hrows hok
    by_cases hp : pos < is.length
    · have hi := his is[pos] (List.getElem_mem _)
      obtain ⟨k, j, hfk, ha⟩ := findChunkIdx_ok (cs.map len) is[pos] (by rw [sum_eq hlen hg]; exact hi)
      have hk : k < cs.length := by simpa using ha.lt
      have hklen : (cs.map len).length = cs.length := by simp
      have hspm := countP_lt_split' hs' (pre (cs.map len) m)
      rw [← hpos] at hspm
      have hmk : m ≤ k := by
        rcases Nat.lt_or_ge k m with h | h
        · exfalso
          have h1 := pre_succ ha.lt
          have h2 := pre_mono (cs.map len) (show k + 1 ≤ m by omega)
          have h3 := ha.inside; have h4 := ha.pos
          have := (hspm pos hp).mpr (by omega)
          omega
        · exact h
      obtain ⟨r, hr, hri⟩ := search_left_index' is hs' (pre (cs.map len) (k + 1))
      have hspk := countP_lt_split' hs' (pre (cs.map len) (k + 1))
      rw [← hri] at hspk
      have hpr : pos < r.toIndex := by
        rw [hspk pos hp, pre_succ ha.lt]
        have := ha.inside; have := ha.pos; omega
      have hrl : r.toIndex ≤ is.length := by rw [hri]; exact List.countP_le_length
      let ci := Spec.slice is pos r.toIndex
      have hci : ∀ x ∈ ci, pre (cs.map len) k ≤ x ∧ x < pre (cs.map len) (k + 1) := by
        intro x hx
        obtain ⟨q, hq, rfl⟩ := List.getElem_of_mem hx
        have hql := hq
        simp only [ci, Spec.slice_length' (show InBounds is.length pos r.toIndex from ⟨by omega, hrl⟩)] at hql
        simp only [ci, Spec.slice_getElem]
        have h1 : is[pos] ≤ is[pos + q] := by
          by_cases hq0 : q = 0
          · subst hq0; simp
          · exact Nat.le_of_lt (strict_getElem_lt hs hp (by omega) (by omega))
        have h2 := (hspk (pos + q) (by omega)).mp (by omega)
        have h3 := ha.pos
        exact ⟨by omega, h2⟩
      have hadj : Res.mapM (fun i => Res.sub i (pre (cs.map len) k)) ci = .ok (ci.map (fun i => i - pre (cs.map len) k)) :=
        Res.mapM_ok (fun x hx => Res.sub_of_le (hci x hx).1)
      have hcl : Spec.slice is pos r.toIndex = ci := rfl
      rw [strictLoop]
      simp only [hp, if_true, idx_lt hp, Res.ok_bind, hfk, offsets_getElem? _ _ (show k ≤ (cs.map len).length by omega),
        offsets_getElem? _ _ (show k + 1 ≤ (cs.map len).length by omega), Res.ofOption_some, hr,
        sliceList_ok (show InBounds is.length pos r.toIndex from ⟨by omega, hrl⟩), hcl, hadj]
      have hbl : k < (G ++ List.replicate (cs.length - m) (none : Option (List Nat))).length := by simp; omega
      simp only [hbl, if_true]
      let adj := ci.map (fun i => i - pre (cs.map len) k)
      have hset : (G ++ List.replicate (cs.length - m) (none : Option (List Nat))).set k (some adj)
          = (G ++ List.replicate (k - m) none ++ [some adj]) ++ List.replicate (cs.length - (k + 1)) none := by
        apply List.ext_getElem?
        intro q
        rw [List.getElem?_set]
        by_cases hqk : k = q
        · subst hqk
          have hl1 : (G ++ List.replicate (k - m) (none : Option (List Nat))).length = k := by rw [List.length_append, List.length_replicate]; omega
          rw [if_pos rfl, if_pos hbl, List.getElem?_append_left (by rw [List.length_append, hl1]; simp), List.getElem?_append_right (by omega), hl1]
          simp only [Nat.sub_self, List.getElem?_cons_zero]
        · simp only [hqk, if_false]
          by_cases h1 : q < m
          · rw [List.getElem?_append_left (by omega), List.append_assoc, List.append_assoc, List.getElem?_append_left (by omega)]
          · rw [List.getElem?_append_right (by omega), List.getElem?_replicate]
            by_cases h2 : q < k
            · rw [List.append_assoc, List.append_assoc, List.getElem?_append_right (by omega), List.getElem?_append_left (by simp; omega),
                List.getElem?_replicate]
              simp [show q - G.length < cs.length - m by omega, show q - G.length < k - m by omega]
            · rw [List.getElem?_append_right (by simp; omega), List.getElem?_replicate]
              simp only [List.length_append, List.length_replicate, List.length_singleton]
              by_cases h3 : q < cs.length
              · simp [show q - G.length < cs.length - m by omega, show q - (G.length + (k - m) + 1) < cs.length - (k + 1) by omega]
              · simp [show ¬ q - G.length < cs.length - m by omega, show ¬ q - (G.length + (k - m) + 1) < cs.length - (k + 1) by omega]
      rw [show List.map (fun i => i - pre (cs.map len) k) ci = adj from rfl, hset]
      have gk : Good cs[k] := hg _ (List.getElem_mem _)
      have hpk : pre (cs.map len) (k + 1) = pre (cs.map len) k + (rowsOf cs[k]).length := by
        rw [pre_succ ha.lt, List.getElem_map, hlen _ gk]
      have hadjok : adj ≠ [] ∧ ∀ i ∈ adj, i < (rowsOf cs[k]).length := by
        constructor
        · intro h0
          have : ci.length = 0 := by have := congrArg List.length h0; simpa [adj] using this
          simp only [ci, Spec.slice_length' (show InBounds is.length pos r.toIndex from ⟨by omega, hrl⟩)] at this
          omega
        · intro i hi
          obtain ⟨x, hx, rfl⟩ := List.mem_map.mp hi
          have := hci x hx; omega
      apply ih r.toIndex (k + 1) _ (by omega) (by omega) (by simp; omega) hri
      · -- rows
        rw [groupRows_append _ _ _ _ (by simp; omega), groupRows_append _ _ _ _ (by omega), groupRows_none, hrows, List.append_nil]
        have hdl : (G ++ List.replicate (k - m) (none : Option (List Nat))).length = k := by simp; omega
        rw [hdl, List.drop_eq_getElem_cons hk]
        simp only [groupRows, Option.elim, List.append_nil]
        have h1 : is.take r.toIndex = is.take pos ++ ci := by
          have := (List.take_append_drop pos (is.take r.toIndex)).symm
          rw [List.take_take, Nat.min_eq_left (by omega)] at this
          exact this
        have h2 : groupRows rowsOf (List.drop (k + 1) cs) [] = [] := by cases List.drop (k + 1) cs <;> rfl
        rw [h1, Spec.take_append, h2, List.append_nil]
        congr 1
        -- take from the chunk = take from the whole
        have hle := lens_eq hlen hg
        simp only [adj, Spec.take, List.filterMap_map]
        apply filterMap_congr'
        intro x hx
        have hx' := hci x hx
        have hat : At ((cs.map rowsOf).map List.length) x k (x - pre (cs.map len) k) := by
          rw [← hle]
          exact ⟨ha.lt, by rw [List.getElem_map, hlen _ gk]; omega, by omega⟩
        have := flatten_getElem? hat
        rw [← rows_eq_flatten, List.getElem_map] at this
        simp [this]
      · -- ok
        intro q l hq hql
        by_cases h1 : q < G.length
        · rw [List.append_assoc, List.getElem?_append_left h1] at hql; exact hok q l hq hql
        · rw [List.append_assoc, List.getElem?_append_right (by omega)] at hql
          by_cases h2 : q < k
          · rw [List.getElem?_append_left (by simp; omega), List.getElem?_replicate] at hql
            split at hql <;> simp at hql
          · rw [List.getElem?_append_right (by simp; omega)] at hql
            by_cases h3 : q = k
            · subst h3
              simp [hG, show q - m - (q - m) = 0 by omega] at hql
              subst hql; exact hadjok
            · rw [List.getElem?_eq_none (by simp; omega)] at hql; cases hql
    · refine ⟨G ++ List.replicate (cs.length - m) none, by simp [strictLoop, hp], by simp; omega, ?_, ?_⟩
      · intro k l hk hkl
        by_cases hkG : k < G.length
        · rw [List.getElem?_append_left hkG] at hkl; exact hok k l hk hkl
        · rw [List.getElem?_append_right (by omega), List.getElem?_replicate] at hkl
          split at hkl <;> simp at hkl
      · rw [groupRows_append _ _ _ _ (by omega), groupRows_none, hrows, List.append_nil, List.take_of_length_le (by omega)]

theorem takeChunks_ok {tk : C → List Nat → Res C} (htk : TakeLaw Good rowsOf tk) (all cs : List C) (q : Nat)
    (hall : ∀ i, cs[i]? = all[q + i]?) (hg : ∀ c ∈ cs, Good c) (bc : List (Option (List Nat))) (hl : bc.length = cs.length)
    (hok : GroupsOk rowsOf cs bc) :
    ∃ out, Res.mapM (fun p => do let c ← chunk all p.1; tk c p.2) ((bc.zipIdx q).filterMap (fun p => p.1.map (fun is => (p.2, is)))) = .ok out ∧
      (∀ c ∈ out, Good c) ∧ rows rowsOf out = groupRows rowsOf cs bc := by
  induction bc generalizing cs q with
  | nil => exact ⟨[], rfl, by simp, by cases cs <;> simp [rows, groupRows]⟩
  | cons b bc ih =>
    cases cs with
    | nil => simp at hl
    | cons c cs =>
      obtain ⟨out, h1, h2, h3⟩ := ih cs (q + 1) (by intro i; have := hall (i + 1); simpa [Nat.add_assoc, Nat.add_comm 1] using this)
        (fun x hx => hg x (by simp [hx])) (by simpa using hl)
        (by intro k l hk hkl; have := hok (k + 1) l (by simpa using hk) (by simpa using hkl); simpa using this)
      have hc : all[q]? = some c := by have := hall 0; simpa using this.symm
      cases b with
      | none => exact ⟨out, by simpa [List.zipIdx_cons] using h1, h2, by simp [groupRows, h3]⟩
      | some is =>
        have := hok 0 is (by simp) (by simp)
        obtain ⟨c', h4, h5, h6⟩ := htk c is (hg c (by simp)) this.1 (by simpa using this.2)
        refine ⟨c' :: out, ?_, ?_, ?_⟩
        · simp only [List.zipIdx_cons, List.filterMap_cons, Option.map_some, Res.mapM_cons, chunk, hc, Res.ofOption_some, Res.ok_bind, h4]
          simp only [chunk] at h1
          rw [h1]; rfl
        · intro x hx; rcases List.mem_cons.mp hx with rfl | hx
          · exact h5
          · exact h2 x hx
        · have e : rows rowsOf (c' :: out) = rowsOf c' ++ rows rowsOf out := by simp [rows]
          rw [e, h3, h6]; rfl

/-- **C22 (take).** For every non-empty list of in-range indices - in any order, with repetitions - `take` yields exactly those rows.
When the indices' statistics say "strictly sorted" the other algorithm runs; it then yields the same rows. -/
theorem C22_take_partial {tk : C → List Nat → Res C} (hlen : LenLaw Good rowsOf len) (htk : TakeLaw Good rowsOf tk) (strict : Bool)
    (cs : List C) (hg : ∀ c ∈ cs, Good c) (is : List Nat) (hne : is ≠ []) (his : ∀ i ∈ is, i < (rows rowsOf cs).length)
    (hstrict : strict = true → is.Pairwise (· < ·)) :
    ∃ out, take len tk strict cs is = .ok out ∧ (∀ c ∈ out, Good c) ∧ rows rowsOf out = Spec.take (rows rowsOf cs) is := by
  cases strict with
  | true =>
    have hs := hstrict rfl
    unfold take
    by_cases hfull : (cs.map len).sum = is.length
    · refine ⟨cs, by simp [hfull], hg, ?_⟩
      rw [sum_eq hlen hg] at hfull
      have := strict_full is hs (by intro i hi; rw [← hfull]; exact his i hi)
      rw [this, take_range _ _ (by omega), ← hfull, List.take_length]
    · simp only [if_true, hfull, if_false]
      obtain ⟨bc, h1, h2, h3, h4⟩ := strictLoop_ok hlen cs hg is hs his is.length 0 0 [] (by omega) (by omega) rfl
        (by simp [pre]) (by cases cs <;> simp [groupRows, Spec.take]) (by intro k l hk hkl; simp at hkl)
      simp only [List.nil_append, Nat.sub_zero] at h1
      rw [h1]
      obtain ⟨out, h5, h6, h7⟩ := takeChunks_ok htk cs cs 0 (by simp) hg bc h2 h3
      exact ⟨out, by simpa [takeChunks] using h5, h6, by rw [h7, h4]⟩
  | false =>
    cases is with
    | nil => exact absurd rfl hne
    | cons i is =>
      have hi := his i (by simp)
      obtain ⟨k, j, hf, ha⟩ := findChunkIdx_ok (cs.map len) i (by rw [sum_eq hlen hg]; exact hi)
      have hk : k < cs.length := by simpa using ha.lt
      have gk : Good cs[k] := hg _ (List.getElem_mem _)
      have hj : j < (rowsOf cs[k]).length := by have := ha.inside; rwa [List.getElem_map, hlen _ gk] at this
      obtain ⟨out, h1, h2, h3⟩ := takeLoop_ok hlen htk cs hg is (fun x hx => his x (by simp [hx])) k [j] hk (by simp) (by simpa using hj)
      refine ⟨out, ?_, h2, ?_⟩
      · simp only [take, Bool.false_eq_true, if_false, idx_lt (show 0 < (i :: is).length by simp), List.getElem_cons_zero, Res.ok_bind, hf]
        rw [takeLoop_start cs i k j is hf]; exact h1
      · have ha' := ha
        rw [lens_eq hlen hg] at ha'
        have hrow := flatten_getElem? ha'
        rw [← rows_eq_flatten, List.getElem_map, List.getElem?_eq_getElem hi, List.getElem?_eq_getElem hj] at hrow
        rw [h3, Spec.take_cons hi, Spec.take_cons hj]
        simp only [Option.some.injEq] at hrow
        simp [Spec.take, hrow]

/-- What is missing from the full statement: taking no rows panics (`indices[0]` of an empty slice). -/
theorem C22_take_empty_panics (tk : C → List Nat → Res C) (cs : List C) : take len tk false cs [] = .panic := by
  simp [take, idx]

end Vx.Chunked
