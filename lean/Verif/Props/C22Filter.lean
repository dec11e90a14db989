import Verif.Props.C22
/-! # C22: filtering, canonical form and rechunking of chunked arrays -/

namespace Vx.Chunked
open Spec

variable {C R : Type} {Good : C → Prop} {rowsOf : C → List R} {len : C → Nat}

/-! ### filter by indices -/

theorem chunk_row (hlen : LenLaw Good rowsOf len) {cs : List C} (hg : ∀ c ∈ cs, Good c) {i k j : Nat} (ha : At (cs.map len) i k j) :
    ∃ hk : k < cs.length, j < (rowsOf cs[k]).length ∧ (rows rowsOf cs)[i]? = (rowsOf cs[k])[j]? := by
  have hk : k < cs.length := by simpa using ha.lt
  have hj := ha.inside
  rw [List.getElem_map, hlen _ (hg _ (List.getElem_mem _))] at hj
  have ha' := ha
  rw [lens_eq hlen hg] at ha'
  have hrow := flatten_getElem? ha'
  rw [← rows_eq_flatten, List.getElem_map] at hrow
  exact ⟨hk, hj, hrow⟩

theorem filterIndicesLoop_ok {tk : C → List Nat → Res C} (hlen : LenLaw Good rowsOf len) (htk : TakeLaw Good rowsOf tk) (cs : List C)
    (hg : ∀ c ∈ cs, Good c) (is : List Nat) (his : ∀ i ∈ is, i < (rows rowsOf cs).length) :
    ∀ (cur : Nat) (acc : List Nat) (rs : List R), ((acc = [] ∧ rs = []) ∨ ∃ hp : cur < cs.length, acc ≠ [] ∧ (∀ j ∈ acc, j < (rowsOf cs[cur]).length) ∧
        rs = Spec.take (rowsOf cs[cur]) acc) →
      ∃ out, filterIndicesLoop tk cs (offsets (cs.map len)) cur acc is = .ok out ∧ (∀ c ∈ out, Good c) ∧
        rows rowsOf out = rs ++ Spec.take (rows rowsOf cs) is := by
  induction is with
  | nil =>
    intro cur acc rs h
    rcases h with ⟨rfl, rfl⟩ | ⟨hp, hacc, hin, rfl⟩
    · exact ⟨[], by simp [filterIndicesLoop], by simp, by simp [rows, Spec.take]⟩
    · obtain ⟨c', h1, h2, h3⟩ := htk cs[cur] acc (hg _ (List.getElem_mem _)) hacc hin
      refine ⟨[c'], ?_, by simpa using h2, by simp [rows, h3, Spec.take]⟩
      simp [filterIndicesLoop, hacc, List.getElem?_eq_getElem hp, h1]
  | cons i is ih =>
    intro cur acc rs h
    have hi := his i (by simp)
    obtain ⟨k, j, hf, ha⟩ := findChunkEnds_ok (cs.map len) i (by rw [sum_eq hlen hg]; exact hi)
    obtain ⟨hk, hj, hrow⟩ := chunk_row hlen hg ha
    rw [List.getElem?_eq_getElem hi, List.getElem?_eq_getElem hj] at hrow
    have hrow : (rows rowsOf cs)[i] = (rowsOf cs[k])[j] := by simpa using hrow
    have hstep : Spec.take (rows rowsOf cs) (i :: is) = (rowsOf cs[k])[j] :: Spec.take (rows rowsOf cs) is := by
      rw [Spec.take_cons hi, hrow]
    have hone : Spec.take (rowsOf cs[k]) [j] = [(rowsOf cs[k])[j]] := by rw [Spec.take_cons hj]; rfl
    have his' : ∀ x ∈ is, x < (rows rowsOf cs).length := fun x hx => his x (by simp [hx])
    simp only [filterIndicesLoop, hf, Res.ok_bind]
    by_cases hkp : k = cur
    · subst hkp
      simp only [ne_eq, not_true, if_false]
      obtain ⟨out, h1, h2, h3⟩ := ih his' k (acc ++ [j]) (rs ++ [(rowsOf cs[k])[j]]) (Or.inr ⟨hk, by simp, by
          intro x hx
          rcases List.mem_append.mp hx with hx | hx
          · rcases h with ⟨rfl, _⟩ | ⟨_, _, hin, _⟩
            · simp at hx
            · exact hin x hx
          · simp at hx; subst hx; exact hj, by
          rw [Spec.take_append, hone]
          rcases h with ⟨rfl, rfl⟩ | ⟨_, _, _, rfl⟩
          · rfl
          · rfl⟩)
      exact ⟨out, h1, h2, by rw [h3, hstep]; simp⟩
    · simp only [ne_eq, hkp, not_false_iff, if_true]
      obtain ⟨out, h4, h5, h6⟩ := ih his' k [j] [(rowsOf cs[k])[j]] (Or.inr ⟨hk, by simp, by simpa using hj, hone.symm⟩)
      rcases h with ⟨rfl, rfl⟩ | ⟨hp, hacc, hin, rfl⟩
      · exact ⟨out, by simp [h4], h5, by rw [h6, hstep]; simp⟩
      · obtain ⟨c', h1, h2, h3⟩ := htk cs[cur] acc (hg _ (List.getElem_mem _)) hacc hin
        refine ⟨c' :: out, by simp [hacc, List.getElem?_eq_getElem hp, h1, h4], ?_, ?_⟩
        · intro c hc; rcases List.mem_cons.mp hc with rfl | hc
          · exact h2
          · exact h5 c hc
        · have e : rows rowsOf (c' :: out) = rowsOf c' ++ rows rowsOf out := by simp [rows]
          rw [e, h3, h6, hstep]; simp

/-! ### filter by slices -/

/-- Ranges in increasing order, separated, from `lo` to `hi`. -/
def Ordered : Nat → Nat → List (Nat × Nat) → Prop
  | lo, hi, [] => lo ≤ hi
  | lo, hi, (s, e) :: ps => lo ≤ s ∧ s < e ∧ Ordered e hi ps

/-- Some range contains `x`. -/
def covers (ps : List (Nat × Nat)) (x : Nat) : Bool := ps.any (fun p => decide (p.1 ≤ x) && decide (x < p.2))

theorem Ordered.le {lo hi : Nat} {ps : List (Nat × Nat)} (h : Ordered lo hi ps) : lo ≤ hi := by
  induction ps generalizing lo with
  | nil => exact h
  | cons p ps ih => obtain ⟨s, e⟩ := p; obtain ⟨h1, h2, h3⟩ := h; have := ih h3; omega

theorem Ordered.snoc {lo hi hi' : Nat} {ps : List (Nat × Nat)} {s e : Nat} (h : Ordered lo hi ps) (h1 : hi ≤ s) (h2 : s < e) (h3 : e ≤ hi') :
    Ordered lo hi' (ps ++ [(s, e)]) := by
  induction ps generalizing lo with
  | nil => exact ⟨by have : lo ≤ hi := h
                     omega, h2, h3⟩
  | cons p ps ih => obtain ⟨a, b⟩ := p; exact ⟨h.1, h.2.1, ih h.2.2⟩

theorem Ordered.mono {lo hi hi' : Nat} {ps : List (Nat × Nat)} (h : Ordered lo hi ps) (h1 : hi ≤ hi') : Ordered lo hi' ps := by
  induction ps generalizing lo with
  | nil => exact Nat.le_trans h h1
  | cons p ps ih => obtain ⟨a, b⟩ := p; exact ⟨h.1, h.2.1, ih h.2.2⟩

theorem Ordered.lower {lo lo' hi : Nat} {ps : List (Nat × Nat)} (h : Ordered lo hi ps) (h1 : lo' ≤ lo) : Ordered lo' hi ps := by
  cases ps with
  | nil => exact Nat.le_trans h1 h
  | cons p ps => obtain ⟨a, b⟩ := p; exact ⟨Nat.le_trans h1 h.1, h.2.1, h.2.2⟩

theorem covers_ge {lo hi : Nat} {ps : List (Nat × Nat)} (h : Ordered lo hi ps) {x : Nat} (hx : x < lo) : covers ps x = false := by
  induction ps generalizing lo with
  | nil => rfl
  | cons p ps ih =>
    obtain ⟨a, b⟩ := p
    have := h.1; have := h.2.1
    have h2 := ih h.2.2 (by omega)
    simp only [covers, List.any_cons] at h2 ⊢
    simp [h2]; omega

/-- `set_slices` of a mask: separated ranges that cover exactly the set bits. -/
theorem setSlices_spec (bs : List Bool) (pos : Nat) (run : Option Nat) (lo : Nat) (hlo : lo ≤ run.getD pos) (hrun : ∀ s, run = some s → s < pos) :
    Ordered lo (pos + bs.length) (RunEndBool.setSlices pos run bs) ∧
    ∀ x, covers (RunEndBool.setSlices pos run bs) x =
      ((run.elim false (fun s => decide (s ≤ x) && decide (x < pos))) || (decide (pos ≤ x) && bs[x - pos]?.getD false)) := by
  induction bs generalizing pos run lo with
  | nil =>
    cases run with
    | none => exact ⟨by simpa [RunEndBool.setSlices, Ordered] using hlo, by intro x; simp [RunEndBool.setSlices, covers]⟩
    | some s =>
      have := hrun s rfl
      refine ⟨⟨by simpa using hlo, this, by simp [Ordered]⟩, ?_⟩
      intro x; simp [RunEndBool.setSlices, covers]
  | cons b bs ih =>
    cases b with
    | true =>
      have hr : ∀ s, some (run.getD pos) = some s → s < pos + 1 := by
        intro s hs
        cases run with
        | none => simp at hs; omega
        | some s' => have := hrun s' rfl; simp at hs; omega
      obtain ⟨h1, h2⟩ := ih (pos + 1) (some (run.getD pos)) lo (by simpa using hlo) hr
      have hg : run.getD pos ≤ pos := by
        cases run with
        | none => simp
        | some s => have := hrun s rfl; simp; omega
      refine ⟨by simpa [RunEndBool.setSlices, Nat.add_assoc, Nat.add_comm 1] using h1, ?_⟩
      intro x
      rw [RunEndBool.setSlices, h2 x]
      rcases Nat.lt_trichotomy x pos with hx | hx | hx
      · cases run with
        | none => simp [show ¬ pos ≤ x by omega, show ¬ pos + 1 ≤ x by omega]
        | some s => simp [show ¬ pos ≤ x by omega, show ¬ pos + 1 ≤ x by omega, hx, show x < pos + 1 by omega]
      · subst hx; simp [hg]
      · have e : x - pos = (x - (pos + 1)) + 1 := by omega
        rw [e]
        cases run <;> simp [show pos ≤ x by omega, show pos + 1 ≤ x by omega, show ¬ x < pos + 1 by omega, show ¬ x < pos by omega]
    | false =>
      have key : ∀ x, covers (RunEndBool.setSlices (pos + 1) none bs) x = (decide (pos ≤ x) && ((false :: bs)[x - pos]?).getD false) := by
        intro x
        rw [(ih (pos + 1) none (pos + 1) (by simp) (by simp)).2 x]
        rcases Nat.lt_trichotomy x pos with hx | hx | hx
        · simp [show ¬ pos ≤ x by omega, show ¬ pos + 1 ≤ x by omega]
        · subst hx; simp
          intro h; omega
        · have e : x - pos = (x - (pos + 1)) + 1 := by omega
          rw [e]; simp [show pos ≤ x by omega, show pos + 1 ≤ x by omega]
      have ho := (ih (pos + 1) none (pos + 1) (by simp) (by simp)).1
      cases run with
      | none =>
        refine ⟨?_, ?_⟩
        · have := ho.lower (lo' := lo) (by simp at hlo; omega)
          simpa [RunEndBool.setSlices, Nat.add_assoc, Nat.add_comm 1] using this
        · intro x; rw [RunEndBool.setSlices]; simp only [key x]; simp
      | some s =>
        have := hrun s rfl
        refine ⟨?_, ?_⟩
        · have h2 := ho.lower (lo' := pos) (by omega)
          refine ⟨by simpa using hlo, this, ?_⟩
          simpa [Nat.add_assoc, Nat.add_comm 1] using h2
        · intro x
          have e : covers (RunEndBool.setSlices pos (some s) (false :: bs)) x
              = ((decide (s ≤ x) && decide (x < pos)) || covers (RunEndBool.setSlices (pos + 1) none bs) x) := by
            simp [RunEndBool.setSlices, covers]
          rw [e, key x]; rfl

/-- The rebuilt predicate of a chunk has a bit exactly where some range covers. -/
theorem slicesToPredicate_ok (n : Nat) (ss : List (Nat × Nat)) (pos : Nat) (h : Ordered pos n ss) :
    ∃ m, slicesToPredicate n pos ss = .ok m ∧ m.length = n - pos ∧ ∀ i, i < n - pos → m[i]? = some (covers ss (pos + i)) := by
  induction ss generalizing pos with
  | nil =>
    refine ⟨List.replicate (n - pos) false, by simp [slicesToPredicate, Res.sub_of_le h], by simp, ?_⟩
    intro i hi; simp [covers, hi]
  | cons p ps ih =>
    obtain ⟨s, e⟩ := p
    obtain ⟨h1, h2, h3⟩ := h
    have hen := h3.le
    obtain ⟨m, h4, h5, h6⟩ := ih e h3
    refine ⟨List.replicate (s - pos) false ++ List.replicate (e - s) true ++ m, ?_, by simp [h5]; omega, ?_⟩
    · simp [slicesToPredicate, Res.sub_of_le h1, Res.sub_of_le (Nat.le_of_lt h2), h4]
    · intro i hi
      by_cases hi1 : i < s - pos
      · rw [List.append_assoc, List.getElem?_append_left (by simpa using hi1), List.getElem?_replicate, if_pos hi1]
        have : covers ((s, e) :: ps) (pos + i) = false := covers_ge (ps := (s, e) :: ps) (lo := s) (hi := n) ⟨Nat.le_refl _, h2, h3⟩ (by omega)
        rw [this]
      · by_cases hi2 : i < e - pos
        · rw [List.getElem?_append_left (by simp; omega), List.getElem?_append_right (by simp; omega), List.getElem?_replicate,
            if_pos (by simp; omega)]
          simp [covers]; left; omega
        · rw [List.getElem?_append_right (by simp; omega)]
          simp only [List.length_append, List.length_replicate]
          rw [h6 _ (by omega)]
          simp only [covers, List.any_cons]
          rw [show e + (i - (s - pos + (e - s))) = pos + i by omega]
          simp [show ¬ pos + i < e by omega]

/-- Does the chunk filter select row `i` of its chunk? -/
def hit : ChunkFilter → Nat → Bool
  | .all, _ => true
  | .none, _ => false
  | .slices ss, i => covers ss i

/-- What a chunk filter may look like when the ranges up to global position `P` have been added; the chunk starts at `b`. -/
def FOk (b n P : Nat) : ChunkFilter → Prop
  | .all => b + n ≤ P
  | .none => True
  | .slices ss => ∃ hi, Ordered 0 hi ss ∧ hi ≤ n ∧ b + hi ≤ P

theorem FOk.mono {b n P P' : Nat} {f : ChunkFilter} (h : FOk b n P f) (hp : P ≤ P') : FOk b n P' f := by
  cases f with
  | all => exact Nat.le_trans h hp
  | none => trivial
  | slices ss => obtain ⟨hi, h1, h2, h3⟩ := h; exact ⟨hi, h1, h2, by omega⟩

theorem hit_push (f : ChunkFilter) (hf : f ≠ .all) (s : Nat × Nat) (i : Nat) :
    hit (pushSlice s f) i = (hit f i || (decide (s.1 ≤ i) && decide (i < s.2))) := by
  cases f <;> simp_all [pushSlice, hit, covers]

theorem FOk_push {b n P P' : Nat} {f : ChunkFilter} (h : FOk b n P f) {s e : Nat} (h1 : P ≤ b + s) (h2 : s < e) (h3 : e ≤ n) (h4 : b + e ≤ P') :
    f ≠ .all ∧ FOk b n P' (pushSlice (s, e) f) := by
  cases f with
  | all => exact absurd h (by simp only [FOk]; omega)
  | none => exact ⟨by simp, e, ⟨by omega, h2, Nat.le_refl _⟩, h3, h4⟩
  | slices ss =>
    obtain ⟨hi, a, b', c⟩ := h
    exact ⟨by simp, e, a.snoc (by omega) h2 (Nat.le_refl _), h3, h4⟩

structure FsOk (lens : List Nat) (P : Nat) (fs : List ChunkFilter) : Prop where
  len : fs.length = lens.length
  ok : ∀ k f (h : k < lens.length), fs[k]? = some f → FOk (pre lens k) lens[k] P f

/-- Adding one range `[a, b)` beyond everything added so far. -/
theorem addSlice_ok (lens : List Nat) (fs : List ChunkFilter) (P a b : Nat) (hfs : FsOk lens P fs) (hP : P ≤ a) (hab : a < b) (hb : b ≤ lens.sum) :
    ∃ fs', addSlice (offsets lens) fs (a, b) = .ok fs' ∧ FsOk lens b fs' ∧
      ∀ k i f f' (h : k < lens.length), fs[k]? = some f → fs'[k]? = some f' → i < lens[k] →
        hit f' i = (hit f i || (decide (a ≤ pre lens k + i) && decide (pre lens k + i < b))) := by
  obtain ⟨sc, si, h1, ha⟩ := findChunkEnds_ok lens a (by omega)
  obtain ⟨ec, ei, h2, hb'⟩ := findChunkEnds_ok lens (b - 1) (by omega)
  have a1 := ha.lt; have a2 := ha.inside; have a3 := ha.pos
  have b1 := hb'.lt; have b2 := hb'.inside; have b3 := hb'.pos
  have hlen := hfs.len
  have outside : ∀ k i, (h : k < lens.length) → i < lens[k] → k < sc → pre lens k + i < a := by
    intro k i h hi hk
    have := pre_succ h; have := pre_mono lens (show k + 1 ≤ sc by omega); omega
  have beyond : ∀ k i, ec < k → b ≤ pre lens k + i := by
    intro k i hk
    have := pre_succ b1; have := pre_mono lens (show ec + 1 ≤ k by omega); omega
  simp only [addSlice, h1, Res.ok_bind, Res.sub_of_le (show 1 ≤ b by omega), h2]
  by_cases hse : sc = ec
  · subst hse
    have hget : fs[sc]? = some (fs[sc]'(by omega)) := List.getElem?_eq_getElem _
    simp only [if_true, updFilter, hget]
    obtain ⟨p1, p2⟩ := FOk_push (P' := b) (hfs.ok sc _ a1 hget) (s := si) (e := ei + 1) (by omega) (by omega) (by omega) (by omega)
    refine ⟨_, rfl, ⟨by simp [hlen], ?_⟩, ?_⟩
    · intro k f h hk
      rw [List.getElem?_set] at hk
      by_cases hks : sc = k
      · subst hks
        simp only [if_true, show sc < fs.length by omega] at hk
        obtain rfl := Option.some.inj hk
        exact p2
      · simp only [hks, if_false] at hk
        exact (hfs.ok k f h hk).mono (by omega)
    · intro k i f f' h hk hk' hi
      rw [List.getElem?_set] at hk'
      by_cases hks : sc = k
      · subst hks
        simp only [if_true, show sc < fs.length by omega] at hk'
        rw [hget] at hk
        obtain rfl := Option.some.inj hk
        obtain rfl := Option.some.inj hk'
        rw [hit_push _ p1]
        congr 1
        rw [show decide (si ≤ i) = decide (a ≤ pre lens sc + i) from decide_eq_decide.mpr (by omega),
          show decide (i < ei + 1) = decide (pre lens sc + i < b) from decide_eq_decide.mpr (by omega)]
      · simp only [hks, if_false] at hk'
        rw [hk] at hk'
        obtain rfl := Option.some.inj hk'
        rcases Nat.lt_or_ge k sc with hlt | hge
        · have := outside k i h hi hlt
          simp [show ¬ a ≤ pre lens k + i by omega]
        · have := beyond k i (by omega)
          simp [show ¬ pre lens k + i < b by omega]
  · have hlt : sc < ec := by
      rcases Nat.lt_or_ge sc ec with h | h
      · exact h
      · exfalso; have := beyond sc si (by omega); omega
    simp only [hse, if_false]
    have hol := offsets_length lens
    rw [idx_lt (show sc + 1 < (offsets lens).length by omega), idx_lt (show sc < (offsets lens).length by omega)]
    simp only [Res.ok_bind, offsets_getElem]
    have hps := pre_succ a1
    rw [Res.sub_of_le (by omega)]
    simp only [Res.ok_bind]
    have hn : pre lens (sc + 1) - pre lens sc = lens[sc] := by omega
    rw [hn]
    have hget : fs[sc]? = some (fs[sc]'(by omega)) := List.getElem?_eq_getElem _
    have hgete : fs[ec]? = some (fs[ec]'(by omega)) := List.getElem?_eq_getElem _
    obtain ⟨p1, p2⟩ := FOk_push (P' := b) (hfs.ok sc _ a1 hget) (s := si) (e := lens[sc]) (by omega) (by omega) (by omega)
      (by have := pre_mono lens (show sc + 1 ≤ ec by omega); omega)
    obtain ⟨q1, q2⟩ := FOk_push (P' := b) (hfs.ok ec _ b1 hgete) (s := 0) (e := ei + 1)
      (by have := pre_mono lens (show sc + 1 ≤ ec by omega); omega) (by omega) (by omega) (by omega)
    simp only [updFilter, hget, Res.ok_bind, List.getElem?_set, hse, if_false, hgete]
    simp only [setAll, List.length_set, show sc + 1 ≤ ec by omega, show ec ≤ fs.length by omega, and_self, if_true]
    have hgetr : ∀ k, k < lens.length → (List.take (sc + 1) ((fs.set sc (pushSlice (si, lens[sc]) fs[sc])).set ec (pushSlice (0, ei + 1) fs[ec])) ++
        List.replicate (ec - (sc + 1)) ChunkFilter.all ++
        List.drop ec ((fs.set sc (pushSlice (si, lens[sc]) fs[sc])).set ec (pushSlice (0, ei + 1) fs[ec])))[k]? =
        if k = sc then some (pushSlice (si, lens[sc]) fs[sc]) else if k = ec then some (pushSlice (0, ei + 1) fs[ec])
        else if sc < k ∧ k < ec then some .all else fs[k]? := by
      intro k hk
      have hl1 : (List.take (sc + 1) ((fs.set sc (pushSlice (si, lens[sc]) fs[sc])).set ec (pushSlice (0, ei + 1) fs[ec]))).length = sc + 1 := by
        simp; omega
      by_cases hk1 : k < sc + 1
      · rw [List.append_assoc, List.getElem?_append_left (by omega), List.getElem?_take_of_lt hk1, List.getElem?_set, if_neg (by omega),
          List.getElem?_set]
        by_cases h3 : k = sc
        · subst h3; rw [if_pos rfl, if_pos (by omega), if_pos rfl]
        · rw [if_neg (fun h => h3 h.symm), if_neg h3, if_neg (by omega), if_neg (by omega)]
      · rw [if_neg (by omega)]
        by_cases hk2 : k < ec
        · rw [List.getElem?_append_left (by simp; omega), List.getElem?_append_right (by omega), List.getElem?_replicate, if_pos (by omega),
            if_neg (by omega), if_pos ⟨by omega, hk2⟩]
        · rw [List.getElem?_append_right (by simp; omega), List.getElem?_drop]
          have e : ec + (k - (List.take (sc + 1) ((fs.set sc (pushSlice (si, lens[sc]) fs[sc])).set ec (pushSlice (0, ei + 1) fs[ec])) ++
            List.replicate (ec - (sc + 1)) ChunkFilter.all).length) = k := by rw [List.length_append, hl1, List.length_replicate]; omega
          rw [e, List.getElem?_set, List.getElem?_set]
          by_cases h3 : k = ec
          · subst h3; rw [if_pos rfl, if_pos (by simp; omega), if_pos rfl]
          · rw [if_neg (fun h => h3 h.symm), if_neg (by omega), if_neg h3, if_neg (by omega)]
    refine ⟨_, rfl, ⟨?_, ?_⟩, ?_⟩
    · simp; omega
    · intro k f h hk
      rw [hgetr k h] at hk
      split at hk
      · rename_i h3; subst h3; obtain rfl := Option.some.inj hk; exact p2
      · split at hk
        · rename_i h3; subst h3; obtain rfl := Option.some.inj hk; exact q2
        · split at hk
          · rename_i h3
            obtain rfl := Option.some.inj hk
            have := pre_succ h; have := pre_mono lens (show k + 1 ≤ ec by omega)
            simp only [FOk]; omega
          · exact (hfs.ok k f h hk).mono (by omega)
    · intro k i f f' h hk hk' hi
      rw [hgetr k h] at hk'
      split at hk'
      · rename_i h3; subst h3
        rw [hget] at hk
        obtain rfl := Option.some.inj hk
        obtain rfl := Option.some.inj hk'
        rw [hit_push _ p1]
        have := pre_mono lens (show k + 1 ≤ ec by omega)
        have e1 : decide (si ≤ i) = decide (a ≤ pre lens k + i) := decide_eq_decide.mpr (by omega)
        simp [e1, show pre lens k + i < b by omega, hi]
      · split at hk'
        · rename_i h3; subst h3
          rw [hgete] at hk
          obtain rfl := Option.some.inj hk
          obtain rfl := Option.some.inj hk'
          rw [hit_push _ q1]
          have := pre_mono lens (show sc + 1 ≤ k by omega)
          have e1 : decide (i < ei + 1) = decide (pre lens k + i < b) := decide_eq_decide.mpr (by omega)
          simp [e1, show a ≤ pre lens k + i by omega]
        · split at hk'
          · rename_i h3
            obtain rfl := Option.some.inj hk'
            have := pre_succ h; have := pre_mono lens (show k + 1 ≤ ec by omega); have := pre_mono lens (show sc + 1 ≤ k by omega)
            simp [hit, show a ≤ pre lens k + i by omega, show pre lens k + i < b by omega]
          · rw [hk] at hk'
            obtain rfl := Option.some.inj hk'
            rcases Nat.lt_or_ge k sc with hlt | hge
            · have := outside k i h hi hlt
              simp [show ¬ a ≤ pre lens k + i by omega]
            · have := beyond k i (by omega)
              simp [show ¬ pre lens k + i < b by omega]

theorem addSlices_ok (lens : List Nat) (ps : List (Nat × Nat)) (fs : List ChunkFilter) (P hi : Nat) (hfs : FsOk lens P fs)
    (ho : Ordered P hi ps) (hhi : hi ≤ lens.sum) :
    ∃ fs', addSlices (offsets lens) fs ps = .ok fs' ∧ FsOk lens hi fs' ∧
      ∀ k i f f' (h : k < lens.length), fs[k]? = some f → fs'[k]? = some f' → i < lens[k] →
        hit f' i = (hit f i || covers ps (pre lens k + i)) := by
  induction ps generalizing fs P with
  | nil =>
    refine ⟨fs, rfl, ⟨hfs.len, fun k f h hk => (hfs.ok k f h hk).mono ho⟩, ?_⟩
    intro k i f f' h hk hk' _
    rw [hk] at hk'; obtain rfl := Option.some.inj hk'; simp [covers]
  | cons p ps ih =>
    obtain ⟨a, b⟩ := p
    obtain ⟨h1, h2, h3⟩ := ho
    obtain ⟨fs1, g1, g2, g3⟩ := addSlice_ok lens fs P a b hfs h1 h2 (by have := h3.le; omega)
    obtain ⟨fs2, g4, g5, g6⟩ := ih fs1 b g2 h3
    refine ⟨fs2, by simp [addSlices, g1, g4], g5, ?_⟩
    intro k i f f' h hk hk' hi
    have hk1 : fs1[k]? = some (fs1[k]'(by rw [g2.len]; exact h)) := List.getElem?_eq_getElem _
    rw [g6 k i _ f' h hk1 hk' hi, g3 k i f _ h hk hk1 hi]
    simp [covers, Bool.or_assoc]

theorem filter_replicate_true (xs : List α) : Spec.filter xs (List.replicate xs.length true) = xs := by
  induction xs with
  | nil => rfl
  | cons x xs ih => simp [List.replicate_succ, ih]

theorem filter_replicate_false (xs : List α) : Spec.filter xs (List.replicate xs.length false) = [] := by
  induction xs with
  | nil => rfl
  | cons x xs ih => simp [List.replicate_succ, ih]

theorem applyFilters_ok {fl : C → List Bool → Res C} (hlen : LenLaw Good rowsOf len) (hfl : FilterLaw Good rowsOf fl)
    (cs : List C) (hg : ∀ c ∈ cs, Good c) (fs : List ChunkFilter) (mask : List Bool) (hm : mask.length = (rows rowsOf cs).length)
    (hfl' : fs.length = cs.length)
    (hord : ∀ k ss (h : k < cs.length), fs[k]? = some (.slices ss) → Ordered 0 (rowsOf cs[k]).length ss)
    (hhit : ∀ k i f (h : k < cs.length), fs[k]? = some f → i < (rowsOf cs[k]).length →
      mask[(rows rowsOf (cs.take k)).length + i]? = some (hit f i)) :
    ∃ out, applyFilters len fl (cs.zip fs) = .ok out ∧ (∀ c ∈ out, Good c) ∧ rows rowsOf out = Spec.filter (rows rowsOf cs) mask := by
  induction cs generalizing fs mask with
  | nil => exact ⟨[], rfl, by simp, by simp [rows, Spec.filter]⟩
  | cons c cs ih =>
    cases fs with
    | nil => simp at hfl'
    | cons f fs =>
      have gc : Good c := hg c (by simp)
      have hl := hlen c gc
      have hrl : (rows rowsOf (c :: cs)).length = (rowsOf c).length + (rows rowsOf cs).length := by simp [rows]
      have hspl : mask = mask.take (rowsOf c).length ++ mask.drop (rowsOf c).length := (List.take_append_drop _ _).symm
      obtain ⟨out, h1, h2, h3⟩ := ih (fun x hx => hg x (by simp [hx])) fs (mask.drop (rowsOf c).length) (by simp; omega) (by simpa using hfl')
        (by intro k ss h hk; exact hord (k + 1) ss (by simpa using h) (by simpa using hk))
        (by intro k i f' h hk hi
            have := hhit (k + 1) i f' (by simpa using h) (by simpa using hk) (by simpa using hi)
            rw [List.getElem?_drop, ← this]
            congr 1; simp [rows]; omega)
      have hrows : Spec.filter (rows rowsOf (c :: cs)) mask
          = Spec.filter (rowsOf c) (mask.take (rowsOf c).length) ++ Spec.filter (rows rowsOf cs) (mask.drop (rowsOf c).length) := by
        have e : rows rowsOf (c :: cs) = rowsOf c ++ rows rowsOf cs := by simp [rows]
        rw [e]
        conv => lhs; rw [hspl]
        exact Spec.filter_append (by simp; omega)
      have hb : ∀ i, i < (rowsOf c).length → (mask.take (rowsOf c).length)[i]? = some (hit f i) := by
        intro i hi
        rw [List.getElem?_take_of_lt hi]
        have := hhit 0 i f (by simp) (by simp) (by simpa using hi)
        simpa [rows] using this
      have hmask : ∀ m : List Bool, m.length = (rowsOf c).length → (∀ i, i < (rowsOf c).length → m[i]? = some (hit f i)) →
          mask.take (rowsOf c).length = m := by
        intro m hml hmi
        apply List.ext_getElem?
        intro i
        by_cases hi : i < (rowsOf c).length
        · rw [hb i hi, hmi i hi]
        · rw [List.getElem?_eq_none (by simp; omega), List.getElem?_eq_none (by omega)]
      cases f with
      | all =>
        refine ⟨c :: out, by simp [applyFilters, h1], ?_, ?_⟩
        · intro x hx; rcases List.mem_cons.mp hx with rfl | hx
          · exact gc
          · exact h2 x hx
        · rw [hrows, hmask (List.replicate (rowsOf c).length true) (by simp) (by intro i hi; simp [hi, hit]), filter_replicate_true, ← h3]
          simp [rows]
      | none =>
        refine ⟨out, by simp [applyFilters, h1], h2, ?_⟩
        rw [hrows, hmask (List.replicate (rowsOf c).length false) (by simp) (by intro i hi; simp [hi, hit]), filter_replicate_false, ← h3]
        simp
      | slices ss =>
        obtain ⟨m, m1, m2, m3⟩ := slicesToPredicate_ok (rowsOf c).length ss 0 (hord 0 ss (by simp) (by simp))
        obtain ⟨c', f1, f2, f3⟩ := hfl c m gc (by omega)
        refine ⟨c' :: out, by simp [applyFilters, hl, m1, f1, h1], ?_, ?_⟩
        · intro x hx; rcases List.mem_cons.mp hx with rfl | hx
          · exact f2
          · exact h2 x hx
        · rw [hrows, hmask m (by omega) (by intro i hi; have := m3 i (by omega); simpa [hit] using this), ← f3, ← h3]
          simp [rows]

theorem filterSlices_ok {fl : C → List Bool → Res C} (hlen : LenLaw Good rowsOf len) (hfl : FilterLaw Good rowsOf fl)
    (cs : List C) (hg : ∀ c ∈ cs, Good c) (mask : List Bool) (hm : mask.length = (rows rowsOf cs).length) :
    ∃ out, filterSlices len fl cs mask = .ok out ∧ (∀ c ∈ out, Good c) ∧ rows rowsOf out = Spec.filter (rows rowsOf cs) mask := by
  obtain ⟨ho, hc⟩ := setSlices_spec mask 0 none 0 (by simp) (by simp)
  simp only [Nat.zero_add] at ho
  obtain ⟨fs, h1, h2, h3⟩ := addSlices_ok (cs.map len) (RunEndBool.setSlices 0 none mask) (List.replicate cs.length .none) 0 mask.length
    ⟨by simp, by intro k f h hk; rw [List.getElem?_replicate] at hk; split at hk <;> simp at hk; subst hk; trivial⟩ ho
    (by rw [sum_eq hlen hg]; omega)
  have hklen : (cs.map len).length = cs.length := by simp
  obtain ⟨out, h4, h5, h6⟩ := applyFilters_ok hlen hfl cs hg fs mask hm (by rw [h2.len, hklen])
    (by intro k ss h hk
        obtain ⟨hi, a, b, _⟩ := h2.ok k _ (by omega) hk
        rw [List.getElem_map, hlen _ (hg _ (List.getElem_mem _))] at b
        exact a.mono b)
    (by intro k i f h hk hi
        have e := h3 k i .none f (by omega) (by rw [List.getElem?_replicate, if_pos h]) hk
          (by rw [List.getElem_map, hlen _ (hg _ (List.getElem_mem _))]; exact hi)
        rw [e]
        have hpre : (rows rowsOf (cs.take k)).length = pre (cs.map len) k := by
          rw [← sum_eq hlen (fun c hc => hg c (List.mem_of_mem_take hc)), pre, List.map_take]
        have hlt : pre (cs.map len) k + i < mask.length := by
          have hk' : k < (cs.map len).length := by omega
          have := pre_succ hk'; have := pre_le_sum (cs.map len) (k + 1)
          rw [List.getElem_map, hlen _ (hg _ (List.getElem_mem _))] at *
          rw [sum_eq hlen hg] at *
          omega
        rw [hpre, hc]
        simp [hit, List.getElem?_eq_getElem hlt])
  exact ⟨out, by simp [filterSlices, h1, h4], h5, h6⟩

/-- **C22 (filter).** For every mask of the array's length, whichever of the two algorithms is chosen, `filter` yields exactly the
selected rows in order. -/
theorem C22_filter {tk : C → List Nat → Res C} {fl : C → List Bool → Res C} (hlen : LenLaw Good rowsOf len) (htk : TakeLaw Good rowsOf tk)
    (hfl : FilterLaw Good rowsOf fl) (manySet : Nat → Nat → Bool) (cs : List C) (hg : ∀ c ∈ cs, Good c) (mask : List Bool)
    (hm : mask.length = (rows rowsOf cs).length) :
    ∃ out, filter len tk fl manySet cs mask = .ok out ∧ (∀ c ∈ out, Good c) ∧ rows rowsOf out = Spec.filter (rows rowsOf cs) mask := by
  unfold filter
  rw [sum_eq hlen hg]
  simp only [hm, ne_eq, not_true, if_false]
  by_cases h1 : mask.count true = (rows rowsOf cs).length
  · refine ⟨cs, by simp [h1], hg, ?_⟩
    rw [← hm] at h1
    have := count_true_eq_length.mp h1
    rw [this, hm, filter_replicate_true]
  · by_cases h2 : mask.count true = 0
    · refine ⟨[], by rw [if_neg h1, if_pos h2], by simp, ?_⟩
      have := count_true_eq_zero.mp h2
      rw [this, hm, filter_replicate_false]; rfl
    · simp only [h1, h2, if_false]
      split
      · exact filterSlices_ok hlen hfl cs hg mask hm
      · have hin : ∀ i ∈ setIndices mask, i < (rows rowsOf cs).length := by
          intro i hi
          simp only [setIndices, List.mem_filter, List.mem_range] at hi
          omega
        obtain ⟨out, h3, h4, h5⟩ := filterIndicesLoop_ok hlen htk cs hg (setIndices mask) hin 0 [] [] (Or.inl ⟨rfl, rfl⟩)
        refine ⟨out, h3, h4, ?_⟩
        rw [h5, Spec.filter_eq_take _ _ hm.symm]; rfl

/-- A mask of another length is an error. -/
theorem C22_filter_length_mismatch {tk : C → List Nat → Res C} {fl : C → List Bool → Res C} (hlen : LenLaw Good rowsOf len)
    (manySet : Nat → Nat → Bool) (cs : List C) (hg : ∀ c ∈ cs, Good c) (mask : List Bool)
    (hm : mask.length ≠ (rows rowsOf cs).length) : filter len tk fl manySet cs mask = .err := by
  simp [filter, sum_eq hlen hg, hm]

/-! ### canonical form and rechunking -/

theorem rows_zip_append (v w : List α) (m n : List Bool) (h : v.length = m.length) :
    Spec.rows (v ++ w) (m ++ n) = Spec.rows v m ++ Spec.rows w n := by
  simp [Spec.rows, List.zipWith_append h]

/-- **C22 (canonical).** Decoding a chunked primitive array yields the concatenation of its chunks' rows. -/
theorem C22_canonical (nullable : Bool) (cs : List (PArr α)) (hw : ∀ c ∈ cs, c.WF)
    (hn : nullable = false → ∀ c ∈ cs, c.validity = .nonNullable) :
    (canonicalPrim nullable cs).WF ∧ (canonicalPrim nullable cs).rows = rows PArr.rows cs := by
  have hvl : (cs.flatMap (·.vals)).length = (cs.map PArr.len).sum := by
    simp [List.length_flatMap]; rfl
  have hmask : (cs.map (fun c => c.validity.toLogical c.len)).flatMap LogicalValidity.intoBools
      = cs.flatMap (fun c => mask c.vals.length c.validity) := by
    rw [List.flatMap_map]
    induction cs with
    | nil => rfl
    | cons c cs ih =>
      simp only [List.flatMap_cons]
      rw [ih (fun x hx => hw x (by simp [hx])) (fun h x hx => hn h x (by simp [hx])) (by simp [List.length_flatMap]; rfl)]
      congr 1
      exact (C23_to_logical c.validity c.vals.length (hw c (by simp))).1
  have hlens : (cs.map (fun c => c.validity.toLogical c.len)).map LogicalValidity.len = cs.map PArr.len := by
    rw [List.map_map]; apply List.map_congr_left; intro c hc
    exact (C23_to_logical c.validity c.vals.length (hw c hc)).2.2
  have hrows : Spec.rows (cs.flatMap (·.vals)) (cs.flatMap (fun c => mask c.vals.length c.validity)) = rows PArr.rows cs := by
    clear hmask hlens hvl
    induction cs with
    | nil => rfl
    | cons c cs ih =>
      simp only [List.flatMap_cons, rows]
      rw [rows_zip_append]
      · rw [ih (fun x hx => hw x (by simp [hx])) (fun h x hx => hn h x (by simp [hx]))]; rfl
      · exact (hw c (by simp)).symm
  cases nullable with
  | true =>
    have hcol := C23_collect (cs.map (fun c => c.validity.toLogical c.len))
    rw [hlens, hmask] at hcol
    have hfit : FitsLen (LogicalValidity.collect (cs.map (fun c => c.validity.toLogical c.len))) (cs.map PArr.len).sum := by
      unfold FitsLen
      rw [hcol, List.length_flatMap]
      congr 1
      apply List.map_congr_left
      intro c hc
      exact hw c hc
    have h2 := C23_to_logical _ _ hfit
    have hfit2 : FitsLen ((LogicalValidity.collect (cs.map (fun c => c.validity.toLogical c.len))).toLogical (cs.map PArr.len).sum).intoValidity
        (cs.map PArr.len).sum := by
      unfold FitsLen
      rw [h2.2.1]; exact hfit
    refine ⟨?_, ?_⟩
    · simp only [canonicalPrim, if_true, PArr.WF, hvl]; exact hfit2
    · simp only [canonicalPrim, if_true, PArr.rows, hvl, h2.2.1, hcol]; exact hrows
  | false =>
    refine ⟨by simp [canonicalPrim, PArr.WF, FitsLen, mask], ?_⟩
    simp only [canonicalPrim, Bool.false_eq_true, if_false, PArr.rows]
    rw [← hrows]
    congr 1
    have hn' := hn rfl
    clear hmask hlens hvl hrows
    induction cs with
    | nil => rfl
    | cons c cs ih =>
      simp only [List.flatMap_cons]
      rw [← ih (fun x hx => hw x (by simp [hx])) (fun h x hx => hn h x (by simp [hx])) (fun x hx => hn' x (by simp [hx])), hn' c (by simp)]
      simp [mask, List.replicate_append_replicate]

/-- The chunks of `out` are, in order, groups of consecutive chunks of `cs`: alone as they are, or combined within both targets. -/
inductive Regrouped (nbytes len : C → Nat) (combine : List C → Res C) (tb tr : Nat) : List C → List C → Prop
  | nil : Regrouped nbytes len combine tb tr [] []
  | keep (c : C) {cs out : List C} : (nbytes c > tb ∨ len c > tr) → Regrouped nbytes len combine tb tr cs out →
      Regrouped nbytes len combine tb tr (c :: cs) (c :: out)
  | merge (grp : List C) (c' : C) {cs out : List C} : grp ≠ [] → (grp.map nbytes).sum ≤ tb → (grp.map len).sum ≤ tr → combine grp = .ok c' →
      Regrouped nbytes len combine tb tr cs out → Regrouped nbytes len combine tb tr (grp ++ cs) (c' :: out)

theorem rechunkLoop_ok {nbytes : C → Nat} {combine : List C → Res C} (hcomb : CombineLaw Good rowsOf combine) (tb tr : Nat) (cs : List C)
    (hg : ∀ c ∈ cs, Good c) :
    ∀ (pend : List C) (pb pr : Nat), (∀ c ∈ pend, Good c) → pb = (pend.map nbytes).sum → pr = (pend.map len).sum → pb ≤ tb → pr ≤ tr →
      ∃ out, rechunkLoop nbytes len combine tb tr pend pb pr cs = .ok out ∧ (∀ c ∈ out, Good c) ∧ rows rowsOf out = rows rowsOf (pend ++ cs) ∧
        Regrouped nbytes len combine tb tr (pend ++ cs) out := by
  induction cs with
  | nil =>
    intro pend pb pr hp hpb hpr h1 h2
    cases pend with
    | nil => exact ⟨[], by simp [rechunkLoop], by simp, by simp, .nil⟩
    | cons c pend =>
      obtain ⟨c', h3, h4, h5⟩ := hcomb (c :: pend) (by simp) hp
      refine ⟨[c'], by simp [rechunkLoop, h3], by simpa using h4, by simpa [rows] using h5, ?_⟩
      exact .merge (c :: pend) c' (by simp) (by omega) (by omega) h3 .nil
  | cons c cs ih =>
    intro pend pb pr hp hpb hpr h1 h2
    have ih := ih (fun x hx => hg x (by simp [hx]))
    have gc := hg c (by simp)
    by_cases hover : nbytes c > tb ∨ len c > tr
    · obtain ⟨rest, r1, r2, r3, r4⟩ := ih [] 0 0 (by simp) (by simp) (by simp) (by omega) (by omega)
      have hb : (decide (nbytes c > tb) || decide (len c > tr)) = true := by simpa using hover
      have hb2 : (decide (pb + nbytes c > tb) || decide (pr + len c > tr)) = true := by simp; omega
      cases pend with
      | nil =>
        refine ⟨c :: rest, ?_, ?_, by simpa [rows] using r3, .keep c hover r4⟩
        · have e1 : pb = 0 := by simpa using hpb
          have e2 : pr = 0 := by simpa using hpr
          subst e1; subst e2
          simp [rechunkLoop, hover, r1]
        · intro x hx; rcases List.mem_cons.mp hx with rfl | hx
          · exact gc
          · exact r2 x hx
      | cons p pend =>
        obtain ⟨c', h3, h4, h5⟩ := hcomb (p :: pend) (by simp) hp
        refine ⟨c' :: c :: rest, ?_, ?_, ?_, ?_⟩
        · rw [rechunkLoop]
          simp only [hb, hb2, List.isEmpty_cons, Bool.not_false, Bool.and_self, if_true, h3, Res.ok_bind, r1]
        · intro x hx
          rcases List.mem_cons.mp hx with rfl | hx
          · exact h4
          · rcases List.mem_cons.mp hx with rfl | hx
            · exact gc
            · exact r2 x hx
        · simp only [rows, List.flatMap_cons, List.flatMap_append] at r3 h5 ⊢
          rw [h5, r3]; simp
        · exact .merge (p :: pend) c' (by simp) (by omega) (by omega) h3 (.keep c hover r4)
    · have hb : (decide (nbytes c > tb) || decide (len c > tr)) = false := by simp at hover ⊢; omega
      by_cases hfl : (decide (pb + nbytes c > tb) || decide (pr + len c > tr)) = true ∧ pend ≠ []
      · obtain ⟨c', h3, h4, h5⟩ := hcomb pend hfl.2 hp
        obtain ⟨rest, r1, r2, r3, r4⟩ := ih [c] (nbytes c) (len c) (by simpa using gc) (by simp) (by simp) (by omega) (by omega)
        refine ⟨c' :: rest, ?_, ?_, ?_, ?_⟩
        · rw [rechunkLoop]
          simp only [hb, hfl.1, show pend.isEmpty = false by simpa using hfl.2, Bool.not_false, Bool.and_self, if_true, h3, Res.ok_bind, r1,
            Bool.false_eq_true, if_false]
        · intro x hx; rcases List.mem_cons.mp hx with rfl | hx
          · exact h4
          · exact r2 x hx
        · simp only [rows, List.flatMap_cons, List.flatMap_append] at r3 h5 ⊢
          rw [h5, r3]; simp
        · exact .merge pend c' hfl.2 (by omega) (by omega) h3 r4
      · have hcond : ((decide (pb + nbytes c > tb) || decide (pr + len c > tr)) && !pend.isEmpty) = false := by
          cases pend with
          | nil => simp
          | cons p pend => simp only [List.isEmpty_cons, Bool.not_false, Bool.and_true]; simpa using hfl
        have hfit : pb + nbytes c ≤ tb ∧ pr + len c ≤ tr := by
          cases pend with
          | nil => simp at hpb hpr; subst hpb; subst hpr; omega
          | cons p pend => simp at hfl; omega
        obtain ⟨rest, r1, r2, r3, r4⟩ := ih (pend ++ [c]) (pb + nbytes c) (pr + len c)
          (by intro x hx; rcases List.mem_append.mp hx with hx | hx
              · exact hp x hx
              · simp at hx; subst hx; exact gc) (by simp [hpb]) (by simp [hpr]) hfit.1 hfit.2
        refine ⟨rest, ?_, r2, by simpa using r3, by simpa using r4⟩
        rw [rechunkLoop]
        simp only [hcond, hb, Bool.false_eq_true, if_false, r1]

/-- **C22 (rechunk).** For all targets, rechunking keeps the rows; every new chunk is an old oversized chunk as it was, or combines
consecutive old chunks whose total stays within both targets. -/
theorem C22_rechunk {nbytes : C → Nat} {combine : List C → Res C} (hcomb : CombineLaw Good rowsOf combine) (tb tr : Nat) (cs : List C)
    (hg : ∀ c ∈ cs, Good c) :
    ∃ out, rechunk nbytes len combine tb tr cs = .ok out ∧ (∀ c ∈ out, Good c) ∧ rows rowsOf out = rows rowsOf cs ∧
      Regrouped nbytes len combine tb tr cs out := by
  have := rechunkLoop_ok (nbytes := nbytes) (len := len) hcomb tb tr cs hg [] 0 0 (by simp) (by simp) (by simp) (by omega) (by omega)
  simpa [rechunk] using this

/-! ### the laws hold for primitive chunks -/

theorem prim_lenLaw : LenLaw (PArr.WF (α := α)) PArr.rows PArr.len := fun _ h => (PArr.rows_len h).symm

theorem prim_sliceLaw : SliceLaw (PArr.WF (α := α)) PArr.rows PArr.slice := by
  intro c s e hw h
  rw [PArr.rows_len hw] at h
  obtain ⟨c', h1, h2, h3⟩ := PArr.slice_ok hw h
  exact ⟨c', h1, h3.1, h2⟩

theorem prim_takeLaw : TakeLaw (PArr.WF (α := α)) PArr.rows PArr.take := by
  intro c is hw _ h
  rw [PArr.rows_len hw] at h
  obtain ⟨c', h1, h2, h3⟩ := PArr.take_ok hw h
  exact ⟨c', h1, h3.1, h2⟩

theorem prim_filterLaw : FilterLaw (PArr.WF (α := α)) PArr.rows PArr.filter := by
  intro c m hw h
  rw [PArr.rows_len hw] at h
  obtain ⟨c', h1, h2, h3⟩ := PArr.filter_ok hw h
  exact ⟨c', h1, h3.1, h2⟩

theorem prim_combineLaw : CombineLaw (fun c : PArr α => c.WF) PArr.rows (fun cs => .ok (canonicalPrim true cs)) := by
  intro cs _ hw
  obtain ⟨h1, h2⟩ := C22_canonical true cs hw (by simp)
  exact ⟨_, rfl, h1, h2⟩

/-- All of C22 for arrays of primitive chunks: no hypothesis on the chunks beyond being well formed. -/
theorem C22_primitive_chunks (cs : List (PArr α)) (hw : ∀ c ∈ cs, c.WF) :
    (∀ s e, cs ≠ [] → InBounds (rows PArr.rows cs).length s e →
      ∃ out, slice PArr.len PArr.slice cs s e = .ok out ∧ rows PArr.rows out = Spec.slice (rows PArr.rows cs) s e) ∧
    (∀ strict is, is ≠ [] → (∀ i ∈ is, i < (rows PArr.rows cs).length) → (strict = true → is.Pairwise (· < ·)) →
      ∃ out, take PArr.len PArr.take strict cs is = .ok out ∧ rows PArr.rows out = Spec.take (rows PArr.rows cs) is) ∧
    (∀ manySet mask, mask.length = (rows PArr.rows cs).length →
      ∃ out, filter PArr.len PArr.take PArr.filter manySet cs mask = .ok out ∧ rows PArr.rows out = Spec.filter (rows PArr.rows cs) mask) ∧
    (∀ nbytes tb tr, ∃ out, rechunk nbytes PArr.len (fun cs => .ok (canonicalPrim true cs)) tb tr cs = .ok out ∧
      rows PArr.rows out = rows PArr.rows cs) := by
  refine ⟨?_, ?_, ?_, ?_⟩
  · intro s e hne h
    obtain ⟨out, h1, _, h3⟩ := C22_slice_partial prim_lenLaw prim_sliceLaw cs hne hw s e h
    exact ⟨out, h1, h3⟩
  · intro strict is hne his hs
    obtain ⟨out, h1, _, h3⟩ := C22_take_partial prim_lenLaw prim_takeLaw strict cs hw is hne his hs
    exact ⟨out, h1, h3⟩
  · intro manySet mask hm
    obtain ⟨out, h1, _, h3⟩ := C22_filter prim_lenLaw prim_takeLaw prim_filterLaw manySet cs hw mask hm
    exact ⟨out, h1, h3⟩
  · intro nbytes tb tr
    obtain ⟨out, h1, _, h3, _⟩ := C22_rechunk (nbytes := nbytes) (len := PArr.len) prim_combineLaw tb tr cs hw
    exact ⟨out, h1, h3⟩

/-- Three chunks, one of them empty, one with nulls: slices, takes and filters across the boundaries. -/
def demo : List (PArr Nat) := [⟨[10, 11], .nonNullable⟩, ⟨[], .allValid⟩, ⟨[12, 13, 14], .array [true, false, true]⟩]

example : ∀ c ∈ demo, c.WF := by decide
example : rows PArr.rows demo = [some 10, some 11, some 12, none, some 14] := by decide
example : (match slice PArr.len PArr.slice demo 1 4 with | .ok o => rows PArr.rows o | _ => []) = [some 11, some 12, none] := by decide +kernel
example : (match take PArr.len PArr.take false demo [4, 0, 0, 3] with | .ok o => rows PArr.rows o | _ => []) = [some 14, some 10, some 10, none] := by
  decide +kernel
example : (match filter PArr.len PArr.take PArr.filter (fun _ _ => true) demo [false, true, true, false, true] with
    | .ok o => rows PArr.rows o | _ => []) = [some 11, some 12, some 14] := by decide +kernel

end Vx.Chunked
