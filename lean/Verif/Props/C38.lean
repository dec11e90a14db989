import Verif.Lemmas.TakeRows
import Verif.Lemmas.Chunked
import Verif.Props.C23
/-! # C38: taking rows from a stream or a stored chunked array returns exactly the requested rows -/

namespace Vx.TakeRows
open Spec

variable {α : Type}

/-! ## Array streams -/

/-- **C38 (streams).** Non-null, ascending row numbers (repeats allowed) that lie inside the stream: the batches yielded hold, in order, exactly
the requested rows — however the stream is cut into batches, empty ones included. Missing from the full property: the number of rows of the stream
has to be representable in the index type (`C38_stream_narrow_index`), and the index array has to be non-nullable (`C38_stream_nullable`). -/
theorem C38_stream_partial (t : IdxTy) (ns : List Nat) (hs : ns.Pairwise (· ≤ ·)) (batches : List (List α))
    (hin : ∀ n ∈ ns, n < batches.flatten.length) (hlim : batches.flatten.length < t.limit) :
    ∃ r, takeRowsStream t (arr t ns) batches = .ok r ∧ r.flatten.map some = ns.map fun n => batches.flatten[n]? := by
  obtain ⟨r, h1, h2⟩ := takeRowsStream_arr t (fun x hx => Nat.lt_trans (hin x hx) hlim) hs batches hlim
  refine ⟨r, h1, ?_⟩
  rw [h2, within_all]
  intro x hx; exact ⟨Nat.zero_le _, hin x hx⟩

/-- Row numbers beyond the end of the stream are not reported: they are dropped. -/
theorem C38_stream_out_of_range (t : IdxTy) (ns : List Nat) (hs : ns.Pairwise (· ≤ ·)) (batches : List (List α)) (hl : ∀ n ∈ ns, n < t.limit)
    (hlim : batches.flatten.length < t.limit) :
    ∃ r, takeRowsStream t (arr t ns) batches = .ok r ∧
      r.flatten.map some = (ns.filter fun n => decide (n < batches.flatten.length)).map fun n => batches.flatten[n]? := by
  obtain ⟨r, h1, h2⟩ := takeRowsStream_arr t hl hs batches hlim
  refine ⟨r, h1, ?_⟩
  rw [h2]; simp [within]

/-- What the index array must look like to be accepted. -/
structure Acceptable (t : IdxTy) (a : Idx t) : Prop where
  noNulls : none ∉ a.rows
  sorted : (valid a.rows).Pairwise fun x y => intKey t.signed x ≤ intKey t.signed y
  nonneg : ∀ x ∈ valid a.rows, 0 ≤ intKey t.signed x

/-- An array is accepted exactly when it is sorted, has no nulls and no negative entry; anything else is an error, before any row is produced. -/
theorem C38_stream_accepts (t : IdxTy) (a : Idx t) (hw : a.WF) : (tryNew t a = .ok a ∧ Acceptable t a) ∨ (tryNew t a = .err ∧ ¬ Acceptable t a) := by
  by_cases he : a.len = 0
  · have hv : a.vals = [] := List.length_eq_zero_iff.mp he
    have hr : a.rows = [] := by simp [PArr.rows, hv, rows]
    exact .inl ⟨by simp [tryNew, he], by rw [hr]; simp, by rw [hr]; simp [valid], by rw [hr]; simp [valid]⟩
  have hne : a.vals ≠ [] := fun h => he (by simp [PArr.len, h])
  by_cases hv : valid a.rows = []
  · right
    have hst := C25_all_null (intElem t.signed t.w) a hw hne hv
    constructor
    · have hpos : 0 < a.len := by omega
      simp only [tryNew, he, if_false, hst, StatsSet.nullsPrim]
      simp [hpos]
    · rintro ⟨h, -, -⟩
      have hl : a.rows.length = a.len := by
        have := hw; simp only [PArr.WF, FitsLen] at this
        simp [PArr.rows, rows, this, PArr.len]
      obtain ⟨o, ho⟩ : ∃ o, o ∈ a.rows := by
        cases hr : a.rows with
        | nil => rw [hr] at hl; simp at hl; omega
        | cons o _ => exact ⟨o, by simp⟩
      cases o with
      | none => exact h ho
      | some x => have := mem_valid.mpr ho; rw [hv] at this; simp at this
  · have hst := (C25_integer t.signed t.w a hw hv).1
    obtain ⟨b, s1, s2⟩ := hst.sorted
    obtain ⟨m, m1, m2⟩ := hst.min
    have hn := hst.nullCount
    have hnull : a.rows.count none > 0 ↔ none ∈ a.rows := by rw [gt_iff_lt, List.count_pos_iff]
    have hneg : (∀ x ∈ valid a.rows, 0 ≤ intKey t.signed x) ↔ 0 ≤ intKey t.signed m := by
      constructor
      · intro h; exact h m m2.1
      · intro h x hx; have := m2.2 x hx; omega
    have hu : t.signed = false → 0 ≤ intKey t.signed m := by intro h; simp [intKey, h]
    simp only [tryNew, he, if_false, s1, hn, m1]
    simp only [Option.getD_some, Option.map_some, decide_eq_true_eq]
    by_cases h1 : b = true
    · subst h1
      by_cases h2 : none ∈ a.rows
      · right
        have := hnull.mpr h2
        exact ⟨by simp [this], fun h => h.noNulls h2⟩
      · have h2' : ¬ a.rows.count none > 0 := fun h => h2 (hnull.mp h)
        by_cases h3 : intKey t.signed m < 0
        · right
          have hsgn : t.signed = true := by
            cases hsg : t.signed with
            | true => rfl
            | false => have := hu hsg; omega
          refine ⟨?_, fun h => ?_⟩
          · rw [if_neg (by simp), if_neg h2', if_pos ⟨hsgn, h3⟩]
          · have := hneg.mp h.nonneg; omega
        · left
          refine ⟨?_, h2, s2.mp rfl, hneg.mpr (by omega)⟩
          rw [if_neg (by simp), if_neg h2', if_neg (by rintro ⟨_, h⟩; exact h3 h)]
    · right
      have hb : b = false := by simpa using h1
      refine ⟨by simp [hb], fun h => h1 (s2.mpr h.sorted)⟩

/-- So a stream never answers a request with nulls, out of order or with negative row numbers. -/
theorem C38_stream_rejects (t : IdxTy) (a : Idx t) (hw : a.WF) (batches : List (List α)) (h : ¬ Acceptable t a) : takeRowsStream t a batches = .err := by
  rcases C38_stream_accepts t a hw with ⟨_, h2⟩ | ⟨h1, _⟩
  · exact absurd h2 h
  · simp [takeRowsStream, h1]

/-- The code's own test (stream/take_rows.rs:120-171): rows 1, 2, 3, 10, 11 … of a stream of 13 rows in batches of 4. -/
example : takeRowsStream ⟨false, 32⟩ (arr ⟨false, 32⟩ [1, 3, 4, 10]) [[0, 10, 20, 30], [40, 50, 60, 70], [80, 90, 100, 110], [120]] =
    .ok [[10, 30], [40], [100]] := by decide +kernel
example : Acceptable ⟨true, 8⟩ (arr ⟨true, 8⟩ [1, 1, 3]) := ⟨by decide, by decide, by decide⟩
example : ¬ Acceptable ⟨true, 8⟩ ⟨[0xff#8, 3#8], .nonNullable⟩ := by rintro ⟨_, _, h⟩; exact absurd (h 0xff#8 (by decide)) (by decide)

/-- The end of every batch is looked up in the index array's own type: when the first batch has more rows than the type can count, nothing can be
taken from the stream, whatever is asked for. -/
theorem C38_stream_narrow_index (t : IdxTy) (ns : List Nat) (hs : ns.Pairwise (· ≤ ·)) (hne : ns ≠ []) (hl : ∀ n ∈ ns, n < t.limit) (b : List α)
    (bs : List (List α)) (hb : t.limit ≤ b.length) : takeRowsStream t (arr t ns) (b :: bs) = .err := by
  simp only [takeRowsStream, tryNew_arr t hl hs, Res.ok_bind, poll]
  rw [if_neg (by simp [arr, PArr.len, hne])]
  have hpos : 0 < t.limit := by unfold IdxTy.limit; split <;> exact Nat.two_pow_pos _
  rw [(search_arr t hl hs 0 hpos).1]
  simp only [Res.ok_bind]
  have : searchIdx t (arr t ns) (0 + b.length) .left = .err := by
    simp only [searchIdx, castScalar]; rw [if_neg (by omega)]; rfl
  rw [this]; rfl

/-- For instance row 0 of a stream whose first batch has 256 rows, asked for with `u8` indices. -/
example (bs : List (List Nat)) : takeRowsStream ⟨false, 8⟩ (arr ⟨false, 8⟩ [0]) (List.replicate 256 7 :: bs) = .err :=
  C38_stream_narrow_index _ _ (by simp) (by simp) (by simp [IdxTy.limit]) _ _ (by rw [List.length_replicate]; decide)

/-- A nullable index array without nulls is accepted by `try_new` but fails on the first batch that holds a requested row
(`subtract_scalar` gets a non-nullable scalar). -/
theorem C38_stream_nullable : ∃ (a : Idx ⟨false, 32⟩) (batches : List (List Nat)), Acceptable ⟨false, 32⟩ a ∧
    takeRowsStream ⟨false, 32⟩ a batches = .err :=
  ⟨⟨[1#32], .allValid⟩, [[7, 8]], ⟨by decide +kernel, by decide +kernel, by intro x _; exact Int.natCast_nonneg _⟩, by decide +kernel⟩

/-! ## Stored chunked arrays -/

theorem mem_insertKey {k x : Nat} {l : List Nat} : x ∈ insertKey k l ↔ x = k ∨ x ∈ l := by
  induction l with
  | nil => simp [insertKey]
  | cons y ys ih =>
    simp only [insertKey]
    split
    · simp
    · split
      · next h => subst h; simp
      · simp only [List.mem_cons, ih]
        constructor
        · rintro (h | h | h) <;> simp [h]
        · rintro (h | h | h) <;> simp [h]

theorem insertKey_sorted {k : Nat} {l : List Nat} (h : l.Pairwise (· < ·)) : (insertKey k l).Pairwise (· < ·) := by
  induction l with
  | nil => simp [insertKey]
  | cons y ys ih =>
    simp only [insertKey]
    rw [List.pairwise_cons] at h
    split
    · next hk =>
      rw [List.pairwise_cons]
      exact ⟨by intro x hx; rcases List.mem_cons.mp hx with rfl | hx; exact hk; exact Nat.lt_trans hk (h.1 x hx), List.pairwise_cons.mpr h⟩
    · split
      · exact List.pairwise_cons.mpr h
      · rw [List.pairwise_cons]
        refine ⟨?_, ih h.2⟩
        intro x hx
        rcases mem_insertKey.mp hx with rfl | hx
        · omega
        · exact h.1 x hx

theorem sortedKeys_spec (l : List Nat) : (sortedKeys l).Pairwise (· < ·) ∧ ∀ x, x ∈ sortedKeys l ↔ x ∈ l := by
  induction l with
  | nil => simp [sortedKeys]
  | cons k ks ih =>
    refine ⟨insertKey_sorted ih.1, fun x => ?_⟩
    simp only [sortedKeys, mem_insertKey, ih.2, List.mem_cons]

theorem chunkOf_ok (lens : List Nat) (hn : lens.length ≤ 2 ^ 32) (i : Nat) (hi : i < lens.sum) :
    ∃ k, chunkOf (Chunked.offsets lens) i = .ok k ∧ k < lens.length ∧ Chunked.pre lens k ≤ i ∧ i < Chunked.pre lens (k + 1) := by
  obtain ⟨k, j, h1, h2⟩ := Chunked.findChunkEnds_ok lens i hi
  refine ⟨k, ?_, h2.lt, by have := h2.pos; omega, by rw [Chunked.pre_succ h2.lt]; have := h2.pos; have := h2.inside; omega⟩
  simp only [Chunked.findChunkEnds] at h1
  simp only [chunkOf]
  simp only [Res.bind_eq_ok] at h1 ⊢
  obtain ⟨r, hr, e, he, s, hs, j', hj, heq⟩ := h1
  refine ⟨r, hr, e, he, ?_⟩
  have : e - 1 = k := by simp at heq; exact heq.1
  have hk := h2.lt
  rw [this, Nat.mod_eq_of_lt (by omega)]

theorem castU64_arr (t : IdxTy) {ns : List Nat} (h : ∀ x ∈ ns, x < t.limit) : castU64 t (arr t ns) = .ok ns := by
  simp only [castU64, arr, castable, if_true]
  induction ns with
  | nil => rfl
  | cons n ns ih =>
    have hk := key_ofNat t n (h n (by simp))
    have := ih (fun x hx => h x (by simp [hx]))
    simp only [List.map_cons, Res.mapM_cons, hk, this]
    simp

theorem flatMap_within {lens : List Nat} {ns : List Nat} (hs : ns.Pairwise (· ≤ ·)) (hin : ∀ n ∈ ns, n < lens.sum) :
    ∀ (K : List Nat) (p : Nat), K.Pairwise (· < ·) → (∀ c ∈ K, p ≤ Chunked.pre lens c) → p ≤ lens.sum →
      (∀ n ∈ ns, p ≤ n → ∃ c ∈ K, Chunked.pre lens c ≤ n ∧ n < Chunked.pre lens (c + 1)) →
      K.flatMap (fun c => within (Chunked.pre lens c) (Chunked.pre lens (c + 1)) ns) = within p lens.sum ns
  | [], p, _, _, _, hcov => by
    have : within p lens.sum ns = [] := by
      unfold within; rw [List.filter_eq_nil_iff]
      intro x hx hc
      simp at hc
      obtain ⟨c, hc, _⟩ := hcov x hx hc.1
      simp at hc
    rw [this]; rfl
  | c :: K, p, hK, hp, hps, hcov => by
    rw [List.pairwise_cons] at hK
    have hpc := hp c (by simp)
    have hcs := Chunked.pre_le_sum lens (c + 1)
    have hcc : Chunked.pre lens c ≤ Chunked.pre lens (c + 1) := Chunked.pre_mono lens (Nat.le_succ c)
    have ih := flatMap_within hs hin K (Chunked.pre lens (c + 1)) hK.2
      (fun c' hc' => Chunked.pre_mono lens (hK.1 c' hc')) hcs (by
        intro n hn hpn
        obtain ⟨c', hc', h1, h2⟩ := hcov n hn (by omega)
        rcases List.mem_cons.mp hc' with rfl | hc'
        · omega
        · exact ⟨c', hc', h1, h2⟩)
    rw [List.flatMap_cons, ih, within_split hs hpc (Nat.le_trans hcc hcs), within_split hs hcc hcs]
    have : within p (Chunked.pre lens c) ns = [] := by
      unfold within; rw [List.filter_eq_nil_iff]
      intro x hx hc
      simp at hc
      obtain ⟨c', hc', h1, h2⟩ := hcov x hx hc.1
      rcases List.mem_cons.mp hc' with rfl | hc'
      · omega
      · have := Chunked.pre_mono lens (Nat.le_of_lt (hK.1 c' hc')); omega
    rw [this, List.nil_append]

/-- How the array is stored: the row offsets are the running sums of the chunk lengths, and reading the bytes of a chunk yields its rows, in some batches. -/
structure Stored (chunks : List (List α)) (byteOffsets rowOffsets : List Nat) (read : Nat → Nat → Res (List (List α))) : Prop where
  rows : rowOffsets = Chunked.offsets (chunks.map List.length)
  bytes : byteOffsets.length = rowOffsets.length
  ascending : byteOffsets.Pairwise (· ≤ ·)
  reads : ∀ (c : Nat) (hc : c < chunks.length) b b', byteOffsets[c]? = some b → byteOffsets[c + 1]? = some b' →
    ∃ batches, read b b' = .ok batches ∧ batches.flatten = chunks[c]

theorem takeChunk_ok (t : IdxTy) {chunks : List (List α)} {byteOffsets rowOffsets : List Nat} {read : Nat → Nat → Res (List (List α))}
    (hst : Stored chunks byteOffsets rowOffsets read) {ns : List Nat} (hs : ns.Pairwise (· ≤ ·)) (hin : ∀ n ∈ ns, n < chunks.flatten.length)
    (hlim : chunks.flatten.length < t.limit) (c : Nat) (hc : c < chunks.length) :
    ∃ r, takeChunk t read byteOffsets rowOffsets (arr t ns) c = .ok r ∧ r.flatten.map some =
      (within (Chunked.pre (chunks.map List.length) c) (Chunked.pre (chunks.map List.length) (c + 1)) ns).map fun n => chunks.flatten[n]? := by
  have hsum : (chunks.map List.length).sum = chunks.flatten.length := by rw [List.length_flatten]
  generalize hlens : chunks.map List.length = lens at hsum
  have hll : lens.length = chunks.length := by rw [← hlens]; simp
  have hol := Chunked.offsets_length lens
  have hrl : rowOffsets.length = lens.length + 1 := by rw [hst.rows, hlens, hol]
  have hbl := hst.bytes
  have hbc : byteOffsets[c]? = some (byteOffsets[c]'(by omega)) := List.getElem?_eq_getElem (by omega)
  have hbc' : byteOffsets[c + 1]? = some (byteOffsets[c + 1]'(by omega)) := List.getElem?_eq_getElem (by omega)
  obtain ⟨batches, hrd, hfl⟩ := hst.reads c hc _ _ hbc hbc'
  have hr0 : rowOffsets[c]? = some (Chunked.pre lens c) := by rw [hst.rows, hlens]; exact Chunked.offsets_getElem? lens c (by omega)
  have hr1 : rowOffsets[c + 1]? = some (Chunked.pre lens (c + 1)) := by rw [hst.rows, hlens]; exact Chunked.offsets_getElem? lens (c + 1) (by omega)
  have hble : byteOffsets[c]'(by omega) ≤ byteOffsets[c + 1]'(by omega) := List.pairwise_iff_getElem.mp hst.ascending _ _ _ _ (by omega)
  have hps := Chunked.pre_succ (lens := lens) (k := c) (by omega)
  have hlc : lens[c]'(by omega) = chunks[c].length := by simp [← hlens]
  have hle := Chunked.pre_le_sum lens (c + 1)
  have hl : ∀ x ∈ ns, x < t.limit := fun x hx => Nat.lt_trans (hin x hx) hlim
  have hlcle : batches.flatten.length = chunks[c].length := by rw [hfl]
  have hin' : ∀ x ∈ within (Chunked.pre lens c) (Chunked.pre lens (c + 1) + 1) ns, Chunked.pre lens c ≤ x ∧ x < t.limit := by
    intro x hx; rw [mem_within] at hx; exact ⟨hx.2.1, hl x hx.1⟩
  have hss : ((within (Chunked.pre lens c) (Chunked.pre lens (c + 1) + 1) ns).map fun x => x - Chunked.pre lens c).Pairwise (· ≤ ·) := by
    rw [List.pairwise_map]
    exact (hs.filter _).imp (by intro a b hab; omega)
  obtain ⟨r, h1, h2⟩ := takeRowsStream_arr t
    (ns := (within (Chunked.pre lens c) (Chunked.pre lens (c + 1) + 1) ns).map fun x => x - Chunked.pre lens c)
    (by intro x hx; simp only [List.mem_map] at hx; obtain ⟨y, hy, rfl⟩ := hx; have := (hin' y hy).2; omega) hss batches (by omega)
  refine ⟨r, ?_, ?_⟩
  · simp only [takeChunk, idx, hbc, hbc', hr0, hr1, Res.unwrap, Res.ok_bind, takeFromChunk, Res.sub_of_le hble]
    rw [(search_arr t hl hs (Chunked.pre lens c) (by omega)).1, (search_arr t hl hs (Chunked.pre lens (c + 1)) (by omega)).2]
    simp only [Res.ok_bind]
    rw [slice_arr t hs (by omega)]
    simp only [Res.ok_bind, castScalar]
    rw [if_pos (by omega)]
    simp only [Res.ok_bind]
    rw [show nullable (arr t (within (Chunked.pre lens c) (Chunked.pre lens (c + 1) + 1) ns)).validity = false from rfl, subtract_arr t hin' (by omega)]
    simp only [Res.ok_bind, hrd, h1]
  · rw [h2]
    have hw : within 0 batches.flatten.length ((within (Chunked.pre lens c) (Chunked.pre lens (c + 1) + 1) ns).map fun x => x - Chunked.pre lens c) =
        (within (Chunked.pre lens c) (Chunked.pre lens (c + 1)) ns).map fun x => x - Chunked.pre lens c := by
      unfold within
      rw [List.filter_map, List.filter_filter]
      congr 1
      apply List.filter_congr
      intro x _
      simp only [Function.comp]
      rw [hlcle, Bool.eq_iff_iff]; simp; omega
    rw [hw, List.map_map]
    apply List.map_congr_left
    intro x hx
    rw [mem_within] at hx
    simp only [Function.comp]
    rw [hfl]
    have hat : Chunked.At (chunks.map List.length) x c (x - Chunked.pre lens c) := ⟨by simpa using hc, by simp; omega, by rw [hlens]; omega⟩
    rw [Chunked.flatten_getElem? hat]

/-- **C38 (stored arrays).** Strictly ascending, in-range row numbers: `take_rows` answers exactly the requested rows, in order, whichever chunks they
fall into and however each chunk is cut into batches. The limits of `C38_stream_partial` apply. -/
theorem C38_reader_partial (t : IdxTy) (chunks : List (List α)) (byteOffsets rowOffsets : List Nat) (read : Nat → Nat → Res (List (List α)))
    (hst : Stored chunks byteOffsets rowOffsets read) (hn : chunks.length ≤ 2 ^ 32) (ns : List Nat) (hne : ns ≠ []) (hs : ns.Pairwise (· < ·))
    (hin : ∀ n ∈ ns, n < chunks.flatten.length) (hlim : chunks.flatten.length < t.limit) :
    ∃ r, takeRows t read byteOffsets rowOffsets (arr t ns) = .ok r ∧ r.flatten.map some = ns.map fun n => chunks.flatten[n]? := by
  have hl : ∀ x ∈ ns, x < t.limit := fun x hx => Nat.lt_trans (hin x hx) hlim
  have hs' : ns.Pairwise (· ≤ ·) := hs.imp (fun h => Nat.le_of_lt h)
  have hsum : (chunks.map List.length).sum = chunks.flatten.length := by rw [List.length_flatten]
  obtain ⟨_, ⟨b, s1, s2⟩, _⟩ := stats_arr t hl hne
  have hb := s2.mpr hs; subst hb
  -- the chunks
  have hch : ∀ i ∈ ns, ∃ k, chunkOf rowOffsets i = .ok k ∧ k < chunks.length ∧ Chunked.pre (chunks.map List.length) k ≤ i ∧
      i < Chunked.pre (chunks.map List.length) (k + 1) := by
    intro i hi
    rw [hst.rows]
    obtain ⟨k, h1, h2, h3, h4⟩ := chunkOf_ok (chunks.map List.length) (by simpa using hn) i (by rw [hsum]; exact hin i hi)
    exact ⟨k, h1, by simpa using h2, h3, h4⟩
  let g : Nat → Nat := fun i => match chunkOf rowOffsets i with | .ok k => k | _ => 0
  have hg : ∀ i ∈ ns, chunkOf rowOffsets i = .ok (g i) := by
    intro i hi; obtain ⟨k, h1, _⟩ := hch i hi; simp only [g, h1]
  have hgs : ∀ i ∈ ns, g i < chunks.length ∧ Chunked.pre (chunks.map List.length) (g i) ≤ i ∧ i < Chunked.pre (chunks.map List.length) (g i + 1) := by
    intro i hi; obtain ⟨k, h1, h2, h3, h4⟩ := hch i hi
    have : g i = k := by simp only [g, h1]
    rw [this]; exact ⟨h2, h3, h4⟩
  have hfind : findChunks t rowOffsets (arr t ns) = .ok (sortedKeys (ns.map g)) := by
    have hlast : rowOffsets.getLast? = some chunks.flatten.length := by
      rw [hst.rows, List.getLast?_eq_getElem?, Chunked.offsets_length, Nat.add_sub_cancel, Chunked.offsets_getElem? _ _ (Nat.le_refl _),
        Chunked.pre_all, hsum]
    obtain ⟨l, hnl⟩ : ∃ l, ns.getLast? = some l := ⟨ns.getLast hne, List.getLast?_eq_some_getLast hne⟩
    have hll := hin l (List.mem_of_getLast? hnl)
    simp only [findChunks, castU64_arr t hl, Res.ok_bind, Res.mapM_ok hg, hlast, hnl]
    rw [if_neg (by simp only [decide_eq_true_eq]; omega)]
  obtain ⟨hK1, hK2⟩ := sortedKeys_spec (ns.map g)
  have hKlt : ∀ c ∈ sortedKeys (ns.map g), c < chunks.length := by
    intro c hc
    rw [hK2, List.mem_map] at hc
    obtain ⟨i, hi, rfl⟩ := hc
    exact (hgs i hi).1
  -- every chunk
  have hparts : ∀ K : List Nat, (∀ c ∈ K, c < chunks.length) →
      ∃ ps, Res.mapM (takeChunk t read byteOffsets rowOffsets (arr t ns)) K = .ok ps ∧ ps.flatten.flatten.map some =
        (K.flatMap (fun c => within (Chunked.pre (chunks.map List.length) c) (Chunked.pre (chunks.map List.length) (c + 1)) ns)).map
          fun n => chunks.flatten[n]? := by
    intro K
    induction K with
    | nil => intro _; exact ⟨[], rfl, rfl⟩
    | cons c K ih =>
      intro hK
      obtain ⟨ps, p1, p2⟩ := ih (fun c' hc' => hK c' (by simp [hc']))
      obtain ⟨r, r1, r2⟩ := takeChunk_ok t hst hs' hin hlim c (hK c (by simp))
      refine ⟨r :: ps, by simp only [Res.mapM_cons, r1, p1, Res.ok_bind], ?_⟩
      rw [List.flatten_cons, List.flatten_append, List.map_append, r2, p2, List.flatMap_cons, List.map_append]
  obtain ⟨ps, p1, p2⟩ := hparts _ hKlt
  refine ⟨ps.flatten, ?_, ?_⟩
  · simp only [takeRows, s1, hfind, Res.ok_bind, p1]
    rw [if_neg (by simp [hst.bytes])]
    simp
  · rw [p2, flatMap_within (lens := chunks.map List.length) hs' (by rw [hsum]; exact hin) _ 0 hK1 (by simp) (Nat.zero_le _) (by
      intro n hn' _
      exact ⟨g n, (hK2 _).mpr (List.mem_map_of_mem hn'), (hgs n hn').2⟩)]
    rw [within_all]
    intro x hx
    exact ⟨Nat.zero_le _, by rw [hsum]; exact hin x hx⟩

/-- An answer is only ever given for row numbers without nulls, non-negative, strictly ascending, the last inside the array. -/
theorem C38_reader_rejects (t : IdxTy) (a : Idx t) (hw : a.WF) (hne : a.vals ≠ []) (byteOffsets rowOffsets : List Nat)
    (read : Nat → Nat → Res (List (List α))) (r : List (List α)) (h : takeRows t read byteOffsets rowOffsets a = .ok r) :
    none ∉ a.rows ∧ (valid a.rows).Pairwise (fun x y => intKey t.signed x < intKey t.signed y) ∧ (∀ x ∈ a.vals, 0 ≤ intKey t.signed x) ∧
      ∀ l n, a.vals.getLast? = some l → rowOffsets.getLast? = some n → intKey t.signed l < n := by
  unfold takeRows at h
  split at h
  · cases h
  split at h
  · cases h
  next hsort =>
  rw [Res.bind_eq_ok] at h
  obtain ⟨cs, hf, -⟩ := h
  unfold findChunks at hf
  rw [Res.bind_eq_ok] at hf
  obtain ⟨is, hc, hf⟩ := hf
  have hnn : none ∉ a.rows := by
    intro hnone
    have hok := hc
    unfold castU64 at hok
    split at hok
    · next hv =>
      revert hv
      have hmask := (C23_to_logical a.validity a.len hw).1
      have hfalse : false ∈ mask a.len a.validity := by
        simp only [PArr.rows, rows, PArr.len] at hnone ⊢
        rw [List.mem_iff_getElem?] at hnone
        obtain ⟨i, hi⟩ := hnone
        rw [List.getElem?_zipWith] at hi
        split at hi
        · next x b hx hb =>
          cases b with
          | true => simp at hi
          | false => exact List.mem_of_getElem? hb
        · simp at hi
      rw [← hmask] at hfalse
      unfold castable
      cases hval : a.validity with
      | nonNullable => rw [hval] at hfalse; simp [Validity.toLogical, LogicalValidity.intoBools] at hfalse
      | allValid => rw [hval] at hfalse; simp [Validity.toLogical, LogicalValidity.intoBools] at hfalse
      | allInvalid => simp [Validity.toLogical]
      | array m =>
        rw [hval] at hfalse
        cases hL : (Validity.array m).toLogical a.len with
        | allValid k => rw [hL] at hfalse; simp [LogicalValidity.intoBools] at hfalse
        | allInvalid k => simp [hL]
        | array bits => simp [hL]
    · cases hok
  have hcast : Res.mapM (fun x : BitVec t.w => if 0 ≤ intKey t.signed x then Res.ok (intKey t.signed x).toNat else .err) a.vals = .ok is := by
    unfold castU64 at hc
    split at hc
    · exact hc
    · cases hc
  have hvne : valid a.rows ≠ [] := by
    intro hv
    have hl : a.rows.length = a.vals.length := by
      have := hw; simp only [PArr.WF, FitsLen] at this
      simp [PArr.rows, rows, this, PArr.len]
    cases hr : a.rows with
    | nil => rw [hr] at hl; exact hne (List.length_eq_zero_iff.mp hl.symm)
    | cons o os =>
      cases o with
      | none => exact hnn (by rw [hr]; simp)
      | some x => rw [hr] at hv; simp [valid] at hv
  obtain ⟨b, b1, b2⟩ := (C25_integer t.signed t.w a hw hvne).1.strict
  rw [b1] at hsort
  have hb : b = true := by simpa using hsort
  refine ⟨hnn, b2.mp hb, ?_, ?_⟩
  · intro x hx
    obtain ⟨i, hi⟩ := List.mem_iff_getElem?.mp hx
    obtain ⟨y, _, hy⟩ := Res.mapM_eq_ok_getElem? hcast hi
    by_cases h0 : 0 ≤ intKey t.signed x
    · exact h0
    · rw [if_neg h0] at hy; cases hy
  · intro l n hl hn
    rw [List.getLast?_eq_getElem?] at hl
    obtain ⟨y, hy1, hy2⟩ := Res.mapM_eq_ok_getElem? hcast hl
    have hlen := Res.mapM_eq_ok_length hcast
    rw [← hlen, ← List.getLast?_eq_getElem?] at hy1
    rw [hy1, hn] at hf
    simp only at hf
    split at hf
    · cases hf
    · next hlt =>
      split at hy2
      · next h0 =>
        have : (intKey t.signed l).toNat = y := by simpa using hy2
        simp at hlt
        omega
      · cases hy2

/-- Asking for no rows at all crashes, and so do repeated or descending row numbers (`unimplemented!`). -/
theorem C38_reader_unsorted (t : IdxTy) (byteOffsets rowOffsets : List Nat) (hb : byteOffsets.length = rowOffsets.length)
    (read : Nat → Nat → Res (List (List α))) (ns : List Nat) (hl : ∀ x ∈ ns, x < t.limit) (hs : ns = [] ∨ ¬ ns.Pairwise (· < ·)) :
    takeRows t read byteOffsets rowOffsets (arr t ns) = .panic := by
  unfold takeRows
  rw [if_neg (by simp [hb])]
  by_cases hne : ns = []
  · subst hne
    rw [if_pos]
    have : (primStats (intElem t.signed t.w) (arr t [])) = {} := rfl
    rw [this]; rfl
  · rcases hs with h | h
    · exact absurd h hne
    obtain ⟨_, ⟨b, s1, s2⟩, _⟩ := stats_arr t hl hne
    have hbf : b = false := by
      cases b with
      | false => rfl
      | true => exact absurd (s2.mp rfl) h
    rw [if_pos (by rw [s1, hbf]; rfl)]

/-- Three chunks, the middle one empty, the last in two batches. -/
example : Stored [[10, 11], [], [12, 13, 14]] [100, 108, 108, 120] [0, 2, 2, 5]
    (fun b b' => if b = 100 then .ok [[10, 11]] else if b = b' then .ok [] else .ok [[12], [13, 14]]) :=
  ⟨by decide, by decide, by decide, by
    intro c hc b b' hb hb'
    match c, hc with
    | 0, _ => simp at hb hb'; subst hb hb'; exact ⟨_, rfl, rfl⟩
    | 1, _ => simp at hb hb'; subst hb hb'; exact ⟨_, rfl, rfl⟩
    | 2, _ => simp at hb hb'; subst hb hb'; exact ⟨_, rfl, rfl⟩⟩
example : takeRows ⟨true, 16⟩ (fun b b' => if b = 100 then .ok [[10, 11]] else if b = b' then .ok [] else .ok [[12], [13, 14]])
    [100, 108, 108, 120] [0, 2, 2, 5] (arr ⟨true, 16⟩ [1, 2, 4]) = .ok [[11], [12], [14]] := by decide +kernel

end Vx.TakeRows
