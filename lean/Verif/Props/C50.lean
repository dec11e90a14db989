import Verif.Model.Iter
import Verif.Lemmas.Primitive
import Verif.Props.C23
/-! # C50: batched iteration visits every row once, in order; elementwise functions apply to every row

An array's accessor is described by the physical values it stands for (`Lawful`); the rows are those values under the validity. -/

namespace Vx.Iter
open Spec

/-- An accessor that hands out the values `vals`, in whole batches. -/
structure Lawful (a : Accessor α) (vals : List α) : Prop where
  len : a.len = vals.length
  fits : FitsLen a.validity vals.length
  decode : ∀ (s : Nat), s < vals.length → a.decode s = .ok ((vals.drop s).take batchSize)

/-- The rows an accessor with these values stands for. -/
def rowsOf (a : Accessor α) (vals : List α) : List (Option α) := rows vals (mask vals.length a.validity)

/-! ### flattening one batch -/

theorem flatCollect_spec (b : Batch α) (hf : FitsLen b.validity b.data.length) (k : Nat) :
    ∀ (cur : Nat), cur + k = b.data.length →
      flatCollect b (k + 1) cur = .ok ((rows b.data (mask b.data.length b.validity)).drop cur) := by
  have hl : (rows b.data (mask b.data.length b.validity)).length = b.data.length := rows_length _ _ hf.symm
  induction k with
  | zero =>
    intro cur h
    have hc : cur = b.data.length := by omega
    simp [flatCollect, flatNext, hc, hl]
  | succ k ih =>
    intro cur h
    have hlt : cur < b.data.length := by omega
    have hne : cur ≠ b.data.length := by omega
    have hv := C23_is_valid b.validity b.data.length cur hf hlt
    have ih' := ih (cur + 1) (by omega)
    have hm : cur < (mask b.data.length b.validity).length := by rw [show _ = _ from hf]; exact hlt
    rw [List.drop_eq_getElem_cons (by omega)]
    rw [flatCollect, flatNext, if_neg hne]
    have hr : (rows b.data (mask b.data.length b.validity))[cur]'(by omega)
        = if (mask b.data.length b.validity)[cur] then some b.data[cur] else none := by
      simp [rows]
    rw [hr]
    cases hb : (mask b.data.length b.validity)[cur] with
    | false =>
      have : b.validity.isValid cur = .ok false := by
        have := hv; simp_all
      simp [this, ih']
    | true =>
      have : b.validity.isValid cur = .ok true := by
        have := hv; simp_all
      simp [this, idx_lt hlt, ih']

theorem Batch.items_ok (b : Batch α) (hf : FitsLen b.validity b.data.length) :
    b.items = .ok (rows b.data (mask b.data.length b.validity)) := by
  have := flatCollect_spec b hf b.data.length 0 (by omega)
  simpa [Batch.items] using this

/-! ### the batches of an array -/

theorem next_ok {a : Accessor α} {vals : List α} (h : Lawful a vals) {s : Nat} (hs : s < vals.length) :
    ∃ b : Batch α, next a s = .ok (some (b, s + b.data.length)) ∧ b.data = (vals.drop s).take batchSize ∧
      FitsLen b.validity b.data.length ∧
      rows b.data (mask b.data.length b.validity) = ((rowsOf a vals).drop s).take batchSize := by
  have hl : ((vals.drop s).take batchSize).length = min batchSize (vals.length - s) := by simp
  obtain ⟨w, h1, h2, h3, -⟩ := C23_slice a.validity vals.length s (s + ((vals.drop s).take batchSize).length) h.fits
    ⟨by omega, by omega⟩
  rw [Nat.add_sub_cancel_left] at h2 h3
  refine ⟨⟨(vals.drop s).take batchSize, w⟩, ?_, rfl, h3, ?_⟩
  · rw [next, if_neg (by rw [h.len]; omega), h.decode s hs]
    simp only [Res.ok_bind, h1]
  · simp only [h2, rowsOf]
    have := slice_rows vals (mask vals.length a.validity) s (s + ((vals.drop s).take batchSize).length)
    simp only [slice] at this ⊢
    have e1 : (vals.drop s).take batchSize = (vals.take (s + ((vals.drop s).take batchSize).length)).drop s := by
      rw [List.drop_take, Nat.add_sub_cancel_left, hl, List.take_eq_take_iff]
      simp
    have e2 : ((rows vals (mask vals.length a.validity)).drop s).take batchSize
        = ((rows vals (mask vals.length a.validity)).take (s + ((vals.drop s).take batchSize).length)).drop s := by
      rw [List.drop_take, Nat.add_sub_cancel_left, hl, List.take_eq_take_iff]
      simp [rows_length _ _ h.fits.symm]
    rw [e2, this, ← e1]

theorem batchesFrom_spec {a : Accessor α} {vals : List α} (h : Lawful a vals) (fuel : Nat) :
    ∀ (s : Nat), s ≤ vals.length → vals.length - s < fuel → ∃ bs : List (Batch α), batchesFrom a fuel s = .ok bs ∧
      bs.length = (vals.length - s + 1023) / 1024 ∧
      (∀ (i : Nat) (b : Batch α), bs[i]? = some b → b.data = (vals.drop (s + 1024 * i)).take 1024 ∧
        FitsLen b.validity b.data.length ∧
        rows b.data (mask b.data.length b.validity) = ((rowsOf a vals).drop (s + 1024 * i)).take 1024) := by
  induction fuel with
  | zero => intro s _ hf; omega
  | succ fuel ih =>
    intro s hs hf
    by_cases he : s = vals.length
    · refine ⟨[], ?_, by simp [he], by simp⟩
      simp [batchesFrom, next, h.len, he]
    · obtain ⟨b, h1, h2, h3, h4⟩ := next_ok h (show s < vals.length by omega)
      have hbl : b.data.length = min 1024 (vals.length - s) := by simp [h2, batchSize]
      obtain ⟨bs, g1, g2, g3⟩ := ih (s + b.data.length) (by omega) (by omega)
      refine ⟨b :: bs, ?_, ?_, ?_⟩
      · simp only [batchesFrom, h1, Res.ok_bind, g1]
      · simp only [List.length_cons, g2, hbl]; omega
      · intro i c hc
        cases i with
        | zero =>
          simp only [List.getElem?_cons_zero, Option.some.injEq] at hc
          subst hc
          exact ⟨h2, h3, h4⟩
        | succ i =>
          rw [List.getElem?_cons_succ] at hc
          obtain ⟨k1, k2, k3⟩ := g3 i c hc
          have hi : i < bs.length := by
            rcases Nat.lt_or_ge i bs.length with h | h
            · exact h
            · rw [List.getElem?_eq_none h] at hc; cases hc
          have hfull : b.data.length = 1024 := by rw [g2] at hi; omega
          have e : s + 1024 * (i + 1) = s + b.data.length + 1024 * i := by omega
          rw [e]
          exact ⟨k1, k2, k3⟩

/-- The batches of an array: `ceil(n / 1024)` of them, and batch `i` holds rows `1024·i .. 1024·(i+1)` (fewer at the end), its
nulls included. -/
theorem C50_batches {a : Accessor α} {vals : List α} (h : Lawful a vals) :
    ∃ bs : List (Batch α), batches a = .ok bs ∧ bs.length = (vals.length + 1023) / 1024 ∧
      ∀ (i : Nat) (b : Batch α), bs[i]? = some b → b.items = .ok (((rowsOf a vals).drop (1024 * i)).take 1024) := by
  obtain ⟨bs, h1, h2, h3⟩ := batchesFrom_spec h (vals.length + 1) 0 (by omega) (by omega)
  refine ⟨bs, by rw [batches, h.len]; exact h1, by simpa using h2, ?_⟩
  intro i b hb
  obtain ⟨-, k2, k3⟩ := h3 i b hb
  rw [Batch.items_ok b k2, k3, Nat.zero_add]

theorem mapM_batches (bs : List (Batch α)) :
    ∀ (xs : List (Option α)), bs.length = (xs.length + 1023) / 1024 →
      (∀ (i : Nat) (b : Batch α), bs[i]? = some b → b.items = .ok ((xs.drop (1024 * i)).take 1024)) →
      ∃ xss, Res.mapM Batch.items bs = .ok xss ∧ xss.flatten = xs := by
  induction bs with
  | nil =>
    intro xs hl _
    simp only [List.length_nil] at hl
    refine ⟨[], rfl, ?_⟩
    rw [List.flatten_nil, eq_comm, ← List.length_eq_zero_iff]
    omega
  | cons b bs ih =>
    intro xs hl hb
    simp only [List.length_cons] at hl
    have h0 := hb 0 b rfl
    obtain ⟨xss, h1, h2⟩ := ih (xs.drop 1024) (by rw [List.length_drop]; omega) (fun i c hc => by
      have := hb (i + 1) c (by simpa using hc)
      rw [List.drop_drop]
      rw [show 1024 * (i + 1) = 1024 + 1024 * i by omega] at this
      exact this)
    refine ⟨(xs.drop (1024 * 0)).take 1024 :: xss, ?_, ?_⟩
    · rw [Res.mapM_cons, h0, h1]; rfl
    · rw [List.flatten_cons, h2]; simp

/-- Iterating an array batch by batch and flattening gives every row exactly once, in order. -/
theorem C50_iterate {a : Accessor α} {vals : List α} (h : Lawful a vals) : items a = .ok (rowsOf a vals) := by
  obtain ⟨bs, h1, h2, h3⟩ := C50_batches h
  have hl : (rowsOf a vals).length = vals.length := rows_length _ _ h.fits.symm
  obtain ⟨xss, g1, g2⟩ := mapM_batches bs (rowsOf a vals) (by rw [hl]; exact h2) h3
  simp [items, h1, g1, g2]

/-! ### lawful accessors -/

theorem ofPrim_lawful {a : PArr α} (hw : a.WF) : Lawful (ofPrim a) a.vals where
  len := rfl
  fits := hw
  decode := by
    intro s hs
    have : sizeAt a.len s = .ok (min batchSize (a.vals.length - s)) := by
      rw [sizeAt, Res.sub_of_le (show s ≤ a.len from Nat.le_of_lt hs)]; rfl
    simp only [ofPrim, this, Res.ok_bind, Res.ok.injEq, List.take_eq_take_iff]
    simp

/-- Iterating a primitive array gives its rows. -/
theorem C50_primitive (a : PArr α) (hw : a.WF) : items (ofPrim a) = .ok a.rows := C50_iterate (ofPrim_lawful hw)

theorem ofConst_lawful (n : Nat) (v : α) : Lawful (ofConst n (some v)) (List.replicate n v) where
  len := by simp [ofConst]
  fits := by simp [ofConst, FitsLen, mask]
  decode := by
    intro s hs
    simp only [List.length_replicate] at hs
    have : Res.mapM (fun _ => Res.ok v) (List.range (min batchSize (n - s))) = .ok ((List.range (min batchSize (n - s))).map (fun _ => v)) :=
      Res.mapM_ok (fun _ _ => rfl)
    simp only [ofConst, decodeDefault, sizeAt, Res.sub, if_pos (Nat.le_of_lt hs), Res.ok_bind, Res.unwrap_some, this, Res.ok.injEq]
    simp [List.map_const']

/-- Iterating a non-null constant array gives its value on every row. -/
theorem C50_constant (n : Nat) (v : α) : items (ofConst n (some v)) = .ok (List.replicate n (some v)) := by
  rw [C50_iterate (ofConst_lawful n v)]
  simp [rowsOf, ofConst, mask, rows, List.zipWith_replicate]

/-- A null constant array cannot be iterated: the first batch panics. -/
theorem C50_null_constant_panics (n : Nat) (hn : 0 < n) : items (ofConst n (none : Option α)) = .panic := by
  have hd : (ofConst n (none : Option α)).decode 0 = .panic := by
    obtain ⟨m, rfl⟩ : ∃ m, n = m + 1 := ⟨n - 1, by omega⟩
    have hm : ∃ k, min batchSize (m + 1 - 0) = k + 1 := ⟨min batchSize (m + 1) - 1, by simp [batchSize]; omega⟩
    obtain ⟨k, hk⟩ := hm
    simp only [ofConst, decodeDefault, sizeAt, Res.sub, Nat.zero_le, if_true, Res.ok_bind, hk, List.range_succ_eq_map,
      Res.mapM_cons, Res.unwrap_none, Res.panic_bind]
  have hl : (ofConst n (none : Option α)).len = n := rfl
  rw [items, batches, hl, batchesFrom, next, hl, if_neg (by omega), hd]
  rfl

/-! ### ALP arrays -/

/-- The values an ALP array stands for when its patches can be read: the patch where there is one, else the decoded integer. -/
def alpVals (dec : I → F) (enc : List I) (patches : List (Option F)) : List F :=
  List.zipWith (fun e p => p.getD (dec e)) enc patches

/-- A row accessor for optional values (a nullable primitive array of patches). -/
structure PatchLawful (p : Accessor F) (ps : List (Option F)) : Prop where
  valid : ∀ (i : Nat) (x : Option F), ps[i]? = some x → p.isValid i = .ok x.isSome
  value : ∀ (i : Nat) (x : F), ps[i]? = some (some x) → p.value i = .ok x

theorem ofPrim_patchLawful {a : PArr F} (hw : a.WF) : PatchLawful (ofPrim a) a.rows where
  valid := by
    intro i x hx
    have hi : i < a.vals.length := by
      have := (List.getElem?_eq_some_iff.mp hx).1
      rw [PArr.rows_len hw] at this; exact this
    obtain ⟨b, h1, h2⟩ := PArr.isValid_mask hw hi
    rw [PArr.rows, rows_getElem?, h2, List.getElem?_eq_getElem hi] at hx
    cases b <;> simp at hx <;> subst hx <;> exact h1
  value := by
    intro i x hx
    rw [PArr.rows, rows_getElem?] at hx
    split at hx <;> simp_all [ofPrim, idx]

theorem patchLoop_ok {p : Accessor F} {ps : List (Option F)} (hp : PatchLawful p ps) (xs : List F) :
    ∀ (s : Nat), s + xs.length ≤ ps.length →
      patchLoop p s xs = .ok (List.zipWith (fun x q => q.getD x) xs ((ps.drop s).take xs.length)) := by
  induction xs with
  | nil => intro s _; rfl
  | cons x xs ih =>
    intro s h
    simp only [List.length_cons] at h
    have hs : s < ps.length := by omega
    rw [List.drop_eq_getElem_cons hs]
    have hg : ps[s]? = some ps[s] := List.getElem?_eq_getElem hs
    have h1 := hp.valid s _ hg
    have ih' := ih (s + 1) (by omega)
    simp only [patchLoop, h1, Res.ok_bind, List.length_cons, List.take_succ_cons, List.zipWith_cons_cons, ih']
    cases hq : ps[s] with
    | none => simp
    | some y =>
      rw [hq] at hg
      simp [hp.value s y hg]

theorem ofALP_lawful (dec : I → F) (enc : PArr I) (p : Accessor F) (ps : List (Option F)) (v : Validity)
    (hw : enc.WF) (hv : FitsLen v enc.vals.length) (hl : ps.length = enc.vals.length) (hp : PatchLawful p ps) :
    Lawful (ofALP dec (ofPrim enc) (some p) v) (alpVals dec enc.vals ps) where
  len := by simp [ofALP, ofPrim, alpVals, hl, PArr.len]
  fits := by simpa [ofALP, alpVals, hl] using hv
  decode := by
    intro s hs
    have hs' : s < enc.vals.length := by simpa [alpVals, hl] using hs
    have hd := (ofPrim_lawful hw).decode s hs'
    simp only [ofALP, hd, Res.ok_bind]
    rw [patchLoop_ok hp _ s (by simp; omega)]
    simp only [Res.ok.injEq, alpVals, List.drop_zipWith, List.take_zipWith, List.length_map, List.length_take, List.length_drop]
    apply List.ext_getElem?
    intro i
    simp only [List.getElem?_zipWith, List.getElem?_map, List.getElem?_take, List.getElem?_drop]
    by_cases h1 : i < batchSize
    · by_cases h2 : i < enc.vals.length - s
      · have : i < min batchSize (enc.vals.length - s) := by omega
        simp only [h1, this, if_true]
        cases enc.vals[s + i]? <;> cases ps[s + i]? <;> simp
      · have : enc.vals[s + i]? = none := List.getElem?_eq_none (by omega)
        simp [this]
    · simp [h1]

theorem ofALP_lawful_none (dec : I → F) (enc : PArr I) (v : Validity) (hw : enc.WF) (hv : FitsLen v enc.vals.length) :
    Lawful (ofALP dec (ofPrim enc) none v) (enc.vals.map dec) where
  len := by simp [ofALP, ofPrim, PArr.len]
  fits := by simpa [ofALP] using hv
  decode := by
    intro s hs
    have hs' : s < enc.vals.length := by simpa using hs
    have hd := (ofPrim_lawful hw).decode s hs'
    simp only [ofALP, hd, Res.ok_bind, List.map_take, List.map_drop]

theorem logical_fits {v : Validity} {n : Nat} (hf : FitsLen v n) :
    FitsLen (v.toLogical n).intoValidity n ∧ mask n (v.toLogical n).intoValidity = mask n v := by
  have h := (C23_to_logical v n hf).2.1
  exact ⟨by unfold FitsLen; rw [h]; exact hf, h⟩

/-- When the patches can be iterated (for instance a nullable primitive array), iterating an ALP array gives the patch where
there is one and the decoded integer elsewhere, under the array's validity. -/
theorem C50_alp_patched (dec : I → F) (enc : PArr I) (ps : PArr F) (hw : enc.WF) (hp : ps.WF) (hl : ps.len = enc.len) :
    items (ofALP dec (ofPrim enc) (some (ofPrim ps)) (enc.validity.toLogical enc.len).intoValidity)
      = .ok (rows (alpVals dec enc.vals ps.rows) (mask enc.len enc.validity)) := by
  have hl' : ps.rows.length = enc.vals.length := (PArr.rows_len hp).trans hl
  obtain ⟨h1, h2⟩ := logical_fits hw
  change FitsLen (enc.validity.toLogical enc.len).intoValidity _ at h1
  rw [C50_iterate (ofALP_lawful dec enc (ofPrim ps) ps.rows _ hw h1 hl' (ofPrim_patchLawful hp))]
  have : (alpVals dec enc.vals ps.rows).length = enc.vals.length := by simp [alpVals, hl']
  rw [rowsOf, this]
  exact congrArg Res.ok (congrArg (rows (alpVals dec enc.vals ps.rows)) h2)

/-- Iterating an ALP array without patches gives the rows of the decompressed array. -/
theorem C50_alp_no_patches (dec : I → F) (a : ALP.Arr F I) (hw : a.encoded.WF) (hn : a.patches = none) :
    items (alpAccessor dec a) = .ok (a.encoded.map dec).rows ∧ ALP.decompress dec a = .ok (a.encoded.map dec) := by
  obtain ⟨h1, h2⟩ := logical_fits hw
  change FitsLen (a.encoded.validity.toLogical a.encoded.len).intoValidity _ at h1
  refine ⟨?_, by simp [ALP.decompress, hn]⟩
  rw [alpAccessor, hn, Option.bind_none, C50_iterate (ofALP_lawful_none dec a.encoded _ hw h1), rowsOf]
  simp only [List.length_map]
  exact congrArg Res.ok (by rw [PArr.rows, PArr.map]; simp only [List.length_map]; exact congrArg _ h2)

/-- The patches the compressor builds are sparse, and iterating ignores them: the iterator always returns the decoded integers. -/
theorem C50_alp_patches_ignored (dec : I → F) (a : ALP.Arr F I) (hw : a.encoded.WF) :
    items (alpAccessor dec a) = .ok (a.encoded.map dec).rows := by
  have : alpAccessor dec a = alpAccessor dec ⟨a.encoded, none⟩ := by
    cases hp : a.patches with
    | none => simp [alpAccessor, hp]
    | some p => simp [alpAccessor, hp, ofSparse]
  rw [this]
  exact (C50_alp_no_patches dec ⟨a.encoded, none⟩ hw rfl).1

/-- So an array the compressor builds is iterated to values that differ from its decompressed values: here the codec rounds down
to even numbers, the array is `[2, 3, 4]`, and the iterator returns `[2, 2, 4]`. -/
theorem C50_alp_patches_witness :
    ∃ (enc1 : Nat → Nat) (dec : Nat → Nat) (a : PArr Nat) (c : ALP.Arr Nat Nat), a.WF ∧
      ALP.alpEncode enc1 dec (fun x y => x != y) 1024 a = .ok c ∧
      (∃ d, ALP.decompress dec c = .ok d ∧ d.rows = [some 2, some 3, some 4]) ∧
      items (alpAccessor dec c) = .ok [some 2, some 2, some 4] := by
  refine ⟨(· / 2), (· * 2), ⟨[2, 3, 4], .nonNullable⟩,
    ⟨⟨[1, 1, 2], .nonNullable⟩, some ⟨[1], ⟨[3], .allValid⟩, 3, 0, none⟩⟩, by decide, by decide +kernel,
    ⟨⟨[2, 3, 4], .nonNullable⟩, by decide +kernel, by decide⟩, ?_⟩
  rw [C50_alp_patches_ignored _ _ (by decide)]
  decide

/-! ### elementwise functions -/

/-- Writing from `pos` on changes exactly the slots it is given. -/
theorem writeFrom_ok (f : α → β) (xs : List α) : ∀ (out : List (Option β)) (pos : Nat), pos + xs.length ≤ out.length →
    writeFrom f out pos xs = .ok (out.take pos ++ xs.map (fun x => some (f x)) ++ out.drop (pos + xs.length)) := by
  induction xs with
  | nil => intro out pos _; simp [writeFrom]
  | cons x xs ih =>
    intro out pos h
    simp only [List.length_cons] at h
    have hp : pos < out.length := by omega
    rw [writeFrom, write, if_pos hp, Res.ok_bind, ih _ _ (by rw [List.length_set]; omega)]
    congr 1
    apply List.ext_getElem?
    intro i
    simp only [List.length_cons, List.map_cons, List.getElem?_append, List.getElem?_take, List.getElem?_set, List.length_append,
      List.length_take, List.length_set, List.length_map, List.getElem?_map, List.getElem?_drop, List.getElem?_cons]
    by_cases h1 : i < pos
    · simp [h1, Nat.min_eq_left (Nat.le_of_lt hp), show min (pos + 1) out.length = pos + 1 by omega, show i < pos + 1 by omega,
        show pos ≠ i by omega, show i < pos + (xs.length + 1) by omega, show i < pos + 1 + xs.length by omega]
    · by_cases h2 : i = pos
      · subst h2
        simp [show min (i + 1) out.length = i + 1 by omega, show min i out.length = i by omega, hp]
        intro hh; omega
      · by_cases h3 : i < pos + 1 + xs.length
        · simp [show min (pos + 1) out.length = pos + 1 by omega, show min pos out.length = pos by omega, h3,
            show ¬ i < pos + 1 by omega, show i < pos + (xs.length + 1) by omega, h1, show i - pos ≠ 0 by omega,
            show i - (pos + 1) = i - pos - 1 by omega]
        · simp [show min (pos + 1) out.length = pos + 1 by omega, show min pos out.length = pos by omega, h3,
            show ¬ i < pos + (xs.length + 1) by omega, show ¬ pos = i by omega,
            show pos + 1 + xs.length + (i - (pos + 1 + xs.length)) = i by omega,
            show pos + (xs.length + 1) + (i - (pos + (xs.length + 1))) = i by omega]

theorem writeChunks_ok (f : α → β) (data : List α) (n : Nat) : ∀ (offset : Nat) (out : List (Option β)),
    out.length = data.length → offset + n * batchSize ≤ data.length →
    writeChunks f data n offset out
      = .ok (out.take offset ++ ((data.drop offset).take (n * batchSize)).map (fun x => some (f x)) ++ out.drop (offset + n * batchSize)) := by
  induction n with
  | zero => intro offset out _ _; simp [writeChunks]
  | succ n ih =>
    intro offset out hl h
    have hb : (n + 1) * batchSize = n * batchSize + batchSize := by rw [Nat.add_mul]; omega
    have h1 : ((data.drop offset).take batchSize).length = batchSize := by simp; omega
    rw [writeChunks, writeFrom_ok f _ out offset (by omega), Res.ok_bind, h1, ih]
    · have e0 : (out.take offset ++ ((data.drop offset).take batchSize).map (fun x => some (f x))).length = offset + batchSize := by
        rw [List.length_append, List.length_map, h1, List.length_take]; omega
      generalize hA : out.take offset ++ ((data.drop offset).take batchSize).map (fun x => some (f x)) = A at e0 ⊢
      rw [List.take_append_of_le_length (by omega), List.take_of_length_le (by omega), List.drop_append, e0,
        List.drop_eq_nil_of_le (as := A) (by omega), List.nil_append, List.drop_drop, ← hA]
      rw [show offset + batchSize + (offset + batchSize + n * batchSize - (offset + batchSize)) = offset + (n + 1) * batchSize by omega]
      have e1 : (data.drop offset).take ((n + 1) * batchSize)
          = (data.drop offset).take batchSize ++ (data.drop (offset + batchSize)).take (n * batchSize) := by
        rw [hb, Nat.add_comm (n * batchSize), List.take_add, List.drop_drop]
      simp only [e1, List.map_append, List.append_assoc]
    · simp only [List.length_append, List.length_map, h1, List.length_take, List.length_drop, hl]; omega
    · omega

theorem initialised_map (ys : List β) : initialised (ys.map some) = .ok ys := by
  induction ys with
  | nil => rfl
  | cons y ys ih => simp only [initialised] at ih; simp [initialised, ih]

theorem fromVec_ok {vals : List β} {v : Validity} (h : FitsLen v vals.length) : fromVec vals v = .ok ⟨vals, v⟩ := by
  cases v <;> simp_all [fromVec, Validity.checkLen, Res.isOk, FitsLen, mask]

/-- `unary` applies the function to every row, keeps the nulls and the nullability, and initialises the whole output. -/
theorem C50_unary (f : α → β) (a : PArr α) (hw : a.WF) :
    ∃ r, unary f a = .ok r ∧ r.rows = a.rows.map (Option.map f) ∧ r.validity = a.validity ∧ r.WF := by
  refine ⟨a.map f, ?_, PArr.rows_map f a, rfl, (PArr.WF_map f a).mpr hw⟩
  have hm := Nat.mod_le a.vals.length batchSize
  have hd : a.vals.length / batchSize * batchSize = a.vals.length - a.vals.length % batchSize := by
    have := Nat.div_add_mod a.vals.length batchSize
    rw [Nat.mul_comm] at this; omega
  simp only [unary]
  rw [writeFrom_ok f _ _ _ (by simp), Res.ok_bind, writeChunks_ok f _ _ _ _ (by simp) (by omega), Res.ok_bind, hd]
  have e : (List.replicate a.vals.length (none : Option β)).take (a.vals.length - a.vals.length % batchSize)
      ++ (a.vals.drop (a.vals.length - a.vals.length % batchSize)).map (fun x => some (f x))
      ++ (List.replicate a.vals.length (none : Option β)).drop
        (a.vals.length - a.vals.length % batchSize + (a.vals.drop (a.vals.length - a.vals.length % batchSize)).length)
      = (List.replicate a.vals.length (none : Option β)).take (a.vals.length - a.vals.length % batchSize)
      ++ (a.vals.drop (a.vals.length - a.vals.length % batchSize)).map (fun x => some (f x)) := by
    rw [List.drop_eq_nil_of_le (as := List.replicate _ _) (by simp), List.append_nil]
  rw [e, List.take_zero, List.nil_append, Nat.zero_add, List.drop_zero, List.drop_append,
    List.drop_eq_nil_of_le (as := List.take _ (List.replicate _ _)) (by simp), List.nil_append]
  have e2 : a.vals.length - a.vals.length % batchSize
      - ((List.replicate a.vals.length (none : Option β)).take (a.vals.length - a.vals.length % batchSize)).length = 0 := by
    simp
  rw [e2, List.drop_zero, ← List.map_append, List.take_append_drop]
  rw [show a.vals.map (fun x => some (f x)) = (a.vals.map f).map some by rw [List.map_map]; rfl, initialised_map, Res.ok_bind,
    fromVec_ok (by rw [List.length_map]; exact hw)]
  rfl

/-- The row-wise meaning of a two-argument function on nullable values. -/
def both (f : α → γ → β) : Option α → Option γ → Option β
  | some x, some y => some (f x y)
  | _, _ => none

theorem rows_zipWith (f : α → γ → β) (xs : List α) (ys : List γ) (ms ns : List Bool) :
    rows (List.zipWith f xs ys) (List.zipWith (fun a b => a && b) ms ns)
      = List.zipWith (both f) (rows xs ms) (rows ys ns) := by
  apply List.ext_getElem?
  intro i
  simp only [rows, List.getElem?_zipWith]
  cases xs[i]? <;> cases ys[i]? <;> cases ms[i]? <;> cases ns[i]? <;> simp
  rename_i a b c d
  cases c <;> cases d <;> simp [both]

theorem binaryLoop_ok (f : α → γ → β) (lhs : List α) (vals : List γ) (hl : lhs.length = vals.length) (bs : List (Batch γ)) :
    ∀ (s : Nat) (out : List (Option β)), s ≤ vals.length → out.length = vals.length →
      bs.length = (vals.length - s + 1023) / 1024 →
      (∀ (i : Nat) (b : Batch γ), bs[i]? = some b → b.data = (vals.drop (s + 1024 * i)).take 1024) →
      binaryLoop f true lhs bs s out
        = .ok (out.take s ++ (List.zipWith (fun x y => some (f x y)) lhs vals).drop s) := by
  induction bs with
  | nil =>
    intro s out hs ho hn _
    simp only [List.length_nil] at hn
    have : s = vals.length := by omega
    rw [binaryLoop, List.take_of_length_le (by omega), List.drop_eq_nil_of_le (by simp; omega), List.append_nil]
  | cons b bs ih =>
    intro s out hs ho hn hb
    simp only [List.length_cons] at hn
    have hd : b.data = (vals.drop s).take 1024 := by simpa using hb 0 b rfl
    have hbl : b.data.length = min 1024 (vals.length - s) := by simp [hd]
    have hz : (((lhs.drop s).take b.data.length).zip b.data).length = b.data.length := by simp; omega
    have hA : decide (s + b.data.length ≤ lhs.length) = true := by simp; omega
    have hB : (b.data.length == ((lhs.drop s).take b.data.length).length) = true := by simp; omega
    rw [binaryLoop, Res.assert, if_pos rfl, Res.ok_bind, hA, Res.assert, if_pos rfl, Res.ok_bind, processBatch, hB, Res.assert,
      if_pos rfl, Res.ok_bind, writeFrom_ok _ _ _ _ (by omega), Res.ok_bind, hz]
    rw [ih (s + b.data.length) _ (by omega) ?_ (by omega) ?_]
    · have hm : (((lhs.drop s).take b.data.length).zip b.data).map (fun p => some (f p.1 p.2))
          = ((List.zipWith (fun x y => some (f x y)) lhs vals).drop s).take b.data.length := by
        rw [List.drop_zipWith, List.take_zipWith, List.zip, List.map_zipWith]
        have : b.data = (vals.drop s).take b.data.length := by
          rw [hbl, hd]; simp [List.take_eq_take_iff]
        rw [← this]
      have hA : (out.take s ++ (((lhs.drop s).take b.data.length).zip b.data).map (fun p => some (f p.1 p.2))).length
          = s + b.data.length := by
        rw [List.length_append, List.length_map, hz, List.length_take]; omega
      rw [List.take_append_of_le_length (by omega), List.take_of_length_le (by omega), hm, List.append_assoc,
        ← List.drop_drop, List.take_append_drop]
    · simp only [List.length_append, List.length_map, List.length_take, List.length_drop, hz]; omega
    · intro i c hc
      have hi : i < bs.length := (List.getElem?_eq_some_iff.mp hc).1
      have := hb (i + 1) c (by simpa using hc)
      rw [this]
      congr 2; omega

/-- `binary` on arrays of the same length and primitive type applies the function row by row: a row is null exactly when either
operand's row is. The right-hand side may be any array offering an accessor for its type. -/
theorem C50_binary (p up : PType) (f : α → γ → β) (lhs : PArr α) (rhs : Rhs γ) (acc : Accessor γ) (vals : List γ)
    (hw : lhs.WF) (hl : rhs.len = lhs.len) (hp : rhs.ptype = some p) (hup : up.bits = p.bits) (h16 : p ≠ .f16)
    (ha : rhs.accessor p = some acc) (hacc : Lawful acc vals) (hvl : vals.length = lhs.len)
    (hv : mask lhs.len rhs.validity.intoValidity = mask lhs.len acc.validity) :
    ∃ r, binary p p up true f lhs rhs = .ok r ∧ r.rows = List.zipWith (both f) lhs.rows (rowsOf acc vals) ∧ r.WF ∧
      r.len = lhs.len := by
  have hfr : FitsLen rhs.validity.intoValidity lhs.len := by
    unfold FitsLen; rw [hv, ← hvl]; exact hacc.fits
  obtain ⟨w, h1, h2, h3, h4⟩ := C23_and lhs.validity rhs.validity.intoValidity lhs.len hw hfr
  obtain ⟨bs, g1, g2, g3⟩ := batchesFrom_spec hacc (vals.length + 1) 0 (by omega) (by omega)
  have hb : batches acc = .ok bs := by rw [batches, hacc.len]; exact g1
  have hloop := binaryLoop_ok f lhs.vals vals hvl.symm bs 0 (List.replicate lhs.len none) (by omega) (by simp [hvl])
    (by simpa using g2) (fun i b hb => (g3 i b hb).1)
  have hzl : (List.zipWith f lhs.vals vals).length = lhs.len := by simp [hvl, PArr.len]
  refine ⟨⟨List.zipWith f lhs.vals vals, w⟩, ?_, ?_, by unfold PArr.WF; simp only [hzl]; exact h3, hzl⟩
  · have e1 : (lhs.len == rhs.len) = true := by simp [hl]
    have e2 : (rhs.ptype == some p) = true := by simp [hp]
    have e3 : (p == p) = true := by simp
    have e4 : (p.bits == up.bits) = true := by simp [hup]
    have e5 : dynCast rhs p = .ok acc := by simp [dynCast, h16, ha]
    rw [binary, e1, e2, e3, e4]
    simp only [Res.guard, if_true, Res.ok_bind, h1, e5, hb, hloop, List.take_zero, List.nil_append, List.drop_zero]
    rw [show List.zipWith (fun x y => some (f x y)) lhs.vals vals = (List.zipWith f lhs.vals vals).map some by
      rw [List.map_zipWith], initialised_map, Res.ok_bind, fromVec_ok (by rw [hzl]; exact h3)]
  · have : PArr.rows ⟨List.zipWith f lhs.vals vals, w⟩ = rows (List.zipWith f lhs.vals vals) (mask lhs.len w) := by
      simp only [PArr.rows, hzl]
    rw [this, h2, rows_zipWith, hv, rowsOf, hvl]
    rfl

/-- `binary` on two primitive arrays. -/
theorem C50_binary_primitive (p up : PType) (f : α → γ → β) (lhs : PArr α) (rhs : PArr γ) (hw : lhs.WF) (hr : rhs.WF)
    (hl : rhs.len = lhs.len) (hup : up.bits = p.bits) (h16 : p ≠ .f16) :
    ∃ r, binary p p up true f lhs (Rhs.ofPrim p rhs) = .ok r ∧ r.rows = List.zipWith (both f) lhs.rows rhs.rows ∧ r.WF := by
  obtain ⟨r, h1, h2, h3, -⟩ := C50_binary p up f lhs (Rhs.ofPrim p rhs) (ofPrim rhs) rhs.vals hw hl rfl hup h16
    (by simp [Rhs.ofPrim, h16]) (ofPrim_lawful hr) hl (by
      rw [← hl]
      exact (logical_fits (n := rhs.len) hr).2)
  exact ⟨r, h1, h2, h3⟩

/-- `binary` with a non-null constant. -/
theorem C50_binary_constant (p up : PType) (f : α → γ → β) (lhs : PArr α) (c : γ) (hw : lhs.WF) (hup : up.bits = p.bits)
    (h16 : p ≠ .f16) :
    ∃ r, binary p p up true f lhs (Rhs.ofConst p lhs.len (some c)) = .ok r ∧
      r.rows = lhs.rows.map (Option.map (fun x => f x c)) ∧ r.WF := by
  obtain ⟨r, h1, h2, h3, -⟩ := C50_binary p up f lhs (Rhs.ofConst p lhs.len (some c)) (ofConst lhs.len (some c))
    (List.replicate lhs.len c) hw rfl rfl hup h16 (by simp [Rhs.ofConst, h16]) (ofConst_lawful lhs.len c) (by simp)
    (by simp [Rhs.ofConst, ofConst, LogicalValidity.intoValidity])
  refine ⟨r, h1, ?_, h3⟩
  rw [h2]
  have hrl : lhs.rows.length = lhs.len := PArr.rows_len hw
  apply List.ext_getElem?
  intro i
  simp only [rowsOf, ofConst, mask, rows, List.zipWith_replicate, List.getElem?_zipWith, List.getElem?_map,
    List.getElem?_replicate, List.length_replicate]
  by_cases hi : i < lhs.len
  · simp [hi, List.getElem?_eq_getElem (show i < lhs.rows.length by omega)]
    cases lhs.rows[i] <;> simp [both]
  · simp [hi, List.getElem?_eq_none (show lhs.rows.length ≤ i by omega)]

/-- The checks of `binary`: a different length, a different type or a wrong type argument is an error, never a result. -/
theorem C50_binary_rejects (lp ip up : PType) (plain : Bool) (f : α → γ → β) (lhs : PArr α) (rhs : Rhs γ)
    (h : lhs.len ≠ rhs.len ∨ rhs.ptype ≠ some lp ∨ lp ≠ ip) : binary lp ip up plain f lhs rhs = .err := by
  unfold binary
  by_cases h1 : lhs.len = rhs.len
  · by_cases h2 : rhs.ptype = some lp
    · have h3 : lp ≠ ip := by rcases h with h | h | h <;> simp_all
      simp [Res.guard, h1, h2, h3]
    · simp [Res.guard, h1, h2]
  · simp [Res.guard, h1]

/-- Two half-float arrays of the same length cannot be combined: the call panics. -/
theorem C50_binary_f16_panics (up : PType) (f : α → γ → β) (lhs : PArr α) (rhs : PArr γ) (hw : lhs.WF) (hr : rhs.WF)
    (hl : rhs.len = lhs.len) : binary .f16 .f16 up true f lhs (Rhs.ofPrim .f16 rhs) = .panic := by
  have hfr : FitsLen (Rhs.ofPrim .f16 rhs).validity.intoValidity lhs.len := by
    rw [← hl]; exact (logical_fits (n := rhs.len) hr).1
  obtain ⟨w, h1, -⟩ := C23_and lhs.validity _ lhs.len hw hfr
  have e1 : (lhs.len == (Rhs.ofPrim .f16 rhs).len) = true := by simp [Rhs.ofPrim, hl]
  have e2 : ((Rhs.ofPrim .f16 rhs).ptype == some .f16) = true := by simp [Rhs.ofPrim]
  have e5 : dynCast (Rhs.ofPrim .f16 rhs) .f16 = .panic := by simp [dynCast, Rhs.ofPrim]
  rw [binary, e1, e2]
  simp [Res.guard, h1, e5]

/-- A right-hand side of an encoding without accessors (a dictionary array, say) makes `binary` panic instead of decoding it. -/
theorem C50_binary_opaque_panics (p up : PType) (f : α → γ → β) (lhs : PArr α) (v : LogicalValidity) (hw : lhs.WF)
    (hv : FitsLen v.intoValidity lhs.len) : binary p p up true f lhs (Rhs.opaque p lhs.len v : Rhs γ) = .panic := by
  obtain ⟨w, h1, -⟩ := C23_and lhs.validity _ lhs.len hw hv
  have e5 : dynCast (Rhs.opaque p lhs.len v : Rhs γ) p = .panic := by simp [dynCast, Rhs.opaque]
  rw [binary]
  simp [Res.guard, Rhs.opaque] at h1 e5 ⊢
  simp [h1, e5]

/-- `binary` of two non-nullable arrays is a nullable array: the right-hand side's logical validity forgets non-nullability. -/
theorem C50_binary_nullability_witness :
    ∃ r, binary .u8 .u8 .u8 true (fun x y => x + y) (⟨[1, 2], .nonNullable⟩ : PArr Nat) (Rhs.ofPrim .u8 ⟨[3, 4], .nonNullable⟩)
      = .ok r ∧ r.rows = [some 4, some 6] ∧ r.validity.nullable = true :=
  ⟨⟨[4, 6], .allValid⟩, by decide +kernel, by decide, by decide⟩

/-- The iterator's exact size is wrong for every array of two rows or more: it announces one item per row, not one per batch. -/
theorem C50_size_hint_wrong {a : Accessor α} {vals : List α} (h : Lawful a vals) (h2 : 2 ≤ vals.length) :
    ∃ bs : List (Batch α), batches a = .ok bs ∧ sizeHint a ≠ bs.length := by
  obtain ⟨bs, h1, hl, -⟩ := C50_batches h
  refine ⟨bs, h1, ?_⟩
  rw [hl, sizeHint, h.len]
  omega

/-! ### `with_iterator` -/

/-- The iterator handed to the closure of a primitive array yields its rows. -/
theorem C50_with_iterator_primitive (a : PArr α) (hw : a.WF) : primItems a = a.rows := by
  have h := (C23_to_logical a.validity a.len hw).1
  have hr : a.rows = rows a.vals (mask a.len a.validity) := rfl
  rw [hr, ← h, primItems]
  cases hl : a.validity.toLogical a.len with
  | allValid n =>
    have hn : n = a.len := by have := (C23_to_logical a.validity a.len hw).2.2; rw [hl] at this; exact this
    subst hn
    simp only [LogicalValidity.intoBools, rows]
    apply List.ext_getElem?
    intro i
    simp only [List.getElem?_map, List.getElem?_zipWith, List.getElem?_replicate]
    by_cases hi : i < a.len
    · simp [hi, List.getElem?_eq_getElem (show i < a.vals.length from hi)]
    · simp [hi, List.getElem?_eq_none (show a.vals.length ≤ i from Nat.le_of_not_lt hi)]
  | allInvalid n => rfl
  | array bits => rfl

/-- The iterator handed to the closure of a boolean array yields its rows. -/
theorem C50_with_iterator_bool (a : PArr Bool) : boolItems a = a.rows := by
  have hb : ∀ b : Bool, (if b then true else false) = b := by decide
  simp only [boolItems, hb]
  cases hv : a.validity with
  | nonNullable =>
    simp only [PArr.rows, hv, mask, rows]
    apply List.ext_getElem <;> simp
  | allValid =>
    simp only [PArr.rows, hv, mask, rows]
    apply List.ext_getElem <;> simp
  | allInvalid =>
    simp only [PArr.rows, hv, mask, rows]
    apply List.ext_getElem <;> simp [PArr.len]
  | array bits =>
    simp only [PArr.rows, hv, mask, rows]
    rw [List.zipWith_comm]

/-! ### the hypotheses are met -/

example (n : Nat) : PArr.WF (⟨List.range n, .array ((List.range n).map (fun i => i % 3 == 0))⟩ : PArr Nat) := by
  simp [PArr.WF, FitsLen, mask]
example : items (ofPrim (⟨[5, 6, 7], .array [true, false, true]⟩ : PArr Nat)) = .ok [some 5, none, some 7] := by decide +kernel
example : unary (· + 1) (⟨[5, 6, 7], .array [true, false, true]⟩ : PArr Nat) = .ok ⟨[6, 7, 8], .array [true, false, true]⟩ := by
  decide +kernel
example : (PType.i32).bits = (PType.i32).bits ∧ PType.i32 ≠ .f16 := by decide

end Vx.Iter
