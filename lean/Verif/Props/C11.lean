import Verif.Model.ALP
import Verif.Spec.Float
import Verif.Lemmas.Patch
/-! # C11: ALP round trip -/

namespace Vx.ALP
open Spec

variable {F I : Type} {enc1 : F → I} {dec : I → F} {ne : F → F → Bool}

theorem chunksOf_flatten {n : Nat} (hn : 0 < n) (l : List α) : (chunksOf n l).flatten = l := by
  induction hl : l.length using Nat.strongRecOn generalizing l with
  | ind m ih =>
    rw [chunksOf]
    by_cases h : l = []
    · simp [h]
    · have h0 : ¬ (n = 0 ∨ l = []) := by simp only [not_or]; exact ⟨by omega, h⟩
      have hpos := List.length_pos_iff.mpr h
      rw [dif_neg h0, List.flatten_cons, ih (l.drop n).length (by simp; omega) (l.drop n) rfl, List.take_append_drop]

theorem chunkPatches_append (vs c : List F) :
    chunkPatches enc1 dec ne 0 (vs ++ c) = chunkPatches enc1 dec ne 0 vs ++ chunkPatches enc1 dec ne vs.length c := by
  simp [chunkPatches, List.zipIdx_append]

theorem mem_chunkPatches {vs : List F} {v : F} {i : Nat} :
    (v, i) ∈ chunkPatches enc1 dec ne 0 vs ↔ vs[i]? = some v ∧ ne (dec (enc1 v)) v = true := by
  simp [chunkPatches, List.mem_filter, List.mem_zipIdx_iff_getElem?]

theorem chunkPatches_strict (vs : List F) : ((chunkPatches enc1 dec ne 0 vs).map (·.2)).Pairwise (· < ·) := by
  have h : ((chunkPatches enc1 dec ne 0 vs).map (·.2)).Sublist ((vs.zipIdx 0).map (·.2)) := List.Sublist.map _ List.filter_sublist
  rw [show (vs.zipIdx 0).map (·.2) = List.range' 0 vs.length from List.zipIdx_map_snd 0 vs] at h
  exact List.Pairwise.sublist h (List.pairwise_lt_range' ..)

theorem chunkPatches_le (vs : List F) (b : Nat) : (chunkPatches enc1 dec ne b vs).length ≤ vs.length := by
  have := List.length_filter_le (fun p : F × Nat => ne (dec (enc1 p.1)) p.1) (vs.zipIdx b)
  simpa [chunkPatches] using this

theorem findFill_none {enc : List I} {pidx : List Nat} {left i : Nat} (hb : i + left ≤ enc.length) (h : findFill enc pidx left i = none) :
    left = 0 ∨ i + left ≤ pidx.length := by
  induction left generalizing i with
  | zero => exact Or.inl rfl
  | succ left ih =>
    right
    rw [findFill] at h
    split at h
    · rw [List.getElem?_eq_none_iff] at h; omega
    · rename_i h1
      simp only [Bool.or_eq_true, decide_eq_true_eq, not_or, Nat.not_le] at h1
      rcases ih (by omega) h with h2 | h2
      · omega
      · omega

theorem fillPatches_ok (enc : List I) (f : I) (ps : List Nat) (h : ∀ p ∈ ps, p < enc.length) :
    ∃ out, fillPatches enc f ps = .ok out ∧ out.length = enc.length ∧ ∀ i, i ∉ ps → out[i]? = enc[i]? := by
  induction ps generalizing enc with
  | nil => exact ⟨enc, rfl, rfl, fun _ _ => rfl⟩
  | cons p ps ih =>
    have hp := h p (by simp)
    obtain ⟨out, h1, h2, h3⟩ := ih (enc.set p f) (by intro q hq; simpa using h q (by simp [hq]))
    refine ⟨out, by simp [fillPatches, hp, h1], by simpa using h2, ?_⟩
    intro i hi
    simp only [List.mem_cons, not_or] at hi
    rw [h3 i hi.2, List.getElem?_set_ne (fun e => hi.1 e.symm)]

/-- What the accumulated vectors say about the values consumed so far. -/
structure Inv (enc1 : F → I) (dec : I → F) (ne : F → F → Bool) (vs : List F) (st : St F I) : Prop where
  len : st.enc.length = vs.length
  pidx : st.pidx = (chunkPatches enc1 dec ne 0 vs).map (·.2)
  pval : st.pval = (chunkPatches enc1 dec ne 0 vs).map (·.1)
  good : ∀ (i : Nat) (v : F), vs[i]? = some v → ne (dec (enc1 v)) v = false → st.enc[i]? = some (enc1 v)
  fill : st.fill = none → (chunkPatches enc1 dec ne 0 vs).length = vs.length

theorem pickFill_ok {vs c : List F} {st : St F I} (h : Inv enc1 dec ne vs st) :
    ∃ f, pickFill st.fill (st.enc ++ c.map enc1) ((chunkPatches enc1 dec ne 0 (vs ++ c)).map (·.2)) st.enc.length st.pidx.length
        (chunkPatches enc1 dec ne vs.length c).length = .ok f ∧
      (f = none → (chunkPatches enc1 dec ne 0 (vs ++ c)).length = (vs ++ c).length) := by
  have hle := chunkPatches_le (enc1 := enc1) (dec := dec) (ne := ne) c vs.length
  unfold pickFill
  split
  · rename_i hc
    simp only [Bool.and_eq_true, decide_eq_true_eq, Option.isNone_iff_eq_none] at hc
    have hall := h.fill hc.1
    have hp : st.enc.length = st.pidx.length := by rw [h.len, h.pidx, List.length_map, hall]
    refine ⟨findFill (st.enc ++ c.map enc1) ((chunkPatches enc1 dec ne 0 (vs ++ c)).map (·.2)) ((st.enc ++ c.map enc1).length - st.enc.length) st.enc.length,
      by simp only [Res.assert, hp, beq_self_eq_true, if_true, Res.ok_bind], ?_⟩
    intro hnone
    exfalso
    have hlen : (st.enc ++ c.map enc1).length = st.enc.length + c.length := by simp
    rcases findFill_none (by omega) hnone with h1 | h1
    · have := hc.2; omega
    · rw [List.length_map, chunkPatches_append, hlen, List.length_append (as := chunkPatches enc1 dec ne 0 vs), hall] at h1
      have := hc.2; have := h.len; omega
  · rename_i hc
    refine ⟨st.fill, rfl, ?_⟩
    intro hn
    have hall := h.fill hn
    simp only [hn, Option.isNone_none, Bool.true_and, decide_eq_true_eq, Nat.not_lt, List.length_append, List.length_map] at hc
    rw [chunkPatches_append, List.length_append, List.length_append, hall]
    have := h.len; omega

theorem overwrite_ok (f : Option I) (had : Bool) (enc : List I) (pidx : List Nat) (prev : Nat) (h : ∀ p ∈ pidx, p < enc.length) :
    ∃ out, overwrite f had enc pidx prev = .ok out ∧ out.length = enc.length ∧ ∀ i, i ∉ pidx → out[i]? = enc[i]? := by
  cases f with
  | none => exact ⟨enc, rfl, rfl, fun _ _ => rfl⟩
  | some f =>
    obtain ⟨out, h1, h2, h3⟩ := fillPatches_ok enc f (pidx.drop (if had then prev else 0)) (fun p hp => h p (List.mem_of_mem_drop hp))
    exact ⟨out, h1, h2, fun i hi => h3 i (fun hm => hi (List.mem_of_mem_drop hm))⟩

theorem encodeChunk_ok {vs c : List F} {st : St F I} (h : Inv enc1 dec ne vs st) :
    ∃ st', encodeChunk enc1 dec ne st c = .ok st' ∧ Inv enc1 dec ne (vs ++ c) st' := by
  have hpl : st.pidx.length = st.pval.length := by rw [h.pidx, h.pval, List.length_map, List.length_map]
  have hpi : st.pidx ++ (chunkPatches enc1 dec ne vs.length c).map (·.2) = (chunkPatches enc1 dec ne 0 (vs ++ c)).map (·.2) := by
    rw [h.pidx, chunkPatches_append, List.map_append]
  obtain ⟨f, hf, hfn⟩ := pickFill_ok (c := c) h
  have hmem : ∀ p ∈ (chunkPatches enc1 dec ne 0 (vs ++ c)).map (·.2), p < (st.enc ++ c.map enc1).length := by
    intro p hp
    obtain ⟨⟨v, i⟩, hm, rfl⟩ := List.mem_map.mp hp
    obtain ⟨hi, _⟩ := List.getElem?_eq_some_iff.mp (mem_chunkPatches.mp hm).1
    simp only [List.length_append, List.length_map] at hi ⊢
    have := h.len; omega
  obtain ⟨out, ho, hol, hoi⟩ := overwrite_ok f st.fill.isSome (st.enc ++ c.map enc1) _ st.pidx.length hmem
  refine ⟨⟨out, (chunkPatches enc1 dec ne 0 (vs ++ c)).map (·.2), st.pval ++ (chunkPatches enc1 dec ne vs.length c).map (·.1), f⟩, ?_, ?_⟩
  · simp only [encodeChunk, Res.assert, hpl, beq_self_eq_true, if_true, Res.ok_bind, h.len]
    rw [hpi, ← h.len, ← hpl]
    rw [← h.len] at hf
    rw [hf]
    simp only [Res.ok_bind, ho]
  · refine ⟨?_, rfl, ?_, ?_, hfn⟩
    · rw [hol]; simp [h.len]
    · show st.pval ++ _ = _
      rw [h.pval, chunkPatches_append, List.map_append]
    · intro i v hv hne
      rw [hoi i (by
        intro hm
        obtain ⟨⟨v', i'⟩, hm', rfl⟩ := List.mem_map.mp hm
        obtain ⟨h1, h2⟩ := mem_chunkPatches.mp hm'
        simp only at h1 hv
        rw [hv] at h1
        obtain rfl := Option.some.inj h1
        rw [hne] at h2; cases h2)]
      by_cases hi : i < vs.length
      · rw [List.getElem?_append_left (by rw [h.len]; exact hi)]
        rw [List.getElem?_append_left hi] at hv
        exact h.good i v hv hne
      · rw [List.getElem?_append_right (by rw [h.len]; omega), h.len]
        rw [List.getElem?_append_right (by omega)] at hv
        rw [List.getElem?_map, hv]; rfl

theorem encodeChunks_ok (cs : List (List F)) {vs : List F} {st : St F I} (h : Inv enc1 dec ne vs st) :
    ∃ st', encodeChunks enc1 dec ne st cs = .ok st' ∧ Inv enc1 dec ne (vs ++ cs.flatten) st' := by
  induction cs generalizing vs st with
  | nil => exact ⟨st, rfl, by simpa using h⟩
  | cons c cs ih =>
    obtain ⟨st1, h1, h2⟩ := encodeChunk_ok (c := c) h
    obtain ⟨st2, h3, h4⟩ := ih h2
    exact ⟨st2, by simp [encodeChunks, h1, h3], by simpa using h4⟩

theorem encode_ok {size : Nat} (hs : 0 < size) (values : List F) :
    ∃ st, encode enc1 dec ne size values = .ok st ∧ Inv enc1 dec ne values st := by
  obtain ⟨st, h1, h2⟩ := encodeChunks_ok (enc1 := enc1) (dec := dec) (ne := ne) (chunksOf size values) (vs := []) (st := ⟨[], [], [], none⟩)
    ⟨rfl, rfl, rfl, by simp, by simp [chunkPatches]⟩
  rw [chunksOf_flatten hs, List.nil_append] at h2
  exact ⟨st, h1, h2⟩

/-! ### the encoded array -/

/-- What every ALP array built by the library satisfies. -/
structure WF (a : Arr F I) : Prop where
  encoded : a.encoded.WF
  patches : ∀ p, a.patches = some p → p.WF ∧ p.fill = none ∧ p.values.validity = .allValid ∧ p.len = a.encoded.len

/-- One optional patch per row. -/
def patchRows (a : Arr F I) : List (Option F) :=
  match a.patches with
  | some p => p.rows
  | none => List.replicate a.encoded.len none

/-- The rows an ALP array stands for: null where the encoded child is null, else the patch, else the decoded integer. -/
def rows (dec : I → F) (a : Arr F I) : List (Option F) :=
  List.zipWith (fun e p => e.map (fun x => p.getD (dec x))) a.encoded.rows (patchRows a)

theorem patchesValid {p : Sparse F} (h : p.values.validity = .allValid) : p.PatchesValid := by
  intro r hr
  obtain ⟨k, hk⟩ := List.mem_iff_getElem?.mp hr
  simp only [PArr.rows, Vx.rows_getElem?, h, mask] at hk
  split at hk
  · simp at hk; subst hk; rfl
  · rename_i h2; simp [List.getElem?_replicate] at h2
  · simp at hk

theorem patchRows_length {a : Arr F I} (hw : WF a) : (patchRows a).length = a.encoded.len := by
  unfold patchRows
  cases hp : a.patches with
  | none => simp
  | some p => simp only [Sparse.rows_length]; exact (hw.patches p hp).2.2.2

theorem rows_length {a : Arr F I} (hw : WF a) : (rows dec a).length = a.encoded.len := by
  simp [rows, patchRows_length hw, PArr.rows_len hw.encoded]

/-- Decompression yields exactly the rows. -/
theorem C11_decompress (a : Arr F I) (hw : WF a) : ∃ b, decompress dec a = .ok b ∧ b.WF ∧ b.rows = rows dec a := by
  have hel := PArr.rows_len hw.encoded
  cases hp : a.patches with
  | none =>
    refine ⟨a.encoded.map dec, by simp [decompress, hp], (PArr.WF_map dec a.encoded).mpr hw.encoded, ?_⟩
    rw [PArr.rows_map]
    apply List.ext_getElem?
    intro j
    by_cases hj : j < a.encoded.len
    · rw [rows, List.getElem?_zipWith, patchRows, hp, List.getElem?_map, List.getElem?_eq_getElem (show j < a.encoded.rows.length by omega)]
      simp only [List.getElem?_replicate, hj, if_true]
      cases a.encoded.rows[j] <;> rfl
    · rw [List.getElem?_eq_none (by simp; omega), List.getElem?_eq_none (by rw [rows_length hw]; omega)]
  | some p =>
    obtain ⟨h1, h2, h3, h4⟩ := hw.patches p hp
    obtain ⟨b, hb, hbv, hbl, hbj⟩ := patchSparse_ok (a := a.encoded.map dec) h1 (patchesValid h3) h2 (by simpa [PArr.len, PArr.map] using h4)
    have hbl' : b.vals.length = a.encoded.vals.length := by rw [hbl]; simp [PArr.map]
    have hbv' : b.validity = a.encoded.validity := hbv
    have hbw : b.WF := by unfold PArr.WF; rw [hbv', hbl']; exact hw.encoded
    refine ⟨b, by simp [decompress, hp, hb], hbw, ?_⟩
    apply List.ext_getElem?
    intro j
    have hlen : a.encoded.len = a.encoded.vals.length := rfl
    by_cases hj : j < a.encoded.len
    · have hx : (a.encoded.map dec).vals[j]? = some (dec a.encoded.vals[j]) := by
        simp [PArr.map, List.getElem?_map, List.getElem?_eq_getElem (show j < a.encoded.vals.length by omega)]
        rfl
      obtain ⟨r, hr, hbr⟩ := hbj j _ hx
      rw [rows, List.getElem?_zipWith, PArr.rows, PArr.rows, Vx.rows_getElem?, Vx.rows_getElem?, hbr, hbl', hbv',
        List.getElem?_eq_getElem (show j < a.encoded.vals.length by omega)]
      simp only [patchRows, hp, hr]
      cases (mask a.encoded.vals.length a.encoded.validity)[j]? with
      | none => rfl
      | some m => cases m <;> rfl
    · rw [List.getElem?_eq_none (by rw [PArr.rows_len hbw]; unfold PArr.len; omega), List.getElem?_eq_none (by rw [rows_length hw]; omega)]

theorem mkPatches_ok {vs : List F} {st : St F I} (h : Inv enc1 dec ne vs st) :
    ∃ p, mkPatches st = .ok p ∧ (∀ s, p = some s → s.WF ∧ s.fill = none ∧ s.values.validity = .allValid ∧ s.len = vs.length) ∧
      ∀ (i : Nat) (v : F), vs[i]? = some v → (match p with | some s => s.rows | none => List.replicate vs.length none)[i]? =
        some (if ne (dec (enc1 v)) v = true then some v else none) := by
  have hpl : st.pidx.length = st.pval.length := by rw [h.pidx, h.pval, List.length_map, List.length_map]
  unfold mkPatches
  by_cases he : st.pval = []
  · refine ⟨none, by simp [he], by simp, ?_⟩
    intro i v hv
    obtain ⟨hi, _⟩ := List.getElem?_eq_some_iff.mp hv
    have hnil : chunkPatches enc1 dec ne 0 vs = [] := by
      have := h.pval; rw [he] at this; exact List.map_eq_nil_iff.mp this.symm
    have : ¬ ne (dec (enc1 v)) v = true := fun hn => by
      have := mem_chunkPatches.mpr ⟨hv, hn⟩
      rw [hnil] at this; cases this
    simp [this, hi]
  · have hlt : ∀ i ∈ st.pidx, i < st.enc.length := by
      intro i hi
      rw [h.pidx] at hi
      obtain ⟨⟨v, i'⟩, hm, rfl⟩ := List.mem_map.mp hi
      obtain ⟨hi, _⟩ := List.getElem?_eq_some_iff.mp (mem_chunkPatches.mp hm).1
      rw [h.len]; exact hi
    have hok : Sparse.tryNew st.pidx ⟨st.pval, .allValid⟩ st.enc.length none = .ok ⟨st.pidx, ⟨st.pval, .allValid⟩, st.enc.length, 0, none⟩ :=
      Sparse.tryNew_ok hpl (by simp) (by simpa using hlt) (by simp [Validity.nullable])
    have hstr : st.pidx.Pairwise (· < ·) := by rw [h.pidx]; exact chunkPatches_strict vs
    have hw : Sparse.WF (⟨st.pidx, ⟨st.pval, .allValid⟩, st.enc.length, 0, none⟩ : Sparse F) :=
      ⟨hstr, hpl, by simp [PArr.WF, FitsLen, mask], by simp, by simpa using hlt, by simp [Validity.nullable]⟩
    refine ⟨some ⟨st.pidx, ⟨st.pval, .allValid⟩, st.enc.length, 0, none⟩, by simp only [List.isEmpty_iff, he, if_false, hok], ?_, ?_⟩
    · intro s hs; obtain rfl := Option.some.inj hs; exact ⟨hw, rfl, rfl, h.len⟩
    · intro i v hv
      obtain ⟨hi, _⟩ := List.getElem?_eq_some_iff.mp hv
      simp only
      rw [Sparse.rows_getElem? _ i (by simp only; rw [h.len]; exact hi)]
      simp only [Nat.zero_add]
      by_cases hn : ne (dec (enc1 v)) v = true
      · rw [if_pos hn]
        have hm := mem_chunkPatches.mpr ⟨hv, hn⟩
        obtain ⟨k, hk⟩ := List.mem_iff_getElem?.mp hm
        have hk1 : st.pidx[k]? = some i := by rw [h.pidx, List.getElem?_map, hk]; rfl
        have hk2 : st.pval[k]? = some v := by rw [h.pval, List.getElem?_map, hk]; rfl
        obtain ⟨hkl, _⟩ := List.getElem?_eq_some_iff.mp hk2
        have hr : (PArr.rows ⟨st.pval, .allValid⟩)[k]? = some (some v) := by
          simp only [PArr.rows, Vx.rows_getElem?, hk2, mask, List.getElem?_replicate, hkl, if_true]
        rw [patchOr_found hstr none hk1 hr]
      · rw [if_neg hn, patchOr_none]
        intro hm
        rw [h.pidx] at hm
        obtain ⟨⟨v', i'⟩, hm', rfl⟩ := List.mem_map.mp hm
        obtain ⟨h1, h2⟩ := mem_chunkPatches.mp hm'
        simp only at hv
        rw [hv] at h1
        obtain rfl := Option.some.inj h1
        exact hn h2

/-- **C11.** Whatever the float arithmetic does, for every chunk size and every array of floats: encoding succeeds (no assertion
fails, no index is out of range), and decoding yields an array with the same nulls in which every value is the original value, or a
value the float `!=` does not tell apart from it. -/
theorem C11_roundtrip_upto (enc1 : F → I) (dec : I → F) (ne : F → F → Bool) (size : Nat) (hs : 0 < size) (a : PArr F) (hw : a.WF) :
    ∃ arr b, alpEncode enc1 dec ne size a = .ok arr ∧ WF arr ∧ decompress dec arr = .ok b ∧ b.WF ∧ b.rows.length = a.rows.length ∧
      ∀ (i : Nat) (r : Option F), a.rows[i]? = some r →
        (r = none ∧ b.rows[i]? = some none) ∨ ∃ v w, r = some v ∧ b.rows[i]? = some (some w) ∧ (w = v ∨ ne w v = false) := by
  obtain ⟨st, h1, h2⟩ := encode_ok (enc1 := enc1) (dec := dec) (ne := ne) hs a.vals
  obtain ⟨p, h3, h4, h5⟩ := mkPatches_ok h2
  have hel : (⟨st.enc, a.validity⟩ : PArr I).len = a.len := h2.len
  have hew : (⟨st.enc, a.validity⟩ : PArr I).WF := by
    unfold PArr.WF; simp only; rw [h2.len]; exact hw
  have hnew : tryNew (⟨st.enc, a.validity⟩ : PArr I) p = .ok ⟨⟨st.enc, a.validity⟩, p⟩ := by
    cases p with
    | none => rfl
    | some s =>
      have := (h4 s rfl).2.2.2
      simp [tryNew, PArr.len, h2.len, this, Res.guard]
  have hwf : WF (⟨⟨st.enc, a.validity⟩, p⟩ : Arr F I) :=
    ⟨hew, by
      intro s hs'
      obtain ⟨g1, g2, g3, g4⟩ := h4 s hs'
      exact ⟨g1, g2, g3, by rw [g4]; exact h2.len.symm⟩⟩
  obtain ⟨b, hb1, hb2, hb3⟩ := C11_decompress (dec := dec) _ hwf
  refine ⟨_, b, by simp [alpEncode, h1, h3, hnew], hwf, hb1, hb2, ?_, ?_⟩
  · rw [hb3, rows_length hwf, PArr.rows_len hw, hel]
  · intro i r hr
    have hi : i < a.vals.length := by
      have := (List.getElem?_eq_some_iff.mp hr).1
      rwa [PArr.rows_len hw] at this
    have hv : a.vals[i]? = some a.vals[i] := List.getElem?_eq_getElem hi
    have hp := h5 i _ hv
    have hpr : (patchRows (⟨⟨st.enc, a.validity⟩, p⟩ : Arr F I))[i]? = some (if ne (dec (enc1 a.vals[i])) a.vals[i] = true then some a.vals[i] else none) := by
      rw [← hp]
      unfold patchRows
      cases p with
      | some s => rfl
      | none => simp only; rw [hel]; rfl
    have hei : i < st.enc.length := by rw [h2.len]; exact hi
    have hbi : b.rows[i]? = (match (mask a.vals.length a.validity)[i]? with
        | some true => some (some ((if ne (dec (enc1 a.vals[i])) a.vals[i] = true then some a.vals[i] else none).getD (dec st.enc[i])))
        | some false => some none
        | none => none) := by
      rw [hb3, rows, List.getElem?_zipWith, hpr, PArr.rows, Vx.rows_getElem?]
      simp only [List.getElem?_eq_getElem hei, h2.len]
      cases (mask a.vals.length a.validity)[i]? with
      | none => rfl
      | some m => cases m <;> rfl
    rw [PArr.rows, Vx.rows_getElem?, hv] at hr
    revert hr hbi
    cases (mask a.vals.length a.validity)[i]? with
    | none => intro hr; simp at hr
    | some m =>
      cases m with
      | false =>
        intro hr hbi
        simp at hr
        exact Or.inl ⟨hr.symm, hbi⟩
      | true =>
        intro hr hbi
        simp at hr
        subst hr
        right
        by_cases hn : ne (dec (enc1 a.vals[i])) a.vals[i] = true
        · rw [if_pos hn] at hbi
          exact ⟨_, _, rfl, hbi, Or.inl rfl⟩
        · rw [if_neg hn] at hbi
          have hg := h2.good i _ hv (by simpa using hn)
          rw [List.getElem?_eq_getElem hei] at hg
          have hg : st.enc[i] = enc1 a.vals[i] := Option.some.inj hg
          simp only [Option.getD_none, hg] at hbi
          exact ⟨_, _, rfl, hbi, Or.inr (by simpa using hn)⟩

/-- **C11 for IEEE floats** (any format, so f32 and f64): every bit pattern comes back, including NaN payloads and infinities; only the
sign of a zero may change. -/
theorem C11_roundtrip_partial (f : Fmt) (enc1 : BitVec f.width → BitVec n) (dec : BitVec n → BitVec f.width) (size : Nat) (hs : 0 < size)
    (a : PArr (BitVec f.width)) (hw : a.WF) :
    ∃ arr b, alpEncode enc1 dec f.ne size a = .ok arr ∧ decompress dec arr = .ok b ∧ b.rows.length = a.rows.length ∧
      ∀ (i : Nat) (r : Option (BitVec f.width)), a.rows[i]? = some r →
        b.rows[i]? = some r ∨ ∃ v w, r = some v ∧ b.rows[i]? = some (some w) ∧ f.isZero v = true ∧ f.isZero w = true := by
  obtain ⟨arr, b, h1, _, h3, _, h5, h6⟩ := C11_roundtrip_upto enc1 dec f.ne size hs a hw
  refine ⟨arr, b, h1, h3, h5, ?_⟩
  intro i r hr
  rcases h6 i r hr with ⟨rfl, h⟩ | ⟨v, w, rfl, hb, hw'⟩
  · exact Or.inl h
  · rcases hw' with rfl | hne
    · exact Or.inl hb
    · rcases Fmt.ne_false hne with rfl | ⟨hz1, hz2⟩
      · exact Or.inl hb
      · exact Or.inr ⟨v, w, rfl, hb, hz2, hz1⟩

/-- What is missing: minus zero loses its sign. `enc1 (-0.0) = 0` and `dec 0 = +0.0` is what the code computes
(`-0.0 * x + SWEET - SWEET = 0.0`). -/
theorem C11_negative_zero_lost (enc1 : BitVec 32 → BitVec 32) (dec : BitVec 32 → BitVec 32) (h1 : enc1 0x80000000#32 = 0#32)
    (h2 : dec 0#32 = 0#32) :
    ∃ arr b, alpEncode enc1 dec f32.ne 8192 ⟨[0x80000000#32], .nonNullable⟩ = .ok arr ∧ decompress dec arr = .ok b ∧
      b.rows = [some 0#32] := by
  have hc : chunksOf 8192 [0x80000000#32] = [[0x80000000#32]] := by
    rw [chunksOf]; simp; rw [chunksOf]; simp
  have hne : f32.ne 0#32 0x80000000#32 = false := by decide
  have hcp : chunkPatches enc1 dec f32.ne 0 [0x80000000#32] = [] := by
    simp [chunkPatches, h1, h2, hne]
  refine ⟨⟨⟨[0#32], .nonNullable⟩, none⟩, ⟨[0#32], .nonNullable⟩, ?_, by simp [decompress, PArr.map, h2], by decide⟩
  simp [alpEncode, encode, hc, encodeChunks, encodeChunk, hcp, pickFill, overwrite, findFill, Res.assert, h1, mkPatches, tryNew, fillPatches]

/-- The exponents chosen by the search are inside the power tables (and `f ≤ e`), whatever the cost estimates. -/
theorem C11_exponents_in_range (maxExp : Nat) (hm : 0 < maxExp) (cost : Nat → Nat → Nat) :
    (findBestExponents maxExp cost).1 < maxExp ∧ (findBestExponents maxExp cost).2 ≤ (findBestExponents maxExp cost).1 := by
  suffices H : ∀ (ps : List (Nat × Nat)) (st : Option Nat × Nat × Nat), (∀ p ∈ ps, p.1 < maxExp ∧ p.2 ≤ p.1) →
      (st.2.1 < maxExp ∧ st.2.2 ≤ st.2.1) → ((ps.foldl (expStep cost) st).2.1 < maxExp ∧ (ps.foldl (expStep cost) st).2.2 ≤ (ps.foldl (expStep cost) st).2.1) by
    apply H
    · intro p hp
      simp only [List.mem_flatMap, List.mem_reverse, List.mem_range, List.mem_map] at hp
      obtain ⟨e, he, f, hf, rfl⟩ := hp
      simp only; omega
    · simp only; omega
  intro ps
  induction ps with
  | nil => intro st _ h; exact h
  | cons p ps ih =>
    intro st hps h
    have hp := hps p (by simp)
    rw [List.foldl_cons]
    apply ih _ (fun q hq => hps q (by simp [hq]))
    obtain ⟨b, e, f⟩ := st
    cases b with
    | none => exact hp
    | some b =>
      simp only [expStep]
      by_cases h1 : cost p.1 p.2 < b
      · rw [if_pos h1]; exact hp
      · rw [if_neg h1]
        by_cases h2 : cost p.1 p.2 = b ∧ p.1 - p.2 < e - f
        · rw [if_pos h2]; exact hp
        · rw [if_neg h2]; exact h

/-- **C11 (scalar_at).** Reading one row agrees with the decoded rows; beyond the end is an error. -/
theorem C11_scalar_at (a : Arr F I) (hw : WF a) (i : Nat) :
    scalarAt dec a i = match (rows dec a)[i]? with
      | some r => .ok r
      | none => .err := by
  by_cases hi : i < a.encoded.len
  · have hpi : ∃ q, (patchRows a)[i]? = some q ∧ patchAt a i = .ok q := by
      unfold patchRows patchAt
      cases hp : a.patches with
      | none => exact ⟨none, by simp [hi], rfl⟩
      | some p =>
        obtain ⟨h1, h2, h3, h4⟩ := hw.patches p hp
        obtain ⟨r, hr, hv⟩ := Sparse.C18_is_valid h1 (i := i) (by omega)
        refine ⟨r, hr, ?_⟩
        have hs := Sparse.C18_scalar_at h1 i
        rw [dif_pos (by omega)] at hs
        obtain ⟨_, hr'⟩ := List.getElem?_eq_some_iff.mp hr
        simp only [hv, Res.ok_bind]
        cases r with
        | none => simp
        | some x => simp [hs, hr']
    obtain ⟨q, hq, hpa⟩ := hpi
    obtain ⟨m, hm, hmi⟩ := PArr.isValid_mask hw.encoded hi
    have hr : (rows dec a)[i]? = some (if m then some (q.getD (dec (a.encoded.vals[i]'hi))) else none) := by
      rw [rows, List.getElem?_zipWith, hq, PArr.rows, Vx.rows_getElem?]
      have : (mask a.encoded.vals.length a.encoded.validity)[i]? = some m := hmi
      rw [this, List.getElem?_eq_getElem (show i < a.encoded.vals.length from hi)]
      cases m <;> rfl
    rw [hr]
    simp only [scalarAt, show ¬ i ≥ a.encoded.len by omega, if_false, hm, Res.ok_bind, hpa]
    cases m with
    | false => simp
    | true =>
      cases q with
      | some x => simp
      | none => simp [idx_lt (show i < a.encoded.vals.length from hi)]; rfl
  · rw [List.getElem?_eq_none (by rw [rows_length hw]; omega)]
    simp [scalarAt, show i ≥ a.encoded.len by omega]

/-! ### slice, take, filter -/

theorem take_zipWith (f : α → β → γ) (xs : List α) (ys : List β) (is : List Nat) (h : xs.length = ys.length) (hi : ∀ i ∈ is, i < xs.length) :
    Spec.take (List.zipWith f xs ys) is = List.zipWith f (Spec.take xs is) (Spec.take ys is) := by
  induction is with
  | nil => rfl
  | cons i is ih =>
    have h1 := hi i (by simp)
    rw [Spec.take_cons (show i < (List.zipWith f xs ys).length by simp; omega), Spec.take_cons h1, Spec.take_cons (show i < ys.length by omega),
      ih (fun j hj => hi j (by simp [hj]))]
    simp

theorem tryNewWithOffset_eq {i : List Nat} {v : PArr F} {l o : Nat} {f : Option F} {b : Sparse F}
    (h : Sparse.tryNewWithOffset i v l o f = .ok b) : b = ⟨i, v, l, o, f⟩ := by
  simp only [Sparse.tryNewWithOffset, Res.bind_eq_ok] at h
  obtain ⟨_, _, _, _, h⟩ := h
  split at h
  · cases h; rfl
  · simp only [Res.bind_eq_ok] at h
    obtain ⟨d, _, h⟩ := h
    split at h
    · cases h
    · cases h; rfl

theorem slice_keeps {p b : Sparse F} {s e : Nat} (h : p.slice s e = .ok b) (hv : p.values.validity = .allValid) :
    b.fill = p.fill ∧ b.values.validity = .allValid := by
  unfold Sparse.slice at h
  split at h
  · cases h
  split at h
  · cases h
  split at h
  · cases h
  simp only [Res.bind_eq_ok] at h
  obtain ⟨_, _, _, _, is, _, vs, hvs, h⟩ := h
  simp only [PArr.slice, Res.bind_eq_ok, hv, Validity.slice] at hvs
  obtain ⟨_, _, v, hv', hvs⟩ := hvs
  cases hvs
  obtain rfl := tryNewWithOffset_eq h
  cases hv'
  exact ⟨rfl, rfl⟩

theorem take_keeps {p b : Sparse F} {is : List Nat} (h : p.take is = .ok b) (hv : p.values.validity = .allValid) :
    b.fill = p.fill ∧ b.values.validity = .allValid := by
  unfold Sparse.take at h
  simp only [Res.bind_eq_ok] at h
  obtain ⟨_, _, vs, hvs, h⟩ := h
  simp only [PArr.take, Res.bind_eq_ok, hv, Validity.take] at hvs
  obtain ⟨v, hv', _, _, hvs⟩ := hvs
  cases hvs
  obtain rfl := tryNewWithOffset_eq h
  cases hv'
  exact ⟨rfl, rfl⟩

theorem filter_keeps {p b : Sparse F} {m : List Bool} (h : p.filter m = .ok b) (hv : p.values.validity = .allValid) :
    b.fill = p.fill ∧ b.values.validity = .allValid := by
  unfold Sparse.filter at h
  split at h
  · cases h
  simp only [Res.bind_eq_ok] at h
  obtain ⟨_, _, _, _, vs, hvs, h⟩ := h
  simp only [PArr.take, Res.bind_eq_ok, hv, Validity.take] at hvs
  obtain ⟨v, hv', _, _, hvs⟩ := hvs
  cases hvs
  obtain rfl := tryNewWithOffset_eq h
  cases hv'
  exact ⟨rfl, rfl⟩

theorem both_ok {a : Arr F I} (hw : WF a) {f : PArr I → Res (PArr I)} {g : Sparse F → Res (Sparse F)} {n : Nat}
    (G : ∀ {X : Type}, List X → List X) (hG : ∀ k, k = a.encoded.len → G (List.replicate k (none : Option F)) = List.replicate n none)
    (hf : ∃ e, f a.encoded = .ok e ∧ e.rows = G a.encoded.rows ∧ e.WF ∧ e.len = n)
    (hg : ∀ p, a.patches = some p → ∃ b, g p = .ok b ∧ b.WF ∧ b.len = n ∧ b.rows = G p.rows ∧ b.fill = p.fill ∧ b.values.validity = .allValid)
    (hz : ∀ (h : Option I → Option F → Option F), G (List.zipWith h a.encoded.rows (patchRows a)) = List.zipWith h (G a.encoded.rows) (G (patchRows a))) :
    ∃ b, both f g a = .ok b ∧ WF b ∧ rows dec b = G (rows dec a) := by
  obtain ⟨e, he, her, hew, hel⟩ := hf
  cases hp : a.patches with
  | none =>
    refine ⟨⟨e, none⟩, by simp [both, he, hp, tryNew], ⟨hew, by simp⟩, ?_⟩
    simp only [rows] at hz ⊢
    rw [hz, her]
    simp only [patchRows, hp, hel]
    rw [hG _ rfl]
  | some p =>
    obtain ⟨b, hb, hbw, hbl, hbr, hbf, hbv⟩ := hg p hp
    refine ⟨⟨e, some b⟩, by simp [both, he, hp, hb, tryNew, hbl, hel, Res.guard], ⟨hew, ?_⟩, ?_⟩
    · intro q hq
      obtain rfl := Option.some.inj hq
      exact ⟨hbw, by rw [hbf]; exact (hw.patches p hp).2.1, hbv, by rw [hbl, hel]⟩
    · simp only [rows] at hz ⊢
      rw [hz, her]
      simp only [patchRows, hp, hbr]

/-- **C11 (slice).** -/
theorem C11_slice (a : Arr F I) (hw : WF a) (s e : Nat) (h : InBounds a.encoded.len s e) :
    ∃ b, slice a s e = .ok b ∧ WF b ∧ rows dec b = Spec.slice (rows dec a) s e := by
  have hb := h
  unfold InBounds at hb
  refine both_ok (n := e - s) hw (fun xs => Spec.slice xs s e) ?_ ?_ ?_ ?_
  · intro k hk; rw [slice_replicate]; congr 1; omega
  · exact PArr.slice_ok hw.encoded h
  · intro p hp
    obtain ⟨h1, h2, h3, h4⟩ := hw.patches p hp
    obtain ⟨b, g1, g2, g3, g4⟩ := (Sparse.C18_slice h1 s e).1 (by rw [h4]; exact h)
    obtain ⟨k1, k2⟩ := slice_keeps g1 h3
    exact ⟨b, g1, g2, g3, g4, k1, k2⟩
  · intro f; exact slice_zipWith f _ _ s e

/-- **C11 (take).** -/
theorem C11_take (a : Arr F I) (hw : WF a) (is : List Nat) (h : ∀ i ∈ is, i < a.encoded.len) :
    ∃ b, take a is = .ok b ∧ WF b ∧ rows dec b = Spec.take (rows dec a) is := by
  refine both_ok (n := is.length) hw (fun xs => Spec.take xs is) ?_ ?_ ?_ ?_
  · intro k hk
    apply List.ext_getElem?
    intro j
    rw [Spec.take_getElem? (by simpa [hk] using h)]
    by_cases hj : j < is.length
    · have := h is[j] (List.getElem_mem _)
      simp [hj, List.getElem?_eq_getElem hj, hk, this]
    · simp [hj, List.getElem?_eq_none (show is.length ≤ j by omega)]
  · exact PArr.take_ok hw.encoded h
  · intro p hp
    obtain ⟨h1, h2, h3, h4⟩ := hw.patches p hp
    obtain ⟨b, g1, g2, g3, g4⟩ := Sparse.C18_take h1 is (by rw [h4]; exact h)
    obtain ⟨k1, k2⟩ := take_keeps g1 h3
    exact ⟨b, g1, g2, g3, g4, k1, k2⟩
  · intro f
    exact take_zipWith f _ _ is (by rw [patchRows_length hw, PArr.rows_len hw.encoded]) (by rw [PArr.rows_len hw.encoded]; exact h)

/-- **C11 (filter).** -/
theorem C11_filter (a : Arr F I) (hw : WF a) (m : List Bool) (h : m.length = a.encoded.len) :
    ∃ b, filter a m = .ok b ∧ WF b ∧ rows dec b = Spec.filter (rows dec a) m := by
  refine both_ok (n := m.count true) hw (fun xs => Spec.filter xs m) ?_ ?_ ?_ ?_
  · intro k hk; exact filter_replicate k none m (by omega)
  · exact PArr.filter_ok hw.encoded h
  · intro p hp
    obtain ⟨h1, h2, h3, h4⟩ := hw.patches p hp
    obtain ⟨b, g1, g2, g3, g4⟩ := (Sparse.C18_filter h1 m).1 (by rw [h4]; exact h)
    obtain ⟨k1, k2⟩ := filter_keeps g1 h3
    exact ⟨b, g1, g2, g3, g4, k1, k2⟩
  · intro f
    exact filter_zipWith f _ _ m (by rw [patchRows_length hw, PArr.rows_len hw.encoded])

/-! ### Concrete cases

A decimal-like code over the naturals: `enc1 v = v / 10`, `dec n = n * 10`; 13 and 27 do not survive and become patches, row 2 is null. -/

example : (alpEncode (· / 10) (· * 10) (fun a b => a != b) 2 ⟨[10, 13, 20, 30, 27], .array [true, true, false, true, true]⟩ : Res (Arr Nat Nat)) =
    .ok ⟨⟨[1, 1, 2, 3, 1], .array [true, true, false, true, true]⟩, some ⟨[1, 4], ⟨[13, 27], .allValid⟩, 5, 0, none⟩⟩ := by
  decide +kernel

example : (decompress (· * 10) ⟨⟨[1, 1, 2, 3, 1], .array [true, true, false, true, true]⟩, some ⟨[1, 4], ⟨[13, 27], .allValid⟩, 5, 0, none⟩⟩ : Res (PArr Nat)) =
    .ok ⟨[10, 13, 20, 30, 27], .array [true, true, false, true, true]⟩ := by decide +kernel

end Vx.ALP
