import Verif.Spec.VarBinCanon
import Verif.Props.C20
import Verif.Props.C22Filter
/-! # C97: decoding variable-length columns -/
namespace Vx.VarBinCanon
open Vx.VarBinCanon.Spec
open VarBin (Byte nullBuffer)
open VarBinView (newView viewLen isInlined bufIndex bufOffset viewsFrom fromArrow tryNew Holds Denotes le32 get32)

theorem nullBuffer_mask {v : Validity} {n : Nat} (hf : Spec.FitsLen v n) :
    (nullBuffer (v.toLogical n)).getD (List.replicate n true) = Spec.mask n v ∧ (v.nullable = false → nullBuffer (v.toLogical n) = none) := by
  obtain ⟨h1, _, h3⟩ := C23_to_logical v n hf
  refine ⟨?_, ?_⟩
  · rw [← h1]
    cases hl : v.toLogical n with
    | allValid m => simp only [hl, LogicalValidity.len] at h3; subst h3; rfl
    | allInvalid m => rfl
    | array m => rfl
  · intro hn
    cases v <;> simp [Validity.nullable] at hn
    rfl

theorem toArrow_ok (p : PType) (utf8 : Bool) (a : VarBin.Arr) :
    toArrow p utf8 a = if ∀ o ∈ a.offsets, o ≤ maxOffset p then .ok ⟨utf8, a.offsets, a.bytes, nullBuffer (a.validity.toLogical a.len)⟩ else .err := by
  unfold toArrow
  by_cases h : ∀ o ∈ a.offsets, o ≤ maxOffset p
  · have : (a.offsets.all fun o => decide (o ≤ maxOffset p)) = true := by simpa using h
    rw [if_pos h, this]; rfl
  · have : (a.offsets.all fun o => decide (o ≤ maxOffset p)) = false := by simpa using h
    rw [if_neg h, this]; rfl

theorem row_spans {a : VarBin.Arr} {i : Nat} {v : List Byte} (utf8 : Bool) (nulls : Option (List Bool)) (h : (VarBin.spans a)[i]? = some v) :
    Row ⟨utf8, a.offsets, a.bytes, nulls⟩ i v := by
  rw [VarBin.spans, List.getElem?_zipWith_eq_some] at h
  obtain ⟨s, e, h1, h2, h3⟩ := h
  refine ⟨s, e, h1, ?_, h3.symm⟩
  simpa [List.getElem?_tail] using h2

theorem varbin_ok (cast : Cast) (hc : StringCast cast) (p : PType) (a : VarBin.Arr) (hw : VarBin.WF a) (hs : a.bytes.length < 2 ^ 32 - 1) :
    if ∀ o ∈ a.offsets, o ≤ maxOffset p then ∃ b, varbinCanonical cast p true a = .ok (true, b) ∧ Denotes b (VarBin.rows a) ∧ b.nullable = a.nullable
    else varbinCanonical cast p true a = .err := by
  have hta := toArrow_ok p true a
  split
  · rename_i ho
    rw [if_pos ho] at hta
    obtain ⟨hm1, hm2⟩ := nullBuffer_mask hw.fits
    have hlen : a.len + 1 = a.offsets.length := by
      have := List.length_pos_iff.mpr hw.ne
      simp only [VarBin.Arr.len]; omega
    have hnl : ∀ m, nullBuffer (a.validity.toLogical a.len) = some m → m.length + 1 = a.offsets.length := by
      intro m hm
      rw [hm, Option.getD_some] at hm1
      have hf : (Spec.mask a.len a.validity).length = a.len := hw.fits
      rw [hm1, hf, hlen]
    obtain ⟨w, hw1⟩ := hc.total ⟨true, a.offsets, a.bytes, nullBuffer (a.validity.toLogical a.len)⟩ rfl hw.ne hw.mono hw.inb hs hnl
    have hsr := hc.sound _ w rfl hw.mono hw.inb hw1
    have hl2 : w.views.length = a.len := by have := hsr.len; simp only at this; omega
    have hrl : (VarBin.rows a).length = a.len := VarBin.rows_len hw
    have hmask : (VarBin.rows a).map Option.isSome = Spec.mask a.len a.validity := by
      have hf : (Spec.mask a.len a.validity).length = a.len := hw.fits
      apply List.ext_getElem?
      intro i
      rw [List.getElem?_map, VarBin.rows, Spec.rows, List.getElem?_zipWith]
      cases h1 : (VarBin.spans a)[i]? with
      | none =>
        have : a.len ≤ i := by rw [← VarBin.spans_length a]; exact List.getElem?_eq_none_iff.mp h1
        rw [List.getElem?_eq_none (by omega)]; rfl
      | some x =>
        cases h2 : (Spec.mask a.len a.validity)[i]? with
        | none => rfl
        | some b => cases b <;> rfl
    have hfa := VarBinView.fromArrow_denotes (ws := w.views) (rs := VarBin.rows a) (bufs := w.buffers) (nullable := a.nullable) (nulls := w.nulls)
      (by rw [hl2, hrl]) hsr.w16 ?_ hsr.small ?_ ?_
    · obtain ⟨b, h1, h2, h3⟩ := hfa
      refine ⟨b, ?_, h2, h3⟩
      simp only [varbinCanonical, hta, Res.ok_bind, hw1, h1]
    · intro i x v hx hv
      rw [VarBin.rows, Spec.rows, List.getElem?_zipWith_eq_some] at hv
      obtain ⟨y, m, hy, hm, hz⟩ := hv
      cases m with
      | false => simp at hz
      | true =>
        simp only [if_true, Option.some.injEq] at hz
        subst hz
        refine hsr.holds i x y hx ?_ (row_spans _ _ hy)
        show ((nullBuffer (a.validity.toLogical a.len)).getD (List.replicate w.views.length true))[i]? = some true
        rw [hl2, hm1]; exact hm
    · rw [hrl, hmask, ← hl2, hsr.nulls]
      show (nullBuffer (a.validity.toLogical a.len)).getD (List.replicate w.views.length true) = _
      rw [hl2, hm1]
    · cases hn : a.nullable with
      | true => exact Or.inl rfl
      | false => exact Or.inr (hsr.none (hm2 (by rw [← hw.null]; exact hn)))
  · rename_i ho
    rw [if_neg ho] at hta
    simp only [varbinCanonical, hta, Res.err_bind]

theorem maxOffset_eq (p : PType) (hp : p.isFloat = false) : maxOffset p + 1 = if p.bits = 64 then 2 ^ 63 else 2 ^ 31 := by
  cases p <;> first | rfl | cases hp

/-- Decoding a string column held with offsets of an integer type `p` gives a view column with exactly the same rows and nullability, if the
offsets are below `2^63` (64-bit types) or `2^31` (all others); otherwise it is an error. -/
theorem C97_varbin (cast : Cast) (hc : StringCast cast) (p : PType) (hp : p.isFloat = false) (a : VarBin.Arr) (hw : VarBin.WF a)
    (hs : a.bytes.length < 2 ^ 32 - 1) :
    if ∀ o ∈ a.offsets, o < (if p.bits = 64 then 2 ^ 63 else 2 ^ 31) then
      ∃ b, varbinCanonical cast p true a = .ok (true, b) ∧ Denotes b (VarBin.rows a) ∧ b.nullable = a.nullable
    else varbinCanonical cast p true a = .err := by
  have h := varbin_ok cast hc p a hw hs
  rw [← maxOffset_eq p hp]
  simpa only [Nat.lt_succ_iff] using h

/-- Decoding a column that is held as views keeps the rows, the type and the nullability. -/
theorem C97_view (utf8 : Bool) (a : VarBinView.Arr) (rs : List (Option (List Byte))) (h : Denotes a rs) :
    ∃ b, viewCanonical utf8 a = .ok (utf8, b) ∧ Denotes b rs ∧ b.nullable = a.nullable := by
  obtain ⟨ws, h1, h2, h3, h4⟩ := h.views
  have hf := VarBinView.fits_of h
  have hl := VarBinView.denotes_len h
  obtain ⟨hm1, hm2⟩ := nullBuffer_mask hf
  obtain ⟨b, g1, g2, g3⟩ := VarBinView.fromArrow_denotes (nullable := a.nullable) (nulls := nullBuffer (a.validity.toLogical a.len)) h2 h3 h4 h.bufs
    (by rw [hl, hm1, h.mask]) (by
      cases hn : a.nullable with
      | true => exact Or.inl rfl
      | false => right; rw [hl]; exact hm2 (by rw [← h.null]; exact hn))
  refine ⟨b, ?_, g2, g3⟩
  simp only [viewCanonical, h1, g1, Res.ok_bind]

/-- Decoding an FSST-compressed string column gives the rows it was compressed from, up to 2 GiB of text. -/
theorem C97_fsst (cast : Cast) (hc : StringCast cast) (a : FSST.Arr) (rs : List (Option (List Byte))) (h : FSST.Denotes a rs)
    (hb : (rs.map fun r => (r.getD []).length).sum ≤ FSST.maxI32) :
    ∃ b, fsstCanonical cast true a = .ok (true, b) ∧ Denotes b rs ∧ b.nullable = a.nullable := by
  obtain ⟨v, h1, h2, h3, h4, h5⟩ := FSST.bulk_decode_bytes a rs h hb
  have hbl : v.bytes.length ≤ FSST.maxI32 := by
    rw [h5, List.length_flatten, VarBin.vals, List.map_map]; exact hb
  have := varbin_ok cast hc .i32 v h2 (by
    have : FSST.maxI32 = 2147483647 := rfl
    omega)
  rw [if_pos (fun o ho => by
    have h7 : FSST.maxI32 = maxOffset .i32 := rfl
    have := h2.inb o ho
    omega), h3] at this
  obtain ⟨b, g1, g2, g3⟩ := this
  exact ⟨b, by simp only [fsstCanonical, h1, Res.ok_bind, g1], g2, by rw [g3, h4]⟩

/-! ### chunks -/

theorem holds_left {bufs post : List (List Byte)} {w v : List Byte} (h : Holds bufs w v) : Holds (bufs ++ post) w v := by
  rcases h with h | ⟨hv, pre, block, off, buf, hp, hb, ho, e, hbuf, rest⟩
  · exact Or.inl h
  · refine Or.inr ⟨hv, pre, block, off, buf, hp, hb, ho, e, ?_, rest⟩
    rw [List.getElem?_append_left (List.getElem?_eq_some_iff.mp hbuf).1]; exact hbuf

/-- A view that refers to bytes refers to a buffer of the array. -/
def InRange (bufs : List (List Byte)) (w : List Byte) : Prop := isInlined w = false → bufIndex w < bufs.length

theorem get32_lt (w : List Byte) : get32 w < 2 ^ 32 := by
  match w with
  | [a, b, c, d] => simp only [get32]; have := a.isLt; have := b.isLt; have := c.isLt; have := d.isLt; omega
  | [] | [_] | [_, _] | [_, _, _] | _ :: _ :: _ :: _ :: _ :: _ => simp [get32]

theorem newView_length {len : Nat} {pre : List Byte} (block off : Nat) (h : pre.length = 4) : (newView len pre block off).length = 16 := by
  simp [newView, VarBinView.le32_length, h]

theorem packView_total (checks : Bool) (off : Nat) (bufs : List (List Byte)) (w : List Byte) (hl : w.length = 16) (ho : off + bufs.length ≤ 2 ^ 32)
    (hr : checks = true → InRange bufs w) : ∃ w', packView checks off w = .ok w' ∧ w'.length = 16 := by
  unfold packView
  cases hi : isInlined w with
  | true => exact ⟨w, by simp, hl⟩
  | false =>
    have hn : (checks && decide (2 ^ 32 ≤ off % 2 ^ 32 + bufIndex w)) = false := by
      cases checks with
      | false => rfl
      | true =>
        have := hr rfl hi
        have h1 : off % 2 ^ 32 = off := Nat.mod_eq_of_lt (by omega)
        simp only [Bool.true_and, decide_eq_false_iff_not]
        omega
    refine ⟨newView (viewLen w) ((w.drop 4).take 4) ((off % 2 ^ 32 + bufIndex w) % 2 ^ 32) (bufOffset w), ?_, newView_length _ _ (by simp [hl])⟩
    simp only [Bool.false_eq_true, if_false, hn]

theorem packView_holds (checks : Bool) (pre bufs : List (List Byte)) (w v : List Byte) (hl : w.length = 16)
    (ho : pre.length + bufs.length ≤ 2 ^ 32) (hh : Holds bufs w v) :
    ∃ w', packView checks pre.length w = .ok w' ∧ w'.length = 16 ∧ Holds (pre ++ bufs) w' v := by
  obtain ⟨_, _, hacc3, hacc4⟩ := VarBinView.holds_acc hh hl
  rcases hh with hin | ⟨hv, pr, block, off, buf, hp, hb, hoff, rfl, hbuf, hin, hval⟩
  · refine ⟨w, ?_, hl, Or.inl hin⟩
    have : isInlined w = true := hacc4.mpr hin.1
    simp [packView, this]
  · have hbl := (List.getElem?_eq_some_iff.mp hbuf).1
    have hlen : viewLen (le32 v.length ++ (pr ++ (le32 block ++ le32 off))) = v.length := by
      rw [viewLen, VarBinView.take4, VarBinView.get32_le32 (by omega)]
    have hi : isInlined (le32 v.length ++ (pr ++ (le32 block ++ le32 off))) = false := by
      simp [isInlined, hlen, VarBinView.maxInlined, hv]
    have hd4 : (le32 v.length ++ (pr ++ (le32 block ++ le32 off))).drop 4 = pr ++ (le32 block ++ le32 off) := VarBinView.drop4 _ _
    have hd8 : (le32 v.length ++ (pr ++ (le32 block ++ le32 off))).drop 8 = le32 block ++ le32 off := by
      rw [show 8 = 4 + 4 from rfl, ← List.drop_drop, hd4, ← hp, List.drop_left]
    have hbi : bufIndex (le32 v.length ++ (pr ++ (le32 block ++ le32 off))) = block := by
      rw [bufIndex, hd8, VarBinView.take4, VarBinView.get32_le32 hb]
    have hbo : bufOffset (le32 v.length ++ (pr ++ (le32 block ++ le32 off))) = off := by
      rw [bufOffset, show 12 = 8 + 4 from rfl, ← List.drop_drop, hd8, VarBinView.drop4]
      exact VarBinView.get32_le32 (by omega)
    have hpr : ((le32 v.length ++ (pr ++ (le32 block ++ le32 off))).drop 4).take 4 = pr := by
      rw [hd4, ← hp, List.take_left]
    have hmod : pre.length % 2 ^ 32 = pre.length := Nat.mod_eq_of_lt (by omega)
    have hsum : (pre.length + block) % 2 ^ 32 = pre.length + block := Nat.mod_eq_of_lt (by omega)
    have hck : (checks && decide (2 ^ 32 ≤ pre.length + block)) = false := by
      cases checks with
      | false => rfl
      | true => simp only [Bool.true_and, decide_eq_false_iff_not]; omega
    refine ⟨newView v.length pr (pre.length + block) off, ?_, newView_length _ _ hp, Or.inr ⟨hv, pr, pre.length + block, off, buf, hp, by omega, hoff, rfl, ?_, hin, hval⟩⟩
    · simp only [packView, hi, Bool.false_eq_true, if_false, hbi, hbo, hlen, hpr, hmod, hck, hsum]
    · rw [List.getElem?_append_right (by omega), show pre.length + block - pre.length = block by omega]; exact hbuf

/-- The views of an array, one per row. -/
def ViewsOf (a : VarBinView.Arr) (ws : List (List Byte)) : Prop := a.views = ws.flatten ∧ ∀ w ∈ ws, w.length = 16

theorem packChunk (checks : Bool) (pre bufs : List (List Byte)) (ho : pre.length + bufs.length ≤ 2 ^ 32) :
    ∀ (ws : List (List Byte)) (rs : List (Option (List Byte))), ws.length = rs.length → (∀ w ∈ ws, w.length = 16) →
    (∀ (i : Nat) (w v : List Byte), ws[i]? = some w → rs[i]? = some (some v) → Holds bufs w v) → (checks = true → ∀ w ∈ ws, InRange bufs w) →
    ∃ ws', Res.mapM (packView checks pre.length) ws = .ok ws' ∧ ws'.length = rs.length ∧ (∀ w ∈ ws', w.length = 16) ∧
      ∀ (i : Nat) (w v : List Byte), ws'[i]? = some w → rs[i]? = some (some v) → Holds (pre ++ bufs) w v
  | [], [], _, _, _, _ => ⟨[], rfl, rfl, by simp, by simp⟩
  | [], _ :: _, h, _, _, _ => by simp at h
  | _ :: _, [], h, _, _, _ => by simp at h
  | w :: ws, r :: rs, hl, h16, hh, hr => by
    obtain ⟨ws', g1, g2, g3, g4⟩ := packChunk checks pre bufs ho ws rs (by simpa using hl) (fun x hx => h16 x (by simp [hx]))
      (fun i x v hx hv => hh (i + 1) x v (by simpa using hx) (by simpa using hv)) (fun hc x hx => hr hc x (by simp [hx]))
    have key : ∃ w', packView checks pre.length w = .ok w' ∧ w'.length = 16 ∧ ∀ v, r = some v → Holds (pre ++ bufs) w' v := by
      cases r with
      | none =>
        obtain ⟨w', e1, e2⟩ := packView_total checks pre.length bufs w (h16 w (by simp)) ho (fun hc => hr hc w (by simp))
        exact ⟨w', e1, e2, by simp⟩
      | some v =>
        obtain ⟨w', e1, e2, e3⟩ := packView_holds checks pre bufs w v (h16 w (by simp)) ho (hh 0 w v rfl rfl)
        exact ⟨w', e1, e2, fun v' hv => by cases hv; exact e3⟩
    obtain ⟨w', e1, e2, e3⟩ := key
    refine ⟨w' :: ws', by simp only [Res.mapM, e1, g1, Res.ok_bind], by simp [g2], ?_, ?_⟩
    · intro x hx
      rcases List.mem_cons.mp hx with rfl | hx
      · exact e2
      · exact g3 x hx
    · intro i x v hx hv
      cases i with
      | zero => simp only [List.getElem?_cons_zero, Option.some.injEq] at hx hv; subst hx; exact e3 v hv
      | succ i => exact g4 i x v (by simpa using hx) (by simpa using hv)

/-- The chunks stand for the lists of rows. -/
def AllDenote : List VarBinView.Arr → List (List (Option (List Byte))) → Prop
  | [], [] => True
  | c :: cs, r :: rs => Denotes c r ∧ AllDenote cs rs
  | _, _ => False

theorem packLoop_ok (checks : Bool) : ∀ (cs : List VarBinView.Arr) (rss : List (List (Option (List Byte)))), AllDenote cs rss →
    (checks = true → ∀ c ∈ cs, ∀ ws, ViewsOf c ws → ∀ w ∈ ws, InRange c.buffers w) →
    ∀ (vs : List (List Byte)) (bufs : List (List Byte)) (rs : List (Option (List Byte))), vs.length = rs.length → (∀ w ∈ vs, w.length = 16) →
    (∀ (i : Nat) (w v : List Byte), vs[i]? = some w → rs[i]? = some (some v) → Holds bufs w v) → (∀ b ∈ bufs, b.length < 2 ^ 32) →
    bufs.length + (cs.map (fun c => c.buffers.length)).sum ≤ 2 ^ 32 →
    ∃ ws out, packLoop checks cs vs bufs = .ok (ws, out) ∧ ws.length = (rs ++ rss.flatten).length ∧ (∀ w ∈ ws, w.length = 16) ∧
      (∀ (i : Nat) (w v : List Byte), ws[i]? = some w → (rs ++ rss.flatten)[i]? = some (some v) → Holds out w v) ∧ (∀ b ∈ out, b.length < 2 ^ 32)
  | [], [], _, _, vs, bufs, rs, h1, h2, h3, h4, _ => ⟨vs, bufs, rfl, by simpa using h1, h2, by simpa using h3, h4⟩
  | [], _ :: _, h, _, _, _, _, _, _, _, _, _ => by simp [AllDenote] at h
  | _ :: _, [], h, _, _, _, _, _, _, _, _, _ => by simp [AllDenote] at h
  | c :: cs, r :: rss, h, hr, vs, bufs, rs, h1, h2, h3, h4, h5 => by
    simp only [AllDenote] at h
    simp only [List.map_cons, List.sum_cons] at h5
    obtain ⟨ws, w1, w2, w3, w4⟩ := h.1.views
    have hvf : viewsFrom c.views c.len 0 = .ok ws := by
      rw [VarBinView.denotes_len h.1, w1, VarBinView.viewsFrom_ok w3 r.length 0 (by omega)]; rfl
    obtain ⟨ws', g1, g2, g3, g4⟩ := packChunk checks bufs c.buffers (by omega) ws r w2 w3 w4 (fun hc w hw => hr hc c (by simp) ws ⟨w1, w3⟩ w hw)
    have hstep := packLoop_ok checks cs rss h.2 (fun hc x hx => hr hc x (by simp [hx])) (vs ++ ws') (bufs ++ c.buffers) (rs ++ r)
      (by simp [h1, g2]) (fun w hw => by rcases List.mem_append.mp hw with hw | hw; exact h2 w hw; exact g3 w hw)
      (fun i w v hw hv => by
        by_cases hi : i < rs.length
        · rw [List.getElem?_append_left (by omega)] at hw
          rw [List.getElem?_append_left hi] at hv
          exact holds_left (h3 i w v hw hv)
        · rw [List.getElem?_append_right (by omega)] at hw hv
          rw [h1] at hw
          exact g4 _ w v hw hv)
      (fun b hb => by rcases List.mem_append.mp hb with hb | hb; exact h4 b hb; exact h.1.bufs b hb)
      (by rw [List.length_append]; omega)
    obtain ⟨o1, o2, e1, e2, e3, e4, e5⟩ := hstep
    refine ⟨o1, o2, ?_, by simpa using e2, e3, by simpa using e4, e5⟩
    simp only [packLoop, hvf, Res.ok_bind, g1, e1]

theorem allDenote_rows : ∀ {cs : List VarBinView.Arr} {rss : List (List (Option (List Byte)))}, AllDenote cs rss → ∀ (nullable : Bool),
    (∀ c ∈ cs, c.nullable = nullable) →
    let v := if nullable then
      ((LogicalValidity.collect (cs.map (fun c => c.validity.toLogical c.len))).toLogical ((cs.map VarBinView.Arr.len).sum)).intoValidity
      else .nonNullable
    Spec.mask rss.flatten.length v = rss.flatten.map Option.isSome ∧ v.nullable = nullable := by
  intro cs rss h nullable hn
  -- through the primitive arrays with the same validity
  have hl : ∀ (cs : List VarBinView.Arr) (rss : List (List (Option (List Byte)))), AllDenote cs rss →
      ∃ ps : List (PArr Unit), cs.map (fun c => c.validity.toLogical c.len) = ps.map (fun p => p.validity.toLogical p.len) ∧
        cs.map VarBinView.Arr.len = ps.map PArr.len ∧ (∀ p ∈ ps, p.WF) ∧ (Chunked.rows PArr.rows ps).map Option.isSome = rss.flatten.map Option.isSome ∧
        ((∀ c ∈ cs, c.nullable = false) → ∀ p ∈ ps, p.validity = .nonNullable) := by
    intro cs
    induction cs with
    | nil => intro rss h; cases rss with
      | nil => exact ⟨[], rfl, rfl, by simp, rfl, by simp⟩
      | cons _ _ => simp [AllDenote] at h
    | cons c cs ih =>
      intro rss h
      cases rss with
      | nil => simp [AllDenote] at h
      | cons r rss =>
        simp only [AllDenote] at h
        obtain ⟨ps, e1, e2, e3, e4, e5⟩ := ih rss h.2
        have hlc := VarBinView.denotes_len h.1
        have hf := VarBinView.fits_of h.1
        refine ⟨⟨List.replicate r.length (), c.validity⟩ :: ps, by simp [e1, hlc, PArr.len], by simp [e2, hlc, PArr.len], ?_, ?_, ?_⟩
        · intro p hp
          rcases List.mem_cons.mp hp with rfl | hp
          · simpa [PArr.WF] using hf
          · exact e3 p hp
        · simp only [Chunked.rows, List.flatMap_cons, List.map_append, List.flatten_cons]
          have : (PArr.rows ⟨List.replicate r.length (), c.validity⟩).map Option.isSome = r.map Option.isSome := by
            rw [← h.1.mask]
            simp only [PArr.rows, List.length_replicate, Spec.rows]
            have hf' : (Spec.mask r.length c.validity).length = r.length := hf
            apply List.ext_getElem?
            intro i
            rw [List.getElem?_map, List.getElem?_zipWith, List.getElem?_replicate]
            by_cases hi : i < r.length
            · rw [if_pos hi]
              cases h2 : (Spec.mask r.length c.validity)[i]? with
              | none => rfl
              | some b => cases b <;> rfl
            · rw [if_neg hi, List.getElem?_eq_none (by omega)]; rfl
          rw [this]
          congr 1
        · intro hall p hp
          rcases List.mem_cons.mp hp with rfl | hp
          · have h1 := hall c (by simp)
            have h2 := h.1.null
            rw [h1] at h2
            cases hv : c.validity <;> simp [hv, Validity.nullable] at h2 ⊢
          · exact e5 (fun c hc => hall c (by simp [hc])) p hp
  obtain ⟨ps, e1, e2, e3, e4, e5⟩ := hl cs rss h
  have hcan := Chunked.C22_canonical nullable ps e3 (fun hf p hp => e5 (fun c hc => by rw [hn c hc]; exact hf) p hp)
  have hval : (Chunked.canonicalPrim nullable ps).validity = if nullable then
      ((LogicalValidity.collect (cs.map (fun c => c.validity.toLogical c.len))).toLogical ((cs.map VarBinView.Arr.len).sum)).intoValidity
      else .nonNullable := by rw [e1, e2]; rfl
  simp only
  rw [← hval]
  obtain ⟨w1, w2⟩ := hcan
  have hlen : (Chunked.canonicalPrim nullable ps).vals.length = rss.flatten.length := by
    have h1 := congrArg List.length e4
    rw [List.length_map, List.length_map, ← w2] at h1
    have hf : (Spec.mask (Chunked.canonicalPrim nullable ps).vals.length (Chunked.canonicalPrim nullable ps).validity).length =
      (Chunked.canonicalPrim nullable ps).vals.length := w1
    simp only [PArr.rows, Spec.rows, List.length_zipWith, hf, Nat.min_self] at h1
    exact h1
  refine ⟨?_, ?_⟩
  · rw [← e4, ← w2, ← hlen]
    have hf : (Spec.mask (Chunked.canonicalPrim nullable ps).vals.length (Chunked.canonicalPrim nullable ps).validity).length =
      (Chunked.canonicalPrim nullable ps).vals.length := w1
    simp only [PArr.rows, Spec.rows]
    apply List.ext_getElem?
    intro i
    rw [List.getElem?_map, List.getElem?_zipWith]
    by_cases hi : i < (Chunked.canonicalPrim nullable ps).vals.length
    · rw [List.getElem?_eq_getElem hi]
      cases h2 : (Spec.mask (Chunked.canonicalPrim nullable ps).vals.length (Chunked.canonicalPrim nullable ps).validity)[i]? with
      | none => rfl
      | some b => cases b <;> rfl
    · rw [List.getElem?_eq_none (by omega), List.getElem?_eq_none (by omega)]; rfl
  · cases nullable with
    | false => rfl
    | true =>
      rw [hval, if_pos rfl]
      generalize LogicalValidity.collect _ = x
      cases x.toLogical _ <;> rfl

/-- Decoding a chunked string or byte column gives one view column with the rows of all chunks in order, in debug and release builds. -/
theorem C97_chunked (checks nullable : Bool) (cs : List VarBinView.Arr) (rss : List (List (Option (List Byte)))) (h : AllDenote cs rss)
    (hn : ∀ c ∈ cs, c.nullable = nullable) (hb : (cs.map (fun c => c.buffers.length)).sum ≤ 2 ^ 32)
    (hr : checks = true → ∀ c ∈ cs, ∀ ws, ViewsOf c ws → ∀ w ∈ ws, InRange c.buffers w) :
    ∃ b, chunkedCanonical checks nullable cs = .ok b ∧ Denotes b rss.flatten ∧ b.nullable = nullable := by
  obtain ⟨ws, out, h1, h2, h3, h4, h5⟩ := packLoop_ok checks cs rss h hr [] [] [] rfl (by simp) (by simp) (by simp) (by simpa using hb)
  simp only [List.nil_append] at h2 h4
  have hv := allDenote_rows h nullable hn
  simp only at hv
  unfold chunkedCanonical packViews
  generalize (if nullable then
      ((LogicalValidity.collect (cs.map (fun c => c.validity.toLogical c.len))).toLogical ((cs.map VarBinView.Arr.len).sum)).intoValidity
      else .nonNullable) = v at hv ⊢
  obtain ⟨hm, hnl⟩ := hv
  have hfit : Spec.FitsLen v rss.flatten.length := by rw [Spec.FitsLen, hm, List.length_map]
  have hvl : ws.flatten.length / VarBinView.viewSize = rss.flatten.length := by
    rw [VarBinView.flatten_length16 h3, h2, VarBinView.viewSize]; omega
  have hball : (out.all fun b => decide (b.length < 2 ^ 32)) = true := by
    rw [List.all_eq_true]; intro b hb; simpa using h5 b hb
  refine ⟨⟨nullable, ws.flatten, out, v⟩, ?_, ⟨⟨ws, rfl, h2, h3, h4⟩, hm, h5, hnl.symm⟩, rfl⟩
  simp only [h1, Res.ok_bind, tryNew, hvl, Compare.checkLen_of_fits hfit, hball, hnl]
  simp [Res.guard]

/-! ### where the code is wrong -/

/-- Decoding a byte column held with offsets never gives a byte column: the result, if there is one, is text — whatever Arrow's cast does. -/
theorem C97_binary_becomes_text (cast : Cast) (p : PType) (a : VarBin.Arr) (r : Bool × VarBinView.Arr) (h : varbinCanonical cast p false a = .ok r) :
    r.1 = true := by
  simp only [varbinCanonical, Res.bind_eq_ok] at h
  obtain ⟨o, _, w, _, b, _, h⟩ := h
  cases h
  rfl

/-- The same for FSST. -/
theorem C97_fsst_binary_becomes_text (cast : Cast) (a : FSST.Arr) (r : Bool × VarBinView.Arr) (h : fsstCanonical cast false a = .ok r) : r.1 = true := by
  simp only [fsstCanonical, Res.bind_eq_ok] at h
  obtain ⟨v, _, h⟩ := h
  exact C97_binary_becomes_text cast .i32 v r h

/-- If the cast makes bytes that are not UTF-8 null (as Arrow's casts do by default), decoding a non-nullable byte column with such a row panics. -/
theorem C97_binary_panics (cast : Cast) (p : PType) (a : VarBin.Arr) (o : Offs) (w : Views) (m : List Bool) (h1 : toArrow p false a = .ok o)
    (h2 : cast o = .ok w) (h3 : w.nulls = some m) (h4 : a.nullable = false) : varbinCanonical cast p false a = .panic := by
  simp only [varbinCanonical, h1, Res.ok_bind, h2, fromArrow, h3, h4, VarBinView.fromArrowNulls]
  rfl

/-! ### a cast that meets the assumptions -/

/-- The view of a row that shares the data buffer: inline up to 12 bytes, else a reference into block 0; null rows are all zero. -/
def shareView (data : List Byte) (p : (Nat × Nat) × Bool) : List Byte :=
  let v := Vx.Spec.slice data p.1.1 p.1.2
  if !p.2 then List.replicate 16 0
  else if v.length ≤ 12 then le32 v.length ++ (v ++ List.replicate (12 - v.length) 0)
  else newView v.length (v.take 4) 0 p.1.1

/-- The cast of arrow 53 when the offsets fit 32 bits: `From<&GenericByteArray>` for view arrays shares the data buffer. Bytes for which
`valid` is false become null. -/
def shareCast (valid : List Byte → Bool) (o : Offs) : Res Views :=
  let n := o.offsets.length - 1
  let spans := o.offsets.zip o.offsets.tail
  let ok := spans.map (fun p => o.utf8 || valid (Vx.Spec.slice o.data p.1 p.2))
  let given := o.nulls.getD (List.replicate n true)
  let m := List.zipWith (fun x y => x && y) given ok
  if o.data.length < 2 ^ 32 - 1 ∧ o.offsets ≠ [] ∧ given.length = n then
    .ok ⟨(spans.zip m).map (shareView o.data), [o.data], if m = List.replicate n true ∧ o.nulls = none then none else some m⟩
  else .err

theorem shareView_length (data : List Byte) (p : (Nat × Nat) × Bool) : (shareView data p).length = 16 := by
  unfold shareView
  simp only
  split
  · simp
  · split
    · simp [VarBinView.le32_length]; omega
    · rename_i h1 h2
      exact newView_length _ _ (by rw [List.length_take]; omega)

theorem zipWith_and_true (xs : List Bool) (n : Nat) (h : xs.length = n) : List.zipWith (fun x y => x && y) xs (List.replicate n true) = xs := by
  apply List.ext_getElem?
  intro i
  rw [List.getElem?_zipWith, List.getElem?_replicate]
  by_cases hi : i < n
  · rw [List.getElem?_eq_getElem (by omega), if_pos hi]; simp
  · rw [List.getElem?_eq_none (by omega)]

theorem shareCast_ok (valid : List Byte → Bool) : StringCast (shareCast valid) where
  sound := by
    intro o w hu hp hb h
    unfold shareCast at h
    simp only at h
    split at h
    · rename_i hc
      obtain ⟨hd, hne, hg⟩ := hc
      have hpos := List.length_pos_iff.mpr hne
      have hok : (o.offsets.zip o.offsets.tail).map (fun p => o.utf8 || valid (Vx.Spec.slice o.data p.1 p.2)) = List.replicate (o.offsets.length - 1) true := by
        refine List.eq_replicate_iff.mpr ⟨by simp, ?_⟩
        intro b hb
        obtain ⟨p, _, rfl⟩ := List.mem_map.mp hb
        simp [hu]
      rw [hok, zipWith_and_true _ _ hg] at h
      injection h with h
      subst h
      have hvl : ((o.offsets.zip o.offsets.tail).zip (o.nulls.getD (List.replicate (o.offsets.length - 1) true))).length = o.offsets.length - 1 := by
        simp [hg]
      refine ⟨?_, ?_, ?_, ?_, ?_, ?_⟩
      · simp only [List.length_map, hvl]; omega
      · intro x hx
        obtain ⟨p, _, rfl⟩ := List.mem_map.mp hx
        exact shareView_length _ _
      · intro i x v hx hn hrow
        simp only [List.length_map, hvl] at hn
        obtain ⟨s, e, hs, he, rfl⟩ := hrow
        have hz : ((o.offsets.zip o.offsets.tail).zip (o.nulls.getD (List.replicate (o.offsets.length - 1) true)))[i]? = some ((s, e), true) := by
          rw [List.getElem?_zip_eq_some, List.getElem?_zip_eq_some]
          exact ⟨⟨hs, by simpa [List.getElem?_tail] using he⟩, hn⟩
        rw [List.getElem?_map, hz] at hx
        simp only [Option.map_some, Option.some.injEq] at hx
        subst hx
        have hse : s ≤ e := by
          obtain ⟨hi1, rfl⟩ := List.getElem?_eq_some_iff.mp hs
          obtain ⟨hi2, rfl⟩ := List.getElem?_eq_some_iff.mp he
          exact List.pairwise_iff_getElem.mp hp i (i + 1) hi1 hi2 (by omega)
        have hel : e ≤ o.data.length := hb e (List.mem_of_getElem? he)
        have hlen : (Vx.Spec.slice o.data s e).length = e - s := by rw [Vx.Spec.slice_length]; omega
        unfold shareView
        simp only [Bool.not_true, Bool.false_eq_true, if_false]
        split
        · rename_i h12
          exact Or.inl ⟨h12, List.replicate (12 - (Vx.Spec.slice o.data s e).length) 0, by simp, rfl⟩
        · rename_i h12
          refine Or.inr ⟨by omega, _, 0, s, o.data, by rw [List.length_take]; omega, by omega, by omega, rfl, rfl, by omega, ?_⟩
          rw [hlen, ← Vx.Spec.slice_eq_drop_take]
      · intro b hb'
        simp only [List.mem_singleton] at hb'
        subst hb'
        omega
      · simp only [List.length_map, hvl]
        cases hnl : o.nulls with
        | none => simp
        | some m => simp
      · intro hnl
        simp [hnl]
    · cases h
  total := by
    intro o hu hne hp hb hd hm
    have hpos := List.length_pos_iff.mpr hne
    refine ⟨_, if_pos ⟨hd, hne, ?_⟩⟩
    cases hnl : o.nulls with
    | none => simp
    | some m => have := hm m hnl; simp only [Option.getD_some]; omega

/-! ### the hypotheses can be met -/

/-- Rows `"Ab"`, null, a string of 13 bytes. -/
def exVarBin : VarBin.Arr := ⟨true, [0, 2, 2, 15], [65, 98, 1, 2, 3, 4, 5, 6, 7, 8, 9, 10, 11, 12, 13], .array [true, false, true]⟩

theorem exVarBin_wf : VarBin.WF exVarBin := ⟨by decide, by decide, by decide, by simp [Spec.FitsLen, exVarBin, Spec.mask, VarBin.Arr.len], rfl⟩

example : ∃ b, varbinCanonical (shareCast (fun _ => true)) .i32 true exVarBin = .ok (true, b) ∧
    VarBinView.iter b = .ok [some [65, 98], none, some [1, 2, 3, 4, 5, 6, 7, 8, 9, 10, 11, 12, 13]] := by
  have h := C97_varbin _ (shareCast_ok (fun _ => true)) .i32 rfl exVarBin exVarBin_wf (by decide)
  rw [if_pos (by decide)] at h
  obtain ⟨b, h1, h2, _⟩ := h
  refine ⟨b, h1, ?_⟩
  rw [VarBinView.C21_view_iter b _ h2]
  rfl

/-- A byte row that is not text: nullable columns lose it, others panic. -/
example : (∃ b, varbinCanonical (shareCast (fun bs => !bs.contains 255)) .i32 false ⟨true, [0, 1, 2], [65, 255], .allValid⟩ = .ok (true, b) ∧
      VarBinView.iter b = .ok [some [65], none]) ∧
    varbinCanonical (shareCast (fun bs => !bs.contains 255)) .i32 false ⟨false, [0, 1, 2], [65, 255], .nonNullable⟩ = .panic := by
  refine ⟨⟨⟨true, _, [[65, 255]], .array [true, false]⟩, rfl, ?_⟩, rfl⟩
  decide +kernel

/-- Two chunks, each with its own buffer. -/
example : (do
    let a ← varbinCanonical (shareCast (fun _ => true)) .i32 true exVarBin
    let b ← varbinCanonical (shareCast (fun _ => true)) .u8 true exVarBin
    let c ← chunkedCanonical true true [a.2, b.2]
    VarBinView.iter c) = .ok (VarBin.rows exVarBin ++ VarBin.rows exVarBin) := by decide +kernel

end Vx.VarBinCanon
