import Verif.Model.VarBinView
import Verif.Lemmas.VarBin
import Verif.Props.C21
/-! # C21: variable-length binary views -/

namespace Vx.VarBinView
open Spec
open VarBin (Byte sub expect nullBuffer)

/-! ### What a view array stands for -/

/-- The 16-byte `view` holds the value `v`: inline with its size when it has at most 12 bytes, otherwise as size, 4 free bytes, block and
offset of an occurrence of `v` in that block. -/
def Holds (buffers : List (List Byte)) (view v : List Byte) : Prop :=
  (v.length ≤ 12 ∧ ∃ pad : List Byte, pad.length = 12 - v.length ∧ view = le32 v.length ++ (v ++ pad)) ∨
  (12 < v.length ∧ ∃ (pre : List Byte) (block off : Nat) (buf : List Byte), pre.length = 4 ∧ block < 2 ^ 32 ∧ off + v.length < 2 ^ 32 ∧
    view = le32 v.length ++ (pre ++ (le32 block ++ le32 off)) ∧ buffers[block]? = some buf ∧ off + v.length ≤ buf.length ∧
    (buf.drop off).take v.length = v)

/-- The array stands for the rows `rs`: one 16-byte view per row; non-null rows hold their value. -/
structure Denotes (a : Arr) (rs : List (Option (List Byte))) : Prop where
  views : ∃ ws : List (List Byte), a.views = ws.flatten ∧ ws.length = rs.length ∧ (∀ w ∈ ws, w.length = 16) ∧
    ∀ (i : Nat) (w v : List Byte), ws[i]? = some w → rs[i]? = some (some v) → Holds a.buffers w v
  mask : mask rs.length a.validity = rs.map Option.isSome
  bufs : ∀ b ∈ a.buffers, b.length < 2 ^ 32
  null : a.nullable = a.validity.nullable

/-! ### Bytes -/

theorem get32_le32 {n : Nat} (h : n < 2 ^ 32) : get32 (le32 n) = n := by
  simp only [get32, le32, BitVec.toNat_ofNat]
  omega

theorem le32_length (n : Nat) : (le32 n).length = 4 := rfl

theorem sub_prefix (v pad : List Byte) : sub (v ++ pad) 0 v.length = .ok v := by
  simp [sub]

theorem take4 (n : Nat) (xs : List Byte) : (le32 n ++ xs).take 4 = le32 n := by simp [le32]
theorem drop4 (n : Nat) (xs : List Byte) : (le32 n ++ xs).drop 4 = xs := by simp [le32]

theorem holds_acc {buffers : List (List Byte)} {w v : List Byte} (h : Holds buffers w v) (hl : w.length = 16) :
    accBytes buffers w = .ok v ∧
    (isInlined w = true → sub (w.drop 4) 0 (viewLen w) = .ok v) ∧
    (isInlined w = false → ∃ buf, idx buffers (bufIndex w) = .ok buf ∧ viewLen w + bufOffset w < 2 ^ 32 ∧
      sliceList buf (bufOffset w) (viewLen w + bufOffset w) = .ok v) ∧
    (isInlined w = true ↔ v.length ≤ 12) := by
  rcases h with ⟨hv, pad, hp, rfl⟩ | ⟨hv, pre, block, off, buf, hp, hb, ho, rfl, hbuf, hin, hval⟩
  · have hlen : viewLen (le32 v.length ++ (v ++ pad)) = v.length := by
      rw [viewLen, take4, get32_le32 (by omega)]
    have hi : isInlined (le32 v.length ++ (v ++ pad)) = true := by simp [isInlined, hlen, maxInlined, hv]
    have hs : sub ((le32 v.length ++ (v ++ pad)).drop 4) 0 v.length = .ok v := by rw [drop4]; exact sub_prefix v pad
    refine ⟨?_, fun _ => by rw [hlen]; exact hs, (by intro h; rw [hi] at h; cases h), by simp [hi, hv]⟩
    simp only [accBytes, hi, if_true, hlen, hs]
  · have hlen : viewLen (le32 v.length ++ (pre ++ (le32 block ++ le32 off))) = v.length := by
      rw [viewLen, take4, get32_le32 (by omega)]
    have hi : isInlined (le32 v.length ++ (pre ++ (le32 block ++ le32 off))) = false := by
      simp [isInlined, hlen, maxInlined, hv]
    have hd8 : (le32 v.length ++ (pre ++ (le32 block ++ le32 off))).drop 8 = le32 block ++ le32 off := by
      rw [show 8 = 4 + 4 from rfl, ← List.drop_drop, drop4, ← hp, List.drop_left]
    have hbi : bufIndex (le32 v.length ++ (pre ++ (le32 block ++ le32 off))) = block := by
      rw [bufIndex, hd8, take4, get32_le32 hb]
    have hbo : bufOffset (le32 v.length ++ (pre ++ (le32 block ++ le32 off))) = off := by
      rw [bufOffset, show 12 = 8 + 4 from rfl, ← List.drop_drop, hd8, drop4]
      exact get32_le32 (by omega)
    have hidx : idx buffers block = .ok buf := by simp [idx, hbuf]
    have hsl : Spec.slice buf off (off + v.length) = v := by
      rw [slice_eq_drop_take, show off + v.length - off = v.length by omega, hval]
    refine ⟨?_, (by intro h; rw [hi] at h; cases h), fun _ => ⟨buf, by rw [hbi]; exact hidx, by rw [hlen, hbo]; omega, ?_⟩, by simp [hi, hv]⟩
    · simp only [accBytes, hi, Bool.false_eq_true, if_false, hbi, hidx, Res.ok_bind, hbo, hlen]
      rw [VarBin.sub_ok ⟨by omega, hin⟩, hsl]
    · rw [hlen, hbo, Nat.add_comm, sliceList_ok ⟨by omega, hin⟩, hsl]

/-! ### Groups of sixteen bytes -/

theorem flatten_length16 {ws : List (List Byte)} (h : ∀ w ∈ ws, w.length = 16) : ws.flatten.length = 16 * ws.length := by
  induction ws with
  | nil => rfl
  | cons w ws ih =>
    simp only [List.flatten_cons, List.length_append, List.length_cons, h w (by simp), ih (fun x hx => h x (by simp [hx]))]
    omega

theorem drop_flatten16 {ws : List (List Byte)} (h : ∀ w ∈ ws, w.length = 16) (i : Nat) : ws.flatten.drop (16 * i) = (ws.drop i).flatten := by
  induction ws generalizing i with
  | nil => simp
  | cons w ws ih =>
    cases i with
    | zero => simp
    | succ i =>
      have hw := h w (by simp)
      rw [List.flatten_cons, List.drop_succ_cons, ← ih (fun x hx => h x (by simp [hx])) i, show 16 * (i + 1) = w.length + 16 * i by omega,
        ← List.drop_drop, List.drop_left]

theorem take_flatten16 {ws : List (List Byte)} (h : ∀ w ∈ ws, w.length = 16) (i : Nat) : ws.flatten.take (16 * i) = (ws.take i).flatten := by
  induction ws generalizing i with
  | nil => simp
  | cons w ws ih =>
    cases i with
    | zero => simp
    | succ i =>
      have hw := h w (by simp)
      rw [List.take_succ_cons, List.flatten_cons, List.flatten_cons, ← ih (fun x hx => h x (by simp [hx])) i,
        show 16 * (i + 1) = w.length + 16 * i by omega, List.take_length_add_append]

theorem slice_flatten16 {ws : List (List Byte)} (h : ∀ w ∈ ws, w.length = 16) (s e : Nat) :
    Spec.slice ws.flatten (s * 16) (e * 16) = (Spec.slice ws s e).flatten := by
  rw [Spec.slice, Spec.slice, Nat.mul_comm s, Nat.mul_comm e, take_flatten16 h, drop_flatten16 (fun w hw => h w (List.mem_of_mem_take hw))]

theorem denotes_len {a : Arr} {rs : List (Option (List Byte))} (h : Denotes a rs) : a.len = rs.length := by
  obtain ⟨ws, h1, h2, h3, _⟩ := h.views
  rw [Arr.len, h1, flatten_length16 h3, h2, viewSize]
  omega

theorem views_take {a : Arr} {rs : List (Option (List Byte))} (h : Denotes a rs) : a.views.take (a.len * viewSize) = a.views := by
  obtain ⟨ws, h1, h2, h3, _⟩ := h.views
  rw [denotes_len h, h1, List.take_of_length_le]
  rw [flatten_length16 h3, h2, viewSize]; omega

theorem fits_of {a : Arr} {rs : List (Option (List Byte))} (h : Denotes a rs) : FitsLen a.validity rs.length := by
  rw [FitsLen, h.mask, List.length_map]

theorem viewsFrom_ok {ws : List (List Byte)} (h : ∀ w ∈ ws, w.length = 16) (n i : Nat) (hn : i + n = ws.length) :
    viewsFrom ws.flatten n i = .ok (ws.drop i) := by
  induction n generalizing i with
  | zero => rw [viewsFrom, List.drop_of_length_le (by omega)]
  | succ n ih =>
    have hi : i < ws.length := by omega
    have hfl := flatten_length16 h
    have hs : sub ws.flatten (i * 16) (i * 16 + 16) = .ok ws[i] := by
      rw [VarBin.sub_ok ⟨by omega, by omega⟩, show i * 16 + 16 = (i + 1) * 16 by omega, slice_flatten16 h, BoolPred.slice_succ hi]
      simp
    simp only [viewsFrom, viewSize, hs, Res.ok_bind, ih (i + 1) (by omega)]
    rw [← List.drop_eq_getElem_cons hi]

/-! ### Theorems -/

/-- **C21, views.** `scalar_at`/`bytes_at` return the original bytes of the row, inline or by reference; past the end is an error. -/
theorem C21_view_scalar_at (a : Arr) (rs : List (Option (List Byte))) (h : Denotes a rs) (i : Nat) :
    (∀ r, rs[i]? = some r → scalarAt a i = .ok r) ∧ (rs.length ≤ i → scalarAt a i = .err) := by
  have hlen := denotes_len h
  constructor
  · intro r hr
    have hi : i < rs.length := (List.getElem?_eq_some_iff.mp hr).1
    obtain ⟨b, hb1, hb2⟩ := PArr.isValid_mask (fits_of h) hi
    rw [h.mask, List.getElem?_map, hr] at hb2
    simp at hb2
    simp only [scalarAt, if_neg (show ¬ (i ≥ a.len) by omega), hb1, Res.ok_bind, ← hb2]
    cases r with
    | none => rfl
    | some v =>
      obtain ⟨ws, h1, h2, h3, h4⟩ := h.views
      have hiw : i < ws.length := by omega
      have hH := h4 i ws[i] v (List.getElem?_eq_getElem hiw) hr
      have hv : viewAt a i = .ok ws[i] := by
        rw [viewAt, views_take h, h1, viewSize, sliceList_ok ⟨by omega, by rw [flatten_length16 h3]; omega⟩, slice_flatten16 h3, BoolPred.slice_succ hiw]
        simp
      obtain ⟨_, k1, k2, _⟩ := holds_acc hH (h3 _ (List.getElem_mem hiw))
      have hbytes : bytesAt a i = .ok v := by
        simp only [bytesAt, hv, Res.ok_bind]
        cases hin : isInlined ws[i] with
        | true => simp only [if_true]; exact k1 hin
        | false =>
          obtain ⟨buf, e1, e2, e3⟩ := k2 hin
          simp [e1, e2, e3, Res.assert]
      simp [hbytes]
  · intro hi; simp [scalarAt, hlen, hi]

/-- **C21, views.** Values of at most 12 bytes are inline, longer ones are by reference. -/
theorem C21_view_inline (a : Arr) (rs : List (Option (List Byte))) (h : Denotes a rs) (i : Nat) (v : List Byte) (hr : rs[i]? = some (some v)) :
    ∃ w, viewAt a i = .ok w ∧ (isInlined w = true ↔ v.length ≤ 12) ∧ viewLen w = v.length := by
  obtain ⟨ws, h1, h2, h3, h4⟩ := h.views
  have hi : i < rs.length := (List.getElem?_eq_some_iff.mp hr).1
  have hiw : i < ws.length := by omega
  have hH := h4 i ws[i] v (List.getElem?_eq_getElem hiw) hr
  refine ⟨ws[i], ?_, (holds_acc hH (h3 _ (List.getElem_mem hiw))).2.2.2, ?_⟩
  · rw [viewAt, views_take h, h1, viewSize, sliceList_ok ⟨by omega, by rw [flatten_length16 h3]; omega⟩, slice_flatten16 h3, BoolPred.slice_succ hiw]
    simp
  · rcases hH with ⟨hv, pad, _, e⟩ | ⟨hv, pre, block, off, buf, _, _, ho, e, _⟩
    · rw [e, viewLen, take4, get32_le32 (by omega)]
    · rw [e, viewLen, take4, get32_le32 (by omega)]

/-- **C21, views.** Iterating yields the rows. -/
theorem C21_view_iter (a : Arr) (rs : List (Option (List Byte))) (h : Denotes a rs) : iter a = .ok rs := by
  obtain ⟨ws, h1, h2, h3, h4⟩ := h.views
  have hlen := denotes_len h
  have hvs : viewsFrom a.views a.len 0 = .ok ws := by rw [h1, viewsFrom_ok h3 a.len 0 (by omega)]; rfl
  have hel : ∀ (i : Nat) w r, ws[i]? = some w → rs[i]? = some r → iterElem a.buffers (w, r.isSome) = .ok r := by
    intro i w r hw hr
    cases r with
    | none => rfl
    | some v =>
      have hH := h4 i w v hw hr
      simp [iterElem, (holds_acc hH (h3 w (List.mem_of_getElem? hw))).1]
  obtain ⟨l1, _, l3⟩ := C23_to_logical a.validity a.len (by rw [hlen]; exact fits_of h)
  rw [hlen, h.mask, ← hlen] at l1
  simp only [iter, hvs, Res.ok_bind]
  cases hl : a.validity.toLogical a.len with
  | allValid n =>
    simp only [hl, nullBuffer, LogicalValidity.intoBools, LogicalValidity.len] at l1 l3 ⊢
    apply VarBin.mapM_of_getElem h2
    intro i w hw
    have hi : i < rs.length := by have := (List.getElem?_eq_some_iff.mp hw).1; omega
    refine ⟨rs[i], List.getElem?_eq_getElem hi, ?_⟩
    have hs : rs[i].isSome = true := by
      have : (rs.map Option.isSome)[i]? = (List.replicate n true)[i]? := by rw [l1]
      rw [List.getElem?_map, List.getElem?_eq_getElem hi, List.getElem?_replicate, if_pos (by omega)] at this
      exact Option.some.inj this
    have := hel i w rs[i] hw (List.getElem?_eq_getElem hi)
    rw [hs] at this; exact this
  | allInvalid n =>
    simp only [hl, nullBuffer, LogicalValidity.intoBools, LogicalValidity.len] at l1 l3 ⊢
    rw [l1]
    apply VarBin.mapM_of_getElem (by simp [h2])
    intro i q hq
    rw [List.getElem?_zip_eq_some, List.getElem?_map] at hq
    have hi : i < rs.length := by have := (List.getElem?_eq_some_iff.mp hq.1).1; omega
    rw [List.getElem?_eq_getElem hi] at hq
    refine ⟨rs[i], List.getElem?_eq_getElem hi, ?_⟩
    have := hel i q.1 rs[i] hq.1 (List.getElem?_eq_getElem hi)
    have e2 : rs[i].isSome = q.2 := Option.some.inj hq.2
    rw [e2] at this; exact this
  | array nb =>
    simp only [hl, nullBuffer, LogicalValidity.intoBools, LogicalValidity.len] at l1 l3 ⊢
    rw [l1]
    apply VarBin.mapM_of_getElem (by simp [h2])
    intro i q hq
    rw [List.getElem?_zip_eq_some, List.getElem?_map] at hq
    have hi : i < rs.length := by have := (List.getElem?_eq_some_iff.mp hq.1).1; omega
    rw [List.getElem?_eq_getElem hi] at hq
    refine ⟨rs[i], List.getElem?_eq_getElem hi, ?_⟩
    have := hel i q.1 rs[i] hq.1 (List.getElem?_eq_getElem hi)
    have e2 : rs[i].isSome = q.2 := Option.some.inj hq.2
    rw [e2] at this; exact this

/-- **C21, views.** A slice stands for the slice of the rows; out-of-range bounds are an error. -/
theorem C21_view_slice (a : Arr) (rs : List (Option (List Byte))) (h : Denotes a rs) (s e : Nat) :
    (InBounds rs.length s e → ∃ b, slice a s e = .ok b ∧ Denotes b (Spec.slice rs s e) ∧ b.nullable = a.nullable) ∧
    (¬ InBounds rs.length s e → slice a s e = .err) := by
  have hlen := denotes_len h
  constructor
  · intro hb
    obtain ⟨ws, h1, h2, h3, h4⟩ := h.views
    obtain ⟨w, w1, w2, w3, w4⟩ := mask_slice (fits_of h) hb
    obtain ⟨b1, b2⟩ := hb
    have hsl : sliceList (a.views.take (a.len * viewSize)) (s * viewSize) (e * viewSize) = .ok (Spec.slice ws s e).flatten := by
      rw [views_take h, h1, viewSize, sliceList_ok ⟨by omega, by rw [flatten_length16 h3]; omega⟩, slice_flatten16 h3]
    have hwsl : (Spec.slice ws s e).length = e - s := slice_length' ⟨b1, by omega⟩
    have hrsl : (Spec.slice rs s e).length = e - s := slice_length' ⟨b1, by omega⟩
    have hw16 : ∀ x ∈ Spec.slice ws s e, x.length = 16 := fun x hx => h3 x (VarBin.mem_slice hx)
    have hvl : (Spec.slice ws s e).flatten.length / viewSize = e - s := by
      rw [flatten_length16 hw16, hwsl, viewSize]; omega
    have hbuf : (a.buffers.all fun b => decide (b.length < 2 ^ 32)) = true := by
      rw [List.all_eq_true]; intro b hb; simpa using h.bufs b hb
    refine ⟨⟨a.nullable, (Spec.slice ws s e).flatten, a.buffers, w⟩, ?_, ⟨⟨Spec.slice ws s e, rfl, by omega, hw16, ?_⟩, ?_, h.bufs, ?_⟩, rfl⟩
    · simp only [slice, if_neg (show ¬ (s > a.len) by omega), if_neg (show ¬ (e > a.len) by omega), if_neg (show ¬ (s > e) by omega), hsl, w1,
        Res.ok_bind, tryNew, hvl, Compare.checkLen_of_fits w3, hbuf, h.null, w4]
      simp [Res.guard, h.null]
    · intro i x v hx hv
      rw [slice_getElem?] at hx hv
      split at hx
      · rename_i hlt
        rw [if_pos hlt] at hv
        exact h4 (s + i) x v hx hv
      · cases hx
    · rw [hrsl, w2, h.mask, Spec.slice_map]
    · rw [h.null, ← w4]
  · intro hb
    rw [← hlen] at hb
    simp only [InBounds] at hb
    unfold slice
    split; · rfl
    split; · rfl
    split; · rfl
    omega

/-! ### Building -/

/-- Invariant of the arrow builder: every view holds its value in the completed blocks followed by the block being filled. -/
structure Inv (b : Builder) (rs : List (Option (List Byte))) : Prop where
  len : b.views.length = rs.length
  w16 : ∀ w ∈ b.views, w.length = 16
  holds : ∀ (i : Nat) (w v : List Byte), b.views[i]? = some w → rs[i]? = some (some v) → Holds (b.done ++ [b.cur]) w v
  valid : b.valid = rs.map Option.isSome
  small : ∀ x ∈ b.done ++ [b.cur], x.length < 2 ^ 32

theorem holds_flush {done : List (List Byte)} {cur w v : List Byte} (h : Holds (done ++ [cur]) w v) :
    Holds (done ++ [cur] ++ [[]]) w v := by
  rcases h with h | ⟨hv, pre, block, off, buf, hp, hb, ho, e, hbuf, rest⟩
  · exact Or.inl h
  · refine Or.inr ⟨hv, pre, block, off, buf, hp, hb, ho, e, ?_, rest⟩
    have hl := (List.getElem?_eq_some_iff.mp hbuf).1
    rw [List.getElem?_append_left hl]; exact hbuf

theorem holds_extend {done : List (List Byte)} {cur w v ext : List Byte} (h : Holds (done ++ [cur]) w v) :
    Holds (done ++ [cur ++ ext]) w v := by
  rcases h with h | ⟨hv, pre, block, off, buf, hp, hb, ho, e, hbuf, hin, hval⟩
  · exact Or.inl h
  · by_cases hlt : block < done.length
    · refine Or.inr ⟨hv, pre, block, off, buf, hp, hb, ho, e, ?_, hin, hval⟩
      rw [List.getElem?_append_left hlt] at hbuf ⊢; exact hbuf
    · have hl := (List.getElem?_eq_some_iff.mp hbuf).1
      simp at hl
      have hbe : block = done.length := by omega
      subst hbe
      rw [List.getElem?_append_right (by omega)] at hbuf
      simp at hbuf
      subst hbuf
      refine Or.inr ⟨hv, pre, done.length, off, cur ++ ext, hp, hb, ho, e, by simp, by simp; omega, ?_⟩
      rw [List.drop_append_of_le_length (by omega), List.take_append_of_le_length (by rw [List.length_drop]; omega)]
      exact hval

theorem inv_push {b : Builder} {rs : List (Option (List Byte))} {w : List Byte} {done : List (List Byte)} {cur : List Byte} (hi : Inv b rs)
    (r : Option (List Byte)) (hw : w.length = 16) (hold : ∀ w v, Holds (b.done ++ [b.cur]) w v → Holds (done ++ [cur]) w v)
    (hnew : ∀ v, r = some v → Holds (done ++ [cur]) w v) (hs : ∀ x ∈ done ++ [cur], x.length < 2 ^ 32) :
    Inv ⟨b.views ++ [w], done, cur, b.valid ++ [r.isSome]⟩ (rs ++ [r]) := by
  refine ⟨by simp [hi.len], ?_, ?_, by simp [hi.valid], hs⟩
  · intro x hx
    simp at hx
    rcases hx with hx | rfl
    · exact hi.w16 x hx
    · exact hw
  · intro i x v hx hv
    by_cases hlt : i < b.views.length
    · rw [List.getElem?_append_left hlt] at hx
      rw [List.getElem?_append_left (by rw [← hi.len]; exact hlt)] at hv
      exact hold x v (hi.holds i x v hx hv)
    · have hl := (List.getElem?_eq_some_iff.mp hx).1
      simp at hl
      have he : i = b.views.length := by omega
      subst he
      simp at hx
      rw [hi.len] at hv
      simp at hv
      subst hx
      exact hnew v hv

/-- Whatever the policy for completing blocks, a successful build keeps the invariant. -/
theorem appendAll_inv (flush : List Byte → List Byte → Bool) {b b' : Builder} {rs rs' : List (Option (List Byte))} (hi : Inv b rs)
    (h : appendAll flush b rs' = .ok b') : Inv b' (rs ++ rs') := by
  induction rs' generalizing b rs with
  | nil => simp [appendAll] at h; subst h; simpa using hi
  | cons r rs' ih =>
    cases r with
    | none =>
      simp only [appendAll] at h
      have := ih (rs := rs ++ [none]) (inv_push hi none (w := List.replicate 16 0) (done := b.done) (cur := b.cur) (by simp) (fun _ _ h => h)
        (by intro v hv; cases hv) hi.small) h
      simpa using this
    | some v =>
      simp only [appendAll, Res.bind_eq_ok] at h
      obtain ⟨b1, hb1, hrest⟩ := h
      have hinv : Inv b1 (rs ++ [some v]) := by
        unfold appendValue at hb1
        split at hb1
        · rename_i hv
          have hni : newInlined v = .ok (le32 v.length ++ (v ++ List.replicate (12 - v.length) 0)) := by
            simp [newInlined, maxInlined, hv, Res.assert]
          rw [hni, Res.ok_bind] at hb1
          have := Res.ok.inj hb1
          subst this
          exact inv_push hi (some v) (by simp [le32_length]; omega) (fun _ _ h => h)
            (fun x hx => by cases hx; exact Or.inl ⟨hv, _, by simp, rfl⟩) hi.small
        · rename_i hv
          have hpre : (v.take 4).length = 4 := by simp; omega
          have step : ∀ (done : List (List Byte)) (cur : List Byte), (∀ w x, Holds (b.done ++ [b.cur]) w x → Holds (done ++ [cur]) w x) →
              (∀ x ∈ done, x.length < 2 ^ 32) →
              (if done.length < 2 ^ 32 ∧ cur.length + v.length < 2 ^ 32 then
                Res.ok (Builder.mk (b.views ++ [newView v.length (v.take 4) done.length cur.length]) done (cur ++ v) (b.valid ++ [true]))
              else Res.panic) = .ok b1 → Inv b1 (rs ++ [some v]) := by
            intro done cur hold hsm hb1
            by_cases hfit : done.length < 2 ^ 32 ∧ cur.length + v.length < 2 ^ 32
            · rw [if_pos hfit] at hb1
              have := Res.ok.inj hb1
              subst this
              refine inv_push hi (some v) (by simp [newView, le32_length]; omega) (fun w x hx => holds_extend (hold w x hx)) ?_ ?_
              · intro x hx
                cases hx
                refine Or.inr ⟨by omega, v.take 4, done.length, cur.length, cur ++ v, hpre, hfit.1, hfit.2, rfl, List.getElem?_concat_length,
                  by simp, ?_⟩
                rw [List.drop_left, List.take_length]
              · intro x hx
                rw [List.mem_append] at hx
                rcases hx with hx | hx
                · exact hsm x hx
                · simp only [List.mem_singleton] at hx
                  subst hx
                  rw [List.length_append]; exact hfit.2
            · rw [if_neg hfit] at hb1; cases hb1
          cases hf : flush b.cur v with
          | true =>
            simp only [hf, if_true] at hb1
            exact step _ _ (fun w x hx => holds_flush hx) hi.small hb1
          | false =>
            simp only [hf, Bool.false_eq_true, if_false] at hb1
            exact step _ _ (fun w x hx => hx) (fun x hx => hi.small x (by simp [hx])) hb1
      have := ih hinv hrest
      simpa using this

theorem inv_new : Inv .new [] := ⟨rfl, by simp [Builder.new], by simp [Builder.new], rfl, by simp [Builder.new]⟩

theorem fromArrow_denotes {ws : List (List Byte)} {rs : List (Option (List Byte))} {bufs : List (List Byte)} {nullable : Bool}
    {nulls : Option (List Bool)} (h2 : ws.length = rs.length) (h3 : ∀ w ∈ ws, w.length = 16)
    (h4 : ∀ (i : Nat) (w v : List Byte), ws[i]? = some w → rs[i]? = some (some v) → Holds bufs w v)
    (hbuf : ∀ b ∈ bufs, b.length < 2 ^ 32) (hn : nulls.getD (List.replicate rs.length true) = rs.map Option.isSome)
    (hnn : nullable = true ∨ nulls = none) :
    ∃ a, fromArrow ws.flatten bufs nulls nullable = .ok a ∧ Denotes a rs ∧ a.nullable = nullable := by
  have hvl : ws.flatten.length / viewSize = rs.length := by rw [flatten_length16 h3, h2, viewSize]; omega
  have hball : (bufs.all fun b => decide (b.length < 2 ^ 32)) = true := by
    rw [List.all_eq_true]; intro b hb; simpa using hbuf b hb
  have key : ∀ v : Validity, fromArrowNulls nulls nullable = .ok v → v.nullable = nullable → Spec.mask rs.length v = rs.map Option.isSome →
      ∃ a, fromArrow ws.flatten bufs nulls nullable = .ok a ∧ Denotes a rs ∧ a.nullable = nullable := by
    intro v h1 hv hm
    have hfit : FitsLen v rs.length := by simp [FitsLen, hm]
    refine ⟨⟨nullable, ws.flatten, bufs, v⟩, ?_, ⟨⟨ws, rfl, h2, h3, h4⟩, hm, hbuf, hv.symm⟩, rfl⟩
    simp only [fromArrow, h1, Res.ok_bind, tryNew, hvl, Compare.checkLen_of_fits hfit, hball, hv]
    simp [Res.guard, expect]
  cases nulls with
  | none =>
    simp only [Option.getD_none] at hn
    cases nullable with
    | true => exact key .allValid rfl rfl hn
    | false => exact key .nonNullable rfl rfl hn
  | some nb =>
    simp only [Option.getD_some] at hn
    have hnull : nullable = true := by rcases hnn with h | h; exact h; cases h
    subst hnull
    have hl : nb.length = rs.length := by rw [hn]; simp
    by_cases hc : nb.count false = nb.length
    · refine key .allInvalid (by simp [fromArrowNulls, hc]) rfl ?_
      rw [← hn]
      have : nb = List.replicate nb.length false := by
        rw [List.count_eq_length] at hc
        exact List.eq_replicate_iff.mpr ⟨rfl, fun b hb => (hc b hb).symm⟩
      rw [this, ← hl]; simp [Spec.mask]
    · refine key (Validity.ofBooleanBuffer nb) (by simp [fromArrowNulls, hc]) ?_ ?_
      · unfold Validity.ofBooleanBuffer
        split
        · rfl
        · split <;> rfl
      · have := mask_ofBooleanBuffer nb
        rw [hl] at this; rw [this, hn]

/-- **C21, views.** Building from rows: whenever the build succeeds (blocks and offsets within 32 bits) the array stands for exactly those
rows, whatever block size arrow uses. -/
theorem C21_view_from_iter (flush : List Byte → List Byte → Bool) (nullable : Bool) (rs : List (Option (List Byte)))
    (hn : nullable = true ∨ ∀ r ∈ rs, r.isSome = true) (b : Builder) (hb : appendAll flush .new rs = .ok b) :
    ∃ a, fromIter flush nullable rs = .ok a ∧ Denotes a rs ∧ a.nullable = nullable := by
  have hi := appendAll_inv flush inv_new hb
  rw [List.nil_append] at hi
  have := fromArrow_denotes (ws := b.views) (rs := rs) (bufs := b.done ++ [b.cur]) (nullable := nullable)
    (nulls := if b.valid.all (fun x => x) then none else some b.valid) hi.len hi.w16 hi.holds hi.small ?_ ?_
  · simpa only [fromIter, hb, Res.ok_bind] using this
  · by_cases hall : b.valid.all (fun x => x) = true
    · rw [if_pos hall, Option.getD_none, ← hi.valid]
      rw [all_eq_replicate hall, hi.valid]; simp
    · rw [if_neg hall, Option.getD_some, hi.valid]
  · rcases hn with h | h
    · exact Or.inl h
    · right
      rw [if_pos]
      rw [hi.valid]; simpa using h

/-- When everything fits one block the build succeeds. -/
theorem appendAll_ok (flush : List Byte → List Byte → Bool) {b : Builder} {rs : List (Option (List Byte))}
    (hd : b.done.length + rs.length < 2 ^ 32) (hc : b.cur.length + (rs.map fun r => (r.getD []).length).sum < 2 ^ 32) :
    ∃ b', appendAll flush b rs = .ok b' := by
  induction rs generalizing b with
  | nil => exact ⟨b, rfl⟩
  | cons r rs ih =>
    simp only [List.length_cons, List.map_cons, List.sum_cons] at hd hc
    cases r with
    | none =>
      simp only [appendAll]
      simp only [Option.getD_none, List.length_nil, Nat.zero_add] at hc
      exact ih (by simp only [appendNull]; omega) (by simp only [appendNull]; exact hc)
    | some v =>
      simp only [Option.getD_some] at hc
      simp only [appendAll]
      by_cases hv : v.length ≤ 12
      · have : appendValue flush b v = .ok ⟨b.views ++ [le32 v.length ++ (v ++ List.replicate (12 - v.length) 0)], b.done, b.cur, b.valid ++ [true]⟩ := by
          simp [appendValue, hv, newInlined, maxInlined, Res.assert]
        rw [this, Res.ok_bind]
        exact ih (by simp only; omega) (by simp only; omega)
      · cases hf : flush b.cur v with
        | true =>
          have : appendValue flush b v = .ok ⟨b.views ++ [newView v.length (v.take 4) (b.done ++ [b.cur]).length ([] : List Byte).length],
              b.done ++ [b.cur], [] ++ v, b.valid ++ [true]⟩ := by
            unfold appendValue
            rw [if_neg hv]
            simp only [hf, if_true]
            rw [if_pos]
            simp; omega
          rw [this, Res.ok_bind]
          exact ih (by simp; omega) (by simp; omega)
        | false =>
          have : appendValue flush b v = .ok ⟨b.views ++ [newView v.length (v.take 4) b.done.length b.cur.length],
              b.done, b.cur ++ v, b.valid ++ [true]⟩ := by
            unfold appendValue
            rw [if_neg hv]
            simp only [hf, Bool.false_eq_true, if_false]
            rw [if_pos]
            omega
          rw [this, Res.ok_bind]
          exact ih (by simp; omega) (by simp; omega)

/-- **C21, views.** Round trip: fewer than 2^32 rows and bytes always build and read back. -/
theorem C21_view_roundtrip (flush : List Byte → List Byte → Bool) (rs : List (Option (List Byte))) (hd : rs.length < 2 ^ 32)
    (hc : (rs.map fun r => (r.getD []).length).sum < 2 ^ 32) :
    ∃ a, fromIter flush true rs = .ok a ∧ iter a = .ok rs ∧ ∀ (i : Nat) r, rs[i]? = some r → scalarAt a i = .ok r := by
  obtain ⟨b, hb⟩ := appendAll_ok flush (b := .new) (rs := rs) (by simpa [Builder.new] using hd) (by simpa [Builder.new] using hc)
  obtain ⟨a, h1, h2, _⟩ := C21_view_from_iter flush true rs (Or.inl rfl) b hb
  exact ⟨a, h1, C21_view_iter a rs h2, fun i r hr => (C21_view_scalar_at a rs h2 i).1 r hr⟩

/-! ### Take -/

/-- Full statement for takes: the rows, with the dtype unchanged. -/
def C21_view_take_full : Prop := ∀ (a : Arr) (rs : List (Option (List Byte))), Denotes a rs → ∀ is : List Nat, (∀ i ∈ is, i < rs.length) →
  ∃ b, take a is = .ok b ∧ Denotes b (Spec.take rs is) ∧ b.nullable = a.nullable

theorem nb_of {a : Arr} {rs : List (Option (List Byte))} (h : Denotes a rs) :
    (nullBuffer (a.validity.toLogical a.len)).getD (List.replicate rs.length true) = rs.map Option.isSome := by
  have hlen := denotes_len h
  obtain ⟨l1, _, l3⟩ := C23_to_logical a.validity a.len (by rw [hlen]; exact fits_of h)
  rw [hlen, h.mask, ← hlen] at l1
  rw [← l1]
  cases hl : a.validity.toLogical a.len <;> simp only [hl, LogicalValidity.len] at l3 <;>
    simp [nullBuffer, LogicalValidity.intoBools, l3, hlen]

/-- **C21, views, partial.** `take` returns the requested rows when the source has no null or some taken row is null. Missing: takes of
only non-null rows from an array with nulls (they panic), and the nullability of the result. -/
theorem C21_view_take_partial (a : Arr) (rs : List (Option (List Byte))) (h : Denotes a rs) (is : List Nat) (hi : ∀ i ∈ is, i < rs.length)
    (hn : none ∉ rs ∨ none ∈ Spec.take rs is) :
    ∃ b, take a is = .ok b ∧ Denotes b (Spec.take rs is) := by
  obtain ⟨ws, h1, h2, h3, h4⟩ := h.views
  have hlen := denotes_len h
  have hvs : viewsFrom a.views a.len 0 = .ok ws := by rw [h1, viewsFrom_ok h3 a.len 0 (by omega)]; rfl
  have hiw : ∀ i ∈ is, i < ws.length := fun i hh => by rw [h2]; exact hi i hh
  have hw := res_mapM_idx hiw
  have hnb := nb_of h
  have hl1 : (Spec.take ws is).length = (Spec.take rs is).length := by rw [Spec.take_length hiw, Spec.take_length hi]
  have h16 : ∀ w ∈ Spec.take ws is, w.length = 16 := fun w hw => h3 w (VarBin.mem_take hw)
  have hH : ∀ (i : Nat) (w v : List Byte), (Spec.take ws is)[i]? = some w → (Spec.take rs is)[i]? = some (some v) → Holds a.buffers w v := by
    intro i w v hw hv
    rw [Spec.take_getElem? hiw] at hw
    rw [Spec.take_getElem? hi] at hv
    cases hk : is[i]? with
    | none => rw [hk] at hw; cases hw
    | some k => rw [hk] at hw hv; exact h4 k w v hw hv
  have hcount : ∀ xs : List (Option (List Byte)), (xs.map Option.isSome).count false = 0 ↔ none ∉ xs := by
    intro xs
    rw [List.count_eq_zero, List.mem_map]
    constructor
    · intro hh hm; exact hh ⟨none, hm, rfl⟩
    · rintro hh ⟨x, hx, e⟩
      cases x with
      | none => exact hh hx
      | some _ => cases e
  have hsome : ∀ xs : List (Option (List Byte)), none ∉ xs → xs.map Option.isSome = List.replicate xs.length true := by
    intro xs hx
    refine List.eq_replicate_iff.mpr ⟨by simp, ?_⟩
    intro b hb
    rw [List.mem_map] at hb
    obtain ⟨x, hx', rfl⟩ := hb
    cases x with
    | none => exact absurd hx' hx
    | some _ => rfl
  have hnone : none ∉ rs → ∃ b, fromArrow (Spec.take ws is).flatten a.buffers none false = .ok b ∧ Denotes b (Spec.take rs is) := by
    intro hno
    have hno2 : none ∉ Spec.take rs is := fun hm => hno (VarBin.mem_take hm)
    obtain ⟨b, e1, e2, _⟩ := fromArrow_denotes (nullable := false) (nulls := none) hl1 h16 hH h.bufs (by rw [Option.getD_none, hsome _ hno2]) (Or.inr rfl)
    exact ⟨b, e1, e2⟩
  simp only [take, hvs, hw, Res.ok_bind]
  cases hc : nullBuffer (a.validity.toLogical a.len) with
  | none =>
    rw [hc, Option.getD_none] at hnb
    exact hnone ((hcount rs).mp (by rw [← hnb, List.count_replicate]; simp))
  | some nb =>
    rw [hc, Option.getD_some] at hnb
    subst hnb
    simp only
    by_cases h0 : (rs.map Option.isSome).count false = 0
    · rw [if_pos h0]
      exact hnone ((hcount rs).mp h0)
    · rw [if_neg h0]
      have hm2 : Res.mapM (idx (rs.map Option.isSome)) is = .ok ((Spec.take rs is).map Option.isSome) := by
        rw [res_mapM_idx (by simpa using hi), Spec.take_map]
      have hmem : none ∈ Spec.take rs is := by
        rcases hn with hn | hn
        · exact absurd ((hcount rs).mpr hn) h0
        · exact hn
      have hcc : ((Spec.take rs is).map Option.isSome).count false ≠ 0 := fun hz => ((hcount _).mp hz) hmem
      simp only [hm2, Res.ok_bind, hcc, ne_eq, not_false_eq_true, decide_true]
      obtain ⟨b, e1, e2, _⟩ := fromArrow_denotes (nullable := true) (nulls := some ((Spec.take rs is).map Option.isSome)) hl1 h16 hH h.bufs
        (by simp) (Or.inl rfl)
      exact ⟨b, e1, e2⟩

/-- Rows `["a", null]` as views. -/
def exArr : Arr := ⟨true, le32 1 ++ [97#8] ++ List.replicate 11 0 ++ List.replicate 16 0, [], .array [true, false]⟩

theorem exArr_denotes : Denotes exArr [some [97#8], none] := by
  refine ⟨⟨[le32 1 ++ [97#8] ++ List.replicate 11 0, List.replicate 16 0], by decide, rfl, by decide, ?_⟩, by decide, by decide, rfl⟩
  intro i w v hw hv
  match i with
  | 0 => simp at hw hv; subst hw hv; exact Or.inl ⟨by decide, List.replicate 11 0, by decide, rfl⟩
  | 1 => simp at hv
  | n + 2 => simp at hv

/-- **C21 fails for takes on views**: taking only the non-null row of an array with a null panics (arrow's result has a null buffer but
no null, and the conversion asserts there is none). -/
theorem C21_view_take_panics : take exArr [0] = .panic ∧ ¬ C21_view_take_full := by
  have e : take exArr [0] = .panic := by decide +kernel
  refine ⟨e, fun h => ?_⟩
  obtain ⟨b, h1, _⟩ := h exArr _ exArr_denotes [0] (by decide)
  rw [e] at h1; cases h1

/-- `BinaryView::is_empty` is inverted. -/
theorem C21_view_is_empty_inverted (buffers : List (List Byte)) (w v : List Byte) (h : Holds buffers w v) :
    viewIsEmpty w = true ↔ v ≠ [] := by
  have hl : viewLen w = v.length := by
    rcases h with ⟨hv, pad, hp, rfl⟩ | ⟨hv, pre, block, off, buf, hp, hb, ho, rfl, hbuf, hin, hval⟩ <;>
      rw [viewLen, take4, get32_le32 (by omega)]
  simp only [viewIsEmpty, hl, decide_eq_true_eq]
  exact List.length_pos_iff

/-! ### Non-vacuity: the 12/13-byte boundary, one short, one long, one null row -/

def r12 : List Byte := [1, 2, 3, 4, 5, 6, 7, 8, 9, 10, 11, 12]
def r13 : List Byte := [1, 2, 3, 4, 5, 6, 7, 8, 9, 10, 11, 12, 13]
example : (do let a ← fromIter (fun _ _ => false) true [some r12, some r13, none, some r13]; iter a) = .ok [some r12, some r13, none, some r13] := by
  decide +kernel
example : (do let a ← fromIter (fun c _ => decide (c.length > 0)) true [some r12, some r13, none, some r13]; let s ← slice a 1 4; iter s) =
    .ok [some r13, none, some r13] := by decide +kernel
example : (do let a ← fromIter (fun _ _ => false) true [some r12, some r13, none]; let t ← take a [2, 1, 1]; iter t) =
    .ok [none, some r13, some r13] := by decide +kernel

end Vx.VarBinView
