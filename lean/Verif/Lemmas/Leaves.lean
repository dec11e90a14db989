import Verif.Model.Leaves
import Verif.Props.C09
import Verif.Props.C13
import Verif.Props.C17
import Verif.Props.C19
import Verif.Props.C20
import Verif.Props.C23
import Verif.Spec.TreeBulk
/-!
# Leaf encodings: what their theorems say in terms of the tree
-/
namespace Vx.Tree
open Vx.Spec

theorem slice_nullable {v w : Validity} {s e : Nat} (h : v.slice s e = .ok w) :
    w.nullable = v.nullable ∧ ((∀ bits, v ≠ .array bits) → ∀ bits, w ≠ .array bits) := by
  cases v <;> simp only [Validity.slice, Res.bind_eq_ok] at h
  case array b => exact ⟨by obtain ⟨b, _, h⟩ := h; cases h; rfl, fun hh => absurd rfl (hh b)⟩
  all_goals (cases h; exact ⟨rfl, fun hh => hh⟩)

theorem take_nullable {v w : Validity} {is : List Nat} (h : v.take is = .ok w) : w.nullable = v.nullable := by
  cases v <;> simp only [Validity.take, Res.bind_eq_ok] at h
  case array => obtain ⟨b, _, h⟩ := h; cases h; rfl
  all_goals (cases h; rfl)

theorem filter_nullable {v w : Validity} {m : List Bool} (h : v.filter m = .ok w) : w.nullable = v.nullable := by
  cases v <;> simp only [Validity.filter, Res.bind_eq_ok] at h
  case array => obtain ⟨b, _, h⟩ := h; cases h; rfl
  all_goals (cases h; rfl)

theorem parr_slice_null {a b : PArr α} {s e : Nat} (h : a.slice s e = .ok b) :
    b.validity.nullable = a.validity.nullable ∧ ((∀ bits, a.validity ≠ .array bits) → ∀ bits, b.validity ≠ .array bits) := by
  simp only [PArr.slice, Res.bind_eq_ok] at h
  obtain ⟨_, _, v, hv, h⟩ := h
  cases h
  exact slice_nullable hv

theorem parr_take_null {a b : PArr α} {is : List Nat} (h : a.take is = .ok b) : b.validity.nullable = a.validity.nullable := by
  simp only [PArr.take, Res.bind_eq_ok] at h
  obtain ⟨v, hv, _, _, h⟩ := h
  cases h
  exact take_nullable hv

theorem parr_filter_null {a b : PArr α} {m : List Bool} (h : a.filter m = .ok b) : b.validity.nullable = a.validity.nullable := by
  simp only [PArr.filter, Res.bind_eq_ok] at h
  obtain ⟨v, hv, _, _, h⟩ := h
  cases h
  exact filter_nullable hv

theorem isSome_rows {xs : List α} {m : List Bool} (h : m.length = xs.length) : (Spec.rows xs m).map Option.isSome = m := by
  induction xs generalizing m with
  | nil => cases m <;> simp_all [Spec.rows]
  | cons x xs ih =>
    cases m with
    | nil => simp at h
    | cons b m =>
      have := ih (m := m) (by simpa using h)
      simp only [Spec.rows] at this ⊢
      simp only [List.zipWith_cons_cons, List.map_cons, this]
      cases b <;> rfl

theorem parr_isSome {b : PArr α} (h : b.WF) : b.rows.map Option.isSome = mask b.vals.length b.validity :=
  isSome_rows (show (mask b.vals.length b.validity).length = _ from h)

/-- The row of an optional value. -/
def optSV (f : α → SV) (o : Option α) : SV := o.elim .null f

section
variable {α : Type} {f : α → SV} (hf : ∀ x, (f x).isNull = false)

theorem optSV_null (hf : ∀ x, (f x).isNull = false) (o : Option α) : (optSV f o).isNull = !o.isSome := by
  cases o with
  | none => rfl
  | some x => simp [optSV, hf]

theorem opt_valid (hf : ∀ x, (f x).isNull = false) {v : Validity} {n : Nat} {rs : List (Option α)} (hv : FitsLen v n)
    (hm : rs.map Option.isSome = mask n v) {i : Nat} {r : SV} (hr : (rs.map (optSV f))[i]? = some r) : v.isValid i = .ok (!r.isNull) := by
  simp only [List.getElem?_map, Option.map_eq_some_iff] at hr
  obtain ⟨o, ho, rfl⟩ := hr
  have hi : i < n := by
    have h1 := (List.getElem?_eq_some_iff.mp ho).1
    have h2 := congrArg List.length hm
    rw [List.length_map, show (mask n v).length = n from hv] at h2
    omega
  obtain ⟨b, h1, h2⟩ := PArr.isValid_mask hv hi
  rw [← hm, List.getElem?_map, ho] at h2
  simp only [Option.map_some, Option.some.injEq] at h2
  rw [h1, optSV_null hf, h2]; simp

theorem opt_logical (hf : ∀ x, (f x).isNull = false) {v : Validity} {n : Nat} {rs : List (Option α)} (hv : FitsLen v n)
    (hm : rs.map Option.isSome = mask n v) : (v.toLogical n).intoBools = nonNulls (rs.map (optSV f)) := by
  rw [(C23_to_logical v n hv).1, ← hm]
  simp only [nonNulls, List.map_map]
  apply List.map_congr_left
  intro o _
  simp [optSV_null hf]

theorem opt_scalar (hf : ∀ x, (f x).isNull = false) {rs : List (Option α)} {i : Nat} {r : SV} (hr : (rs.map (optSV f))[i]? = some r)
    (hn : r.isNull = false) {g : Res (Option α)} (hg : ∀ o, rs[i]? = some o → g = .ok o) : nonNullSV f g = .ok r := by
  simp only [List.getElem?_map, Option.map_eq_some_iff] at hr
  obtain ⟨o, ho, rfl⟩ := hr
  rw [hg o ho]
  cases o with
  | none => simp [optSV, SV.isNull] at hn
  | some x => rfl

end

/-! ## Delta -/

theorem delta_mask {k : Delta.Kern T} (hk : k.Lawful) {a : Delta.Arr T} (h : Delta.WF a) :
    (Delta.rows k a).map Option.isSome = mask a.len a.validity :=
  isSome_rows (by rw [Delta.window_length hk h]; exact h.validity)

theorem delta_tryNew {b d : PArr (BitVec T)} {v : Validity} {o n : Nat} {a : Delta.Arr T} (h : Delta.tryNew b d v o n = .ok a) : a = ⟨b, d, v, o, n⟩ := by
  simp only [Delta.tryNew, Res.bind_eq_ok] at h
  obtain ⟨_, _, _, _, _, _, _, _, _, _, _, _, h⟩ := h
  cases h; rfl

theorem delta_slice_keeps {a b : Delta.Arr T} {s e : Nat} (h : Delta.slice a s e = .ok b) :
    b.validity.nullable = a.validity.nullable ∧ b.bases.validity.nullable = a.bases.validity.nullable ∧
    ((∀ bits, a.validity ≠ .array bits) → ∀ bits, b.validity ≠ .array bits) := by
  unfold Delta.slice at h
  split at h
  · cases h
  split at h
  · cases h
  split at h
  · cases h
  simp only [Res.bind_eq_ok] at h
  obtain ⟨x, hx, y, hy, v, hv, h⟩ := h
  have := delta_tryNew h
  subst this
  exact ⟨(slice_nullable hv).1, (parr_slice_null hx).1, (slice_nullable hv).2⟩

theorem delta_decompress_keeps {k : Delta.Kern T} {a : Delta.Arr T} {b : PArr (BitVec T)} (h : Delta.decompress k a = .ok b) :
    b.validity.nullable = a.validity.nullable := by
  simp only [Delta.decompress, Res.bind_eq_ok] at h
  obtain ⟨xs, _, d, hd, h⟩ := h
  have : d.validity = a.validity := by
    unfold Delta.fromVec at hd
    split at hd
    · cases hd; rfl
    · cases hd
  rw [(parr_slice_null h).1, this]

/-! ## ALP-RD -/

theorem alprd_decode_validity {a : ALPRD.Arr n} {b : PArr (BitVec n)} (h : ALPRD.decode a = .ok b) :
    b.validity = (a.left.validity.toLogical a.left.len).intoValidity := by
  simp only [ALPRD.decode, Res.bind_eq_ok] at h
  obtain ⟨⟨_, _⟩, _, v, _, h⟩ := h
  cases h; rfl

theorem alprd_mask {a : ALPRD.Arr n} (h : ALPRD.WF a) : (ALPRD.rows a).map Option.isSome = mask a.left.len a.left.validity := by
  obtain ⟨b, h1, h2, h3⟩ := ALPRD.C13_decode a h
  have hl : b.vals.length = a.left.len := by
    have := PArr.rows_len h2
    rw [h3, ALPRD.rows_length h] at this; exact this.symm
  rw [← h3, parr_isSome h2, hl, alprd_decode_validity h1]
  exact (C23_to_logical _ _ h.left).2.1

theorem alprd_decode_nullable {a : ALPRD.Arr n} {b : PArr (BitVec n)} (h : ALPRD.decode a = .ok b) : b.validity.nullable = true := by
  rw [alprd_decode_validity h]
  cases a.left.validity.toLogical a.left.len <;> rfl

theorem alprd_each_keeps {a b : ALPRD.Arr n} {f : ∀ {X : Type}, PArr X → Res (PArr X)} {g : Sparse (BitVec 16) → Res (Sparse (BitVec 16))}
    (h : ALPRD.each f g a = .ok b) (hf : ∀ q, f a.left = .ok q → q.validity.nullable = a.left.validity.nullable) :
    b.left.validity.nullable = a.left.validity.nullable := by
  simp only [ALPRD.each, Res.bind_eq_ok] at h
  obtain ⟨_, _, l, hl, _, _, h⟩ := h
  simp only [ALPRD.tryNew, Res.bind_eq_ok] at h
  obtain ⟨_, _, _, _, _, _, h⟩ := h
  cases h
  exact hf l hl

theorem alprd_slice_keeps {a b : ALPRD.Arr n} {s e : Nat} (h : ALPRD.slice a s e = .ok b) : b.left.validity.nullable = a.left.validity.nullable :=
  alprd_each_keeps h (fun _ hq => (parr_slice_null hq).1)

theorem alprd_take_keeps {a b : ALPRD.Arr n} {is : List Nat} (h : ALPRD.take a is = .ok b) : b.left.validity.nullable = a.left.validity.nullable :=
  alprd_each_keeps h (fun _ hq => parr_take_null hq)

theorem alprd_filter_keeps {a b : ALPRD.Arr n} {m : List Bool} (h : ALPRD.filter a m = .ok b) : b.left.validity.nullable = a.left.validity.nullable :=
  alprd_each_keeps h (fun _ hq => parr_filter_null hq)

/-! ## FSST -/

/-- The rows of an FSST array: each code string decoded. -/
def fsstRows (a : FSST.Arr) : List (Option (List (BitVec 8))) :=
  (VarBin.rows a.codes).map (Option.map (fun c => match FSST.decode a.syms c with
    | .ok s => s
    | _ => []))

theorem fsstRows_of {a : FSST.Arr} {rs : List (Option (List (BitVec 8)))} (h : FSST.Denotes a rs) : fsstRows a = rs := by
  have hl := VarBin.rows_len h.wf
  have hll := h.len
  apply List.ext_getElem?
  intro i
  simp only [fsstRows, List.getElem?_map]
  cases hc : (VarBin.rows a.codes)[i]? with
  | none =>
    have := List.getElem?_eq_none_iff.mp hc
    rw [Option.map_none, List.getElem?_eq_none (by omega)]
  | some c =>
    have hi := (List.getElem?_eq_some_iff.mp hc).1
    obtain ⟨r, hr⟩ : ∃ r, rs[i]? = some r := ⟨_, List.getElem?_eq_getElem (by omega)⟩
    have hd := h.dec i c r hc hr
    rw [hr, Option.map_some]
    cases c <;> cases r <;> simp only [FSST.DecodesTo] at hd
    · rfl
    · simp [hd]

theorem bytesSV_nonnull (k : Kind) (bs : List (BitVec 8)) : (bytesSV k bs).isNull = false := by cases k <;> rfl

theorem tickSV_nonnull (t : Int) : (tickSV t).isNull = false := rfl

theorem prim_nonnull (p : PType) (x : BitVec p.bits) : (SV.prim ⟨p, x⟩).isNull = false := rfl

/-! ## Date-time parts -/

/-- The rows of a date-time-parts array: the recombined timestamps. -/
def dtpRows (a : DateTimeParts.Arr) : List (Option Int) :=
  match DateTimeParts.decode a with
  | .ok b => b.rows
  | _ => []

theorem dtp_facts {a : DateTimeParts.Arr} (h : DateTimeParts.WF a) {b : PArr Int} (hb : DateTimeParts.decode a = .ok b) :
    dtpRows a = b.rows ∧ (dtpRows a).length = a.days.len ∧ (dtpRows a).map Option.isSome = mask a.days.len (DateTimeParts.validity a) ∧
    (dtpRows a).map Option.isSome = mask a.days.len a.days.validity := by
  obtain ⟨_, h2, h3⟩ := DateTimeParts.decode_inv h hb
  obtain ⟨m1, m2⟩ := DateTimeParts.validity_mask h
  have hw : b.WF := by rw [PArr.WF, h3, h2]; exact m2
  have he : dtpRows a = b.rows := by simp [dtpRows, hb]
  have hs := parr_isSome hw
  rw [h3, h2] at hs
  refine ⟨he, ?_, by rw [he, hs], by rw [he, hs, m1]⟩
  rw [he, PArr.rows_len hw]; exact h3

end Vx.Tree
