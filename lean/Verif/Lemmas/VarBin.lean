import Verif.Model.VarBin
import Verif.Lemmas.Rows
import Verif.Lemmas.Validity
import Verif.Lemmas.Primitive
import Verif.Props.C23
/-! # Facts about the variable-length binary model -/

namespace Vx

/-! ### Bit iterators -/

namespace BoolPred
open Spec

theorem take_indicesFrom {xs : List α} (i : Nat) (bs : List Bool) (h : i + bs.length ≤ xs.length) :
    Spec.take xs (indicesFrom i bs) = Spec.filter (xs.drop i) bs := by
  induction bs generalizing i with
  | nil => simp [indicesFrom]
  | cons b bs ih =>
    simp only [List.length_cons] at h
    have hi : i < xs.length := by omega
    have hd : xs.drop i = xs[i] :: xs.drop (i + 1) := List.drop_eq_getElem_cons hi
    rw [hd]
    cases b with
    | true => rw [indicesFrom, take_cons hi, ih (i + 1) (by omega), filter_true]
    | false => rw [indicesFrom, ih (i + 1) (by omega)]; rfl

theorem mem_indicesFrom {i j : Nat} {bs : List Bool} (h : j ∈ indicesFrom i bs) : i ≤ j ∧ j < i + bs.length := by
  induction bs generalizing i with
  | nil => simp [indicesFrom] at h
  | cons b bs ih =>
    cases b with
    | true =>
      rcases List.mem_cons.mp h with rfl | h
      · simp
      · have := ih h; simp; omega
    | false => have := ih h; simp; omega

theorem slice_append {xs : List α} {a b c : Nat} (h1 : a ≤ b) (h2 : b ≤ c) :
    Spec.slice xs a b ++ Spec.slice xs b c = Spec.slice xs a c := by
  rw [slice_eq_drop_take, slice_eq_drop_take, slice_eq_drop_take]
  rw [show c - a = (b - a) + (c - b) by omega, List.take_add, List.drop_drop, show a + (b - a) = b by omega]

theorem slice_self (xs : List α) (a : Nat) : Spec.slice xs a a = [] := by simp [slice_eq_drop_take]

theorem slice_succ {xs : List α} {i : Nat} (h : i < xs.length) : Spec.slice xs i (i + 1) = [xs[i]] := by
  rw [slice_eq_drop_take, List.drop_eq_getElem_cons h, show i + 1 - i = 1 by omega]
  rfl

/-- Concatenating the runs of set bits is filtering. -/
theorem flatMap_slicesFrom {xs : List α} (i : Nat) (cur : Option Nat) (bs : List Bool) (h : i + bs.length ≤ xs.length)
    (hc : ∀ s, cur = some s → s ≤ i) :
    (slicesFrom i cur bs).flatMap (fun r => Spec.slice xs r.1 r.2) = Spec.slice xs (cur.getD i) i ++ Spec.filter (xs.drop i) bs := by
  induction bs generalizing i cur with
  | nil => cases cur <;> simp [slicesFrom, slice_self]
  | cons b bs ih =>
    simp only [List.length_cons] at h
    have hi : i < xs.length := by omega
    have hd : xs.drop i = xs[i] :: xs.drop (i + 1) := List.drop_eq_getElem_cons hi
    rw [hd]
    have hle : cur.getD i ≤ i := by cases cur with
      | none => simp
      | some s => simpa using hc s rfl
    cases b with
    | true =>
      rw [slicesFrom, ih (i + 1) _ (by omega) (by intro s hs; simp at hs; omega), filter_true]
      simp only [Option.getD_some]
      rw [← slice_append (b := i) hle (by omega), slice_succ hi]
      simp
    | false =>
      cases cur with
      | none =>
        rw [slicesFrom, ih (i + 1) none (by omega) (by simp)]
        simp only [Option.getD_none, slice_self]
        rfl
      | some s =>
        rw [slicesFrom, List.flatMap_cons, ih (i + 1) none (by omega) (by simp)]
        simp only [Option.getD_none, slice_self, Option.getD_some]
        rfl

theorem mem_slicesFrom {i : Nat} {cur : Option Nat} {bs : List Bool} (hc : ∀ s, cur = some s → s ≤ i) {r : Nat × Nat}
    (h : r ∈ slicesFrom i cur bs) : r.1 ≤ r.2 ∧ r.2 ≤ i + bs.length := by
  induction bs generalizing i cur with
  | nil =>
    cases cur with
    | none => simp [slicesFrom] at h
    | some s => simp [slicesFrom] at h; subst h; simpa using hc s rfl
  | cons b bs ih =>
    cases b with
    | true =>
      have := ih (i := i + 1) (cur := some (cur.getD i)) (by
        intro s hs; simp at hs; subst hs
        cases cur with
        | none => simp
        | some s => have := hc s rfl; simp; omega) h
      simp; omega
    | false =>
      cases cur with
      | none => have := ih (i := i + 1) (cur := none) (by simp) h; simp; omega
      | some s =>
        rw [slicesFrom] at h
        rcases List.mem_cons.mp h with rfl | h
        · have := hc s rfl; simp; exact this
        · have := ih (i := i + 1) (cur := none) (by simp) h; simp; omega

/-- A predicate whose iterators see its logical bits: bit offset zero. -/
theorem iterBits_eq {p : BoolPred} (h : p.off = 0) : p.iterBits = p.bits := by simp [iterBits, bits, h]

theorem bits_length {p : BoolPred} (h : p.WF) : p.bits.length = p.len := by
  simp only [WF] at h
  simp [bits]; omega

end BoolPred

namespace VarBin
open Spec BoolPred

/-! ### Builder states -/

/-- Cumulative end positions. -/
def ends (acc : Nat) : List (List Byte) → List Nat
  | [] => []
  | x :: xs => (acc + x.length) :: ends (acc + x.length) xs

def vals (rs : List (Option (List Byte))) : List (List Byte) := rs.map (·.getD [])

/-- The builder state after pushing `rs`. -/
def bst (rs : List (Option (List Byte))) : Builder := ⟨0 :: ends 0 (vals rs), (vals rs).flatten, rs.map Option.isSome⟩

/-- Bytes stored by `rs`. -/
def total (rs : List (Option (List Byte))) : Nat := (vals rs).flatten.length

theorem ends_length (acc : Nat) (xs : List (List Byte)) : (ends acc xs).length = xs.length := by
  induction xs generalizing acc with
  | nil => rfl
  | cons x xs ih => simp [ends, ih]

theorem ends_append (acc : Nat) (xs ys : List (List Byte)) : ends acc (xs ++ ys) = ends acc xs ++ ends (acc + xs.flatten.length) ys := by
  induction xs generalizing acc with
  | nil => simp [ends]
  | cons x xs ih => simp [ends, ih, Nat.add_assoc]

theorem ends_last (acc : Nat) (xs : List (List Byte)) : (acc :: ends acc xs)[xs.length]? = some (acc + xs.flatten.length) := by
  induction xs generalizing acc with
  | nil => simp
  | cons x xs ih =>
    have := ih (acc + x.length)
    simp only [ends, List.length_cons, List.getElem?_cons_succ]
    rw [this]
    simp [Nat.add_assoc]

theorem vals_append (rs rs' : List (Option (List Byte))) : vals (rs ++ rs') = vals rs ++ vals rs' := by simp [vals]

theorem total_append (rs rs' : List (Option (List Byte))) : total (rs ++ rs') = total rs + total rs' := by
  simp [total, vals_append]

theorem total_cons (r : Option (List Byte)) (rs : List (Option (List Byte))) : total (r :: rs) = (r.getD []).length + total rs := by
  simp [total, vals]

theorem bst_nil : bst [] = Builder.new := rfl

theorem pushValue_bst {maxO : Nat} {rs : List (Option (List Byte))} {v : List Byte} (h : total rs + v.length ≤ maxO) :
    pushValue maxO (bst rs) v = .ok (bst (rs ++ [some v])) := by
  have h' : (vals rs).flatten.length + v.length ≤ maxO := h
  unfold pushValue
  rw [if_pos (show (bst rs).data.length + v.length ≤ maxO from h')]
  simp only [bst, vals_append, ends_append, List.flatten_append, List.map_append]
  simp [vals, ends]

theorem pushNull_bst (rs : List (Option (List Byte))) : pushNull (bst rs) = .ok (bst (rs ++ [none])) := by
  have hl : (bst rs).offsets.length = rs.length + 1 := by simp [bst, ends_length, vals]
  have hv : (vals rs).length = rs.length := by simp [vals]
  have he := ends_last 0 (vals rs)
  rw [hv] at he
  have hs : Res.sub (bst rs).offsets.length 1 = .ok rs.length := by rw [hl, Res.sub_of_le (by omega)]; rfl
  have hi : idx (bst rs).offsets rs.length = .ok (vals rs).flatten.length := by
    simp only [idx, bst]; rw [he]; simp
  simp only [pushNull, hs, hi, Res.ok_bind]
  simp only [bst, vals_append, ends_append]
  simp [vals, ends]

theorem push_bst {maxO : Nat} {rs : List (Option (List Byte))} {r : Option (List Byte)} (h : total rs + total [r] ≤ maxO) :
    push maxO (bst rs) r = .ok (bst (rs ++ [r])) := by
  cases r with
  | none => exact pushNull_bst rs
  | some v => exact pushValue_bst (by simpa [total, vals] using h)

theorem pushAll_bst {maxO : Nat} {rs rs' : List (Option (List Byte))} (h : total rs + total rs' ≤ maxO) :
    pushAll maxO (bst rs) rs' = .ok (bst (rs ++ rs')) := by
  induction rs' generalizing rs with
  | nil => simp [pushAll]
  | cons r rs' ih =>
    have e : total (r :: rs') = total [r] + total rs' := by rw [← List.singleton_append, total_append]
    rw [e] at h
    simp only [pushAll, push_bst (show total rs + total [r] ≤ maxO by omega), Res.ok_bind]
    rw [ih (by rw [total_append]; omega)]
    simp

/-- Too many bytes for the offset type is a panic, never a wrapped offset. -/
theorem pushAll_panic {maxO : Nat} {rs rs' : List (Option (List Byte))} (h0 : total rs ≤ maxO) (h : maxO < total rs + total rs') :
    pushAll maxO (bst rs) rs' = .panic := by
  induction rs' generalizing rs with
  | nil => simp [total, vals] at h h0; omega
  | cons r rs' ih =>
    have e : total (r :: rs') = total [r] + total rs' := by rw [← List.singleton_append, total_append]
    rw [e] at h
    by_cases h1 : total rs + total [r] ≤ maxO
    · simp only [pushAll, push_bst h1, Res.ok_bind]
      exact ih (by rw [total_append]; omega) (by rw [total_append]; omega)
    · cases r with
      | none => simp [total, vals] at h1 h0; omega
      | some v =>
        have : ¬ ((bst rs).data.length + v.length ≤ maxO) := by
          show ¬ ((vals rs).flatten.length + v.length ≤ maxO)
          simpa [total, vals] using h1
        simp only [pushAll, push]
        unfold pushValue
        rw [if_neg this]
        rfl

/-! ### Arrays -/

/-- The stored value of each row, also under nulls. -/
def spans (a : Arr) : List (List Byte) := List.zipWith (fun s e => Spec.slice a.bytes s e) a.offsets a.offsets.tail

/-- What the array stands for. -/
def rows (a : Arr) : List (Option (List Byte)) := Spec.rows (spans a) (mask a.len a.validity)

/-- Null rows store no bytes (true of everything the builder makes). -/
def Tight (a : Arr) : Prop := spans a = vals (rows a)

structure WF (a : Arr) : Prop where
  ne : a.offsets ≠ []
  mono : a.offsets.Pairwise (· ≤ ·)
  inb : ∀ o ∈ a.offsets, o ≤ a.bytes.length
  fits : FitsLen a.validity a.len
  null : a.nullable = a.validity.nullable

theorem spans_length (a : Arr) : (spans a).length = a.len := by
  simp [spans, Arr.len]

theorem rows_len {a : Arr} (hw : WF a) : (rows a).length = a.len := by
  have := hw.fits
  simp only [FitsLen] at this
  simp [rows, Spec.rows, spans_length, this]

theorem idx_offset {a : Arr} (i : Nat) (hi : i < a.len) : ∃ s e, a.offsets[i]? = some s ∧ a.offsets[i + 1]? = some e ∧
    (spans a)[i]? = some (Spec.slice a.bytes s e) := by
  have h1 : i < a.offsets.length := by simp only [Arr.len] at hi; omega
  have h2 : i + 1 < a.offsets.length := by simp only [Arr.len] at hi; omega
  refine ⟨a.offsets[i], a.offsets[i + 1], List.getElem?_eq_getElem h1, List.getElem?_eq_getElem h2, ?_⟩
  have ht : a.offsets.tail[i]? = some a.offsets[i + 1] := by rw [List.getElem?_tail]; exact List.getElem?_eq_getElem h2
  simp only [spans, List.getElem?_zipWith, List.getElem?_eq_getElem h1, ht]

theorem offset_bounds {a : Arr} (hw : WF a) {i s e : Nat} (h1 : a.offsets[i]? = some s) (h2 : a.offsets[i + 1]? = some e) :
    s ≤ e ∧ e ≤ a.bytes.length := by
  obtain ⟨l1, rfl⟩ := List.getElem?_eq_some_iff.mp h1
  obtain ⟨l2, rfl⟩ := List.getElem?_eq_some_iff.mp h2
  exact ⟨List.pairwise_iff_getElem.mp hw.mono i (i + 1) l1 l2 (by omega), hw.inb _ (List.getElem_mem _)⟩

theorem sub_ok {data : List Byte} {s e : Nat} (h : s ≤ e ∧ e ≤ data.length) : sub data s e = .ok (Spec.slice data s e) := by
  simp [sub, h, slice_eq_drop_take]

theorem spanAt_ok {a : Arr} (hw : WF a) {i : Nat} (hi : i < a.len) :
    ∃ x, spanAt a.offsets a.bytes i = .ok x ∧ (spans a)[i]? = some x := by
  obtain ⟨s, e, h1, h2, h3⟩ := idx_offset i hi
  refine ⟨_, ?_, h3⟩
  simp [spanAt, idx, h1, h2, sub_ok (offset_bounds hw h1 h2)]

theorem bytesAt_ok {a : Arr} (hw : WF a) {i : Nat} (hi : i < a.len) : ∃ x, bytesAt a i = .ok x ∧ (spans a)[i]? = some x := by
  obtain ⟨s, e, h1, h2, h3⟩ := idx_offset i hi
  refine ⟨_, ?_, h3⟩
  simp [bytesAt, idx, h1, h2, sliceList_ok (offset_bounds hw h1 h2)]

/-- Concatenated spans of a window of offsets. -/
theorem flatten_window (data : List Byte) (o : Nat) (os : List Nat) (h : (o :: os).Pairwise (· ≤ ·)) :
    (List.zipWith (fun s e => Spec.slice data s e) (o :: os) os).flatten = Spec.slice data o ((o :: os).getLast (by simp)) := by
  induction os generalizing o with
  | nil => simp [slice_self]
  | cons o' os ih =>
    rw [List.pairwise_cons] at h
    have hlast : o' ≤ (o' :: os).getLast (by simp) := by
      cases os with
      | nil => simp
      | cons x xs => exact (List.pairwise_cons.mp h.2).1 _ (by simp [List.getLast_mem])
    simp only [List.zipWith_cons_cons, List.flatten_cons]
    rw [ih o' h.2, slice_append (h.1 o' (by simp)) hlast, List.getLast_cons (List.cons_ne_nil o' os)]

/-- `sliced_bytes` is the concatenation of the stored values. -/
theorem slicedBytes_ok {a : Arr} (hw : WF a) : slicedBytes a = .ok (spans a).flatten := by
  obtain ⟨nullable, offsets, bytes, validity⟩ := a
  cases offsets with
  | nil => exact absurd rfl hw.ne
  | cons o os =>
    have hm := hw.mono
    have hi := hw.inb
    simp only at hm hi
    have hl : (o :: os)[(o :: os).length - 1]? = some ((o :: os).getLast (by simp)) := by
      rw [← List.getLast?_eq_getElem?, List.getLast?_eq_some_getLast (by simp)]
    have hs : Res.sub (o :: os).length 1 = .ok ((o :: os).length - 1) := Res.sub_of_le (by simp)
    have hb : InBounds bytes.length o ((o :: os).getLast (by simp)) := by
      refine ⟨?_, hi _ (List.getLast_mem _)⟩
      cases os with
      | nil => simp
      | cons x xs => exact (List.pairwise_cons.mp hm).1 _ (by simp [List.getLast_mem])
    have hfw := flatten_window bytes o os hm
    simp only [slicedBytes, hs, hl, Res.ok_bind, List.getElem?_cons_zero, Res.ofOption_some, sliceList_ok hb, spans, List.tail_cons]
    rw [hfw]

/-! ### Finishing a builder -/

theorem spans_ends (pre : List Byte) (xs : List (List Byte)) (suf : List Byte) :
    List.zipWith (fun s e => Spec.slice (pre ++ xs.flatten ++ suf) s e) (pre.length :: ends pre.length xs) (ends pre.length xs) = xs := by
  induction xs generalizing pre with
  | nil => simp [ends]
  | cons x xs ih =>
    have := ih (pre ++ x)
    simp only [List.length_append] at this
    simp only [ends, List.zipWith_cons_cons, List.cons.injEq]
    constructor
    · rw [slice_eq_drop_take]
      simp
    · simpa using this

theorem ends_mono (acc : Nat) (xs : List (List Byte)) :
    (acc :: ends acc xs).Pairwise (· ≤ ·) ∧ ∀ o ∈ acc :: ends acc xs, o ≤ acc + xs.flatten.length := by
  induction xs generalizing acc with
  | nil => simp [ends]
  | cons x xs ih =>
    obtain ⟨h1, h2⟩ := ih (acc + x.length)
    constructor
    · rw [ends, List.pairwise_cons]
      refine ⟨?_, h1⟩
      intro o ho
      rcases List.mem_cons.mp ho with rfl | ho
      · omega
      · have := (List.pairwise_cons.mp h1).1 o ho; omega
    · intro o ho
      rcases List.mem_cons.mp ho with rfl | ho
      · omega
      · have := h2 o ho
        simp only [List.flatten_cons, List.length_append]
        omega

theorem rows_of_opts (rs : List (Option (List Byte))) : Spec.rows (vals rs) (rs.map Option.isSome) = rs := by
  induction rs with
  | nil => rfl
  | cons r rs ih =>
    simp only [Spec.rows, vals, List.map_cons, List.zipWith_cons_cons] at ih ⊢
    rw [ih]
    cases r <;> rfl

theorem finish_bst {rs : List (Option (List Byte))} {nullable : Bool} (h : nullable = true ∨ ∀ r ∈ rs, r.isSome = true) :
    ∃ a, finish (bst rs) nullable = .ok a ∧ WF a ∧ rows a = rs ∧ a.nullable = nullable ∧ spans a = vals rs ∧
      (∀ o ∈ a.offsets, o ≤ total rs) := by
  have hlen : (bst rs).offsets.length = rs.length + 1 := by simp [bst, ends_length, vals]
  have hsub : Res.sub (bst rs).offsets.length 1 = .ok rs.length := by rw [hlen, Res.sub_of_le (by omega)]; rfl
  have key : ∀ v : Validity, v.nullable = nullable → mask rs.length v = rs.map Option.isSome →
      ∃ a, expect (tryNew nullable (bst rs).offsets (bst rs).data v) = .ok a ∧ WF a ∧ rows a = rs ∧ a.nullable = nullable ∧
        spans a = vals rs ∧ (∀ o ∈ a.offsets, o ≤ total rs) := by
    intro v hv hm
    have hfit : FitsLen v rs.length := by simp [FitsLen, hm]
    have hck : v.checkLen rs.length = .ok () := by
      cases v with
      | array b => simp [mask] at hm; simp [Validity.checkLen, hm]
      | _ => rfl
    have hsp : spans ⟨nullable, (bst rs).offsets, (bst rs).data, v⟩ = vals rs := by
      have := spans_ends [] (vals rs) []
      simpa [spans, bst] using this
    have hl : (Arr.mk nullable (bst rs).offsets (bst rs).data v).len = rs.length := by simp only [Arr.len, hlen]; omega
    have hmono := ends_mono 0 (vals rs)
    refine ⟨⟨nullable, (bst rs).offsets, (bst rs).data, v⟩, ?_, ⟨?_, hmono.1, ?_, ?_, hv.symm⟩, ?_, rfl, hsp, ?_⟩
    · simp [tryNew, hsub, hck, Res.guard, hv, expect]
    · simp [bst]
    · intro o ho; have := hmono.2 o ho; simpa [bst] using this
    · rw [hl]; exact hfit
    · simp only [rows, hsp, hl, hm]; exact rows_of_opts rs
    · intro o ho; have := hmono.2 o ho; simpa [total] using this
  have hvalid : (bst rs).valid = rs.map Option.isSome := rfl
  unfold finish
  rw [hvalid]
  by_cases hall : (rs.map Option.isSome).all (fun x => x) = true
  · have hrep : rs.map Option.isSome = List.replicate rs.length true := by
      have := all_eq_replicate hall; simpa using this
    simp only [hall, if_true]
    cases nullable with
    | true => exact key .allValid rfl (by rw [hrep]; rfl)
    | false => exact key .nonNullable rfl (by rw [hrep]; rfl)
  · have hn : nullable = true := by
      rcases h with h | h
      · exact h
      · exfalso; apply hall; simpa using h
    subst hn
    simp only [hall, if_true, Bool.false_eq_true, if_false]
    have hm : mask rs.length (Validity.ofBooleanBuffer (rs.map Option.isSome)) = rs.map Option.isSome := by
      have := mask_ofBooleanBuffer (rs.map Option.isSome)
      simpa using this
    refine key (Validity.ofBooleanBuffer (rs.map Option.isSome)) ?_ hm
    unfold Validity.ofBooleanBuffer
    split
    · rfl
    · split <;> rfl

/-! ### Totals -/

theorem total_eq_sum (rs : List (Option (List Byte))) : total rs = (rs.map (fun r => (r.getD []).length)).sum := by
  simp only [total, vals, List.length_flatten, List.map_map]
  rfl

theorem sum_filter_le (f : α → Nat) (xs : List α) (bs : List Bool) : ((Spec.filter xs bs).map f).sum ≤ (xs.map f).sum := by
  induction xs generalizing bs with
  | nil => simp
  | cons x xs ih =>
    cases bs with
    | nil => simp
    | cons b bs =>
      cases b with
      | true => simp; exact ih bs
      | false => have := ih bs; simp [Spec.filter]; omega

theorem total_filter_le (rs : List (Option (List Byte))) (bs : List Bool) : total (Spec.filter rs bs) ≤ total rs := by
  simp only [total_eq_sum]; exact sum_filter_le _ _ _

theorem total_rows_le (xs : List (List Byte)) (m : List Bool) : total (Spec.rows xs m) ≤ xs.flatten.length := by
  induction xs generalizing m with
  | nil => simp [Spec.rows, total, vals]
  | cons x xs ih =>
    cases m with
    | nil => simp [Spec.rows, total, vals]
    | cons b m =>
      have := ih m
      simp only [Spec.rows] at this
      simp only [Spec.rows, List.zipWith_cons_cons, total_cons, List.flatten_cons, List.length_append]
      cases b <;> simp only [Bool.false_eq_true, if_false, if_true, Option.getD_none, Option.getD_some, List.length_nil] <;> omega

theorem spans_total {a : Arr} (hw : WF a) : ∃ o ∈ a.offsets, (spans a).flatten.length ≤ o := by
  obtain ⟨nullable, offsets, bytes, validity⟩ := a
  cases offsets with
  | nil => exact absurd rfl hw.ne
  | cons o os =>
    refine ⟨(o :: os).getLast (by simp), List.getLast_mem _, ?_⟩
    simp only [spans, List.tail_cons]
    rw [flatten_window bytes o os hw.mono, slice_length]
    omega

end VarBin
end Vx

namespace Vx.VarBin
open Spec BoolPred

/-! ### Loops -/

theorem mapM_take {f : Nat → Res β} {xs : List β} {is : List Nat} (h : ∀ i ∈ is, ∃ x, f i = .ok x ∧ xs[i]? = some x) :
    Res.mapM f is = .ok (Spec.take xs is) := by
  induction is with
  | nil => rfl
  | cons i is ih =>
    obtain ⟨x, h1, h2⟩ := h i (by simp)
    have := ih (fun j hj => h j (by simp [hj]))
    simp [h1, this, Spec.take, List.filterMap_cons, h2]

theorem takeNullLoop_eq {maxO : Nat} {os : List Nat} {d : List Byte} {nb : List Bool} {is : List Nat} {xs : List (Option (List Byte))}
    (h : Res.mapM (nullElem os d nb) is = .ok xs) (b : Builder) : takeNullLoop maxO os d nb b is = pushAll maxO b xs := by
  induction is generalizing b xs with
  | nil => simp at h; subst h; rfl
  | cons i is ih =>
    simp [Res.bind_eq_ok] at h
    obtain ⟨x, h1, ys, h2, rfl⟩ := h
    simp only [takeNullLoop, pushAll, h1, Res.ok_bind]
    cases push maxO b x with
    | ok b' => exact ih h2 b'
    | err => rfl
    | panic => rfl

theorem takeLoop_eq {maxO : Nat} {os : List Nat} {d : List Byte} {is : List Nat} {xs : List (List Byte)}
    (h : Res.mapM (spanAt os d) is = .ok xs) (b : Builder) : takeLoop maxO os d b is = pushAll maxO b (xs.map some) := by
  induction is generalizing b xs with
  | nil => simp at h; subst h; rfl
  | cons i is ih =>
    simp [Res.bind_eq_ok] at h
    obtain ⟨x, h1, ys, h2, rfl⟩ := h
    simp only [takeLoop, pushAll, h1, Res.ok_bind, List.map_cons]
    cases push maxO b (some x) with
    | ok b' => exact ih h2 b'
    | err => rfl
    | panic => rfl

theorem idxLoop_eq {maxO : Nat} {a : Arr} {is : List Nat} {xs : List (Option (List Byte))}
    (h : Res.mapM (idxElem a) is = .ok xs) (b : Builder) : idxLoop maxO a b is = pushAll maxO b xs := by
  induction is generalizing b xs with
  | nil => simp at h; subst h; rfl
  | cons i is ih =>
    simp [Res.bind_eq_ok] at h
    obtain ⟨x, h1, ys, h2, rfl⟩ := h
    simp only [idxLoop, pushAll, h1, Res.ok_bind]
    cases push maxO b x with
    | ok b' => exact ih h2 b'
    | err => rfl
    | panic => rfl

/-! ### Null buffers -/

theorem nullBuffer_some {a : Arr} (hw : WF a) {nb : List Bool} (h : nullBuffer (a.validity.toLogical a.len) = some nb) :
    nb = mask a.len a.validity ∧ a.nullable = true := by
  obtain ⟨h1, _, h3⟩ := C23_to_logical a.validity a.len hw.fits
  constructor
  · rw [← h1]
    cases hl : a.validity.toLogical a.len <;> rw [hl] at h h3 <;> simp [nullBuffer] at h <;>
      simp [LogicalValidity.intoBools, h]
  · rw [hw.null]
    cases hv : a.validity with
    | nonNullable => simp [hv, Validity.toLogical, nullBuffer] at h
    | allValid => rfl
    | allInvalid => rfl
    | array bits => rfl

theorem nullBuffer_none {a : Arr} (hw : WF a) (h : nullBuffer (a.validity.toLogical a.len) = none) :
    mask a.len a.validity = List.replicate a.len true := by
  obtain ⟨h1, _, h3⟩ := C23_to_logical a.validity a.len hw.fits
  rw [← h1]
  cases hl : a.validity.toLogical a.len <;> rw [hl] at h h3 <;> simp [nullBuffer] at h
  simp [LogicalValidity.intoBools]
  simpa [LogicalValidity.len] using h3

/-! ### Elements -/

theorem rows_all (xs : List α) : Spec.rows xs (List.replicate xs.length true) = xs.map some := by
  induction xs with
  | nil => rfl
  | cons x xs ih =>
    simp only [Spec.rows, List.length_cons, List.replicate_succ, List.zipWith_cons_cons, List.map_cons, if_true] at ih ⊢
    rw [ih]

theorem rows_some {a : Arr} (h : mask a.len a.validity = List.replicate a.len true) : rows a = (spans a).map some := by
  rw [rows, h, ← spans_length a]
  exact rows_all _

theorem row_at {a : Arr} {i : Nat} {x : List Byte} {b : Bool} (h1 : (spans a)[i]? = some x) (h2 : (mask a.len a.validity)[i]? = some b) :
    (rows a)[i]? = some (if b then some x else none) := by
  simp [rows, Spec.rows, List.getElem?_zipWith, h1, h2]

theorem nullElem_ok {a : Arr} (hw : WF a) {i : Nat} (hi : i < a.len) :
    ∃ r, nullElem a.offsets a.bytes (mask a.len a.validity) i = .ok r ∧ (rows a)[i]? = some r := by
  obtain ⟨x, h1, h2⟩ := spanAt_ok hw hi
  have hl : i < (mask a.len a.validity).length := by have := hw.fits; simp only [FitsLen] at this; omega
  have hm := List.getElem?_eq_getElem hl
  refine ⟨_, ?_, row_at h2 hm⟩
  simp only [nullElem, idx_lt hl, Res.ok_bind, h1]
  cases (mask a.len a.validity)[i] <;> rfl

theorem idxElem_ok {a : Arr} (hw : WF a) {i : Nat} (hi : i < a.len) :
    ∃ r, idxElem a i = .ok r ∧ (rows a)[i]? = some r := by
  obtain ⟨x, h1, h2⟩ := spanAt_ok hw hi
  obtain ⟨b, h3, h4⟩ := PArr.isValid_mask hw.fits hi
  refine ⟨_, ?_, row_at h2 h4⟩
  simp only [idxElem, h3, Res.ok_bind, h1]
  cases b <;> rfl

/-! ### Windows of offsets -/

theorem spans_window {a : Arr} {s e : Nat} (h : InBounds a.len s e) (v : Validity) :
    spans ⟨a.nullable, Spec.slice a.offsets s (e + 1), a.bytes, v⟩ = Spec.slice (spans a) s e := by
  obtain ⟨h1, h2⟩ := h
  apply List.ext_getElem?
  intro i
  simp only [spans, List.getElem?_zipWith, List.getElem?_tail, slice_getElem?]
  by_cases hi : s + i < e
  · rw [if_pos (by omega), if_pos (by omega), if_pos hi, Nat.add_assoc]
  · rw [if_neg hi]
    by_cases hi2 : s + i < e + 1
    · rw [if_pos hi2, if_neg (by omega)]
      cases a.offsets[s + i]? <;> rfl
    · rw [if_neg hi2]

theorem window_ends {data : List Byte} {base o : Nat} {os : List Nat} (h : (o :: os).Pairwise (· ≤ ·)) (hb : base ≤ o)
    (hi : ∀ x ∈ os, x ≤ data.length) :
    os.map (· - base) = ends (o - base) (List.zipWith (fun s e => Spec.slice data s e) (o :: os) os) := by
  induction os generalizing o with
  | nil => rfl
  | cons o' os ih =>
    rw [List.pairwise_cons] at h
    have ho := h.1 o' (by simp)
    have hl := hi o' (by simp)
    have e : o - base + (Spec.slice data o o').length = o' - base := by
      rw [slice_length' ⟨ho, hl⟩]; omega
    simp only [List.zipWith_cons_cons, ends, List.map_cons, e]
    rw [ih h.2 (by omega) (fun x hx => hi x (by simp [hx]))]

theorem slice_cons {xs : List α} {s e : Nat} (h : s < e) (h2 : e ≤ xs.length) :
    Spec.slice xs s e = xs[s] :: Spec.slice xs (s + 1) e := by
  rw [slice_eq_drop_take, List.drop_eq_getElem_cons (by omega), show e - s = (e - (s + 1)) + 1 by omega, List.take_succ_cons,
    ← slice_eq_drop_take]

theorem pairwise_slice {xs : List Nat} (h : xs.Pairwise (· ≤ ·)) (s e : Nat) : (Spec.slice xs s e).Pairwise (· ≤ ·) := by
  rw [slice_eq_drop_take]
  exact (h.sublist (List.drop_sublist _ _)).sublist (List.take_sublist _ _)

theorem mem_slice {xs : List α} {s e : Nat} {x : α} (h : x ∈ Spec.slice xs s e) : x ∈ xs := by
  rw [slice_eq_drop_take] at h
  exact List.mem_of_mem_drop (List.mem_of_mem_take h)

theorem ends_shift (k acc : Nat) (xs : List (List Byte)) : (ends acc xs).map (k + ·) = ends (k + acc) xs := by
  induction xs generalizing acc with
  | nil => rfl
  | cons x xs ih => simp [ends, ih, Nat.add_assoc]

theorem ends_le {k acc : Nat} {xs : List (List Byte)} {o : Nat} (h : o ∈ ends acc xs) : o ≤ acc + xs.flatten.length :=
  (ends_mono acc xs).2 o (by simp [h])

theorem vals_some (xs : List (List Byte)) : vals (xs.map some) = xs := by simp [vals, Function.comp_def]

theorem total_some (xs : List (List Byte)) : total (xs.map some) = xs.flatten.length := by simp [total, vals_some]

/-- `update_non_nullable_slice` appends the stored values of a run. -/
theorem updateSlice_bst {maxO : Nat} {a : Arr} (hw : WF a) {s e : Nat} (h : InBounds a.len s e) {rs : List (Option (List Byte))}
    (ht : total rs + total ((Spec.slice (spans a) s e).map some) ≤ maxO) :
    updateSlice maxO a.bytes a.offsets (bst rs) s e = .ok (bst (rs ++ (Spec.slice (spans a) s e).map some)) := by
  obtain ⟨h1, h2⟩ := h
  have hne := hw.ne
  have hlen : a.len + 1 = a.offsets.length := by
    have : 0 < a.offsets.length := List.length_pos_iff.mpr hne
    simp only [Arr.len]; omega
  have hs : s < a.offsets.length := by omega
  have he : e < a.offsets.length := by omega
  have hwin : Spec.slice a.offsets s (e + 1) = a.offsets[s] :: Spec.slice a.offsets (s + 1) (e + 1) := slice_cons (by omega) (by omega)
  have hpw := pairwise_slice hw.mono s (e + 1)
  rw [hwin] at hpw
  have hsp := spans_window (a := a) ⟨h1, h2⟩ a.validity
  rw [show spans ⟨a.nullable, Spec.slice a.offsets s (e + 1), a.bytes, a.validity⟩ =
    List.zipWith (fun s e => Spec.slice a.bytes s e) (Spec.slice a.offsets s (e + 1)) (Spec.slice a.offsets s (e + 1)).tail from rfl,
    hwin, List.tail_cons] at hsp
  have hmem : ∀ x ∈ Spec.slice a.offsets (s + 1) (e + 1), x ≤ a.bytes.length := fun x hx => hw.inb x (mem_slice hx)
  have hends := window_ends (data := a.bytes) (base := a.offsets[s]) hpw (Nat.le_refl _) hmem
  rw [hsp, Nat.sub_self] at hends
  have hle : a.offsets[s] ≤ a.offsets[e] := by
    by_cases hse : s = e
    · subst hse; exact Nat.le_refl _
    · exact List.pairwise_iff_getElem.mp hw.mono s e hs he (by omega)
  have hflat := flatten_window a.bytes a.offsets[s] (Spec.slice a.offsets (s + 1) (e + 1)) hpw
  rw [hsp] at hflat
  have hlast : (a.offsets[s] :: Spec.slice a.offsets (s + 1) (e + 1)).getLast (by simp) = a.offsets[e] := by
    have hl2 : (Spec.slice a.offsets s (e + 1)).length = e + 1 - s := slice_length' ⟨by omega, by omega⟩
    have : (a.offsets[s] :: Spec.slice a.offsets (s + 1) (e + 1)).getLast? = some a.offsets[e] := by
      rw [← hwin, List.getLast?_eq_getElem?, hl2, slice_getElem?, if_pos (by omega), show s + (e + 1 - s - 1) = e by omega]
      exact List.getElem?_eq_getElem he
    rw [List.getLast?_eq_some_getLast (by simp)] at this
    exact Option.some.inj this
  rw [hlast] at hflat
  have hrel : Res.mapM (fun o => Res.sub o a.offsets[s]) ((a.offsets.drop s).take (e + 1 - s)) =
      .ok ((Spec.slice a.offsets s (e + 1)).map (· - a.offsets[s])) := by
    rw [← slice_eq_drop_take]
    apply Res.mapM_ok
    intro o ho
    rw [hwin] at ho
    rcases List.mem_cons.mp ho with rfl | ho
    · exact Res.sub_of_le (Nat.le_refl _)
    · exact Res.sub_of_le ((List.pairwise_cons.mp hpw).1 o ho)
  have hdrop : ((Spec.slice a.offsets s (e + 1)).map (· - a.offsets[s])).drop 1 = ends 0 (Spec.slice (spans a) s e) := by
    rw [hwin, List.map_cons, List.drop_one, List.tail_cons, hends]
  have hspl : (Spec.slice (spans a) s e).length = e - s := slice_length' ⟨h1, by rw [spans_length]; exact h2⟩
  simp only [updateSlice, idx_lt hs, idx_lt he, Res.ok_bind, sub_ok ⟨hle, hw.inb _ (List.getElem_mem he)⟩, hrel, hdrop]
  rw [← hflat]
  have hpush : Res.mapM (addO maxO (bst rs).data.length) (ends 0 (Spec.slice (spans a) s e)) =
      .ok ((ends 0 (Spec.slice (spans a) s e)).map ((bst rs).data.length + ·)) := by
    apply Res.mapM_ok
    intro o ho
    have := ends_le (k := 0) ho
    rw [total_some] at ht
    have hd : (bst rs).data.length = total rs := rfl
    simp only [addO]
    rw [if_pos (by omega)]
  simp only [pushValues, hpush, Res.ok_bind, ends_shift]
  simp only [bst, vals_append, ends_append, List.flatten_append, List.map_append, vals_some, Nat.zero_add, Nat.add_zero, List.cons_append,
    List.map_map]
  have hrep : List.replicate (e - s) true = List.map (Option.isSome ∘ some) (Spec.slice (spans a) s e) := by
    rw [← hspl]
    simp [Function.comp_def, List.map_const']
  rw [hrep]

theorem nullSliceLoop_bst {maxO : Nat} {a : Arr} (hw : WF a) {s : Nat} {vs : List Bool} {rs : List (Option (List Byte))}
    (hs : s + vs.length ≤ a.len) (hv : vs = Spec.slice (mask a.len a.validity) s (s + vs.length))
    (ht : total rs + total (Spec.slice (rows a) s (s + vs.length)) ≤ maxO) :
    nullSliceLoop maxO a.offsets a.bytes (bst rs) s vs = .ok (bst (rs ++ Spec.slice (rows a) s (s + vs.length))) := by
  induction vs generalizing s rs with
  | nil => simp [nullSliceLoop, slice_self]
  | cons v vs ih =>
    simp only [List.length_cons] at hs hv ht ⊢
    have hsl : s < a.len := by omega
    have hml : (mask a.len a.validity).length = a.len := hw.fits
    have hrl := rows_len hw
    have hr : Spec.slice (rows a) s (s + (vs.length + 1)) = (rows a)[s]'(by omega) :: Spec.slice (rows a) (s + 1) (s + 1 + vs.length) := by
      rw [show s + (vs.length + 1) = s + 1 + vs.length by omega, slice_cons (by omega) (by omega)]
    rw [show s + (vs.length + 1) = s + 1 + vs.length by omega, slice_cons (by omega) (by omega)] at hv
    rw [List.cons.injEq] at hv
    obtain ⟨hv1, hv2⟩ := hv
    obtain ⟨x, hx1, hx2⟩ := spanAt_ok hw hsl
    have hrow := row_at hx2 (List.getElem?_eq_getElem (by omega : s < (mask a.len a.validity).length))
    rw [List.getElem?_eq_getElem (by omega)] at hrow
    have hrow := Option.some.inj hrow
    rw [← hv1] at hrow
    rw [hr] at ht ⊢
    have htc : total ((rows a)[s]'(by omega) :: Spec.slice (rows a) (s + 1) (s + 1 + vs.length)) =
        total [(rows a)[s]'(by omega)] + total (Spec.slice (rows a) (s + 1) (s + 1 + vs.length)) := by
      rw [← List.singleton_append, total_append]
    rw [htc] at ht
    cases v with
    | true =>
      simp only [if_true] at hrow
      rw [hrow] at ht
      simp only [nullSliceLoop, hx1, Res.ok_bind, pushValue_bst (show total rs + x.length ≤ maxO by simp [total, vals] at ht ⊢; omega)]
      rw [ih (by omega) hv2 (by rw [total_append]; omega), hrow]
      simp
    | false =>
      simp only [Bool.false_eq_true, if_false] at hrow
      rw [hrow] at ht
      simp only [nullSliceLoop, pushNull_bst, Res.ok_bind]
      rw [ih (by omega) hv2 (by rw [total_append]; omega), hrow]
      simp

theorem nullRun_bst {maxO : Nat} {a : Arr} (hw : WF a) {r : Nat × Nat} (h : InBounds a.len r.1 r.2) {rs : List (Option (List Byte))}
    (ht : total rs + total (Spec.slice (rows a) r.1 r.2) ≤ maxO) :
    nullRun maxO a.offsets a.bytes (mask a.len a.validity) (bst rs) r = .ok (bst (rs ++ Spec.slice (rows a) r.1 r.2)) := by
  have hml : (mask a.len a.validity).length = a.len := hw.fits
  obtain ⟨h1, h2⟩ := h
  have hsl : nbSlice (mask a.len a.validity) r.1 (r.2 - r.1) = .ok (Spec.slice (mask a.len a.validity) r.1 r.2) := by
    simp only [nbSlice, slice_eq_drop_take]
    rw [if_pos (by omega)]
  have hl : (Spec.slice (mask a.len a.validity) r.1 r.2).length = r.2 - r.1 := slice_length' ⟨h1, by omega⟩
  simp only [nullRun, hsl, Res.ok_bind]
  split
  · rename_i h0
    have hrep : Spec.slice (mask a.len a.validity) r.1 r.2 = List.replicate (r.2 - r.1) true := by
      rw [← hl]
      rw [List.count_eq_zero] at h0
      exact List.eq_replicate_iff.mpr ⟨rfl, fun b hb => by cases b; exact absurd hb h0; rfl⟩
    have hrows : Spec.slice (rows a) r.1 r.2 = (Spec.slice (spans a) r.1 r.2).map some := by
      rw [rows, slice_rows, hrep]
      have hsl : (Spec.slice (spans a) r.1 r.2).length = r.2 - r.1 := slice_length' ⟨h1, by rw [spans_length]; exact h2⟩
      rw [← hsl]
      exact rows_all _
    rw [hrows] at ht ⊢
    exact updateSlice_bst hw ⟨h1, h2⟩ ht
  · have e : r.1 + (Spec.slice (mask a.len a.validity) r.1 r.2).length = r.2 := by omega
    have := nullSliceLoop_bst (maxO := maxO) hw (s := r.1) (vs := Spec.slice (mask a.len a.validity) r.1 r.2) (rs := rs) (by omega)
      (by rw [e]) (by rw [e]; exact ht)
    rw [e] at this
    exact this

theorem runs_bst {maxO : Nat} {xs : List (Option (List Byte))} {f : Builder → Nat × Nat → Res Builder}
    {loop : Builder → List (Nat × Nat) → Res Builder} (h0 : ∀ b, loop b [] = .ok b)
    (h1 : ∀ b r rs, loop b (r :: rs) = (do let b ← f b r; loop b rs)) {runs : List (Nat × Nat)} {rs : List (Option (List Byte))}
    (hf : ∀ r ∈ runs, ∀ rs, total rs + total (Spec.slice xs r.1 r.2) ≤ maxO → f (bst rs) r = .ok (bst (rs ++ Spec.slice xs r.1 r.2)))
    (ht : total rs + total (runs.flatMap fun r => Spec.slice xs r.1 r.2) ≤ maxO) :
    loop (bst rs) runs = .ok (bst (rs ++ runs.flatMap fun r => Spec.slice xs r.1 r.2)) := by
  induction runs generalizing rs with
  | nil => simp [h0]
  | cons r runs ih =>
    simp only [List.flatMap_cons, total_append] at ht
    rw [h1, hf r (by simp) rs (by omega), Res.ok_bind, ih (fun r hr => hf r (by simp [hr])) (by rw [total_append]; omega)]
    simp

end Vx.VarBin
