import Verif.Model.Ipc
/-!
# A lawful codec exists

`Codec.Lawful` is an assumption about the flatbuffers library. This file shows that it is satisfiable: a codec that writes each table as a
sequence of numbers, each number in unary.
-/
namespace Vx.Ipc.Demo
open Vx.Ipc

/-- Numbers that can be read back from the front of a sequence. -/
def PF {α : Type} (f : α → List Nat) : Prop := ∀ x y r s, f x ++ r = f y ++ s → x = y ∧ r = s

def tNat (n : Nat) : List Nat := [n]
theorem pf_nat : PF tNat := by
  intro x y r s h; simpa [tNat] using h

def tBool (b : Bool) : List Nat := [b.toNat]
theorem pf_bool : PF tBool := by
  intro x y r s h; cases x <;> cases y <;> simp_all [tBool]

def tInt (i : Int) : List Nat := [i.natAbs, if i < 0 then 1 else 0]
theorem pf_int : PF tInt := by
  intro x y r s h
  simp only [tInt, List.cons_append, List.nil_append, List.cons.injEq] at h
  obtain ⟨h1, h2, h3⟩ := h
  refine ⟨?_, h3⟩
  split at h2 <;> split at h2 <;> omega

def tByte (b : UInt8) : List Nat := [b.toNat]
theorem pf_byte : PF tByte := by
  intro x y r s h
  simp only [tByte, List.cons_append, List.nil_append, List.cons.injEq] at h
  exact ⟨UInt8.toNat_inj.mp h.1, h.2⟩

def tChar (c : Char) : List Nat := [c.toNat]
theorem pf_char : PF tChar := by
  intro x y r s h
  simp only [tChar, List.cons_append, List.nil_append, List.cons.injEq] at h
  exact ⟨Char.toNat_inj.mp h.1, h.2⟩

def tItems {α : Type} (f : α → List Nat) : List α → List Nat
  | [] => [0]
  | x :: xs => 1 :: (f x ++ tItems f xs)
theorem pf_list {α : Type} {f : α → List Nat} (hf : PF f) : PF (tItems f) := by
  intro xs
  induction xs with
  | nil => intro ys r s h; cases ys <;> simp_all [tItems]
  | cons x xs ih =>
    intro ys r s h
    cases ys with
    | nil => simp [tItems] at h
    | cons y ys =>
      simp only [tItems, List.cons_append, List.cons.injEq, true_and, List.append_assoc] at h
      obtain ⟨h1, h2⟩ := hf _ _ _ _ h
      obtain ⟨h3, h4⟩ := ih _ _ _ h2
      exact ⟨by rw [h1, h3], h4⟩

def tOpt {α : Type} (f : α → List Nat) : Option α → List Nat
  | none => [0]
  | some x => 1 :: f x
theorem pf_opt {α : Type} {f : α → List Nat} (hf : PF f) : PF (tOpt f) := by
  intro x y r s h
  cases x <;> cases y <;> simp [tOpt] at h
  · exact ⟨rfl, h⟩
  · obtain ⟨h1, h2⟩ := hf _ _ _ _ h; exact ⟨by rw [h1], h2⟩

mutual
def tDType : FbDType → List Nat
  | .unknown => [0]
  | .null => [1]
  | .bool n => 2 :: tBool n
  | .primitive t n => 3 :: (tInt t ++ tBool n)
  | .utf8 n => 4 :: tBool n
  | .binary n => 5 :: tBool n
  | .struct ns ds n => 6 :: (tOpt (tItems (tItems tChar)) ns ++ (tDTypesOpt ds ++ tBool n))
  | .list e n => 7 :: (tDTypeOpt e ++ tBool n)
  | .ext i m n => 8 :: (tOpt (tItems tChar) i ++ (tOpt (tItems tByte) m ++ tBool n))
def tDTypeOpt : Option FbDType → List Nat
  | none => [0]
  | some d => 1 :: tDType d
def tDTypesOpt : Option (List FbDType) → List Nat
  | none => [0]
  | some ds => 1 :: tDTypes ds
def tDTypes : List FbDType → List Nat
  | [] => [0]
  | d :: ds => 1 :: (tDType d ++ tDTypes ds)
end

mutual
theorem pf_dtype : ∀ (x y : FbDType) r s, tDType x ++ r = tDType y ++ s → x = y ∧ r = s := by
  intro x y r s h
  cases x with
  | unknown => cases y <;> simp [tDType] at h; exact ⟨rfl, h⟩
  | null => cases y <;> simp [tDType] at h; exact ⟨rfl, h⟩
  | bool n => cases y <;> simp [tDType] at h; obtain ⟨h1, h2⟩ := pf_bool _ _ _ _ h; exact ⟨by rw [h1], h2⟩
  | utf8 n => cases y <;> simp [tDType] at h; obtain ⟨h1, h2⟩ := pf_bool _ _ _ _ h; exact ⟨by rw [h1], h2⟩
  | binary n => cases y <;> simp [tDType] at h; obtain ⟨h1, h2⟩ := pf_bool _ _ _ _ h; exact ⟨by rw [h1], h2⟩
  | primitive t n =>
    cases y <;> simp [tDType] at h
    obtain ⟨h1, h2⟩ := pf_int _ _ _ _ h
    obtain ⟨h3, h4⟩ := pf_bool _ _ _ _ h2
    exact ⟨by rw [h1, h3], h4⟩
  | struct ns ds n =>
    cases y <;> simp [tDType] at h
    obtain ⟨h1, h2⟩ := pf_opt (pf_list (pf_list pf_char)) _ _ _ _ h
    cases ds with
    | none =>
      rename_i ds' _
      cases ds' <;> simp [tDTypesOpt] at h2
      obtain ⟨h5, h6⟩ := pf_bool _ _ _ _ h2
      exact ⟨by rw [h1, h5], h6⟩
    | some ds =>
      rename_i ds' _
      cases ds' <;> simp [tDTypesOpt] at h2
      obtain ⟨h3, h4⟩ := pf_dtypes ds _ _ _ h2
      obtain ⟨h5, h6⟩ := pf_bool _ _ _ _ h4
      exact ⟨by rw [h1, h3, h5], h6⟩
  | list e n =>
    cases y <;> simp [tDType] at h
    cases e with
    | none =>
      rename_i e' _
      cases e' <;> simp [tDTypeOpt] at h
      obtain ⟨h5, h6⟩ := pf_bool _ _ _ _ h
      exact ⟨by rw [h5], h6⟩
    | some e =>
      rename_i e' _
      cases e' <;> simp [tDTypeOpt] at h
      obtain ⟨h3, h4⟩ := pf_dtype e _ _ _ h
      obtain ⟨h5, h6⟩ := pf_bool _ _ _ _ h4
      exact ⟨by rw [h3, h5], h6⟩
  | ext i m n =>
    cases y <;> simp [tDType] at h
    obtain ⟨h1, h2⟩ := pf_opt (pf_list pf_char) _ _ _ _ h
    obtain ⟨h3, h4⟩ := pf_opt (pf_list pf_byte) _ _ _ _ h2
    obtain ⟨h5, h6⟩ := pf_bool _ _ _ _ h4
    exact ⟨by rw [h1, h3, h5], h6⟩
theorem pf_dtypes : ∀ (x y : List FbDType) r s, tDTypes x ++ r = tDTypes y ++ s → x = y ∧ r = s
  | [], y, r, s, h => by cases y <;> simp_all [tDTypes]
  | d :: ds, y, r, s, h => by
    cases y with
    | nil => simp [tDTypes] at h
    | cons e es =>
      simp only [tDTypes, List.cons_append, List.cons.injEq, true_and, List.append_assoc] at h
      obtain ⟨h1, h2⟩ := pf_dtype d e _ _ h
      obtain ⟨h3, h4⟩ := pf_dtypes ds es _ _ h2
      exact ⟨by rw [h1, h3], h4⟩
end

mutual
def tArray : FbArray → List Nat
  | .mk e m s i cs => e :: (tOpt (tItems tByte) m ++ (tOpt (tItems tByte) s ++ (tOpt tNat i ++ tArrays cs)))
def tArrays : List FbArray → List Nat
  | [] => [0]
  | c :: cs => 1 :: (tArray c ++ tArrays cs)
end

mutual
theorem pf_array : ∀ (x y : FbArray) r s, tArray x ++ r = tArray y ++ s → x = y ∧ r = s
  | .mk e m t i cs, .mk e' m' t' i' cs', r, s, h => by
    simp only [tArray, List.cons_append, List.cons.injEq, List.append_assoc] at h
    obtain ⟨h0, h⟩ := h
    obtain ⟨h1, h⟩ := pf_opt (pf_list pf_byte) _ _ _ _ h
    obtain ⟨h2, h⟩ := pf_opt (pf_list pf_byte) _ _ _ _ h
    obtain ⟨h3, h⟩ := pf_opt pf_nat _ _ _ _ h
    obtain ⟨h4, h⟩ := pf_arrays cs cs' _ _ h
    exact ⟨by rw [h0, h1, h2, h3, h4], h⟩
theorem pf_arrays : ∀ (x y : List FbArray) r s, tArrays x ++ r = tArrays y ++ s → x = y ∧ r = s
  | [], y, r, s, h => by cases y <;> simp_all [tArrays]
  | d :: ds, y, r, s, h => by
    cases y with
    | nil => simp [tArrays] at h
    | cons e es =>
      simp only [tArrays, List.cons_append, List.cons.injEq, true_and, List.append_assoc] at h
      obtain ⟨h1, h2⟩ := pf_array d e _ _ h
      obtain ⟨h3, h4⟩ := pf_arrays ds es _ _ h2
      exact ⟨by rw [h1, h3], h4⟩
end

def tBuffer (b : FbBuffer) : List Nat := [b.offset, b.padding]
theorem pf_buffer : PF tBuffer := by
  intro x y r s h
  cases x; cases y
  simp [tBuffer] at h
  exact ⟨by rw [h.1, h.2.1], h.2.2⟩

def tMsg : FbMsg → List Nat
  | .schema d => 0 :: tOpt tDType d
  | .batch a l bs n => 1 :: (tOpt tArray a ++ (l :: (tItems tBuffer bs ++ [n])))
  | .page n p => [2, n, p]

theorem tMsg_inj {x y : FbMsg} (h : tMsg x = tMsg y) : x = y := by
  cases x with
  | schema d =>
    cases y <;> simp [tMsg] at h
    rename_i d'
    obtain ⟨h1, _⟩ := pf_opt pf_dtype d d' [] [] (by rw [h])
    rw [h1]
  | batch a l bs n =>
    cases y <;> simp [tMsg] at h
    obtain ⟨h1, h⟩ := pf_opt pf_array _ _ _ _ h
    simp only [List.cons.injEq] at h
    obtain ⟨h2, h⟩ := h
    obtain ⟨h3, h⟩ := pf_list pf_buffer _ _ _ _ h
    simp at h
    rw [h1, h2, h3, h]
  | page n p => cases y <;> simp [tMsg] at h; rw [h.1, h.2]

/-- Numbers in unary: ones, closed by a two; no zero byte occurs. -/
def unary : List Nat → Bytes
  | [] => []
  | n :: ns => List.replicate n 1 ++ 2 :: unary ns

theorem ones_two_inj : ∀ (a b : Nat) (r s : Bytes), List.replicate a (1 : UInt8) ++ 2 :: r = List.replicate b 1 ++ 2 :: s → a = b ∧ r = s
  | 0, 0, r, s, h => by simpa using h
  | 0, b + 1, r, s, h => by simp [List.replicate_succ] at h
  | a + 1, 0, r, s, h => by simp [List.replicate_succ] at h
  | a + 1, b + 1, r, s, h => by
    simp only [List.replicate_succ, List.cons_append, List.cons.injEq, true_and] at h
    obtain ⟨h1, h2⟩ := ones_two_inj a b r s h
    exact ⟨by rw [h1], h2⟩

theorem replicate_ne_unary (n : Nat) (r : Bytes) (k : Nat) : List.replicate k (0 : UInt8) ≠ List.replicate n 1 ++ 2 :: r := by
  intro h
  have : (2 : UInt8) ∈ List.replicate k (0 : UInt8) := by rw [h]; simp
  simp at this

theorem unary_inj : ∀ (xs ys : List Nat) (j k : Nat), unary xs ++ List.replicate j 0 = unary ys ++ List.replicate k 0 → xs = ys
  | [], [], _, _, _ => rfl
  | [], y :: ys, j, k, h => by
    exfalso; simp only [unary, List.nil_append, List.append_assoc, List.cons_append] at h
    exact replicate_ne_unary _ _ _ h
  | x :: xs, [], j, k, h => by
    exfalso; simp only [unary, List.nil_append, List.append_assoc, List.cons_append] at h
    exact replicate_ne_unary _ _ _ h.symm
  | x :: xs, y :: ys, j, k, h => by
    simp only [unary, List.append_assoc, List.cons_append] at h
    obtain ⟨h1, h2⟩ := ones_two_inj _ _ _ _ h
    rw [h1, unary_inj xs ys j k h2]

open Classical in
/-- The codec: reading finds the message whose bytes, up to trailing zeros, these are. -/
noncomputable def codec : Codec where
  enc m := unary (tMsg m)
  dec bs := if h : ∃ m k, bs = unary (tMsg m) ++ List.replicate k 0 then some h.choose else none

theorem codec_lawful : codec.Lawful where
  dec_enc := by
    intro m k
    have h : ∃ m' k', codec.enc m ++ List.replicate k 0 = unary (tMsg m') ++ List.replicate k' 0 := ⟨m, k, rfl⟩
    simp only [codec] at h ⊢
    rw [dif_pos h]
    obtain ⟨k', hk⟩ := h.choose_spec
    exact congrArg some (tMsg_inj (unary_inj _ _ _ _ hk)).symm
  dec_nil := by
    simp only [codec]
    rw [dif_neg]
    rintro ⟨m, k, h⟩
    have hne : unary (tMsg m) ≠ [] := by cases m <;> simp [tMsg, unary]
    have := congrArg List.length h
    simp only [List.length_nil, List.length_append] at this
    exact hne (List.eq_nil_of_length_eq_zero (by omega))

end Vx.Ipc.Demo
