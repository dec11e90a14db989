import Verif.Lemmas.StoredTree
import Verif.Spec.StoredBytes
import Verif.Spec.WriteColumns
/-! # Buffers as bytes -/
namespace Vx.Store
open Own
open Ipc (Bytes)
open Vx.Tree (TVal Kind Codec WF WFs WFV LeafLaws)

theorem leBytes_length : ∀ (k n : Nat), (leBytes k n).length = k
  | 0, _ => rfl
  | k + 1, n => by simp [leBytes, leBytes_length k]

theorem fromLe_le : ∀ (k n : Nat), n < 256 ^ k → fromLe (leBytes k n) = n
  | 0, n, h => by simp [leBytes, fromLe] at h ⊢; omega
  | k + 1, n, h => by
    have h1 : n / 256 < 256 ^ k := by rw [Nat.div_lt_iff_lt_mul (by decide)]; rwa [Nat.pow_succ] at h
    have h2 : (UInt8.ofNat (n % 256)).toNat = n % 256 := by
      rw [UInt8.toNat_ofNat']; exact Nat.mod_mod_of_dvd _ (by decide)
    simp only [leBytes, fromLe, fromLe_le k _ h1, h2]
    omega

theorem toBytes_length (w : Nat) (xs : List Nat) : (toBytes w xs).length = w * xs.length := by
  induction xs with
  | nil => rfl
  | cons x xs ih => simp only [toBytes, List.flatMap_cons, List.length_append, leBytes_length, List.length_cons] at ih ⊢; rw [ih, Nat.mul_succ]; omega

theorem ofBytes_toBytes (w : Nat) (xs : List Nat) (h : ∀ x ∈ xs, x < 256 ^ w) : ofBytes w xs.length (toBytes w xs) = xs := by
  induction xs with
  | nil => rfl
  | cons x xs ih =>
    simp only [toBytes, List.flatMap_cons, List.length_cons, ofBytes]
    rw [List.take_append_of_le_length (by simp [leBytes_length]), List.take_of_length_le (by simp [leBytes_length]),
      List.drop_append_of_le_length (by simp [leBytes_length]), List.drop_of_length_le (by simp [leBytes_length]), List.nil_append,
      fromLe_le w x (h x (List.mem_cons_self ..))]
    congr 1
    exact ih (fun y hy => h y (List.mem_cons_of_mem _ hy))

theorem elemWidth_pos (e : Enc) (d : DType) : 0 < elemWidth e d := by
  unfold elemWidth
  split
  · rename_i p _; cases p <;> decide
  all_goals decide

mutual
/-- An array whose buffers and metadata are in order survives serialisation. -/
theorem keeps_le (mc : MetaCodec) : ∀ a : Own.Arr, Everywhere BufferOk a → Everywhere (MetaOk mc) a → Keeps (leCodec mc) a
  | .mk e d l b cs, h, hm => by
    obtain ⟨h1, h2⟩ := h
    obtain ⟨m1, m2⟩ := hm
    refine ⟨?_, keepsAll_le mc cs h2 m2⟩
    simp only [leCodec, Arr.enc, Arr.dtype, Arr.data]
    rw [show mc.de (mc.id e) (mc.ser e) = some e from m1]
    simp only [Option.map_some, Option.some.injEq, Prod.mk.injEq, true_and]
    change if hasBuffer e = true then ∀ x ∈ b, x < 256 ^ elemWidth e d else b = [] at h1
    by_cases hb : hasBuffer e = true
    · rw [if_pos hb] at h1
      simp only [hb, if_true]
      have hp := elemWidth_pos e d
      simp only [toBytes_length, Nat.mul_div_cancel_left _ hp]
      exact ofBytes_toBytes _ b h1
    · rw [if_neg hb] at h1
      simp only [hb]
      exact h1.symm
theorem keepsAll_le (mc : MetaCodec) : ∀ cs : List Own.Arr, Everywheres BufferOk cs → Everywheres (MetaOk mc) cs → KeepsAll (leCodec mc) cs
  | [], _, _ => trivial
  | c :: cs, h, hm => ⟨keeps_le mc c h.1 hm.1, keepsAll_le mc cs h.2 hm.2⟩
end

/-- Rows of a serialised `u64` array are the numbers written into it. -/
theorem leCodec_lawful (mc : MetaCodec) : (leCodec mc).Lawful := by
  intro xs hk i hi
  simp only [Keeps, leCodec, Arr.enc, Arr.dtype, Arr.data, hasBuffer, if_true] at hk
  obtain ⟨e, he, hk2⟩ := Option.map_eq_some_iff.mp hk.1
  simp only [Prod.mk.injEq] at hk2
  obtain ⟨rfl, hk2⟩ := hk2
  simp only [leCodec, toIpc, Arr.enc, Arr.dtype, Arr.data, hasBuffer, if_true, Option.getD_some]
  have hw : elemWidth (.prim .nonNullable) u64 = 8 := rfl
  rw [hw] at hk2
  rw [hw, hk2, List.getElem?_eq_getElem hi]
  rfl

/-! ## The buffers of a stored tree -/

variable {L : Type} {sc : Scalars} {S : Leaves L} {env : Tree.Env L} {leafRows : L → List SV} {ok : L → Prop} {C : Compute}

theorem everywheres_append {P : Own.Arr → Prop} : ∀ (xs ys : List Own.Arr), Everywheres P xs → Everywheres P ys → Everywheres P (xs ++ ys)
  | [], _, _, h => h
  | _ :: xs, ys, hx, hy => ⟨hx.1, everywheres_append xs ys hx.2 hy⟩

theorem numbers_ok (p : PType) (xs : List Nat) (h : ∀ x ∈ xs, x < 256 ^ (p.bits / 8)) : Everywhere BufferOk (numbers p xs) := by
  refine ⟨?_, trivial⟩
  simp only [BufferOk, Arr.enc, Arr.data, Arr.dtype, hasBuffer, if_true, elemWidth]
  exact h

theorem numOf_lt {p : PType} {x : SV} (h : (Kind.prim p).has x = true) : numOf x < 256 ^ (p.bits / 8) := by
  cases x with
  | prim q =>
    obtain ⟨pt, b⟩ := q
    simp only [Kind.has, beq_iff_eq] at h
    subst h
    have := b.isLt
    simp only [numOf]
    cases pt <;> simpa [PType.bits] using this
  | _ => simp [Kind.has] at h

theorem packBits_lt (xs : List SV) : ∀ x ∈ packBits xs, x < 256 := by
  intro x hx
  simp only [packBits, List.mem_map] at hx
  obtain ⟨j, _, rfl⟩ := hx
  generalize bitAt xs (8 * j) = b0
  generalize bitAt xs (8 * j + 1) = b1
  generalize bitAt xs (8 * j + 2) = b2
  generalize bitAt xs (8 * j + 3) = b3
  generalize bitAt xs (8 * j + 4) = b4
  generalize bitAt xs (8 * j + 5) = b5
  generalize bitAt xs (8 * j + 6) = b6
  generalize bitAt xs (8 * j + 7) = b7
  unfold byteOf
  have := Bool.toNat_le b0; have := Bool.toNat_le b1; have := Bool.toNat_le b2; have := Bool.toNat_le b3
  have := Bool.toNat_le b4; have := Bool.toNat_le b5; have := Bool.toNat_le b6; have := Bool.toNat_le b7
  omega

theorem bytesOf_lt (x : SV) : ∀ b ∈ bytesOf x, b < 256 := by
  intro b hb
  cases x <;> simp only [bytesOf, List.mem_map, List.not_mem_nil] at hb
  all_goals obtain ⟨u, _, rfl⟩ := hb; exact u.toNat_lt

theorem le32_lt (n : Nat) : ∀ b ∈ le32 n, b < 256 := by
  intro b hb
  simp only [le32, List.mem_cons, List.not_mem_nil, or_false] at hb
  omega

theorem viewOf_lt (off : Nat) (bs : List Nat) (h : ∀ b ∈ bs, b < 256) : ∀ b ∈ viewOf off bs, b < 256 := by
  intro b hb
  unfold viewOf at hb
  split at hb
  · simp only [List.mem_append, List.mem_replicate] at hb
    rcases hb with hb | hb | hb
    · exact le32_lt _ b hb
    · exact h b hb
    · omega
  · simp only [List.mem_append] at hb
    rcases hb with hb | hb | hb | hb
    · exact le32_lt _ b hb
    · exact h b (List.mem_of_mem_take hb)
    · exact le32_lt _ b hb
    · exact le32_lt _ b hb

theorem buildViews_lt : ∀ (vs : List (List Nat)) (buf : List Nat), (∀ b ∈ buf, b < 256) → (∀ v ∈ vs, ∀ b ∈ v, b < 256) →
    (∀ b ∈ (buildViews buf vs).1, b < 256) ∧ (∀ b ∈ (buildViews buf vs).2, b < 256)
  | [], buf, h, _ => ⟨by simp [buildViews], h⟩
  | v :: vs, buf, h, hv => by
    have hb : ∀ b ∈ (if v.length ≤ 12 then buf else buf ++ v), b < 256 := by
      intro b hb
      split at hb
      · exact h b hb
      · rcases List.mem_append.mp hb with hb | hb
        · exact h b hb
        · exact hv v (List.mem_cons_self ..) b hb
    obtain ⟨h1, h2⟩ := buildViews_lt vs _ hb (fun w hw => hv w (List.mem_cons_of_mem _ hw))
    refine ⟨?_, h2⟩
    intro b hb
    simp only [buildViews, List.mem_append] at hb
    rcases hb with hb | hb
    · exact viewOf_lt _ v (hv v (List.mem_cons_self ..)) b hb
    · exact h1 b hb

theorem chunkOffsets_le : ∀ (ls : List Nat) (acc : Nat), ∀ x ∈ chunkOffsets acc ls, x ≤ acc + ls.sum
  | [], acc => by simp [chunkOffsets]
  | l :: ls, acc => by
    intro x hx
    simp only [chunkOffsets, List.mem_cons] at hx
    rcases hx with rfl | hx
    · simp
    · have := chunkOffsets_le ls (acc + l) x hx
      simp only [List.sum_cons]; omega

section
variable (hS : StoreLaws C S env ok) (hB : ∀ l, ok l → Everywhere BufferOk (S.store l))

set_option linter.unusedSectionVars false
include hS hB in
mutual
theorem phys_buffers : ∀ t : Tree.Arr L, WF env leafRows ok t → Fits sc env t → Everywhere BufferOk (phys sc S env t)
  | .leaf l, h, _ => hB l h
  | .flat k vals v, h, hf => by
    simp only [WF] at h
    simp only [Fits] at hf
    have hv := physV_buffers v h.2 hf.1
    obtain ⟨b1, b2⟩ := buildViews_lt (vals.map bytesOf) [] (by simp) (by
      intro w hw
      obtain ⟨x, _, rfl⟩ := List.mem_map.mp hw
      exact bytesOf_lt x)
    cases k with
    | prim p =>
      refine ⟨?_, hv⟩
      simp only [BufferOk, Arr.enc, Arr.data, Arr.dtype, hasBuffer, if_true, elemWidth]
      intro x hx
      obtain ⟨y, hy, rfl⟩ := List.mem_map.mp hx
      exact numOf_lt (h.1 y hy)
    | bool =>
      refine ⟨?_, hv⟩
      simp only [BufferOk, Arr.enc, Arr.data, Arr.dtype, hasBuffer, if_true, elemWidth]
      simpa using packBits_lt vals
    | utf8 => exact ⟨rfl, numbers_ok _ _ (by simpa [PType.bits] using b1), numbers_ok _ _ (by simpa [PType.bits] using b2), hv⟩
    | binary => exact ⟨rfl, numbers_ok _ _ (by simpa [PType.bits] using b1), numbers_ok _ _ (by simpa [PType.bits] using b2), hv⟩
  | .null n, _, _ => ⟨rfl, trivial⟩
  | .const dt x n, _, _ => ⟨rfl, trivial⟩
  | .chunked dt cs, h, hf => by
    simp only [WF] at h
    simp only [Fits] at hf
    refine ⟨rfl, numbers_ok _ _ ?_, physs_buffers cs h.1 hf.1⟩
    intro x hx
    have := chunkOffsets_le _ _ x hx
    rw [physs_lens hS cs h.1, Nat.zero_add] at this
    exact Nat.lt_of_le_of_lt this hf.2
  | .struct names fs n v, h, hf => by
    simp only [WF] at h
    simp only [Fits] at hf
    exact ⟨rfl, everywheres_append _ _ (physs_buffers fs h.2.1 hf.1) (physV_buffers v h.2.2.2 hf.2)⟩
  | .ext id m s, h, hf => by
    simp only [WF] at h
    simp only [Fits] at hf
    exact ⟨rfl, phys_buffers s h hf, trivial⟩
  | .sparse is values n off fill, h, hf => by
    simp only [WF] at h
    simp only [Fits] at hf
    exact ⟨rfl, numbers_ok _ _ hf.2.2, phys_buffers values h.1 hf.1, trivial⟩
  | .dict codes values, h, hf => by
    simp only [WF] at h
    simp only [Fits] at hf
    exact ⟨rfl, phys_buffers values h.2.1 hf.2, phys_buffers codes h.1 hf.1, trivial⟩
  | .runEnd ends values v off n, h, hf => by
    simp only [WF] at h
    simp only [Fits] at hf
    exact ⟨rfl, numbers_ok _ _ hf.2.2, phys_buffers values h.1 hf.1, physV_buffers v h.2.1 hf.2.1⟩
  | .mapped c enc, h, hf => by
    simp only [WF] at h
    simp only [Fits] at hf
    have := phys_buffers enc h.1 hf.1
    cases c <;> exact ⟨rfl, this, trivial⟩
  | .alpP e f enc patches, h, hf => by
    simp only [WF] at h
    simp only [Fits] at hf
    exact ⟨rfl, phys_buffers enc h.1 hf.1, phys_buffers patches h.2.1 hf.2, trivial⟩
theorem physs_buffers : ∀ cs : List (Tree.Arr L), WFs env leafRows ok cs → Fitss sc env cs → Everywheres BufferOk (physs sc S env cs)
  | [], _, _ => trivial
  | c :: cs, h, hf => by
    simp only [WFs] at h
    simp only [Fitss] at hf
    exact ⟨phys_buffers c h.1 hf.1, physs_buffers cs h.2 hf.2⟩
theorem physV_buffers : ∀ (v : TVal (Tree.Arr L)) {n : Nat}, WFV env leafRows ok v n → FitsV sc env v → Everywheres BufferOk (physV sc S env v)
  | .array a, _, h, hf => by
    simp only [WFV] at h
    simp only [FitsV] at hf
    exact ⟨phys_buffers a h.1 hf, trivial⟩
  | .nonNullable, _, _, _ => trivial
  | .allValid, _, _, _ => trivial
  | .allInvalid, _, _, _ => trivial
end
end

end Vx.Store
