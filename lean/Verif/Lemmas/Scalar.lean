import Verif.Spec.Scalar
/-! # Lemmas about primitive scalar values -/
namespace Vx
namespace PValue

theorem toInt_signed {p : PType} (b : BitVec p.bits) (h : p.isSigned = true) : (⟨p, b⟩ : PValue).toInt = b.toInt := by
  simp [toInt, h]

theorem toInt_unsigned {p : PType} (b : BitVec p.bits) (h : p.isSigned = false) : (⟨p, b⟩ : PValue).toInt = b.toNat := by
  simp [toInt, h]

theorem bits_pos (p : PType) : 0 < p.bits := by cases p <;> simp [PType.bits]

/-- The value of an integer lies in the range of its type. -/
theorem inRange_toInt (p : PValue) : p.pt.inRange p.toInt = true := by
  obtain ⟨p, b⟩ := p
  cases hs : p.isSigned with
  | true =>
    rw [toInt_signed b hs]
    simp only [PType.inRange, hs, if_true, decide_eq_true_eq]
    exact ⟨BitVec.le_toInt b, BitVec.toInt_lt⟩
  | false =>
    rw [toInt_unsigned b hs]
    simp only [PType.inRange, hs, Bool.false_eq_true, if_false, decide_eq_true_eq]
    refine ⟨by omega, ?_⟩
    have := b.isLt
    exact_mod_cast this

/-- `intCast` gives the same mathematical value, at the requested type. -/
theorem intCast_some {q : PType} {v : Int} {w : PValue} (h : intCast q v = some w) : w.pt = q ∧ w.toInt = v := by
  unfold intCast at h
  split at h
  · rename_i hr
    simp only [Option.some.injEq] at h
    subst h
    refine ⟨rfl, ?_⟩
    cases hs : q.isSigned with
    | true =>
      rw [toInt_signed _ hs]
      simp only [PType.inRange, hs, if_true, decide_eq_true_eq] at hr
      have hb := bits_pos q
      have h2 : (2 : Int) ^ q.bits = 2 * 2 ^ (q.bits - 1) := by
        rw [show q.bits = (q.bits - 1) + 1 from by omega, Int.pow_succ]; simp; omega
      rw [BitVec.toInt_ofInt, Int.bmod_eq_of_le]
      · push_cast; rw [h2]; omega
      · push_cast; rw [h2]; omega
    | false =>
      rw [toInt_unsigned _ hs]
      simp only [PType.inRange, hs, Bool.false_eq_true, if_false, decide_eq_true_eq] at hr
      rw [BitVec.toNat_ofInt]
      rw [Int.toNat_of_nonneg (Int.emod_nonneg _ (by have : (0:Int) < 2 ^ q.bits := Int.pow_pos (by omega); push_cast; omega))]
      push_cast
      exact Int.emod_eq_of_lt hr.1 hr.2
  · simp at h

theorem intCast_none {q : PType} {v : Int} : intCast q v = none ↔ q.inRange v = false := by
  unfold intCast; split <;> simp_all

/-- Same type and same number: same value. -/
theorem ext_toInt {p q : PValue} (ht : p.pt = q.pt) (hv : p.toInt = q.toInt) : p = q := by
  obtain ⟨p, a⟩ := p
  obtain ⟨q, b⟩ := q
  simp only at ht
  subst ht
  congr 1
  cases hs : p.isSigned with
  | true => rw [toInt_signed _ hs, toInt_signed _ hs] at hv; exact BitVec.toInt_inj.mp hv
  | false =>
    rw [toInt_unsigned _ hs, toInt_unsigned _ hs] at hv
    exact BitVec.eq_of_toNat_eq (by exact_mod_cast hv)

theorem intCast_self (p : PValue) : intCast p.pt p.toInt = some p := by
  cases h : intCast p.pt p.toInt with
  | none => rw [intCast_none, inRange_toInt] at h; simp at h
  | some w =>
    obtain ⟨h1, h2⟩ := intCast_some h
    rw [ext_toInt h1 h2]

/-- Reading an integer value at an integer type is a range-checked conversion. -/
theorem readAs_int (F : FloatOps) (p : PValue) (q : PType) (hp : p.pt.isFloat = false) (hq : q.isFloat = false) :
    p.readAs F q = intCast q p.toInt := by
  obtain ⟨pt, b⟩ := p
  unfold readAs
  split
  · simp [PType.isFloat] at hq
  · simp only at hp
    simp [hp, hq, numCast]

end PValue
end Vx
