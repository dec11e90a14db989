/-! # IEEE-754 comparison on bit patterns

Only what `==`, `!=` and `is_nan` need: which patterns are NaN and which are zeros. -/

namespace Vx.Spec

/-- A float format: `man` mantissa bits, `exp` exponent bits, one sign bit. -/
structure Fmt where
  exp : Nat
  man : Nat

def Fmt.width (f : Fmt) : Nat := f.exp + f.man + 1
def f32 : Fmt := ⟨8, 23⟩
def f64 : Fmt := ⟨11, 52⟩

/-- The pattern without its sign bit. -/
def Fmt.mag (f : Fmt) (x : BitVec f.width) : Nat := x.toNat % 2 ^ (f.exp + f.man)

/-- NaN: exponent all ones and a non-zero mantissa. -/
def Fmt.isNaN (f : Fmt) (x : BitVec f.width) : Bool := decide ((2 ^ f.exp - 1) * 2 ^ f.man < f.mag x)

/-- Plus or minus zero. -/
def Fmt.isZero (f : Fmt) (x : BitVec f.width) : Bool := f.mag x == 0

/-- IEEE `a == b`: never for NaN; the two zeros are equal; otherwise the same pattern. -/
def Fmt.eq (f : Fmt) (a b : BitVec f.width) : Bool :=
  !f.isNaN a && !f.isNaN b && (a == b || (f.isZero a && f.isZero b))

/-- IEEE `a != b`. -/
def Fmt.ne (f : Fmt) (a b : BitVec f.width) : Bool := !f.eq a b

/-- Equal under `==` means the same bits, or two zeros. -/
theorem Fmt.ne_false {f : Fmt} {a b : BitVec f.width} (h : f.ne a b = false) : a = b ∨ (f.isZero a = true ∧ f.isZero b = true) := by
  simp only [ne, eq, Bool.not_eq_false', Bool.and_eq_true, Bool.or_eq_true, beq_iff_eq] at h
  exact h.2

end Vx.Spec
