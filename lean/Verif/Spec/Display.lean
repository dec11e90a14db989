import Verif.Spec.Scalar
/-! # What the text of a scalar has to be -/
namespace Vx.Spec

/-- ASCII text as bytes. -/
def text (s : String) : List UInt8 := s.toList.map (fun c => UInt8.ofNat c.toNat)

mutual
/-- Types made of booleans, numbers, strings and bytes with structs of these: no lists and no extension types. -/
def NoListOrExt : DType → Prop
  | .list _ _ | .ext _ _ _ => False
  | .struct ns ds _ => ns.length = ds.length ∧ NoListOrExts ds
  | _ => True
def NoListOrExts : List DType → Prop
  | [] => True
  | d :: ds => NoListOrExt d ∧ NoListOrExts ds
end

mutual
/-- The same without strings. -/
def NoText : DType → Prop
  | .list _ _ | .ext _ _ _ | .utf8 _ => False
  | .struct ns ds _ => ns.length = ds.length ∧ NoTexts ds
  | _ => True
def NoTexts : List DType → Prop
  | [] => True
  | d :: ds => NoText d ∧ NoTexts ds
end

/-- Which floats are NaN. -/
def isNaN : PValue → Bool
  | ⟨.f16, a⟩ => (⟨5, 10⟩ : Fmt).isNaN a
  | ⟨.f32, a⟩ => f32.isNaN a
  | ⟨.f64, a⟩ => f64.isNaN a
  | _ => false

mutual
def NaNFree : SV → Prop
  | .prim p => isNaN p = false
  | .list vs => NaNFrees vs
  | _ => True
def NaNFrees : List SV → Prop
  | [] => True
  | v :: vs => NaNFree v ∧ NaNFrees vs
end

/-- All that is used of how floats print: only digits, letters, `+`, `-` and `.`; and apart from NaNs, different floats of one width print
differently. -/
structure FloatText (f : (p : PType) → BitVec p.bits → List UInt8) : Prop where
  plain : ∀ p b c, c ∈ f p b → (48 ≤ c ∧ c ≤ 57) ∨ (65 ≤ c ∧ c ≤ 90) ∨ (97 ≤ c ∧ c ≤ 122) ∨ c = 43 ∨ c = 45 ∨ c = 46
  inj : ∀ p a b, p.isFloat = true → f p a = f p b → a = b ∨ (isNaN ⟨p, a⟩ = true ∧ isNaN ⟨p, b⟩ = true)

end Vx.Spec
