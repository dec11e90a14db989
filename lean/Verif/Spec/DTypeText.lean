import Verif.Model.DTypeText
/-! # Which names can be told apart in the text of a type -/
namespace Vx.Spec

mutual
/-- `field` holds of every field name and `ident` of every extension id in the type; and every struct has as many names as types. -/
def Names (field ident : Str → Prop) : DType → Prop
  | .struct ns ds _ => ns.length = ds.length ∧ (∀ n ∈ ns, field n) ∧ AllNames field ident ds
  | .list e _ => Names field ident e
  | .ext id _ _ => ident id
  | _ => True
def AllNames (field ident : Str → Prop) : List DType → Prop
  | [] => True
  | d :: ds => Names field ident d ∧ AllNames field ident ds
end

/-- A call written as Python text. -/
def pyText : DTypeText.Call → String
  | .null => "null()"
  | .bool n => "bool(" ++ py n ++ ")"
  | .int w n => "int(" ++ width w ++ ", " ++ py n ++ ")"
  | .uint w n => "uint(" ++ width w ++ ", " ++ py n ++ ")"
  | .float w n => "float(" ++ width w ++ ", " ++ py n ++ ")"
  | .utf8 n => "utf8(" ++ py n ++ ")"
  | .binary n => "binary(" ++ py n ++ ")"
where
  py (n : Bool) : String := if n then "True" else "False"
  width (w : Option Nat) : String := match w with | none => "None" | some w => toString w

end Vx.Spec
