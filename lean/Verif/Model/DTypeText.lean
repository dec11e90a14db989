import Verif.Model.DType
/-!
# Printing types
`Display for DType` (vortex-dtype/src/dtype.rs:117-147, with nullability.rs:28-35, ptype.rs:235-251, extension.rs:14-18) is Python's `str`;
`python_repr` (pyvortex/src/python_repr.rs) is Python's `repr` (pyvortex/src/dtype.rs:29-36). The type constructors of pyvortex/src/dtype.rs.
-/
namespace Vx.DTypeText

def lit (s : String) : Str := s.toList

/-- `Itertools::join(", ")`. -/
def commas : List Str → Str
  | [] => []
  | [a] => a
  | a :: as => a ++ lit ", " ++ commas as

/-- nullability.rs:28-35 -/
def mark (n : Bool) : Str := if n then lit "?" else []

/-- ptype.rs:235-251 -/
def ptype : PType → Str
  | .u8 => lit "u8" | .u16 => lit "u16" | .u32 => lit "u32" | .u64 => lit "u64"
  | .i8 => lit "i8" | .i16 => lit "i16" | .i32 => lit "i32" | .i64 => lit "i64"
  | .f16 => lit "f16" | .f32 => lit "f32" | .f64 => lit "f64"

/-- Derived `Debug` of `ExtMetadata(Arc<[u8]>)`: extension.rs:32-34. -/
def debugMeta (m : List UInt8) : Str := lit "ExtMetadata([" ++ commas (m.map (fun b => Nat.toDigits 10 b.toNat)) ++ lit "])"

mutual
/-- `Display for DType`: dtype.rs:117-147. -/
def display : DType → Str
  | .null => lit "null"
  | .bool n => lit "bool" ++ mark n
  | .prim p n => ptype p ++ mark n
  | .utf8 n => lit "utf8" ++ mark n
  | .binary n => lit "binary" ++ mark n
  | .struct ns ds n => lit "{" ++ commas (displayFields ns ds) ++ lit "}" ++ mark n
  | .list e n => lit "list(" ++ display e ++ lit ")" ++ mark n
  | .ext id m n => lit "ext(" ++ id ++ (match m with | some m => lit ", " ++ debugMeta m | none => []) ++ lit ")" ++ mark n
/-- `names.iter().zip(dtypes)`, dtype.rs:127-131. -/
def displayFields (ns : List Str) : List DType → List Str
  | [] => []
  | d :: ds => match ns with
    | [] => []
    | n :: ns => (n ++ lit "=" ++ display d) :: displayFields ns ds
end

/-- python_repr.rs:70-78 -/
def truth (n : Bool) : Str := if n then lit "True" else lit "False"

/-- `<[u8]>::escape_ascii` (std), one byte. -/
def escapeByte (b : UInt8) : Str :=
  if b = 9 then lit "\\t" else if b = 13 then lit "\\r" else if b = 10 then lit "\\n" else if b = 39 then lit "\\'"
  else if b = 34 then lit "\\\"" else if b = 92 then lit "\\\\"
  else if 32 ≤ b ∧ b < 127 then [Char.ofNat b.toNat]
  else lit "\\x" ++ [Nat.digitChar (b.toNat / 16), Nat.digitChar (b.toNat % 16)]

/-- `str::escape_default` (std), one character. -/
def escapeChar (c : Char) : Str :=
  if c = '\t' then lit "\\t" else if c = '\r' then lit "\\r" else if c = '\n' then lit "\\n" else if c = '\'' then lit "\\'"
  else if c = '"' then lit "\\\"" else if c = '\\' then lit "\\\\"
  else if 32 ≤ c.toNat ∧ c.toNat < 127 then [c]
  else lit "\\u{" ++ Nat.toDigits 16 c.toNat ++ lit "}"

/-- `ExtMetadata::python_repr`: python_repr.rs:88-93; `None` is line 54. -/
def reprMeta : Option (List UInt8) → Str
  | none => lit "None"
  | some m => lit "\"" ++ m.flatMap escapeByte ++ lit "\""

/-- The function a number type is written with, python_repr.rs:26-36. -/
def family (p : PType) : Str := if p.isFloat then lit "float" else if p.isSigned then lit "int" else lit "uint"

mutual
/-- `DType::python_repr`: python_repr.rs:19-61. The id of an extension is quoted by `ExtID::python_repr` (lines 103-108) and again by line 51. -/
def repr : DType → Str
  | .null => lit "null()"
  | .bool n => lit "bool(" ++ truth n ++ lit ")"
  | .prim p n => family p ++ lit "(" ++ Nat.toDigits 10 p.bits ++ lit ", " ++ truth n ++ lit ")"
  | .utf8 n => lit "utf8(" ++ truth n ++ lit ")"
  | .binary n => lit "binary(" ++ truth n ++ lit ")"
  | .struct ns ds n => lit "struct({" ++ commas (reprFields ns ds) ++ lit "}, " ++ truth n ++ lit ")"
  | .list e n => lit "list(" ++ repr e ++ lit ", " ++ truth n ++ lit ")"
  | .ext id m n => lit "ext(\"\"" ++ id.flatMap escapeChar ++ lit "\"\", " ++ reprMeta m ++ lit ", " ++ truth n ++ lit ")"
def reprFields (ns : List Str) : List DType → List Str
  | [] => []
  | d :: ds => match ns with
    | [] => []
    | n :: ns => (lit "\"" ++ n ++ lit "\": " ++ repr d) :: reprFields ns ds
end

/-- A call of one of the constructors of `vortex.dtype`; a width is the optional argument. -/
inductive Call where
  | null
  | bool (n : Bool)
  | int (width : Option Nat) (n : Bool)
  | uint (width : Option Nat) (n : Bool)
  | float (width : Option Nat) (n : Bool)
  | utf8 (n : Bool)
  | binary (n : Bool)
  deriving DecidableEq

/-- `dtype_null`, `dtype_bool`, `dtype_int`, `dtype_uint`, `dtype_float`, `dtype_utf8`, `dtype_binary`: pyvortex/src/dtype.rs:64-289. -/
def construct : Call → Res DType
  | .null => .ok .null
  | .bool n => .ok (.bool n)
  | .int w n => match w with
    | none => .ok (.prim .i64 n)
    | some w => if w = 8 then .ok (.prim .i8 n) else if w = 16 then .ok (.prim .i16 n) else if w = 32 then .ok (.prim .i32 n)
      else if w = 64 then .ok (.prim .i64 n) else .err
  | .uint w n => match w with
    | none => .ok (.prim .u64 n)
    | some w => if w = 8 then .ok (.prim .u8 n) else if w = 16 then .ok (.prim .u16 n) else if w = 32 then .ok (.prim .u32 n)
      else if w = 64 then .ok (.prim .u64 n) else .err
  | .float w n => match w with
    | none => .ok (.prim .f64 n)
    | some w => if w = 16 then .ok (.prim .f16 n) else if w = 32 then .ok (.prim .f32 n)
      else if w = 64 then .ok (.prim .f64 n) else .err
  | .utf8 n => .ok (.utf8 n)
  | .binary n => .ok (.binary n)

end Vx.DTypeText
