import Verif.Model.Scalar
import Verif.Model.Temporal
/-!
# Printing scalars
`Display for Scalar` (vortex-scalar/src/display.rs), `Display for ScalarValue` (vortex-scalar/src/value.rs:29-70) and `Display for PValue`
(vortex-scalar/src/pvalue.rs:266-282). Text is its UTF-8 bytes. `.err` is `std::fmt::Error`; `format!` and `to_string` turn it into a panic
("a formatting trait implementation returned an error").
-/
namespace Vx.Display
open Vx.Temporal

abbrev Out := List UInt8

/-- A literal of the program text; all of them are ASCII. -/
def asc (s : String) : Out := s.toList.map (fun c => UInt8.ofNat c.toNat)

/-- What the code takes from elsewhere: how `f16`, `f32` and `f64` print (std, `half`), what `jiff` makes of a temporal value (`to_jiff` and
the `Display` of its result; `none` is an error), `String::from_utf8_lossy`, and whether bytes are UTF-8. -/
structure Env where
  float : (p : PType) → BitVec p.bits → Out
  jiff : Meta → Int → Option Out
  lossy : List UInt8 → String
  ok8 : List UInt8 → Bool

/-- The digit `d`, in lower case. -/
def digit (d : Nat) : UInt8 := if d < 10 then UInt8.ofNat (48 + d) else UInt8.ofNat (87 + d)

/-- Digits of `n` in base `b`, most significant first (`core::fmt::num`); the first argument bounds the number of digits. -/
def digitsGo (b : Nat) : Nat → Nat → Out
  | 0, _ => []
  | f + 1, n => if n < b then [digit n] else digitsGo b f (n / b) ++ [digit (n % b)]

/-- `{}` (base 10) and `{:x}` (base 16) of an unsigned number. -/
def digits (b n : Nat) : Out := digitsGo b (n + 1) n

/-- `{}` of an integer. -/
def int (i : Int) : Out := if i < 0 then asc "-" ++ digits 10 i.natAbs else digits 10 i.natAbs

/-- The suffixes of pvalue.rs:269-279. -/
def suffix : PType → String
  | .u8 => "_u8" | .u16 => "_u16" | .u32 => "_u32" | .u64 => "_u64"
  | .i8 => "_i8" | .i16 => "_i16" | .i32 => "_i32" | .i64 => "_i64"
  | .f16 => "_f16" | .f32 => "_f32" | .f64 => "_f64"

/-- `Display for PValue`: pvalue.rs:266-282. -/
def pvalue (E : Env) (p : PValue) : Out := (if p.pt.isFloat then E.float p.pt p.bits else int p.toInt) ++ asc (suffix p.pt)

/-- `{:02x}`. -/
def hex2 (b : UInt8) : Out := [digit (b.toNat / 16), digit (b.toNat % 16)]

/-- `str::is_char_boundary` (std): the ends, and every byte that does not continue a character. -/
def boundary (bs : List UInt8) (i : Nat) : Bool :=
  i == 0 || match bs[i]? with
    | none => i == bs.length
    | some b => decide (b.toNat < 128 ∨ 192 ≤ b.toNat)

/-- `&s[0..5]` and `&s[s.len()-5..s.len()]` of a string; cutting inside a character panics. -/
def cut (bs : List UInt8) (i j : Nat) : Res Out :=
  if boundary bs i && boundary bs j then .ok ((bs.drop i).take (j - i)) else .panic

/-- `Display for ScalarValue`: value.rs:37-70 (`to_hex` is lines 29-35). -/
def value (E : Env) : SV → Res Out
  | .bool b => .ok (asc (if b then "true" else "false"))
  | .prim p => .ok (pvalue E p)
  | .buffer bs =>
    if bs.length > 10 then .ok ((bs.take 5).flatMap hex2 ++ asc ".." ++ (bs.drop (bs.length - 5)).flatMap hex2)
    else .ok (bs.flatMap hex2)
  | .str bs =>
    if bs.length > 10 then do
      let a ← cut bs 0 5
      let b ← cut bs (bs.length - 5) bs.length
      .ok (a ++ asc ".." ++ b)
    else .ok bs
  | .list _ => .panic
  | .null => .ok (asc "null")

/-- `Itertools::format(sep)`. -/
def join (sep : Out) : List Out → Out
  | [] => []
  | [a] => a
  | a :: as => a ++ sep ++ join sep as

/-- `{name}:` of a field name. -/
def label (n : Str) : Out := utf8 (String.ofList n) ++ asc ":"

/-- `format!`: a `std::fmt::Error` is a panic. -/
def fmt : Res Out → Res Out
  | .err => .panic
  | r => r

/-- The temporal arm, display.rs:64-84 with `to_jiff` (vortex-datetime-dtype/src/temporal.rs:68-98). -/
def temporal (E : Env) (id : Str) (md : Option (List UInt8)) (v : SV) : Res Out := do
  let m ← decode E.lossy id md
  match v with
  | .null => .ok (asc "null")
  | .prim ⟨.i32, b⟩ => if jiffUnitOk m then Res.ofOption (E.jiff m b.toInt) else .err
  | .prim ⟨.i64, b⟩ => if jiffUnitOk m then Res.ofOption (E.jiff m b.toInt) else .err
  | _ => .err

mutual
/-- `Display for Scalar`: display.rs:13-88. -/
def scalar (E : Env) (d : DType) (v : SV) : Res Out :=
  match v with
  | .list vs => match d with
    | .null | .bool _ | .prim _ _ => value E (.list vs)
    | .utf8 _ | .binary _ => .err
    | .struct ns ds _ => do
      let fs ← fields E ns ds vs
      .ok (asc "{" ++ join (asc ",") fs ++ asc "}")
    | .list _ _ => .panic
    | .ext id md _ => if isTemporal id then temporal E id md (.list vs) else .panic
  | v => match d with
    | .null | .bool _ | .prim _ _ => value E v
    | .utf8 _ => match v with
      | .null => .ok (asc "null")
      | .buffer bs => if E.ok8 bs then .ok bs else .err
      | .str bs => .ok bs
      | _ => .err
    | .binary _ => match v with
      | .null => .ok (asc "null")
      | .buffer bs => .ok (join (asc ",") (bs.map (fun b => digits 16 b.toNat)))
      | _ => .err
    | .struct _ _ _ => match v with
      | .null => .ok (asc "null")
      | _ => .err
    | .list _ _ => .panic
    | .ext id md _ => if isTemporal id then temporal E id md v else .panic
/-- The fields of a struct, display.rs:47-58: a name with no value prints as null; `dtypes()[idx]` is checked. -/
def fields (E : Env) (ns : List Str) (ds : List DType) (vs : List SV) : Res (List Out) :=
  match vs with
  | [] => .ok (ns.map (fun n => label n ++ asc "null"))
  | v :: vs => match ns with
    | [] => .ok []
    | n :: ns => match ds with
      | [] => .panic
      | d :: ds => do
        let t ← fmt (scalar E d v)
        let r ← fields E ns ds vs
        .ok ((label n ++ t) :: r)
end

/-- `scalar.to_string()`, `format!("{scalar}")`. -/
def toText (E : Env) (s : Scalar) : Res Out := fmt (scalar E s.dtype s.value)

end Vx.Display
