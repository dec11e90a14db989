import Verif.Model.ArrowType
/-!
# Specification for the Arrow type conversions

Which Arrow types mean the same as which others, and which dtypes have an Arrow counterpart, without reference to the conversion code.
-/
namespace Vx.Spec.Arrow
open Vx.Temporal Vx.Arrow

mutual
/-- The Arrow type that carries the same logical values in the layout vortex writes: strings and bytes as views; everything else as is. -/
def viewed : AType → AType
  | .utf8 => .utf8View
  | .largeUtf8 => .utf8View
  | .binary => .binaryView
  | .largeBinary => .binaryView
  | .struct fs => .struct (viewedFields fs)
  | t => t
def viewedFields : AFields → AFields
  | .nil => .nil
  | .cons n t b r => .cons n (viewed t) b (viewedFields r)
end

mutual
/-- The Arrow types with an exact dtype counterpart: no lists, none of the unsupported ones, time units that Arrow itself allows, a zone
name that is not empty and under 64 KiB, and no "non-nullable null" field. -/
def Plain : AType → Prop
  | .null | .boolean | .prim _ | .utf8 | .largeUtf8 | .utf8View | .binary | .largeBinary | .binaryView | .date32 | .date64 => True
  | .time32 u => u = .second ∨ u = .milli
  | .time64 u => u = .micro ∨ u = .nano
  | .timestamp _ tz => ∀ z, tz = some z → z ≠ "" ∧ z.toByteArray.data.toList.length < 65536
  | .list _ _ _ | .largeList _ _ _ | .other _ => False
  | .struct fs => PlainFields fs
def PlainFields : AFields → Prop
  | .nil => True
  | .cons _ t n r => Plain t ∧ (t = .null → n = true) ∧ PlainFields r
end

mutual
/-- The Arrow type, or a field or list element inside it, is one that vortex does not have, or is a timestamp whose zone name is 64 KiB or
more. -/
def Unsupported : AType → Prop
  | .other _ => True
  | .timestamp _ tz => ∃ z, tz = some z ∧ 65536 ≤ z.toByteArray.data.toList.length
  | .list _ e _ | .largeList _ e _ => Unsupported e
  | .struct fs => UnsupportedFields fs
  | _ => False
def UnsupportedFields : AFields → Prop
  | .nil => False
  | .cons _ t _ r => Unsupported t ∨ UnsupportedFields r
end

/-- A temporal type Arrow has: date in days or milliseconds, time of day and timestamps in seconds to nanoseconds. -/
def ArrowMeta : Meta → Prop
  | .date u => u = .d ∨ u = .ms
  | .time u => u ≠ .d
  | .timestamp u tz => u ≠ .d ∧ tz ≠ some ""

mutual
/-- The dtypes with an Arrow counterpart: no lists and no extension types other than the temporal ones, as vortex writes them. -/
inductive HasArrow : DType → Prop
  | null : HasArrow .null
  | bool (n : Bool) : HasArrow (.bool n)
  | prim (p : PType) (n : Bool) : HasArrow (.prim p n)
  | utf8 (n : Bool) : HasArrow (.utf8 n)
  | binary (n : Bool) : HasArrow (.binary n)
  | ext (m : Meta) (b : List UInt8) (n : Bool) (hm : ArrowMeta m) (hb : m.encode = .ok b) : HasArrow (.ext m.id (some b) n)
  | struct (names : List Str) (dtypes : List DType) (n : Bool) (h : HasArrowFields names dtypes) : HasArrow (.struct names dtypes n)
inductive HasArrowFields : List Str → List DType → Prop
  | nil : HasArrowFields [] []
  | cons (name : Str) (d : DType) (names : List Str) (ds : List DType) (h : HasArrow d) (hs : HasArrowFields names ds) :
      HasArrowFields (name :: names) (d :: ds)
end

mutual
/-- The dtypes that can be exported at all, given how metadata bytes are read: any temporal extension type with readable metadata and a unit
Arrow has; structs of such types (a struct has as many names as dtypes; the shorter list decides). -/
inductive Exportable (lossy : List UInt8 → String) : DType → Prop
  | null : Exportable lossy .null
  | bool (n : Bool) : Exportable lossy (.bool n)
  | prim (p : PType) (n : Bool) : Exportable lossy (.prim p n)
  | utf8 (n : Bool) : Exportable lossy (.utf8 n)
  | binary (n : Bool) : Exportable lossy (.binary n)
  | ext (id : Str) (md : Option (List UInt8)) (n : Bool) (m : Meta) (hd : decode lossy id md = .ok m)
      (hu : match m with
        | .date u => u = .d ∨ u = .ms
        | .time u => u ≠ .d
        | .timestamp u _ => u ≠ .d) : Exportable lossy (.ext id md n)
  | struct (names : List Str) (dtypes : List DType) (n : Bool) (h : ExportableFields lossy names dtypes) :
      Exportable lossy (.struct names dtypes n)
inductive ExportableFields (lossy : List UInt8 → String) : List Str → List DType → Prop
  | nil (ds : List DType) : ExportableFields lossy [] ds
  | nil' (names : List Str) : ExportableFields lossy names []
  | cons (name : Str) (names : List Str) (d : DType) (ds : List DType) (h : Exportable lossy d)
      (hs : ExportableFields lossy names ds) : ExportableFields lossy (name :: names) (d :: ds)
end

end Vx.Spec.Arrow
