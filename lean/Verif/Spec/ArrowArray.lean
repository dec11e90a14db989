import Verif.Model.ArrowArray
import Verif.Spec.Validity
/-!
# Specification for the Arrow array conversions: the rows an array holds
-/
namespace Vx.Spec.Arrow
open Vx.Arrow Vx.Temporal

/-- A value as a user sees it. A fixed-width value is its bit pattern. -/
inductive Val where
  | null
  | bool (b : Bool)
  | bits (n : Nat)
  | bytes (bs : List UInt8)
  | tuple (fields : List Val)

/-- Row `i` of stored values under a mask. -/
def cell (f : α → Val) (vals : List α) (mask : List Bool) (i : Nat) : Val :=
  match vals[i]?, mask[i]? with
  | some x, some true => f x
  | _, _ => .null

/-- The mask of an Arrow null buffer: without one, every row is valid. -/
def nullMask (len : Nat) : Option (List Bool) → List Bool
  | none => List.replicate len true
  | some m => m

mutual
/-- Row `i` of an Arrow array. A row of a struct is null, or has one value per column. -/
def arow : AArr → Nat → Val
  | .null _, _ => .null
  | .other _ _, _ => .null
  | .bool vals b, i => cell .bool vals (nullMask vals.length b) i
  | .fixed _ vals b, i => cell .bits vals (nullMask vals.length b) i
  | .bytes _ vals b, i => cell .bytes vals (nullMask vals.length b) i
  | .struct cols len b, i => if (nullMask len b)[i]? = some true then .tuple (arowCols cols i) else .null
def arowCols : ACols → Nat → List Val
  | .nil, _ => []
  | .cons _ _ a rest, i => arow a i :: arowCols rest i
end

mutual
/-- Row `i` of a vortex array. -/
def vrow : VArr → Nat → Val
  | .null _, _ => .null
  | .bool vals v, i => cell .bool vals (mask vals.length v) i
  | .prim _ vals v, i => cell .bits vals (mask vals.length v) i
  | .bytes _ _ vals v, i => cell .bytes vals (mask vals.length v) i
  | .struct cols len v, i => if (mask len v)[i]? = some true then .tuple (vrowCols cols i) else .null
  | .ext _ _ s, i => vrow s i
def vrowCols : VCols → Nat → List Val
  | .nil, _ => []
  | .cons _ a rest, i => vrow a i :: vrowCols rest i
end

/-- All rows. -/
def arows (a : AArr) : List Val := (List.range a.len).map (arow a)
def vrows (v : VArr) : List Val := (List.range v.len).map (vrow v)

/-- A null buffer has one bit per row. -/
def NullsFit (len : Nat) : Option (List Bool) → Prop
  | none => True
  | some m => m.length = len

mutual
/-- What Arrow guarantees of its arrays: null buffers and struct columns have the right length. -/
def AWF : AArr → Prop
  | .null _ | .other _ _ => True
  | .bool vals b => NullsFit vals.length b
  | .fixed _ vals b => NullsFit vals.length b
  | .bytes _ vals b => NullsFit vals.length b
  | .struct cols len b => NullsFit len b ∧ AWFCols len cols
def AWFCols (len : Nat) : ACols → Prop
  | .nil => True
  | .cons _ _ a rest => AWF a ∧ a.len = len ∧ AWFCols len rest
end

mutual
/-- What vortex guarantees of its canonical arrays. -/
def VWF : VArr → Prop
  | .null _ => True
  | .bool vals v => FitsLen v vals.length
  | .prim _ vals v => FitsLen v vals.length
  | .bytes _ _ vals v => FitsLen v vals.length
  | .struct cols len v => FitsLen v len ∧ VWFCols len cols
  | .ext _ _ s => VWF s
def VWFCols (len : Nat) : VCols → Prop
  | .nil => True
  | .cons _ a rest => VWF a ∧ a.len = len ∧ VWFCols len rest
end

mutual
/-- The type with every time zone erased. -/
def noZone : AType → AType
  | .timestamp u _ => .timestamp u none
  | .list n e b => .list n (noZone e) b
  | .largeList n e b => .largeList n (noZone e) b
  | .struct fs => .struct (noZoneFields fs)
  | t => t
def noZoneFields : AFields → AFields
  | .nil => .nil
  | .cons n t b r => .cons n (noZone t) b (noZoneFields r)
end

/-- The fixed-width types Arrow has and vortex imports. -/
def FixedOk : AType → Prop
  | .prim _ | .timestamp _ _ | .date32 | .date64 => True
  | .time32 u => u = .second ∨ u = .milli
  | .time64 u => u = .micro ∨ u = .nano
  | _ => False

def BytesOk : AType → Prop
  | .utf8 | .largeUtf8 | .utf8View | .binary | .largeBinary | .binaryView => True
  | _ => False

/-- A null buffer may be present only when the field is nullable. -/
def NullsOk (nullable : Bool) (b : Option (List Bool)) : Prop := nullable = true ∨ b = none

mutual
/-- When an Arrow array can be imported as a field of the given nullability. -/
def ImportOk : AArr → Bool → Prop
  | .null _, nullable => nullable = true
  | .other _ _, _ => False
  | .bool _ b, nullable => NullsOk nullable b
  | .fixed t _ b, nullable => NullsOk nullable b ∧ FixedOk t
  | .bytes t _ b, nullable => NullsOk nullable b ∧ BytesOk t
  | .struct cols _ b, nullable => NullsOk nullable b ∧ ImportOkCols cols
def ImportOkCols : ACols → Prop
  | .nil => True
  | .cons _ nullable a rest => ImportOk a nullable ∧ ImportOkCols rest
end

mutual
/-- No struct without columns, other than an empty one, and no column of bytes (rather than text) held with offsets. -/
def CanExport : VArr → Prop
  | .bytes utf8 offs _ _ => utf8 = true ∨ offs = false
  | .struct cols len _ => (cols = .nil → len = 0) ∧ CanExportAll cols
  | .ext _ _ s => CanExport s
  | _ => True
def CanExportAll : VCols → Prop
  | .nil => True
  | .cons _ a rest => CanExport a ∧ CanExportAll rest
end

mutual
/-- The same for Arrow arrays. -/
def ACanExport : AArr → Prop
  | .bytes t _ _ => t ≠ .binary ∧ t ≠ .largeBinary
  | .struct cols len _ => (cols = .nil → len = 0) ∧ ACanExportAll cols
  | _ => True
def ACanExportAll : ACols → Prop
  | .nil => True
  | .cons _ _ a rest => ACanExport a ∧ ACanExportAll rest
end

mutual
/-- Every temporal array in it stores primitive values of the width its unit calls for, as the constructors insist (C47). -/
def Stored (lossy : List UInt8 → String) : VArr → Prop
  | .ext id md s => isTemporal id = true → ∃ m p vals v, decode lossy id md = .ok m ∧ storage m = some p ∧ s = .prim p vals v
  | .struct cols _ _ => StoredAll lossy cols
  | _ => True
def StoredAll (lossy : List UInt8 → String) : VCols → Prop
  | .nil => True
  | .cons _ a rest => Stored lossy a ∧ StoredAll lossy rest
end

end Vx.Spec.Arrow
