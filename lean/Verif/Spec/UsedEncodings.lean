import Verif.Model.UsedEncodings
/-! # Specification for C116: the encodings in an array -/
namespace Vx.Tree
open Vx.Registry

/-- The encodings of plain data of a kind: strings are stored either way, with children for offsets and bytes. -/
def kindEncs : Kind → List Std
  | .prim _ => [.prim]
  | .bool => [.bool]
  | .utf8 | .binary => [.varbin, .varbinview, .prim]

def codecEnc : Codec → Std
  | .for .. => .for
  | .zigzag => .zigzag
  | .alp .. => .alp

section
variable (le : L → List Std)

mutual
/-- All encodings in an array, its own and those of everything inside; `le`: those of the arrays not spelled out. -/
def encsOf : Arr L → List Std
  | .leaf l => le l
  | .flat k _ v => kindEncs k ++ encsV v
  | .null _ => [.null]
  | .const _ _ _ => [.constant]
  | .chunked _ cs => .chunked :: .prim :: encsAll cs
  | .struct _ fs _ v => .struct :: (encsAll fs ++ encsV v)
  | .ext _ _ s => .ext :: encsOf s
  | .sparse _ values _ _ _ => .sparse :: encsOf values
  | .dict codes values => .dict :: (encsOf codes ++ encsOf values)
  | .runEnd _ values v _ _ => .runEnd :: (encsOf values ++ encsV v)
  | .mapped c enc => codecEnc c :: encsOf enc
  | .alpP _ _ enc patches => .alp :: (encsOf enc ++ encsOf patches)
def encsAll : List (Arr L) → List Std
  | [] => []
  | c :: cs => encsOf c ++ encsAll cs
def encsV : TVal (Arr L) → List Std
  | .array a => encsOf a
  | _ => []
end

end

section
variable (env : Env L)

mutual
/-- Chunks that `rechunk` may combine: structs and extension arrays, or arrays of a type with a plain form. -/
def ChunkOk : Arr L → Prop
  | .struct _ fs _ _ => ChunksOk fs
  | .ext _ _ _ => True
  | .null _ => True
  | a => (kindOf (dtype env a)).isSome = true
def ChunksOk : List (Arr L) → Prop
  | [] => True
  | c :: cs => ChunkOk c ∧ ChunksOk cs
end

mutual
/-- The chunks of the chunked arrays the compressor looks into are such. -/
def Rechunkable : Arr L → Prop
  | .flat _ _ v => RechunkableV v
  | .chunked _ cs => RechunkableAll cs ∧ ChunksOk env cs
  | .struct _ fs _ v => RechunkableAll fs ∧ RechunkableV v
  | .sparse _ values _ _ _ => Rechunkable values
  | _ => True
def RechunkableAll : List (Arr L) → Prop
  | [] => True
  | c :: cs => Rechunkable c ∧ RechunkableAll cs
def RechunkableV : TVal (Arr L) → Prop
  | .array a => Rechunkable a
  | _ => True
end

end
end Vx.Tree
