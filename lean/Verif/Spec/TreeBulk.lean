import Verif.Model.TreeBulk
import Verif.Spec.Tree
import Verif.Spec.Chunked
/-!
# Shapes of trees for which decoding, `take` and `filter` are claimed to be right

`Nice` trees decode to a plain array with the same rows and the same type and know which of their rows are null. `Bulk` trees support
`take` (and, with the flag, `filter`). The excluded shapes have counterexamples in `Props/C05.lean`, `Props/C06.lean`.
-/
namespace Vx.Tree

mutual
/-- No chunked array inside (an empty `take` of a chunked array fails, and sparse arrays take nothing from their values when no patch is hit). -/
def chunkFree : Arr L → Bool
  | .flat _ _ v => chunkFreeV v
  | .chunked _ _ => false
  | .struct _ fs _ v => chunkFrees fs && chunkFreeV v
  | .ext _ _ s => chunkFree s
  | .sparse _ values _ _ _ => chunkFree values
  | .dict codes values => chunkFree codes && chunkFree values
  | .runEnd _ values v _ _ => chunkFree values && chunkFreeV v
  | .mapped _ enc => chunkFree enc
  | .alpP _ _ enc patches => chunkFree enc && chunkFree patches
  | _ => true
def chunkFrees : List (Arr L) → Bool
  | [] => true
  | c :: cs => chunkFree c && chunkFrees cs
def chunkFreeV : TVal (Arr L) → Bool
  | .array a => chunkFree a
  | _ => true
end

/-- Sparse-encoded with null fill (the shape of ALP patches). -/
def isPatches : Arr L → Bool
  | .sparse _ _ _ _ fill => fill.isNull
  | _ => false

/-- A type whose sparse arrays decode: primitive, or boolean with null fill. -/
def sparseKind (d : DType) (fill : SV) : Prop :=
  (∃ p n, d = .prim p n ∧ (n = true → fill = .null)) ∨ (∃ n, d = .bool n ∧ fill = .null)

section
variable (env : Env L) (leafRows : L → List SV)

mutual
/-- Decoding works and loses nothing. -/
def Nice : Arr L → Prop
  | .leaf _ => True
  | .flat _ _ v => NiceV v
  | .const dt _ _ => (kindOf dt).isSome = true
  | .chunked dt cs => (kindOf dt).isSome = true ∧ Nices cs
  | .sparse _ values _ _ fill => Nice values ∧ chunkFree values = true ∧ sparseKind (dtype env values) fill ∧
      (∀ r ∈ rows env leafRows values, r.isNull = false)
  | .dict codes values => Nice codes ∧ Nice values ∧ chunkFree values = true ∧
      ((dtype env values).isNullable = true → ∀ r ∈ rows env leafRows codes, (asIdx r = some 0 ↔ deref (rows env leafRows values) r = .null))
  | .runEnd _ values v _ _ => Nice values ∧ NiceV v ∧ chunkFree values = true ∧ (∃ p n, dtype env values = .prim p n)
  | .mapped _ enc => Nice enc
  | .alpP _ _ enc patches => Nice enc ∧ Nice patches ∧ isPatches patches = true
  | .null _ => False
  | .struct _ _ _ _ => False
  | .ext _ _ _ => False
def Nices : List (Arr L) → Prop
  | [] => True
  | c :: cs => Nice c ∧ Nices cs
def NiceV : TVal (Arr L) → Prop
  | .array a => Nice a
  | _ => True
end

variable (temporal : Str → Option (List UInt8) → Option (PType × Option (List UInt8))) (f : Bool)

mutual
/-- `take` works; with `f`, `filter` too. -/
def Bulk : Arr L → Prop
  | .leaf _ => True
  | .flat _ _ v => NiceV env leafRows v
  | .null _ => True
  | .const _ _ _ => True
  | .chunked _ cs => BulkAll cs
  | .struct _ fs _ v => BulkAll fs ∧ NiceV env leafRows v
  | .ext id m s => Bulk s ∧ (f = true → Nice env leafRows s ∧ ∃ p n, dtype env s = .prim p n ∧ temporal id m = some (p, m))
  | .sparse _ values _ _ _ => Bulk values ∧ chunkFree values = true
  | .dict codes _ => Bulk codes
  | .runEnd _ values v _ _ => Nice env leafRows values ∧ NiceV env leafRows v ∧ chunkFree values = true ∧ ∃ p n, dtype env values = .prim p n
  | .mapped .zigzag enc => Nice env leafRows enc
  | .mapped _ enc => Bulk enc
  | .alpP _ _ enc patches => Bulk enc ∧ Bulk patches
def BulkAll : List (Arr L) → Prop
  | [] => True
  | c :: cs => Bulk c ∧ BulkAll cs
end

end

/-- The "not null" mask of some rows. -/
def nonNulls (rs : List SV) : List Bool := rs.map (fun r => !r.isNull)

section
variable (env : BEnv L) (leafRows : L → List SV) (ok : L → Prop)

/-- What a result keeps of the array it was made from. -/
structure Keep (b a : Arr L) : Prop where
  depth : depth b ≤ depth a
  dtype : dtype env.toEnv b = dtype env.toEnv a
  chunkFree : chunkFree a = true → chunkFree b = true
  nice : Nice env.toEnv leafRows a → Nice env.toEnv leafRows b

/-- What is required of a leaf encoding, and of the ALP decoding: it produces floats of the right width. -/
structure LeafBulk : Prop where
  alp32 : ∀ e f q, q.pt = .i32 → (env.alpDec e f q).pt = .f32
  alp64 : ∀ e f q, q.pt = .i64 → (env.alpDec e f q).pt = .f64
  canon : ∀ l, ok l → ∃ k vals v, env.canon l = .ok (.flat k vals v) ∧ WF env.toEnv leafRows ok (.flat k vals v) ∧
    Keep env leafRows (.flat k vals v) (.leaf l) ∧ rows env.toEnv leafRows (.flat k vals v) = leafRows l
  valid : ∀ l, ok l → (env.dtype l).isNullable = true → ∃ lv, env.valid l = .ok lv ∧ lv.intoBools = nonNulls (leafRows l)
  take : ∀ l is, ok l → (∀ i ∈ is, i < (leafRows l).length) → ∃ b, env.take l is = .ok b ∧ WF env.toEnv leafRows ok b ∧
    Keep env leafRows b (.leaf l) ∧ rows env.toEnv leafRows b = Spec.take (leafRows l) is
  filter : ∀ l m, ok l → m.length = (leafRows l).length → ∃ b, env.filter l m = .ok b ∧ WF env.toEnv leafRows ok b ∧
    Keep env leafRows b (.leaf l) ∧ rows env.toEnv leafRows b = Spec.filter (leafRows l) m

end
end Vx.Tree
