import Verif.Model.LayoutFile
/-!
# What bytes can make a reader abort

Only bytes, the offsets they hold and the tables flatbuffers finds in them appear here. `Codec.dec` and `FileCodec.dec…` are the flatbuffer verifier.
-/
namespace Vx.Damage
open Ipc (Bytes Codec FbMsg FbBuffer FbArray)
open Layout (FileCodec FbLayout)

/-- The last bytes of a file of `size` bytes, at most `init` of them: what is read first. -/
def lastBytes (init : Nat) (file : Bytes) (size : Nat) : Bytes := (file.take size).drop (size - min init size)

/-- Version 1 and the magic bytes "VRTX" are where they should be, in the last eight bytes. -/
def Stamped (buf : Bytes) : Prop := 8 ≤ buf.length ∧ (buf.drop (buf.length - 8)).take 2 = [1, 0] ∧ buf.drop (buf.length - 4) = [86, 82, 84, 88]

/-- The 32 bytes before the last eight. -/
def postscript (buf : Bytes) : Bytes := (buf.drop (buf.length - 40)).take 32

/-- The offsets of the schema (`s`) and the footer (`f`) are in order and, each with its length prefix, lie within the last `n` bytes of a file
of `size` bytes and before the postscript. -/
def InPlace (size n s f : Nat) : Prop := size ≤ s + n ∧ s + 4 ≤ f ∧ f + 44 ≤ size

/-- The buffers of a message come one after the other, each with its padding, within `total` bytes. -/
def InOrder (total : Nat) : List FbBuffer → Prop
  | [] => True
  | [b] => b.offset + b.padding ≤ total
  | b :: c :: bs => b.offset + b.padding ≤ c.offset ∧ InOrder total (c :: bs)

/-- The little-endian number in the first four bytes. -/
def prefixLen (bs : Bytes) : Nat := (bs.getD 0 0).toNat + 256 * (bs.getD 1 0).toNat + 65536 * (bs.getD 2 0).toNat + 16777216 * (bs.getD 3 0).toNat

/-- A block of a column that can be looked at safely: a length prefix, that many bytes which are a message, and, if it is a batch, its buffers in order. -/
def BlockOk (C : Codec) (buf : Bytes) : Prop :=
  4 ≤ buf.length ∧ 4 + prefixLen buf ≤ buf.length ∧ ∃ m, C.dec ((buf.drop 4).take (prefixLen buf)) = some m ∧
    ∀ a l bs total, m = .batch a l bs total → 4 + prefixLen buf + total ≤ buf.length ∧ InOrder total bs

/-- No stretch of the bytes is a batch message whose buffer table is out of order. -/
def TablesInOrder (C : Codec) (src : Bytes) : Prop :=
  ∀ msg, msg <:+: src → ∀ a l bs total, C.dec msg = some (.batch a l bs total) → InOrder total bs

mutual
/-- Every array node points to one of the `n` buffers. -/
def IndicesOk (n : Nat) : FbArray → Prop
  | .mk _ _ _ i cs => (∀ k, i = some k → k < n) ∧ IndicesOks n cs
def IndicesOks (n : Nat) : List FbArray → Prop
  | [] => True
  | c :: cs => IndicesOk n c ∧ IndicesOks n cs
end

/-- A projection asks for existing columns when it asks by position. -/
def PositionsOk (schema : FbDType) : Layout.Projection → Prop
  | .all => True
  | .flat p => ∀ i, RowExpr.Field.index i ∈ p → ∀ ns ds n, schema = .struct (some ns) ds n → i < ns.length ∧ ∀ l, ds = some l → i < l.length

/-- As many names as types. -/
def SameCount : FbDType → Prop
  | .struct (some ns) (some ds) _ => ns.length = ds.length
  | _ => True

/-- A flat layout has a first buffer, which is not empty. -/
def RootOk (root : FbLayout) : Prop :=
  root.encoding = Layout.FLAT → ∃ b bs, root.buffers = some (b :: bs) ∧ b.start < b.stop

/-- What opening a file relies on without checking. If it bears the stamp, it has room for the postscript, whose offsets are in place; the schema stored there has
as many names as types and the columns asked for by position; a flat root layout has a buffer. -/
def Openable (F : FileCodec) (init : Nat) (file : Bytes) (size : Nat) (proj : Layout.Projection) : Prop :=
  size ≤ file.length → Stamped (lastBytes init file size) →
    40 ≤ size ∧ ∀ s f, F.decPs (postscript (lastBytes init file size)) = some (s, f) → InPlace size (min init size) s f ∧
      (∀ d, F.msgs.dec ((file.take f).drop (s + 4)) = some (.schema (some d)) → SameCount d ∧ PositionsOk d proj) ∧
      ∀ root n, F.decFooter ((file.take (size - 40)).drop (f + 4)) = some (some root, n) → RootOk root

end Vx.Damage
