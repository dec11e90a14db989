import Verif.Props.C93
import Verif.Props.C34Example
/-!
# C93: the hypotheses can be met

A table of two columns in two chunks; one column is dictionary-encoded in the first chunk and chunked itself in the second.
-/
namespace Vx.Own.FileDemo
open Layout (Rows Row structRow FileCodec StructBatch LayoutWriter TableOk EnvOk finalize readFile)
open Ipc (Bytes)

/-- Metadata of a few encodings as bytes. -/
def metaOf : Enc → Nat × Bytes
  | .prim .nonNullable => (1, [])
  | .dict .u8 n => (2, [UInt8.ofNat n])
  | .chunked n => (3, [UInt8.ofNat n])
  | .struct .nonNullable => (4, [])
  | _ => (0, [])

def encOf : Nat → Bytes → Option Enc
  | 1, [] => some (.prim .nonNullable)
  | 2, [n] => some (.dict .u8 n.toNat)
  | 3, [n] => some (.chunked n.toNat)
  | 4, [] => some (.struct .nonNullable)
  | _, _ => none

def M : OwnCodec where
  ser a := ((metaOf a.enc).1, (metaOf a.enc).2, [], some (a.data.map UInt8.ofNat))
  de _ _ id md buf := (encOf id md).map fun e => (e, (buf.getD []).map UInt8.toNat)
  at_ _ _ n i := match n with
    | .mk _ _ _ b _ => Res.ofOption (((b.getD []).map UInt8.toNat)[i]?)

theorem M_lawful : M.Lawful := by
  intro xs hk i hi
  simp only [Keeps, M, metaOf, encOf, Arr.enc, Arr.data, Option.map_some, Option.getD_some, Option.some.injEq, Prod.mk.injEq, true_and] at hk
  simp only [M, toIpc, Arr.data, Option.getD_some, hk.1, List.getElem?_eq_getElem hi, Res.ofOption_some]

mutual
/-- Rows of an array: numbers of the buffer, rows picked by codes, chunks concatenated, fields side by side. -/
def rowsOf : Arr → Rows Nat
  | .mk e d l b cs => shape e d l b (rowsAll cs)
def rowsAll : List Arr → List (Rows Nat)
  | [] => []
  | c :: cs => rowsOf c :: rowsAll cs
/-- One level of it. -/
def shape (e : Enc) (d : DType) (l : Nat) (b : List Nat) (cs : List (Rows Nat)) : Rows Nat :=
  match e with
  | .chunked _ => cs.tail.flatten
  | .struct _ => match d with
    | .struct names _ _ => (List.range l).map (structRow (names.zip cs))
    | _ => List.replicate l (.leaf 0)
  | .dict _ _ => (List.range l).map fun i => match (cs.getD 1 []).getD i (.leaf 0) with
    | .leaf k => (cs.getD 0 []).getD k (.leaf 0)
    | r => r
  | _ => (List.range l).map fun i => .leaf (b.getD i 0)
end

theorem rowsAll_eq : ∀ cs : List Arr, rowsAll cs = cs.map rowsOf
  | [] => rfl
  | c :: cs => by simp [rowsAll, rowsAll_eq cs]

theorem length_chunked {C : Compute} {a : Arr} (h : Built C a) {n : Nat} (he : a.enc = .chunked n) (ih : ∀ x ∈ a.children, (rowsOf x).length = x.len) :
    (rowsOf a).length = a.len := by
  obtain ⟨os, chunks, h1, _, h3, h4, h5⟩ := built_chunked h he
  obtain ⟨e, d, l, b, cs⟩ := a
  simp only [enc_mk] at he
  subst he
  simp only [children_mk] at h1 ih
  rw [h5]
  simp only [rowsOf, shape, rowsAll_eq, h1, List.map_cons, List.tail_cons, List.length_flatten, List.map_map]
  congr 1
  apply List.map_congr_left
  intro c hc
  exact ih c (by rw [h1]; exact List.mem_cons_of_mem _ hc)

mutual
theorem rows_length {C : Compute} : ∀ a : Arr, Built C a → (rowsOf a).length = a.len
  | .mk e d l b cs, h => by
    have ih := rows_lengths cs (built_children h)
    by_cases hx : ∃ n, e = .chunked n
    · obtain ⟨n, rfl⟩ := hx
      exact length_chunked h rfl ih
    · simp only [rowsOf, len_mk]
      unfold shape
      cases e <;> first | (simp; done) | (exact absurd ⟨_, rfl⟩ hx) | (cases d <;> simp)
theorem rows_lengths {C : Compute} : ∀ cs : List Arr, (∀ x ∈ cs, Built C x) → ∀ x ∈ cs, (rowsOf x).length = x.len
  | [], _ => by simp
  | c :: cs, h => by
    intro x hx
    rcases List.mem_cons.mp hx with he | hx
    · rw [he]; exact rows_length c (h c (List.mem_cons_self ..))
    · exact rows_lengths cs (fun y hy => h y (List.mem_cons_of_mem _ hy)) x hx
end

theorem meaning : Meaning plain rowsOf where
  length := rows_length
  chunked := by
    intro a _
    obtain ⟨e, d, l, b, cs⟩ := a
    by_cases hx : ∃ n, e = .chunked n
    · obtain ⟨n, rfl⟩ := hx
      simp only [Spec.parts, enc_mk, children_mk, rowsOf, shape, rowsAll_eq, List.flatMap, List.map_tail]
    · have : Spec.parts (.mk e d l b cs) = [.mk e d l b cs] := by
        unfold Spec.parts
        cases e <;> first | rfl | exact absurd ⟨_, rfl⟩ hx
      rw [this]; simp
  struct := by
    intro a v names ds nl _ he _ hd
    obtain ⟨e, d, l, b, cs⟩ := a
    simp only [enc_mk, dtype_mk] at he hd
    subst he; subst hd
    simp only [rowsOf, shape, rowsAll_eq, len_mk, children_mk]

def u8 : DType := .prim .u8 false
def names : List Str := ["a".toList, "b".toList]
def n8 (xs : List Nat) : Arr := primArr .u8 xs
def dict : Arr := .mk (.dict .u8 2) u8 3 [] [n8 [20, 30], n8 [1, 0, 1]]
def inner : Arr := .mk (.chunked 2) u8 2 [] [primArr .u64 [0, 1, 2], n8 [40], n8 [50]]
def st (l : Nat) (x y : Arr) : Arr := .mk (.struct .nonNullable) (.struct names [u8, u8] false) l [] [x, y]
def table : Arr := .mk (.chunked 2) (.struct names [u8, u8] false) 5 [] [primArr .u64 [0, 3, 5], st 3 (n8 [1, 2, 3]) dict, st 2 (n8 [4, 5]) inner]

theorem built_dict : Built plain dict := .mk (.dict (n8 [1, 0, 1]) (n8 [20, 30])) _
  (by simp only [Call.args, List.mem_cons, List.not_mem_nil, or_false]
      rintro x (rfl | rfl) <;> exact built_prim _ _) trivial rfl

theorem built_inner : Built plain inner := .mk (.chunked [n8 [40], n8 [50]] u8) _
  (by simp only [Call.args, List.mem_cons, List.not_mem_nil, or_false]
      rintro x (rfl | rfl) <;> exact built_prim _ _) trivial
  (by simp [Call.run, offsetsFrom, Res.guard, Res.assert, Res.sub, inner, n8, u8, Arr.dtype, Arr.len, primArr])

theorem built_st (l : Nat) (x y : Arr) (hx : Built plain x) (hy : Built plain y) (h1 : x.dtype = u8) (h2 : y.dtype = u8) (h3 : x.len = l) (h4 : y.len = l) :
    Built plain (st l x y) := .mk (.struct names [x, y] l .nonNullable) _
  (by simp only [Call.args, Valid.intoArray, List.append_nil, List.mem_cons, List.not_mem_nil, or_false]
      rintro z (rfl | rfl)
      · exact hx
      · exact hy) trivial
  (by simp [Call.run, Res.guard, names, h1, h2, h3, h4, Valid.toMetadata, Valid.nullable, Valid.intoArray, st])

theorem built_table : Built plain table := .mk (.chunked [st 3 (n8 [1, 2, 3]) dict, st 2 (n8 [4, 5]) inner] (.struct names [u8, u8] false)) _
  (by simp only [Call.args, List.mem_cons, List.not_mem_nil, or_false]
      rintro x (rfl | rfl)
      · exact built_st _ _ _ (built_prim _ _) built_dict rfl rfl rfl rfl
      · exact built_st _ _ _ (built_prim _ _) built_inner rfl rfl rfl rfl) trivial
  (by simp [Call.run, offsetsFrom, Res.guard, Res.assert, Res.sub, table, st, Arr.dtype, Arr.len, primArr])

noncomputable abbrev F : FileCodec := Layout.FileDemo.codec
noncomputable def env : Layout.Env Nat := Layout.fileEnv F.msgs (fun _ => true) (viewRows M rowsOf) (fun _ => true)

theorem env_ok : EnvOk env F (fun _ => true) (viewRows M rowsOf) := ⟨rfl, rfl, rfl, rfl, fun d l n => by
  unfold viewRows
  split
  · split
    · assumption
    · simp
  · simp⟩

theorem fits (n : Ipc.Node) (l : Nat) (h : (Ipc.Demo.codec.enc (Ipc.batchMsg n l)).length < 1000) : Ipc.Fits F.msgs (Ipc.batchMsg n l) := by
  have := Ipc.alignUp_lt (4 + (Ipc.Demo.codec.enc (Ipc.batchMsg n l)).length)
  unfold Ipc.Fits
  simp only [F, Layout.FileDemo.codec]
  omega

theorem storable : Spec.Storable F M (fun _ => true) table names [u8, u8] false where
  dtype := rfl
  columns := by decide
  nonempty := by simp [Spec.parts, table, enc_mk, children_mk]
  structs := by
    intro p hp
    simp only [Spec.parts, table, enc_mk, children_mk, List.tail_cons, List.mem_cons, List.not_mem_nil, or_false] at hp
    rcases hp with rfl | rfl <;> exact ⟨_, rfl⟩
  stored := by
    intro j hj c hc
    have hj' : j = 0 ∨ j = 1 := by simp only [List.length_cons, List.length_nil] at hj; omega
    rcases hj' with rfl | rfl
    · have : c = n8 [1, 2, 3] ∨ c = n8 [4, 5] := by
        simpa [Spec.columnArrays, Spec.parts, table, st, enc_mk, children_mk, n8, primArr] using hc
      rcases this with rfl | rfl <;> refine ⟨⟨rfl, trivial⟩, fits _ _ ?_, rfl⟩ <;> (rw [Ipc.batchMsg_eq]; show (Ipc.Demo.unary _).length < 1000; decide +kernel)
    · have : c = dict ∨ c = n8 [40] ∨ c = n8 [50] := by
        simpa [Spec.columnArrays, Spec.parts, table, st, enc_mk, children_mk, n8, primArr, dict, inner] using hc
      rcases this with rfl | rfl | rfl
      · refine ⟨⟨rfl, ⟨rfl, trivial⟩, ⟨rfl, trivial⟩, trivial⟩, fits _ _ ?_, rfl⟩
        rw [Ipc.batchMsg_eq]; show (Ipc.Demo.unary _).length < 1000; decide +kernel
      all_goals refine ⟨⟨rfl, trivial⟩, fits _ _ ?_, rfl⟩ <;> (rw [Ipc.batchMsg_eq]; show (Ipc.Demo.unary _).length < 1000; decide +kernel)
  perColumn := by decide +kernel
  tables := by decide +kernel

/-- What is read: `a` = 1 … 5, `b` = 30, 20, 30 through the dictionary, then 40 and 50. -/
example : (rowsOf table).map (Spec.pick [1, 0]) = [.struct [("b".toList, .leaf 30), ("a".toList, .leaf 1)], .struct [("b".toList, .leaf 20), ("a".toList, .leaf 2)],
    .struct [("b".toList, .leaf 30), ("a".toList, .leaf 3)], .struct [("b".toList, .leaf 40), ("a".toList, .leaf 4)],
    .struct [("b".toList, .leaf 50), ("a".toList, .leaf 5)]] := by rfl

/-- All hypotheses of `C93_round_trip` hold of it. -/
example : ∃ w file, writeArrayColumns plain M F.msgs LayoutWriter.new table = .ok w ∧ finalize F Layout.FileDemo.metaNode w = .ok file := by
  obtain ⟨w, _, _, file, h1, h2, _⟩ := C93_round_trip plain_lawful M_lawful meaning F Layout.FileDemo.codec_lawful Layout.FileDemo.metaNode (fun _ => true) env env_ok
    table built_table (by
      intro p hp
      simp only [Spec.parts, table, enc_mk, children_mk, List.tail_cons, List.mem_cons, List.not_mem_nil, or_false] at hp
      rcases hp with rfl | rfl <;> exact .inl rfl) names [u8, u8] false storable
  exact ⟨w, file, h1, h2⟩

end Vx.Own.FileDemo
