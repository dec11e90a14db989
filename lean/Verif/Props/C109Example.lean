import Verif.Props.C109
import Verif.Props.C102Example
import Verif.Props.C94Example
import Mathlib.Data.Int.Order.Basic
/-!
# C109: the hypotheses can be met

`SELECT a FROM t WHERE a < 0` over two compressed files (run-end, zigzag and dictionary columns) of the rows `(7, …)`, `(7, …)`, `(-2, …)`, `(-2, …)` each.
-/
namespace Vx.Query.Demo
open Own Store Store.FileDemo
open Layout (Rows Row LayoutWriter finalize)
open FileScan (Reader ReaderOk)
open Vx.DF (DExpr SqlV Ty Typed)
open Vx.Tree (noLeavesB noRows exChoice exCtx)

/-- Integers compare by value; strings are only returned. -/
def num : SV → Int
  | .prim p => p.toInt
  | _ => 0

def kind : DType → Option Ty
  | .prim .i32 _ => some (.prim 0)
  | _ => none

noncomputable def meaning := queryMeaning M (storedRows sc S noLeavesB.toEnv noRows) num kind

noncomputable def reader : Reader Int where
  codec := F
  env := Layout.fileEnv F.msgs (fun _ => true) meaning (fun _ => true)
  init := 1000000
  kind := kind
  renv := RowExpr.stdEnv
  walk := List.reverse
  order := List.reverse

theorem reader_ok : ReaderOk reader (fun _ => true) (queryMeaning M (storedRows sc S noLeavesB.toEnv noRows) num reader.kind) where
  codec := Layout.FileDemo.codec_lawful
  env := ⟨rfl, rfl, rfl, rfl, fun d l n => by
    simp only [queryMeaning, List.length_map]
    exact fenv_ok.lengths d l n⟩
  typed := query_typed _ _ _ _
  masks := RowExpr.stdEnv_truthful
  walk := fun l f => List.mem_reverse
  order := fun l => List.reverse_perm l

theorem size_ok : 0 < Layout.FileDemo.sizeOf (Res.bind (writeArrayColumns plain M F.msgs LayoutWriter.new (phys sc S noLeavesB.toEnv packed)) (finalize F Layout.FileDemo.metaNode)) ∧
    Layout.FileDemo.sizeOf (Res.bind (writeArrayColumns plain M F.msgs LayoutWriter.new (phys sc S noLeavesB.toEnv packed)) (finalize F Layout.FileDemo.metaNode)) < 1000000 := by
  decide +kernel

theorem saved : ∃ file, SavedCompressed noLeavesB exChoice sc S noRows (fun _ => True) plain M reader.codec reader.init Layout.FileDemo.metaNode (fun _ => true) names
    [.prim .i32 false, .utf8 false] false table file := by
  have hs := size_ok
  cases hw : writeArrayColumns plain M F.msgs LayoutWriter.new (phys sc S noLeavesB.toEnv packed) with
  | err => rw [hw] at hs; simp [Res.bind, Layout.FileDemo.sizeOf] at hs
  | panic => rw [hw] at hs; simp [Res.bind, Layout.FileDemo.sizeOf] at hs
  | ok w =>
    rw [hw] at hs
    simp only [Res.bind] at hs
    cases hfile : finalize F Layout.FileDemo.metaNode w with
    | err => rw [hfile] at hs; simp [Layout.FileDemo.sizeOf] at hs
    | panic => rw [hfile] at hs; simp [Layout.FileDemo.sizeOf] at hs
    | ok file =>
      rw [hfile] at hs
      simp only [Layout.FileDemo.sizeOf] at hs
      obtain ⟨b, t, h, rfl⟩ := table_compressed
      refine ⟨file, 8, exCtx, none, packed, t, h, packed_wf, packed_fits, trivial, storable, ⟨w, hw, hfile⟩, by omega, ?_⟩
      intro bytes ls h
      have := congrArg List.length h
      simp only [Layout.fileOf, List.length_append, reader, F, Layout.FileDemo.codec, Layout.FileDemo.encPs, Layout.FileDemo.leN_length, List.length_replicate, Layout.EOF, Layout.MAGIC] at this
      simp only [Layout.tailLength, reader, F, Layout.FileDemo.codec]
      simp at this
      omega

def lit (n : Int) : DExpr Int := .lit (.prim 0 (some n))
def a : DExpr Int := .col "a".toList
def filters : List (DExpr Int) := [.bin a .lt (lit 0)]

/-- The query returns the two negative rows of either file. -/
example : ∃ file, SavedCompressed noLeavesB exChoice sc S noRows (fun _ => True) plain M reader.codec reader.init Layout.FileDemo.metaNode (fun _ => true) names
      [.prim .i32 false, .utf8 false] false table file ∧
    ∃ out N, (∀ fuel, N ≤ fuel → FileScan.scan reader (some [0]) filters [file, file] fuel = .ok out) ∧
      out.flatten = List.replicate 4 (.struct [("a".toList, .leaf (.prim 1 (some (-2))))]) := by
  obtain ⟨file, hf⟩ := saved
  refine ⟨file, hf, ?_⟩
  obtain ⟨out, N, h1, h2⟩ := C109_compressed_query_partial Tree.noLeavesB_laws Tree.noLeavesB_ok Tree.exChoice_laws plain_lawful sorted S_laws (leCodec_lawful mc) num reader_ok
    [table, table] [file, file] (by
      intro t ht
      have ht' : t = table := by simpa using ht
      subst ht'
      refine ⟨table_good, ?_⟩
      intro r hr
      have hr' : r = .list [Tree.i32 7, .str long] ∨ r = .list [Tree.i32 7, .str [65]] ∨ r = .list [Tree.i32 (-2), .str [65]] ∨ r = .list [Tree.i32 (-2), .str long] := by
        have : r ∈ [SV.list [Tree.i32 7, .str long], .list [Tree.i32 7, .str [65]], .list [Tree.i32 (-2), .str [65]], .list [Tree.i32 (-2), .str long]] := hr
        simpa using this
      rcases hr' with rfl | rfl | rfl | rfl <;> rfl)
    (.cons hf (.cons hf .nil)) (some [0]) (by decide) (by decide) filters (by
      intro f hf'
      have : f = .bin a .lt (lit 0) := by simpa [filters] using hf'
      subst this
      exact .cmp _ _ _ _ rfl (.col _ _ rfl) (.litPrim _ _))
    (fun _ => ⟨_, List.mem_cons_self, by decide⟩) (by
      intro t _ f hf' c hc
      have : f = .bin a .lt (lit 0) := by simpa [filters] using hf'
      subst this
      left
      have : c = .bin a .lt (lit 0) := by simpa [FileScan.Spec.conjuncts] using hc
      subst this
      rfl)
    (fun _ t ht j hj => by
      have ht' : t = table := by simpa using ht
      subst ht'
      have : (Tree.rows noLeavesB.toEnv noRows table).length = 4 := rfl
      omega)
  exact ⟨out, N, h1, by rw [h2]; rfl⟩

end Vx.Query.Demo
