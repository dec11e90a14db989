import Verif.Props.C94
import Verif.Props.C34Example
/-!
# C94: the hypotheses can be met

`SELECT b FROM t WHERE a > 10 AND (b < 22 OR b = 20)` over two files with the rows `(10, 20)`, `(11, 21)`, `(12, 22)` each.
-/
namespace Vx.FileScan.Demo
open Vx.Layout Vx.Layout.FileDemo
open Vx.DF (DExpr SqlV Ty Typed)
open Ipc (Bytes)

/-- The bytes of the array trees are the values, of type 0. -/
def vals (_ : DType) (l : Nat) (n : Ipc.Node) : Rows (RowExpr.Val Nat) :=
  (List.range l).map fun i => match n with
    | .mk _ _ _ b _ => .leaf (.prim 1 (some ((b.getD []).getD i 0).toNat))

def kind : DType → Option Ty
  | .prim .u8 _ => some (.prim 0)
  | _ => none

noncomputable def reader : Reader Nat where
  codec := codec
  env := fileEnv codec.msgs (fun _ => true) vals (fun _ => true)
  init := 1000000
  kind := kind
  renv := RowExpr.stdEnv
  walk := List.reverse
  order := List.reverse

theorem reader_ok : ReaderOk reader (fun _ => true) vals where
  codec := codec_lawful
  env := ⟨rfl, rfl, rfl, rfl, fun d l n => by simp [vals]⟩
  typed := by
    intro d τ hd l n r hr
    have hτ : τ = .prim 0 := by
      cases d with
      | prim p _ => cases p <;> simp_all [kind, reader]
      | _ => simp [kind, reader] at hd
    subst hτ
    simp only [vals, List.mem_map] at hr
    obtain ⟨i, _, rfl⟩ := hr
    cases n
    exact ⟨_, rfl, _, rfl⟩
  masks := RowExpr.stdEnv_truthful
  walk := fun l f => List.mem_reverse
  order := fun l => List.reverse_perm l

theorem file_ok : ∃ file, FileOk reader metaNode (fun _ => true) names [u8, u8] false batches file := by
  have hs := size_ok
  cases hw : LayoutWriter.new.writeStream codec.msgs (.struct names [u8, u8] false) batches with
  | err => rw [hw] at hs; simp [Res.bind, FileDemo.sizeOf] at hs
  | panic => rw [hw] at hs; simp [Res.bind, FileDemo.sizeOf] at hs
  | ok w =>
    rw [hw] at hs
    simp only [Res.bind] at hs
    cases hfile : finalize codec metaNode w with
    | err => rw [hfile] at hs; simp [FileDemo.sizeOf] at hs
    | panic => rw [hfile] at hs; simp [FileDemo.sizeOf] at hs
    | ok file =>
      rw [hfile] at hs
      simp only [FileDemo.sizeOf] at hs
      refine ⟨file, ⟨w, hw, hfile⟩, table_ok, by omega, ?_⟩
      intro bytes ls h
      have := congrArg List.length h
      simp only [fileOf, List.length_append, reader, codec, encPs, leN_length, List.length_replicate, EOF, MAGIC] at this
      simp only [tailLength, reader, codec]
      simp at this
      omega

def lit (n : Nat) : DExpr Nat := .lit (.prim 0 (some n))
def a : DExpr Nat := .col "a".toList
def b : DExpr Nat := .col "b".toList
def filters : List (DExpr Nat) := [.bin a .gt (lit 10), .bin (.bin b .lt (lit 22)) .or (.bin b .eq (lit 20))]

theorem typed_a : Typed (Spec.tableTypes kind names [u8, u8]) a (.prim 0) := .col _ _ rfl
theorem typed_b : Typed (Spec.tableTypes kind names [u8, u8]) b (.prim 0) := .col _ _ rfl

/-- The query returns `b = 21` from either file. -/
example : ∃ file, FileOk reader metaNode (fun _ => true) names [u8, u8] false batches file ∧
    ∃ out N, (∀ fuel, N ≤ fuel → scan reader (some [1]) filters [file, file] fuel = .ok out) ∧
      out.flatten = [.struct [("b".toList, .leaf (.prim 1 (some 21)))], .struct [("b".toList, .leaf (.prim 1 (some 21)))]] := by
  obtain ⟨file, hf⟩ := file_ok
  refine ⟨file, hf, ?_⟩
  obtain ⟨out, N, h1, h2⟩ := C94_small_files reader_ok [batches, batches] [file, file] (.cons hf (.cons hf .nil)) (by decide) (some [1])
    (by decide) (by decide) filters (by
      intro f hf'
      simp only [filters, List.mem_cons, List.not_mem_nil, or_false] at hf'
      rcases hf' with rfl | rfl
      · exact .cmp _ _ _ _ rfl typed_a (.litPrim _ _)
      · exact .logic _ _ _ (.inr rfl) (.cmp _ _ _ _ rfl typed_b (.litPrim _ _)) (.cmp _ _ _ _ rfl typed_b (.litPrim _ _)))
    (fun _ => ⟨_, List.mem_cons_self, by decide⟩) (by
      intro f hf' c hc
      simp only [filters, List.mem_cons, List.not_mem_nil, or_false] at hf'
      rcases hf' with rfl | rfl
      · left; simp only [Spec.conjuncts, List.mem_singleton] at hc; subst hc; decide
      · right
        simp only [Spec.conjuncts, List.mem_singleton] at hc; subst hc
        intro data hd k hk n hn
        have hd' : data = batches := by simpa using hd
        subst hd'
        have hn' : n = "b".toList := by
          simp only [DExpr.cols, b, lit] at hn
          simpa using hn
        subst hn'
        have hk3 : k < 3 := hk
        match k, hk3 with
        | 0, _ => exact ⟨_, rfl, rfl⟩
        | 1, _ => exact ⟨_, rfl, rfl⟩
        | 2, _ => exact ⟨_, rfl, rfl⟩)
  exact ⟨out, N, h1, by rw [h2]; rfl⟩

end Vx.FileScan.Demo
