import Verif.Props.C34RoundTrip
import Verif.Lemmas.IpcCodec
/-!
# C34: the hypotheses can be met

A lawful file codec, and a table of two columns in differently many chunks that is written and read back with it.
-/
namespace Vx.Layout.FileDemo
open Ipc (Bytes)
open Ipc.Demo

def tRange (r : ByteRange) : List Nat := [r.start, r.stop]
theorem pf_range : PF tRange := by
  intro x y r s h
  simp only [tRange, List.cons_append, List.nil_append, List.cons.injEq] at h
  obtain ⟨h1, h2, h3⟩ := h
  cases x; cases y; simp_all

mutual
def tLayout : FbLayout → List Nat
  | .mk e b none m => 0 :: e :: (tOpt (tItems tRange) b ++ tOpt (tItems tByte) m)
  | .mk e b (some cs) m => 1 :: e :: (tOpt (tItems tRange) b ++ (tOpt (tItems tByte) m ++ tLayouts cs))
def tLayouts : List FbLayout → List Nat
  | [] => [0]
  | c :: cs => 1 :: (tLayout c ++ tLayouts cs)
end

mutual
theorem pf_layout : ∀ (x y : FbLayout) (r s : List Nat), tLayout x ++ r = tLayout y ++ s → x = y ∧ r = s
  | .mk e b none m, .mk e' b' none m', r, s, h => by
    simp only [tLayout, List.cons_append, List.append_assoc, List.cons.injEq, true_and] at h
    obtain ⟨h1, h2⟩ := h
    obtain ⟨h3, h4⟩ := pf_opt (pf_list pf_range) _ _ _ _ h2
    obtain ⟨h5, h6⟩ := pf_opt (pf_list pf_byte) _ _ _ _ h4
    exact ⟨by rw [h1, h3, h5], h6⟩
  | .mk e b (some cs) m, .mk e' b' (some cs') m', r, s, h => by
    simp only [tLayout, List.cons_append, List.append_assoc, List.cons.injEq, true_and] at h
    obtain ⟨h1, h2⟩ := h
    obtain ⟨h3, h4⟩ := pf_opt (pf_list pf_range) _ _ _ _ h2
    obtain ⟨h5, h6⟩ := pf_opt (pf_list pf_byte) _ _ _ _ h4
    obtain ⟨h7, h8⟩ := pf_layouts cs cs' r s h6
    exact ⟨by rw [h1, h3, h5, h7], h8⟩
  | .mk _ _ none _, .mk _ _ (some _) _, r, s, h => by simp [tLayout] at h
  | .mk _ _ (some _) _, .mk _ _ none _, r, s, h => by simp [tLayout] at h
theorem pf_layouts : ∀ (x y : List FbLayout) (r s : List Nat), tLayouts x ++ r = tLayouts y ++ s → x = y ∧ r = s
  | [], [], r, s, h => by simpa [tLayouts] using h
  | [], _ :: _, r, s, h => by simp [tLayouts] at h
  | _ :: _, [], r, s, h => by simp [tLayouts] at h
  | c :: cs, d :: ds, r, s, h => by
    simp only [tLayouts, List.cons_append, List.append_assoc, List.cons.injEq, true_and] at h
    obtain ⟨h1, h2⟩ := pf_layout c d _ _ h
    obtain ⟨h3, h4⟩ := pf_layouts cs ds r s h2
    exact ⟨by rw [h1, h3], h4⟩
end

/-- `k` little-endian bytes. -/
def leN : Nat → Nat → Bytes
  | 0, _ => []
  | k + 1, n => UInt8.ofNat n :: leN k (n / 256)

theorem leN_length : ∀ k n, (leN k n).length = k
  | 0, _ => rfl
  | k + 1, n => by simp [leN, leN_length k]

theorem leN_inj : ∀ (k m n : Nat), m < 256 ^ k → n < 256 ^ k → leN k m = leN k n → m = n
  | 0, m, n, hm, hn, _ => by simp at hm hn; omega
  | k + 1, m, n, hm, hn, h => by
    simp only [leN, List.cons.injEq] at h
    obtain ⟨h1, h2⟩ := h
    rw [Nat.pow_succ] at hm hn
    have h3 := leN_inj k (m / 256) (n / 256) (by omega) (by omega) h2
    have h4 := congrArg UInt8.toNat h1
    simp only [UInt8.toNat_ofNat'] at h4
    omega

def encPs (s f : Nat) : Bytes := leN 8 s ++ (leN 8 f ++ List.replicate 16 0)

theorem encPs_inj {s f s' f' : Nat} (h1 : s < 2 ^ 64) (h2 : f < 2 ^ 64) (h3 : s' < 2 ^ 64) (h4 : f' < 2 ^ 64) (h : encPs s f = encPs s' f') : s = s' ∧ f = f' := by
  unfold encPs at h
  obtain ⟨h5, h6⟩ := List.append_inj h (by simp [leN_length])
  obtain ⟨h7, _⟩ := List.append_inj h6 (by simp [leN_length])
  exact ⟨leN_inj 8 s s' (by simpa using h1) (by simpa using h3) h5, leN_inj 8 f f' (by simpa using h2) (by simpa using h4) h7⟩

open Classical in
noncomputable def codec : FileCodec where
  msgs := Ipc.Demo.codec
  encFooter l n := unary (n :: tLayout l)
  decFooter bs := if h : ∃ p : FbLayout × Nat, ∃ k, bs = unary (p.2 :: tLayout p.1) ++ List.replicate k 0 then some (some h.choose.1, h.choose.2) else none
  encPs := encPs
  decPs bs := if h : ∃ p : Nat × Nat, p.1 < 2 ^ 64 ∧ p.2 < 2 ^ 64 ∧ bs = encPs p.1 p.2 then some h.choose else none

theorem codec_lawful : codec.Lawful where
  msgs := Ipc.Demo.codec_lawful
  footer := by
    intro l n k _
    have h : ∃ p : FbLayout × Nat, ∃ k', codec.encFooter l n ++ List.replicate k 0 = unary (p.2 :: tLayout p.1) ++ List.replicate k' 0 := ⟨(l, n), k, rfl⟩
    simp only [codec] at h ⊢
    rw [dif_pos h]
    obtain ⟨k', hk⟩ := h.choose_spec
    have := unary_inj _ _ _ _ hk
    simp only [List.cons.injEq] at this
    have h2 := (pf_layout l h.choose.1 [] [] (by simpa using this.2)).1
    rw [← h2, ← this.1]
  ps := by
    intro s f _ hs _ hf
    constructor
    · have h : ∃ p : Nat × Nat, p.1 < 2 ^ 64 ∧ p.2 < 2 ^ 64 ∧ codec.encPs s f = encPs p.1 p.2 := ⟨(s, f), hs, hf, rfl⟩
      simp only [codec] at h ⊢
      rw [dif_pos h]
      obtain ⟨k1, k2, hk⟩ := h.choose_spec
      have := encPs_inj hs hf k1 k2 hk
      exact congrArg some (Prod.ext this.1.symm this.2.symm)
    · simp [codec, encPs, leN_length]

/-! A table of three rows: column `a` in one chunk of three, column `b` in chunks of two and one. The array trees carry the values in a buffer. -/

def node (bs : Bytes) : Ipc.Node := .mk 1 [] [] (some bs) []
def names : List Str := ["a".toList, "b".toList]
def u8 : DType := .prim .u8 false
def batches : List StructBatch := [⟨2, [[(node [10, 11], 2)], [(node [20], 1), (node [21], 1)]]⟩, ⟨1, [[(node [12], 1)], [(node [22], 1)]]⟩]
/-- The rows of such a tree: its first `l` bytes, zero where the buffer is too short. -/
def meaning (_ : DType) (l : Nat) (n : Ipc.Node) : Rows UInt8 :=
  (List.range l).map fun i => match n with
    | .mk _ _ _ b _ => .leaf ((b.getD []).getD i 0)
noncomputable def env : Env UInt8 := fileEnv codec.msgs (fun _ => true) meaning (fun _ => true)

theorem env_ok : EnvOk env codec (fun _ => true) meaning := ⟨rfl, rfl, rfl, rfl, fun d l n => by simp [meaning]⟩

theorem fits (bs : Bytes) (l : Nat) (h : (Ipc.Demo.codec.enc (Ipc.batchMsg (node bs) l)).length < 1000) : Ipc.Fits codec.msgs (Ipc.batchMsg (node bs) l) := by
  have := Ipc.alignUp_lt (4 + (Ipc.Demo.codec.enc (Ipc.batchMsg (node bs) l)).length)
  unfold Ipc.Fits
  simp only [codec]
  omega

theorem table_ok : TableOk codec (fun _ => true) names [u8, u8] batches where
  shape := ⟨by decide, by simp [batches], by simp [batches]⟩
  names := rfl
  sums := by simp [batches]
  chunks := by
    intro b hb f hf c hc
    refine ⟨?_, rfl⟩
    simp only [batches, List.mem_cons, List.not_mem_nil, or_false] at hb
    rcases hb with rfl | rfl <;> simp only [List.mem_cons, List.not_mem_nil, or_false] at hf <;> rcases hf with rfl | rfl <;>
      simp only [List.mem_cons, List.not_mem_nil, or_false] at hc
    · subst hc; exact fits _ _ (by rw [Ipc.batchMsg_eq]; show (unary _).length < 1000; decide +kernel)
    · rcases hc with rfl | rfl <;> exact fits _ _ (by rw [Ipc.batchMsg_eq]; show (unary _).length < 1000; decide +kernel)
    · subst hc; exact fits _ _ (by rw [Ipc.batchMsg_eq]; show (unary _).length < 1000; decide +kernel)
    · subst hc; exact fits _ _ (by rw [Ipc.batchMsg_eq]; show (unary _).length < 1000; decide +kernel)
  columns := by decide
  perColumn := by decide
  tables := by decide

/-- What reading the example must give: the rows `(10, 20)`, `(11, 21)`, `(12, 22)`. -/
example : (List.range (batches.map StructBatch.len).sum).map (structRow ([1, 0].map (Spec.projected meaning names [u8, u8] batches))) =
    [.struct [("b".toList, .leaf 20), ("a".toList, .leaf 10)], .struct [("b".toList, .leaf 21), ("a".toList, .leaf 11)],
      .struct [("b".toList, .leaf 22), ("a".toList, .leaf 12)]] := by rfl

def metaNode (offsets : List Nat) : Ipc.Node := node (offsets.map UInt8.ofNat)
def sizeOf : Res Bytes → Nat
  | .ok b => b.length
  | _ => 0

/-- The written file is not empty and small. -/
theorem size_ok : 0 < sizeOf (Res.bind (LayoutWriter.new.writeStream codec.msgs (.struct names [u8, u8] false) batches) (finalize codec metaNode)) ∧
    sizeOf (Res.bind (LayoutWriter.new.writeStream codec.msgs (.struct names [u8, u8] false) batches) (finalize codec metaNode)) < 1000000 := by
  decide +kernel

/-- And for a large enough initial read it does. -/
example : ∃ w file, LayoutWriter.new.writeStream codec.msgs (.struct names [u8, u8] false) batches = .ok w ∧
    finalize codec metaNode w = .ok file ∧ ∃ init bs N, (∀ fuel, N ≤ fuel →
      readFile codec env init file file.length (.flat [.name "b".toList, .index 0]) 2 id fuel = .ok (.struct ["b".toList, "a".toList] [u8, u8] false, bs)) ∧
      bs.flatten = [.struct [("b".toList, .leaf 20), ("a".toList, .leaf 10)], .struct [("b".toList, .leaf 21), ("a".toList, .leaf 11)],
        .struct [("b".toList, .leaf 22), ("a".toList, .leaf 12)]] := by
  obtain ⟨w, data, ls, file, h1, h2, h3, h4⟩ := C34_round_trip codec codec_lawful metaNode (fun _ => true) meaning env env_ok names [u8, u8] false batches table_ok
  have hs := size_ok
  rw [h1] at hs
  simp only [Res.bind, h2, sizeOf] at hs
  obtain ⟨bs, N, b1, b2⟩ := (h4 (by omega) _ (Nat.le_refl _) 2 (by decide) id (fun l => List.Perm.refl l)).2 [.name "b".toList, .index 0] [1, 0] (by simp) (by decide)
  exact ⟨w, file, h1, h2, _, bs, N, b1, b2⟩

end Vx.Layout.FileDemo
