import Verif.Lemmas.LayoutRead
/-!
# C35: the batch size does not affect what is read

For every layout tree — any nesting of flat, chunked, column and inline-dtype layouts, any chunk lengths including empty chunks — reading
with a positive batch size gives the rows the tree denotes, in order, in batches of exactly that size (the last one possibly shorter).
-/
namespace Vx.Layout
open Ipc (Bytes)

variable {α : Type}

theorem batches_sizes {n : Nat} (hn : 0 < n) (xs : List α) :
    (∀ b ∈ (Spec.batches n xs).dropLast, b.length = n) ∧ (∀ b ∈ Spec.batches n xs, 0 < b.length ∧ b.length ≤ n) ∧
      (Spec.batches n xs).length = (xs.length + n - 1) / n := by
  induction hlen : xs.length using Nat.strongRecOn generalizing xs with
  | _ k ih =>
    subst hlen
    by_cases hx : xs = []
    · subst hx
      rw [batches_nil]
      refine ⟨by simp, by simp, ?_⟩
      simp only [List.length_nil, Nat.zero_add]
      rw [Nat.div_eq_of_lt (by omega)]
    · have hpos := List.length_pos_iff.mpr hx
      rw [batches_cons hn hx]
      obtain ⟨h1, h2, h3⟩ := ih (xs.drop n).length (by simp; omega) (xs.drop n) rfl
      refine ⟨?_, ?_, ?_⟩
      · intro b hb
        by_cases hd : Spec.batches n (xs.drop n) = []
        · rw [hd] at hb; simp at hb
        · rw [List.dropLast_cons_of_ne_nil hd] at hb
          simp only [List.mem_cons] at hb
          rcases hb with rfl | hb
          · have : xs.drop n ≠ [] := by intro h; rw [h, batches_nil] at hd; simp at hd
            have := List.length_pos_iff.mpr this
            simp only [List.length_drop] at this
            simp; omega
          · exact h1 b hb
      · intro b hb
        simp only [List.mem_cons] at hb
        rcases hb with rfl | hb
        · simp only [List.length_take]; omega
        · exact h2 b hb
      · simp only [List.length_cons, h3, List.length_drop]
        by_cases hle : n ≤ xs.length
        · rw [show xs.length + n - 1 = (xs.length - n + n - 1) + n by omega, Nat.add_div_right _ hn]
        · rw [show xs.length - n + n - 1 = n - 1 by omega, Nat.div_eq_of_lt (by omega)]
          rw [show xs.length + n - 1 = (xs.length - 1) + n by omega, Nat.add_div_right _ hn, Nat.div_eq_of_lt (by omega)]

/-- Reading terminates without error and returns, for every batch size, the rows of the layout in order; every batch but the last has exactly the
batch size, the last one at least one row and at most the batch size; for whatever order the reads complete in. -/
theorem C35_batches (env : Env α) (file : Bytes) (root : FbLayout) (dt : DType) (rows : Rows α) (h : Readable env file root dt rows) (batch : Nat)
    (hb : 0 < batch) (order : List Message → List Message) (hord : ∀ l, (order l).Perm l) :
    ∃ bs N, (∀ fuel, N ≤ fuel → readAll env file root dt.toFb .all batch order fuel = .ok bs) ∧ bs.flatten = rows ∧
      (∀ b ∈ bs.dropLast, b.length = batch) ∧ (rows ≠ [] → ∀ b ∈ bs, 0 < b.length ∧ b.length ≤ batch) ∧
      (rows ≠ [] → bs.length = (rows.length + batch - 1) / batch) := by
  obtain ⟨r, h1, h2⟩ := root_builds h hb (l := .serialized dt.toFb .all) (C30_dtype_flatbuffer_round_trip dt)
  obtain ⟨N, hN⟩ := readAll_of_rep h1 h2 hord
  refine ⟨_, N, hN, cut_flatten hb rows, ?_, ?_, ?_⟩
  · by_cases hx : rows = []
    · subst hx
      unfold cut
      simp only [if_true]
      split <;> simp
    · rw [cut_of_ne hx]; exact (batches_sizes hb rows).1
  · intro hx; rw [cut_of_ne hx]; exact (batches_sizes hb rows).2.1
  · intro hx; rw [cut_of_ne hx]; exact (batches_sizes hb rows).2.2

/-- Two batch sizes, two completion orders: the same rows. -/
theorem C35_batch_size_irrelevant (env : Env α) (file : Bytes) (root : FbLayout) (dt : DType) (rows : Rows α) (h : Readable env file root dt rows)
    (b₁ b₂ : Nat) (h₁ : 0 < b₁) (h₂ : 0 < b₂) (o₁ o₂ : List Message → List Message) (ho₁ : ∀ l, (o₁ l).Perm l) (ho₂ : ∀ l, (o₂ l).Perm l) :
    ∃ x y N, (∀ fuel, N ≤ fuel → readAll env file root dt.toFb .all b₁ o₁ fuel = .ok x ∧ readAll env file root dt.toFb .all b₂ o₂ fuel = .ok y) ∧
      x.flatten = y.flatten := by
  obtain ⟨x, N, hx, hxr, _⟩ := C35_batches env file root dt rows h b₁ h₁ o₁ ho₁
  obtain ⟨y, M, hy, hyr, _⟩ := C35_batches env file root dt rows h b₂ h₂ o₂ ho₂
  exact ⟨x, y, max N M, fun fuel hf => ⟨hx fuel (by omega), hy fuel (by omega)⟩, by rw [hxr, hyr]⟩

/-- What a chunked column denotes: the concatenation of its chunks, each decoded from its own byte range. -/
theorem C35_chunked_rows (env : Env α) (file : Bytes) (hreg : ∀ e, e = FLAT ∨ e = CHUNKED → env.registered e = true) (dt : DType)
    (bufs : Option (List ByteRange)) (chunks : List (ByteRange × Rows α))
    (hdec : ∀ c ∈ chunks, ∃ b, Spec.bytesAt file c.1 = some b ∧ env.decode dt b = .ok c.2) :
    Spec.denote env file (.mk CHUNKED bufs (some (chunks.map fun c => .mk FLAT (some [c.1]) none none)) none) dt = some (chunks.map (·.2)).flatten := by
  have key : ∀ chunks : List (ByteRange × Rows α), (∀ c ∈ chunks, ∃ b, Spec.bytesAt file c.1 = some b ∧ env.decode dt b = .ok c.2) →
      Spec.denoteChunks env file (chunks.map fun c => .mk FLAT (some [c.1]) none none) dt 0 = some (chunks.map (·.2)) := by
    intro chunks
    induction chunks with
    | nil => intro _; rfl
    | cons c cs ih =>
      intro h
      obtain ⟨b, h1, h2⟩ := h c (by simp)
      simp only [List.map_cons, Spec.denoteChunks, Spec.denote, hreg FLAT (Or.inl rfl), Spec.firstBytes, h1, Option.bind_some, h2, Spec.toOption,
        ih (fun c' hc' => h c' (by simp [hc'])), Option.map_some, true_and, if_true]
  simp only [Spec.denote, hreg CHUNKED (Or.inr rfl), Spec.MetaOk, Spec.skips, key chunks hdec, Option.map_some]
  simp [CHUNKED, FLAT]

/-- The concrete file of C44 with batch size 2, reads completing in reverse: two batches, of two rows and one row. -/
example : readAll Demo.env Demo.file Demo.root Demo.schema.toFb .all 2 List.reverse 30 =
    .ok [[Demo.row 10 20, Demo.row 11 21], [Demo.row 12 22]] := by rfl

/-- A column with empty chunks before, between and after the others. -/
example : Readable Demo.env [7, 8, 9] (.mk CHUNKED none (some [.mk CHUNKED none (some []) none, Demo.flatAt 0 2, .mk CHUNKED none (some []) none,
    Demo.flatAt 2 3]) none) Demo.u8 [.leaf 7, .leaf 8, .leaf 9] := ⟨by decide +kernel, by rfl⟩

end Vx.Layout
