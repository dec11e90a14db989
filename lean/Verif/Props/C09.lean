import Verif.Lemmas.BitPack
import Verif.Model.Delta
/-! # C09: delta encoding gives back the original rows

Holds for every implementation of the 1024-value kernels meeting `Kern.Lawful`; an instance is given at the end. -/

namespace Vx.Delta
open Spec BitPack

variable {k : Kern T}

/-! ### forward filling -/

theorem fillLoop_spec (last : α) (vs : List α) (bs : List Bool) (h : bs.length = vs.length) :
    (fillLoop last vs bs).length = vs.length ∧ ∀ (i : Nat), bs[i]? = some true → (fillLoop last vs bs)[i]? = vs[i]? := by
  induction vs generalizing last bs with
  | nil =>
    cases bs with
    | nil => simp [fillLoop]
    | cons => simp at h
  | cons v vs ih =>
    cases bs with
    | nil => simp at h
    | cons b bs =>
      obtain ⟨h1, h2⟩ := ih (if b then v else last) bs (by simpa using h)
      refine ⟨by simp [fillLoop, h1], ?_⟩
      intro i hi
      cases i with
      | zero => simp at hi; simp [fillLoop, hi]
      | succ i => simp at hi; simpa [fillLoop] using h2 i hi

/-- Forward filling keeps the length and every valid value. -/
theorem fillForward_spec (d : α) (a : PArr α) (hw : a.WF) :
    (a.fillForward d).vals.length = a.vals.length ∧
    ∀ (i : Nat), (mask a.vals.length a.validity)[i]? = some true → (a.fillForward d).vals[i]? = a.vals[i]? := by
  unfold PArr.fillForward
  split
  · exact ⟨rfl, fun _ _ => rfl⟩
  · obtain ⟨h1, h2, h3⟩ := C23_to_logical a.validity a.vals.length hw
    cases hl : a.validity.toLogical a.vals.length with
    | allValid n => exact ⟨rfl, fun _ _ => rfl⟩
    | allInvalid n =>
      refine ⟨by simp, ?_⟩
      intro i hi
      rw [hl] at h1
      simp only [LogicalValidity.intoBools] at h1
      rw [← h1, List.getElem?_replicate] at hi
      split at hi <;> simp at hi
    | array bits =>
      rw [hl] at h1
      simp only [LogicalValidity.intoBools] at h1
      have hbl : bits.length = a.vals.length := by rw [h1]; exact hw
      obtain ⟨g1, g2⟩ := fillLoop_spec d a.vals bits hbl
      exact ⟨g1, fun i hi => g2 i (by rw [h1]; exact hi)⟩

theorem rows_congr {xs ys : List α} {m : List Bool} (hl : xs.length = ys.length) (hm : m.length = ys.length)
    (h : ∀ (i : Nat), m[i]? = some true → xs[i]? = ys[i]?) : Spec.rows xs m = Spec.rows ys m := by
  apply List.ext_getElem?
  intro i
  rw [Vx.rows_getElem?, Vx.rows_getElem?]
  cases hb : m[i]? with
  | none =>
    have : m.length ≤ i := by simpa using hb
    rw [List.getElem?_eq_none (by omega), List.getElem?_eq_none (by omega)]
  | some b =>
    cases b with
    | true => rw [h i hb]
    | false =>
      have : i < m.length := (List.getElem?_eq_some_iff.mp hb).1
      rw [List.getElem?_eq_getElem (show i < xs.length by omega), List.getElem?_eq_getElem (show i < ys.length by omega)]

/-! ### the scalar part -/

theorem scalar_inverse (b : BitVec T) (xs : List (BitVec T)) : scalarSums b (scalarDeltas b xs) = xs := by
  induction xs generalizing b with
  | nil => rfl
  | cons x xs ih => simp only [scalarDeltas, scalarSums, BitVec.sub_add_cancel, ih]

theorem scalarDeltas_length (b : BitVec T) (xs : List (BitVec T)) : (scalarDeltas b xs).length = xs.length := by
  induction xs generalizing b with
  | nil => rfl
  | cons x xs ih => simp [scalarDeltas, ih]

theorem scalarSums_length (b : BitVec T) (xs : List (BitVec T)) : (scalarSums b xs).length = xs.length := by
  induction xs generalizing b with
  | nil => rfl
  | cons x xs ih => simp [scalarSums, ih]

/-! ### the whole decoding -/

/-- One decoded chunk. -/
def decodeChunk (k : Kern T) (bases deltas : List (BitVec T)) (i : Nat) : List (BitVec T) :=
  if (i + 1) * 1024 ≤ deltas.length then k.untranspose (k.undelta (block deltas 1024 i) (block bases (lanes T) i))
  else scalarSums (bases[i * lanes T]?.getD 0) (deltas.drop (i * 1024))

/-- All decoded values. -/
def decode (k : Kern T) (bases deltas : List (BitVec T)) : List (BitVec T) :=
  (List.range ((deltas.length + 1023) / 1024)).flatMap (decodeChunk k bases deltas)

theorem lanes_pos (hT : IsWidth T) : 1 < lanes T := by unfold lanes; rcases hT with rfl | rfl | rfl | rfl <;> decide

theorem lanes_le (hT : IsWidth T) : lanes T ≤ 1024 := by unfold lanes; rcases hT with rfl | rfl | rfl | rfl <;> decide

theorem block_length {xs : List α} {n i : Nat} (h : (i + 1) * n ≤ xs.length) : (block xs n i).length = n := by
  rw [Nat.succ_mul] at h
  simp [block]; omega

theorem chunk_full (hk : k.Lawful) {bases deltas : List (BitVec T)} {i : Nat} (h1 : (i + 1) * 1024 ≤ deltas.length)
    (h2 : (i + 1) * lanes T ≤ bases.length) : (decodeChunk k bases deltas i).length = 1024 := by
  rw [decodeChunk, if_pos h1]
  exact hk.untranspose_len _ (hk.undelta_len _ _ (block_length h1) (block_length h2))

theorem basesLen_full {n d : Nat} (h : (n + 1) * 1024 ≤ d) : (n + 1) * lanes T ≤ basesLen T d := by
  unfold basesLen
  have : (n + 1) * lanes T ≤ d / 1024 * lanes T := Nat.mul_le_mul_right _ (by omega)
  omega

/-- Jagged version of `flatMap_uniform_getElem?`: only the last chunk may be short. -/
theorem flatMap_jagged {f : Nat → List α} {n m : Nat} (hm : 0 < m) (h : ∀ i, i + 1 < n → (f i).length = m) {j : Nat} (hj : j / m < n) :
    ((List.range n).flatMap f)[j]? = (f (j / m))[j % m]? := by
  cases n with
  | zero => exact absurd hj (Nat.not_lt_zero _)
  | succ n =>
    have hu : ∀ i, i < n → (f i).length = m := fun i hi => h i (by omega)
    have hl := flatMap_uniform_length hu
    rw [List.range_succ, List.flatMap_append]
    by_cases hjn : j < n * m
    · rw [List.getElem?_append_left (by omega)]
      exact flatMap_uniform_getElem? hu hjn
    · rw [List.getElem?_append_right (by omega), hl]
      simp only [List.flatMap_cons, List.flatMap_nil, List.append_nil]
      have h1 : j / m = n := by
        have : n ≤ j / m := (Nat.le_div_iff_mul_le hm).mpr (by omega)
        omega
      have h2 : j % m = j - n * m := by
        have := Nat.div_add_mod j m
        rw [h1, Nat.mul_comm] at this; omega
      rw [h1, h2]

theorem decode_getElem? (hk : k.Lawful) {bases deltas : List (BitVec T)} (hb : bases.length = basesLen T deltas.length) {j : Nat}
    (hj : j < deltas.length) : (decode k bases deltas)[j]? = (decodeChunk k bases deltas (j / 1024))[j % 1024]? := by
  apply flatMap_jagged (by omega)
  · intro i hi
    exact chunk_full hk (by omega) (by rw [hb]; exact basesLen_full (by omega))
  · omega

theorem decode_length (hk : k.Lawful) {bases deltas : List (BitVec T)} (hb : bases.length = basesLen T deltas.length) :
    (decode k bases deltas).length = deltas.length := by
  unfold decode
  have hu : ∀ i, i < deltas.length / 1024 → (decodeChunk k bases deltas i).length = 1024 := fun i hi =>
    chunk_full hk (by omega) (by rw [hb]; exact basesLen_full (by omega))
  have hl := flatMap_uniform_length hu
  by_cases hr : deltas.length % 1024 = 0
  · rw [show (deltas.length + 1023) / 1024 = deltas.length / 1024 by omega, hl]; omega
  · rw [show (deltas.length + 1023) / 1024 = deltas.length / 1024 + 1 by omega, List.range_succ, List.flatMap_append, List.length_append, hl]
    simp only [List.flatMap_cons, List.flatMap_nil, List.append_nil, decodeChunk]
    rw [if_neg (by omega), scalarSums_length, List.length_drop]
    omega

theorem decompressPrim_ok {bases deltas : List (BitVec T)} (hb : bases.length = basesLen T deltas.length) :
    decompressPrim k bases deltas = .ok (decode k bases deltas) := by
  unfold decompressPrim
  have hm : Res.mapM (fun i => do
      Res.assert (decide ((i + 1) * lanes T ≤ bases.length))
      Res.ok (k.untranspose (k.undelta (block deltas 1024 i) (block bases (lanes T) i)))) (List.range (deltas.length / 1024)) =
      .ok ((List.range (deltas.length / 1024)).map (decodeChunk k bases deltas)) := by
    apply Res.mapM_ok
    intro i hi
    have hi := List.mem_range.mp hi
    have : (i + 1) * lanes T ≤ bases.length := by rw [hb]; exact basesLen_full (by omega)
    simp only [Res.assert, this, decide_true, if_true, Res.ok_bind, decodeChunk]
    rw [if_pos (by omega)]
  simp only [hm, Res.ok_bind]
  unfold decode
  by_cases hr : deltas.length % 1024 > 0
  · have hbl : bases.length = deltas.length / 1024 * lanes T + 1 := by rw [hb, basesLen, if_pos hr]
    have hlt : deltas.length / 1024 * lanes T < bases.length := by omega
    rw [if_pos hr]
    simp only [Res.assert, hbl, beq_self_eq_true, if_true, Res.ok_bind, idx_lt hlt]
    rw [show (deltas.length + 1023) / 1024 = deltas.length / 1024 + 1 by omega, List.range_succ, List.flatMap_append, ← List.flatMap_def]
    simp only [List.flatMap_cons, List.flatMap_nil, List.append_nil, decodeChunk]
    rw [if_neg (show ¬ (deltas.length / 1024 + 1) * 1024 ≤ deltas.length by omega), List.getElem?_eq_getElem hlt, Option.getD_some]
  · rw [if_neg hr, show (deltas.length + 1023) / 1024 = deltas.length / 1024 by omega, ← List.flatMap_def]

/-! ### compressing -/

-- arithmetic, kept apart because `omega` gets lost among products with `lanes T`
theorem ar1 {i n : Nat} (h : i < n) : i * 1024 ≤ n * 1024 ∧ 1024 ≤ n * 1024 - i * 1024 := by omega
theorem ar2 {c0 c1 i d : Nat} (h : (c0 + i + 1) * 1024 ≤ d) (hi : i < c1 - c0) :
    (i + 1) * 1024 ≤ min (c1 * 1024) d - c0 * 1024 ∧ (i + 1) * 1024 ≤ min (c1 * 1024) d - min (c0 * 1024) d ∧ min (c1 * 1024) d ≤ d ∧
      min (c0 * 1024) d + i * 1024 = (c0 + i) * 1024 := by omega
theorem ar3 {c0 c1 i d : Nat} (h : ¬ (c0 + i + 1) * 1024 ≤ d) (hi : i < c1 - c0) (hc : c1 ≤ (d + 1023) / 1024) :
    ¬ (i + 1) * 1024 ≤ min (c1 * 1024) d - c0 * 1024 ∧ c0 + i = d / 1024 ∧ d % 1024 > 0 ∧ min (c0 * 1024) d + i * 1024 = (c0 + i) * 1024 ∧
      min (c1 * 1024) d = d := by omega


/-- The bases and the deltas, with the part for the remainder at the end. -/
theorem compressPrim_eq (k : Kern T) (xs : List (BitVec T)) : ∃ r1 r2,
    (compressPrim k xs).1 = (List.range (xs.length / 1024)).flatMap (fun i => (k.transpose (block xs 1024 i)).take (lanes T)) ++ r1 ∧
    (compressPrim k xs).2 = (List.range (xs.length / 1024)).flatMap
      (fun i => k.delta (k.transpose (block xs 1024 i)) ((k.transpose (block xs 1024 i)).take (lanes T))) ++ r2 ∧
    ((xs.drop (xs.length / 1024 * 1024) = [] ∧ r1 = [] ∧ r2 = []) ∨
      ∃ x rest, xs.drop (xs.length / 1024 * 1024) = x :: rest ∧ r1 = [x] ∧ r2 = scalarDeltas x (x :: rest)) := by
  unfold compressPrim
  cases hd : xs.drop (xs.length / 1024 * 1024) with
  | nil => exact ⟨[], [], by simp [List.flatMap_map, hd], by simp [List.flatMap_map, hd], Or.inl ⟨rfl, rfl, rfl⟩⟩
  | cons x rest => exact ⟨[x], scalarDeltas x (x :: rest), by simp [List.flatMap_map, hd], by simp [List.flatMap_map, hd], Or.inr ⟨x, rest, rfl, rfl, rfl⟩⟩

theorem compressPrim_lens (hk : k.Lawful) (hT : IsWidth T) (xs : List (BitVec T)) :
    (compressPrim k xs).2.length = xs.length ∧ (compressPrim k xs).1.length = basesLen T xs.length := by
  have hlane := lanes_le hT
  have hblk : ∀ i, i < xs.length / 1024 → (k.transpose (block xs 1024 i)).length = 1024 := fun i hi =>
    hk.transpose_len _ (block_length (by omega))
  have h1 : ((List.range (xs.length / 1024)).flatMap (fun i => (k.transpose (block xs 1024 i)).take (lanes T))).length = xs.length / 1024 * lanes T :=
    flatMap_uniform_length (fun i hi => by simp [hblk i hi, hlane])
  have h2 : ((List.range (xs.length / 1024)).flatMap (fun i => k.delta (k.transpose (block xs 1024 i)) ((k.transpose (block xs 1024 i)).take (lanes T)))).length
      = xs.length / 1024 * 1024 :=
    flatMap_uniform_length (fun i hi => hk.delta_len _ _ (hblk i hi) (by simp [hblk i hi, hlane]))
  obtain ⟨r1, r2, e1, e2, hr⟩ := compressPrim_eq k xs
  rw [e1, e2, List.length_append, List.length_append, h1, h2, basesLen]
  have hdl : (xs.drop (xs.length / 1024 * 1024)).length = xs.length % 1024 := by simp; omega
  rcases hr with ⟨hd, rfl, rfl⟩ | ⟨x, rest, hd, rfl, rfl⟩
  · rw [hd] at hdl
    simp only [List.length_nil] at hdl ⊢
    exact ⟨by omega, by rw [if_neg (by omega)]⟩
  · rw [hd] at hdl
    simp only [List.length_cons] at hdl
    simp only [scalarDeltas_length, List.length_cons, List.length_nil]
    exact ⟨by omega, by rw [if_pos (by omega)]⟩

/-- **C09, layout**: compression stores one delta per row and, per full block of 1024 rows, one base per lane (1024 / bit width of them), plus one
base for a remainder. -/
theorem C09_layout (hk : k.Lawful) (hT : IsWidth T) (xs : List (BitVec T)) :
    (compressPrim k xs).2.length = xs.length ∧
    (compressPrim k xs).1.length = xs.length / 1024 * (1024 / T) + (if xs.length % 1024 = 0 then 0 else 1) := by
  have h := compressPrim_lens hk hT xs
  refine ⟨h.1, ?_⟩
  rw [h.2]
  simp only [basesLen, lanes]
  congr 1
  by_cases h0 : xs.length % 1024 = 0
  · simp [h0]
  · rw [if_pos (by omega), if_neg h0]


/-- Decoding inverts encoding, for every list of values. -/
theorem decode_compressPrim (hk : k.Lawful) (hT : IsWidth T) (xs : List (BitVec T)) :
    decode k (compressPrim k xs).1 (compressPrim k xs).2 = xs := by
  have hlane := lanes_le hT
  obtain ⟨hd, hb⟩ := compressPrim_lens hk hT xs
  rw [← hd] at hb
  have hblk : ∀ i, i < xs.length / 1024 → (k.transpose (block xs 1024 i)).length = 1024 := fun i hi =>
    hk.transpose_len _ (block_length (by omega))
  have u1 : ∀ i, i < xs.length / 1024 → ((k.transpose (block xs 1024 i)).take (lanes T)).length = lanes T := fun i hi => by simp [hblk i hi, hlane]
  have u2 : ∀ i, i < xs.length / 1024 → (k.delta (k.transpose (block xs 1024 i)) ((k.transpose (block xs 1024 i)).take (lanes T))).length = 1024 :=
    fun i hi => hk.delta_len _ _ (hblk i hi) (u1 i hi)
  have h1 := flatMap_uniform_length u1
  have h2 := flatMap_uniform_length u2
  obtain ⟨r1, r2, c1, c2, hr12⟩ := compressPrim_eq k xs
  -- the chunks of the two buffers
  have hbi : ∀ i, i < xs.length / 1024 → block (compressPrim k xs).1 (lanes T) i = (k.transpose (block xs 1024 i)).take (lanes T) := by
    intro i hi
    have := flatMap_uniform_chunk u1 hi
    have hle : (i + 1) * lanes T ≤ xs.length / 1024 * lanes T := Nat.mul_le_mul_right _ hi
    rw [Nat.succ_mul] at hle
    rw [← this, block, c1, List.drop_append_of_le_length (by omega), List.take_append_of_le_length (by rw [List.length_drop, h1]; omega)]
  have hdi : ∀ i, i < xs.length / 1024 → block (compressPrim k xs).2 1024 i =
      k.delta (k.transpose (block xs 1024 i)) ((k.transpose (block xs 1024 i)).take (lanes T)) := by
    intro i hi
    have := flatMap_uniform_chunk u2 hi
    have hle : (i + 1) * 1024 ≤ xs.length / 1024 * 1024 := Nat.mul_le_mul_right _ hi
    have g1 : i * 1024 ≤ ((List.range (xs.length / 1024)).flatMap
        (fun i => k.delta (k.transpose (block xs 1024 i)) ((k.transpose (block xs 1024 i)).take (lanes T)))).length := by rw [h2]; exact (ar1 hi).1
    have g2 : 1024 ≤ (((List.range (xs.length / 1024)).flatMap
        (fun i => k.delta (k.transpose (block xs 1024 i)) ((k.transpose (block xs 1024 i)).take (lanes T)))).drop (i * 1024)).length := by
      rw [List.length_drop, h2]; exact (ar1 hi).2
    rw [← this, block, c2, List.drop_append_of_le_length g1, List.take_append_of_le_length g2]
  have hchunk : ∀ i, i < xs.length / 1024 → decodeChunk k (compressPrim k xs).1 (compressPrim k xs).2 i = block xs 1024 i := by
    intro i hi
    rw [decodeChunk, if_pos (by omega), hbi i hi, hdi i hi, hk.undelta_delta _ _ (hblk i hi) (u1 i hi), hk.untranspose_transpose _ (block_length (by omega))]
  have hfull : (List.range (xs.length / 1024)).flatMap (decodeChunk k (compressPrim k xs).1 (compressPrim k xs).2) = xs.take (xs.length / 1024 * 1024) := by
    rw [← flatMap_chunks, List.flatMap_def, List.flatMap_def]
    congr 1
    apply List.map_congr_left
    intro i hi
    rw [hchunk i (List.mem_range.mp hi)]
    rfl
  unfold decode
  rw [hd]
  by_cases hr : xs.length % 1024 = 0
  · rw [show (xs.length + 1023) / 1024 = xs.length / 1024 by omega, hfull, List.take_of_length_le (by omega)]
  · rw [show (xs.length + 1023) / 1024 = xs.length / 1024 + 1 by omega, List.range_succ, List.flatMap_append, hfull]
    simp only [List.flatMap_cons, List.flatMap_nil, List.append_nil, decodeChunk]
    rw [if_neg (by omega)]
    have hrest : (xs.drop (xs.length / 1024 * 1024)).length ≠ 0 := by simp; omega
    rcases hr12 with ⟨hdr, _, _⟩ | ⟨x, rest, hdr, rfl, rfl⟩
    · simp [hdr] at hrest
    · have e1 : (compressPrim k xs).1[xs.length / 1024 * lanes T]?.getD 0 = x := by
        rw [c1, List.getElem?_append_right (by omega)]
        simp [h1]
      have e2 : (compressPrim k xs).2.drop (xs.length / 1024 * 1024) = scalarDeltas x (x :: rest) := by
        rw [c2, List.drop_append_of_le_length (by omega), List.drop_of_length_le (by omega), List.nil_append]
      rw [e1, e2, scalar_inverse, ← hdr, List.take_append_drop]

/-! ### arrays -/

/-- What every delta array built by the library satisfies. -/
structure WF (a : Arr T) : Prop where
  offset : a.offset < 1024
  inside : a.offset + a.len ≤ a.deltas.vals.length
  bases : a.bases.vals.length = basesLen T a.deltas.vals.length
  validity : FitsLen a.validity a.len
  basesWF : a.bases.WF
  deltasWF : a.deltas.WF
  nullable : a.bases.validity.nullable = a.deltas.validity.nullable

/-- The decoded values inside the window of the array. -/
def window (k : Kern T) (a : Arr T) : List (BitVec T) := Spec.slice (decode k a.bases.vals a.deltas.vals) a.offset (a.offset + a.len)

/-- The rows a delta array stands for. -/
def rows (k : Kern T) (a : Arr T) : List (Option (BitVec T)) := Spec.rows (window k a) (mask a.len a.validity)

theorem window_length (hk : k.Lawful) {a : Arr T} (h : WF a) : (window k a).length = a.len := by
  have := decode_length (k := k) hk h.bases
  have := h.inside
  simp only [window, Spec.slice, List.length_drop, List.length_take]; omega

theorem rows_length (hk : k.Lawful) {a : Arr T} (h : WF a) : (rows k a).length = a.len := by
  have h1 := window_length hk h
  have h2 : (mask a.len a.validity).length = a.len := h.validity
  simp only [rows, Spec.rows, List.length_zipWith, h1, h2, Nat.min_self]

theorem tryNew_ok (hT : IsWidth T) {a : Arr T} (h : WF a) : tryNew a.bases a.deltas a.validity a.offset a.len = .ok a := by
  have hl := lanes_pos hT
  have hin := h.inside
  have h6 : (decide (a.deltas.len % 1024 = 0) == decide (basesLen T a.deltas.len % lanes T = 0)) = true := by
    rw [beq_iff_eq, decide_eq_decide, basesLen]
    by_cases hr : a.deltas.len % 1024 > 0
    · rw [if_pos hr, Nat.mul_comm, Nat.mul_add_mod, Nat.mod_eq_of_lt hl]; omega
    · rw [if_neg hr, Nat.add_zero, Nat.mul_mod_left]; omega
  have h5 : (a.bases.len == basesLen T a.deltas.len) = true := by rw [beq_iff_eq]; exact h.bases
  have h2 : a.offset + a.len ≤ a.deltas.len := hin
  have h3 : (a.bases.validity.nullable == a.deltas.validity.nullable) = true := by rw [beq_iff_eq]; exact h.nullable
  simp only [tryNew, Res.guard, h.offset, decide_true, if_true, Res.ok_bind, h2, h3, Compare.checkLen_of_fits h.validity, h5, h6]

/-- **C09 (decompression).** Succeeds and gives the rows, for every array built by the library that either is unsliced or has no
per-row validity. The missing case (sliced, with per-row nulls) panics: `C09_sliced_nullable_panics`. -/
theorem C09_decompress_partial (hk : k.Lawful) (a : Arr T) (h : WF a)
    (hv : (∀ bits, a.validity ≠ .array bits) ∨ a.len = a.deltas.vals.length) :
    ∃ b, decompress k a = .ok b ∧ b.WF ∧ b.rows = rows k a := by
  have hdl := decode_length (k := k) hk h.bases
  have hin := h.inside
  have hoff : a.len = a.deltas.vals.length → a.offset = 0 := by omega
  have hfit : FitsLen a.validity (decode k a.bases.vals a.deltas.vals).length := by
    rcases hv with hv | hv
    · cases hva : a.validity with
      | array bits => exact absurd hva (hv bits)
      | nonNullable => simp [FitsLen, mask]
      | allValid => simp [FitsLen, mask]
      | allInvalid => simp [FitsLen, mask]
    · rw [hdl, ← hv]; exact h.validity
  have hpw : (PArr.mk (decode k a.bases.vals a.deltas.vals) a.validity).WF := hfit
  obtain ⟨b, h1, h2, h3, _⟩ := PArr.slice_ok (s := a.offset) (e := a.offset + a.len) hpw ⟨by omega, by simp only [PArr.len]; omega⟩
  refine ⟨b, ?_, h3, ?_⟩
  · simp only [decompress, decompressPrim_ok h.bases, Res.ok_bind, fromVec, Compare.checkLen_of_fits hfit, h1]
  · rw [h2, rows, window]
    simp only [PArr.rows]
    rw [slice_rows]
    congr 1
    rcases hv with hv | hv
    · cases hva : a.validity with
      | array bits => exact absurd hva (hv bits)
      | nonNullable => simp only [mask, slice_replicate]; congr 1; omega
      | allValid => simp only [mask, slice_replicate]; congr 1; omega
      | allInvalid => simp only [mask, slice_replicate]; congr 1; omega
    · rw [hoff hv, hdl, ← hv, Nat.zero_add]
      have hml : (mask a.len a.validity).length = a.len := h.validity
      simp only [Spec.slice, List.drop_zero]
      rw [List.take_of_length_le (by omega)]

/-- **C09 (round trip).** For every unsigned type and every array of any length and with any nulls: compressing succeeds and decompressing
gives back every row. -/
theorem C09_roundtrip (hT : IsWidth T) (hk : k.Lawful) (a : PArr (BitVec T)) (hw : a.WF) :
    ∃ arr b, encode k a = .ok arr ∧ WF arr ∧ rows k arr = a.rows ∧ decompress k arr = .ok b ∧ b.WF ∧ b.rows = a.rows := by
  obtain ⟨hd, hb⟩ := compressPrim_lens hk hT (a.fillForward 0).vals
  obtain ⟨f1, f2⟩ := fillForward_spec (0 : BitVec T) a hw
  have hdec := decode_compressPrim hk hT (a.fillForward 0).vals
  let v := if a.validity.nullable then Validity.allValid else Validity.nonNullable
  have hvf : ∀ n, FitsLen v n := by
    intro n
    simp only [v]
    split <;> simp [FitsLen, mask]
  let arr : Arr T := ⟨⟨(compressPrim k (a.fillForward 0).vals).1, v⟩, ⟨(compressPrim k (a.fillForward 0).vals).2, v⟩, a.validity, 0,
    (compressPrim k (a.fillForward 0).vals).2.length⟩
  have hal : arr.len = a.vals.length := by simp only [arr, hd, f1]
  have hwf : WF arr := ⟨by simp [arr], by simp [arr], by simp only [arr, hb, hd], by rw [hal]; exact hw, hvf _, hvf _, rfl⟩
  have hrows : rows k arr = a.rows := by
    rw [rows, window, hal]
    simp only [arr, hdec, Nat.zero_add, hd]
    rw [PArr.rows, Spec.slice, List.drop_zero, List.take_of_length_le (by omega)]
    exact rows_congr f1 hw f2
  have henc : encode k a = .ok arr := tryNew_ok hT hwf
  obtain ⟨b, h1, h2, h3⟩ := C09_decompress_partial hk arr hwf (Or.inr (by simp [arr]))
  exact ⟨arr, b, henc, hwf, hrows, h1, h2, by rw [h3, hrows]⟩

/-- **C09**, `DeltaArray::try_from_primitive_array`: gives back every row of an array without nulls. -/
theorem C09_from_primitive_partial (hT : IsWidth T) (hk : k.Lawful) (vals : List (BitVec T)) :
    ∃ arr b, fromPrimitive k ⟨vals, .nonNullable⟩ = .ok arr ∧ decompress k arr = .ok b ∧ b.rows = vals.map some := by
  obtain ⟨arr, b, h1, _, _, h4, _, h6⟩ := C09_roundtrip hT hk ⟨vals, .nonNullable⟩ (by simp [PArr.WF, FitsLen, mask])
  refine ⟨arr, b, h1, h4, ?_⟩
  rw [h6]
  simp only [PArr.rows, mask]
  apply List.ext_getElem <;> simp [Spec.rows]

/-! ### slicing -/

theorem decodeChunk_slice {bases deltas : List (BitVec T)} (hT : IsWidth T) (hb : bases.length = basesLen T deltas.length) {c0 c1 i : Nat}
    (h01 : c0 ≤ c1) (hc1 : c1 ≤ (deltas.length + 1023) / 1024) (hi : i < c1 - c0) :
    decodeChunk k (Spec.slice bases (min (c0 * lanes T) bases.length) (min (c1 * lanes T) bases.length))
      (Spec.slice deltas (min (c0 * 1024) deltas.length) (min (c1 * 1024) deltas.length)) i = decodeChunk k bases deltas (c0 + i) := by
  have hl := lanes_pos hT
  have hdl : (Spec.slice deltas (min (c0 * 1024) deltas.length) (min (c1 * 1024) deltas.length)).length = min (c1 * 1024) deltas.length - c0 * 1024 := by
    simp only [Spec.slice, List.length_drop, List.length_take]; omega
  have hdrop : ∀ {α} (l : List α) (n s e i : Nat), (i + 1) * n ≤ e - s → e ≤ l.length → block (Spec.slice l s e) n i = ((l.drop (s + i * n)).take n) := by
    intro α l n s e i h he
    rw [Nat.succ_mul] at h
    apply List.ext_getElem?
    intro j
    simp only [block, Spec.slice, List.getElem?_take, List.getElem?_drop]
    by_cases hj : j < n
    · rw [if_pos hj, if_pos hj, if_pos (by omega), Nat.add_assoc]
    · rw [if_neg hj, if_neg hj]
  have e1 : c0 * lanes T + i * lanes T = (c0 + i) * lanes T := by rw [Nat.add_mul]
  unfold decodeChunk
  rw [hdl]
  by_cases hfull : (c0 + i + 1) * 1024 ≤ deltas.length
  · obtain ⟨g0, a1, a2, a3⟩ := ar2 hfull hi
    rw [if_pos g0, if_pos hfull]
    have hbf := basesLen_full (T := T) hfull
    rw [← hb] at hbf
    have hcl : (c0 + i + 1) * lanes T ≤ c1 * lanes T := Nat.mul_le_mul_right _ (by omega)
    have e2 : (c0 + i + 1) * lanes T = c0 * lanes T + (i + 1) * lanes T := by rw [← Nat.add_mul]; congr 1
    have g1 := hdrop deltas 1024 (min (c0 * 1024) deltas.length) (min (c1 * 1024) deltas.length) i a1 a2
    have g2 := hdrop bases (lanes T) (min (c0 * lanes T) bases.length) (min (c1 * lanes T) bases.length) i (by omega) (by omega)
    have g4 : min (c0 * lanes T) bases.length + i * lanes T = (c0 + i) * lanes T := by omega
    rw [g1, g2, a3, g4]
    rfl
  · obtain ⟨g0, hlast, hrem, g5, g6⟩ := ar3 hfull hi hc1
    rw [if_neg g0, if_neg hfull]
    have hbl : bases.length = (c0 + i) * lanes T + 1 := by rw [hb, basesLen, if_pos hrem, hlast]
    have hc0 : c0 * lanes T ≤ (c0 + i) * lanes T := Nat.mul_le_mul_right _ (by omega)
    have hc1' : (c0 + i + 1) * lanes T ≤ c1 * lanes T := Nat.mul_le_mul_right _ (by omega)
    rw [Nat.succ_mul] at hc1'
    have g1 : (Spec.slice bases (min (c0 * lanes T) bases.length) (min (c1 * lanes T) bases.length))[i * lanes T]? = bases[(c0 + i) * lanes T]? := by
      rw [slice_getElem?]
      have g4 : min (c0 * lanes T) bases.length + i * lanes T = (c0 + i) * lanes T := by omega
      rw [if_pos (by omega), g4]
    have g2 : (Spec.slice deltas (min (c0 * 1024) deltas.length) (min (c1 * 1024) deltas.length)).drop (i * 1024) = deltas.drop ((c0 + i) * 1024) := by
      rw [Spec.slice, List.drop_drop, g5, g6, List.take_length]
    rw [g1, g2]

theorem parr_slice_vals {α : Type} {a b : PArr α} {s e : Nat} (hw : a.WF) (h : a.slice s e = .ok b) (hb : InBounds a.vals.length s e) :
    b.vals = Spec.slice a.vals s e ∧ b.validity.nullable = a.validity.nullable := by
  obtain ⟨w, h1, h2, h3, h4⟩ := mask_slice hw hb
  simp only [PArr.slice, sliceList_ok hb, h1, Res.ok_bind] at h
  obtain rfl := Res.ok.inj h
  exact ⟨rfl, h4⟩

/-- **C09 (slice).** Slicing inside the bounds yields an array of exactly those rows; outside it is an error. -/
theorem C09_slice (hT : IsWidth T) (hk : k.Lawful) (a : Arr T) (h : WF a) (s e : Nat) :
    (InBounds a.len s e → ∃ b, slice a s e = .ok b ∧ WF b ∧ b.len = e - s ∧ rows k b = Spec.slice (rows k a) s e) ∧
    (¬ InBounds a.len s e → slice a s e = .err) := by
  constructor
  · intro hb
    have hse : s ≤ e := hb.1
    have hel : e ≤ a.len := hb.2
    have ho := h.offset
    have hin := h.inside
    have hl := lanes_pos hT
    obtain ⟨c0, hc0⟩ : ∃ c0, c0 = (s + a.offset) / 1024 := ⟨_, rfl⟩
    obtain ⟨c1, hc1⟩ : ∃ c1, c1 = (e + a.offset + 1023) / 1024 := ⟨_, rfl⟩
    have h01 : c0 ≤ c1 := by omega
    have hc1l : c1 ≤ (a.deltas.vals.length + 1023) / 1024 := by omega
    have hmul : c0 * lanes T ≤ c1 * lanes T := Nat.mul_le_mul_right _ h01
    obtain ⟨b, b1, b2, b3, b4⟩ := PArr.slice_ok (s := min (c0 * lanes T) a.bases.vals.length) (e := min (c1 * lanes T) a.bases.vals.length) h.basesWF
      ⟨by omega, by simp only [PArr.len]; omega⟩
    obtain ⟨d, d1, d2, d3, d4⟩ := PArr.slice_ok (s := min (c0 * 1024) a.deltas.vals.length) (e := min (c1 * 1024) a.deltas.vals.length) h.deltasWF
      ⟨by omega, by simp only [PArr.len]; omega⟩
    have bv : b.vals = Spec.slice a.bases.vals (min (c0 * lanes T) a.bases.vals.length) (min (c1 * lanes T) a.bases.vals.length) ∧
        b.validity.nullable = a.bases.validity.nullable := parr_slice_vals h.basesWF b1 ⟨by omega, by omega⟩
    have dv : d.vals = Spec.slice a.deltas.vals (min (c0 * 1024) a.deltas.vals.length) (min (c1 * 1024) a.deltas.vals.length) ∧
        d.validity.nullable = a.deltas.validity.nullable := parr_slice_vals h.deltasWF d1 ⟨by omega, by omega⟩
    obtain ⟨v, v1, v2, v3, _⟩ := mask_slice h.validity hb
    have hdlen : d.vals.length = min (c1 * 1024) a.deltas.vals.length - c0 * 1024 := by
      have : d.vals.length = _ := d4
      omega
    have hblen : b.vals.length = basesLen T d.vals.length := by
      have e4 : b.vals.length = min (c1 * lanes T) a.bases.vals.length - min (c0 * lanes T) a.bases.vals.length := b4
      rw [e4, hdlen, h.bases]
      unfold basesLen
      by_cases hf : c1 * 1024 ≤ a.deltas.vals.length
      · have m1 : c1 * lanes T ≤ a.deltas.vals.length / 1024 * lanes T := Nat.mul_le_mul_right _ (by omega)
        rw [Nat.min_eq_left (by omega), Nat.min_eq_left (by omega), Nat.min_eq_left hf, if_neg (by omega), ← Nat.sub_mul,
          show (c1 * 1024 - c0 * 1024) / 1024 = c1 - c0 by omega, Nat.add_zero]
      · have m0 : c0 ≤ a.deltas.vals.length / 1024 := by omega
        have m2 : c0 * lanes T ≤ a.deltas.vals.length / 1024 * lanes T := Nat.mul_le_mul_right _ m0
        have m3 : (a.deltas.vals.length / 1024 + 1) * lanes T ≤ c1 * lanes T := Nat.mul_le_mul_right _ (by omega)
        rw [Nat.succ_mul] at m3
        rw [if_pos (by omega), if_pos (by omega), Nat.min_eq_right (by omega), Nat.min_eq_left (by omega),
          show (min (c1 * 1024) a.deltas.vals.length - c0 * 1024) / 1024 = a.deltas.vals.length / 1024 - c0 by omega, Nat.sub_mul]
        omega
    let r : Arr T := ⟨b, d, v, (s + a.offset) % 1024, e - s⟩
    have hwr : WF r := ⟨by simp only [r]; omega, by simp only [r]; omega, hblen, v3, b3, d3, by simp only [r]; rw [bv.2, dv.2, h.nullable]⟩
    refine ⟨r, ?_, hwr, rfl, ?_⟩
    · unfold slice
      rw [if_neg (by omega), if_neg (by omega), if_neg (by omega)]
      have hbl : basesLen T a.deltas.len = a.bases.vals.length := h.bases.symm
      have hdl : a.deltas.len = a.deltas.vals.length := rfl
      rw [hdl] at hbl
      simp only [hdl, hbl, ← hc0, ← hc1, b1, d1, v1, Res.ok_bind]
      exact tryNew_ok hT hwr
    · have hdla := decode_length (k := k) hk h.bases
      have hdlr := decode_length (k := k) hk hwr.bases
      have hwin : window k r = Spec.slice (window k a) s e := by
        apply List.ext_getElem?
        intro j
        rw [slice_getElem?]
        simp only [window]
        rw [slice_getElem?, slice_getElem?]
        by_cases hj : j < e - s
        · rw [if_pos (by simp only [r]; omega), if_pos (by omega), if_pos (by omega), decode_getElem? hk hwr.bases (by simp only [r]; omega),
            decode_getElem? hk h.bases (by omega)]
          have q1 : (r.offset + j) / 1024 = (a.offset + (s + j)) / 1024 - c0 := by simp only [r]; omega
          have q2 : (r.offset + j) % 1024 = (a.offset + (s + j)) % 1024 := by simp only [r]; omega
          rw [q1, q2]
          simp only [r, bv.1, dv.1]
          rw [decodeChunk_slice hT h.bases h01 hc1l (by omega), show c0 + ((a.offset + (s + j)) / 1024 - c0) = (a.offset + (s + j)) / 1024 by omega]
        · rw [if_neg (by simp only [r]; omega), if_neg (by omega)]
      rw [rows, rows, hwin, slice_rows]
      congr 1
  · intro hb
    unfold InBounds at hb
    unfold slice
    by_cases h1 : s > a.len
    · rw [if_pos h1]
    · rw [if_neg h1]
      by_cases h2 : e > a.len
      · rw [if_pos h2]
      · rw [if_neg h2, if_pos (by omega)]

/-- **C09 (scalar_at).** Reading one row of an array without per-row validity gives that row; beyond the end is an error. -/
theorem C09_scalar_at_partial (hT : IsWidth T) (hk : k.Lawful) (a : Arr T) (h : WF a) (hv : ∀ bits, a.validity ≠ .array bits) (i : Nat) :
    scalarAt k a i = match (rows k a)[i]? with
      | some r => .ok r
      | none => .err := by
  unfold scalarAt
  by_cases hi : i < a.len
  · rw [if_neg (by omega)]
    obtain ⟨b, b1, b2⟩ := PArr.isValid_mask h.validity hi
    have hwl := window_length hk h
    have hx : (window k a)[i]? = some ((window k a)[i]'(by omega)) := List.getElem?_eq_getElem (by omega)
    have hr : (rows k a)[i]? = some (if b then some ((window k a)[i]'(by omega)) else none) := by
      rw [rows, Vx.rows_getElem?, hx, b2]
      cases b <;> rfl
    rw [hr]
    simp only [b1, Res.ok_bind]
    cases b with
    | false => rfl
    | true =>
      obtain ⟨c, c1, c2, c3, c4⟩ := (C09_slice hT hk a h i (i + 1)).1 ⟨by omega, hi⟩
      have hcv : ∀ bits, c.validity ≠ .array bits := by
        intro bits hc
        unfold slice at c1
        rw [if_neg (by omega), if_neg (by omega), if_neg (by omega)] at c1
        obtain ⟨_, _, c1⟩ := Res.bind_eq_ok.mp c1
        obtain ⟨_, _, c1⟩ := Res.bind_eq_ok.mp c1
        obtain ⟨v, hv1, c1⟩ := Res.bind_eq_ok.mp c1
        have hvv : ∀ bits, v ≠ .array bits := by
          intro bits hb
          subst hb
          cases hva : a.validity with
          | array b' => exact hv b' hva
          | nonNullable => simp [hva, Validity.slice] at hv1
          | allValid => simp [hva, Validity.slice] at hv1
          | allInvalid => simp [hva, Validity.slice] at hv1
        unfold tryNew at c1
        simp only [Res.bind_eq_ok] at c1
        obtain ⟨_, _, _, _, _, _, _, _, _, _, _, _, c1⟩ := c1
        obtain rfl := Res.ok.inj c1
        exact hvv _ hc
      obtain ⟨p, p1, p2, p3⟩ := C09_decompress_partial hk c c2 (Or.inl hcv)
      simp only [c1, p1, Res.ok_bind, Bool.not_true, Bool.false_eq_true, if_false, if_true]
      have hpl : p.len = 1 := by rw [← PArr.rows_len p2, p3, rows_length hk c2, c3]; omega
      obtain ⟨r, r1, r2⟩ := PArr.scalarAt_ok p2 (i := 0) (by omega)
      rw [r1]
      rw [p3, c4, slice_getElem?, if_pos (by omega), Nat.add_zero, hr] at r2
      simp only [if_true] at r2
      rw [Option.some.inj r2]
  · rw [if_pos (by omega), List.getElem?_eq_none (by rw [rows_length hk h]; omega)]

/-! ### an instance of the kernels, and what goes wrong -/

/-- Lane-wise differences: `h` holds the previous value of every lane. -/
def laneDeltas : List (BitVec T) → List (BitVec T) → List (BitVec T)
  | h, x :: xs => (x - h.headD 0) :: laneDeltas (h.tail ++ [x]) xs
  | _, [] => []

def laneSums : List (BitVec T) → List (BitVec T) → List (BitVec T)
  | h, d :: ds => (d + h.headD 0) :: laneSums (h.tail ++ [d + h.headD 0]) ds
  | _, [] => []

theorem lane_inverse (h xs : List (BitVec T)) : laneSums h (laneDeltas h xs) = xs := by
  induction xs generalizing h with
  | nil => rfl
  | cons x xs ih => simp only [laneDeltas, laneSums, BitVec.sub_add_cancel, ih]

theorem laneDeltas_length (h xs : List (BitVec T)) : (laneDeltas h xs).length = xs.length := by
  induction xs generalizing h with
  | nil => rfl
  | cons x xs ih => simp [laneDeltas, ih]

theorem laneSums_length (h xs : List (BitVec T)) : (laneSums h xs).length = xs.length := by
  induction xs generalizing h with
  | nil => rfl
  | cons x xs ih => simp [laneSums, ih]

/-- Kernels that interleave the lanes (value `i` is in lane `i % LANES`); the real ones also permute the values. -/
def plainKern (T : Nat) : Kern T := ⟨id, id, fun xs bs => laneDeltas bs xs, fun ds bs => laneSums bs ds⟩

theorem plainKern_lawful (T : Nat) : (plainKern T).Lawful :=
  ⟨fun _ h => h, fun xs bs h _ => (laneDeltas_length bs xs).trans h, fun xs bs h _ => (laneSums_length bs xs).trans h, fun _ h => h,
    fun _ _ => rfl, fun xs bs _ _ => lane_inverse bs xs⟩

/-- The hypotheses of the round trip can be met, with values that wrap and a null. -/
example : ∃ arr b, encode (plainKern 8) ⟨[250, 3, 9, 1], .array [true, true, false, true]⟩ = .ok arr ∧
    decompress (plainKern 8) arr = .ok b ∧ b.rows = [some 250, some 3, none, some 1] := by
  obtain ⟨arr, b, h1, _, _, h4, _, h6⟩ := C09_roundtrip (Or.inl rfl) (plainKern_lawful 8) ⟨[250, 3, 9, 1], .array [true, true, false, true]⟩ (by decide)
  exact ⟨arr, b, h1, h4, by rw [h6]; decide⟩

/-- Two and a half chunks round trip as well. -/
example : ∃ arr b, encode (plainKern 16) ⟨(List.range 2500).map (BitVec.ofNat 16), .nonNullable⟩ = .ok arr ∧
    decompress (plainKern 16) arr = .ok b ∧ b.rows = PArr.rows ⟨(List.range 2500).map (BitVec.ofNat 16), .nonNullable⟩ := by
  obtain ⟨arr, b, h1, _, _, h4, _, h6⟩ := C09_roundtrip (Or.inr (Or.inl rfl)) (plainKern_lawful 16) ⟨(List.range 2500).map (BitVec.ofNat 16), .nonNullable⟩
    (List.length_replicate)
  exact ⟨arr, b, h1, h4, h6⟩

/-- `DeltaArray::try_from_primitive_array` drops the nulls: the middle row is null before and 7 (filled forward) after. -/
theorem C09_from_primitive_loses_nulls :
    let a : PArr (BitVec 8) := ⟨[7, 0, 9], .array [true, false, true]⟩
    a.rows = [some 7, none, some 9] ∧
    ∃ arr b, fromPrimitive (plainKern 8) a = .ok arr ∧ decompress (plainKern 8) arr = .ok b ∧ b.rows = [some 7, some 7, some 9] := by
  refine ⟨by decide, ⟨⟨[7], .allValid⟩, ⟨[0, 0, 2], .allValid⟩, .nonNullable, 0, 3⟩, ⟨[7, 7, 9], .nonNullable⟩, ?_, ?_, ?_⟩ <;> decide +kernel

/-- Slicing a delta array that carries per-row nulls and then decoding panics, and so does reading one valid row: the values are decoded
with the validity of the slice, which is shorter. -/
theorem C09_sliced_nullable_panics :
    let a : Arr 8 := ⟨⟨[7], .allValid⟩, ⟨[0, 0, 2], .allValid⟩, .array [true, false, true], 0, 3⟩
    encode (plainKern 8) ⟨[7, 0, 9], .array [true, false, true]⟩ = .ok a ∧
    (∃ b, slice a 1 3 = .ok b ∧ rows (plainKern 8) b = [none, some 9] ∧ decompress (plainKern 8) b = .panic) ∧
    scalarAt (plainKern 8) a 0 = .panic := by
  refine ⟨by decide +kernel, ⟨⟨⟨[7], .allValid⟩, ⟨[0, 0, 2], .allValid⟩, .array [false, true], 1, 2⟩, ?_, ?_, ?_⟩, ?_⟩ <;> decide +kernel

end Vx.Delta
