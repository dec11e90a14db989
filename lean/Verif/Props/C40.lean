import Verif.Model.Sampling
import Mathlib.Algebra.Order.Ring.Nat
/-! # C40: partitions and stratified samples -/

namespace Vx.Sampling

/-- The ranges follow one another without gap or overlap from `a` to `b`. -/
def Covers (a b : Nat) : List (Nat × Nat) → Prop
  | [] => a = b
  | (s, e) :: rest => s = a ∧ s ≤ e ∧ Covers e b rest

theorem Covers.append {a b c : Nat} {l r : List (Nat × Nat)} (h1 : Covers a b l) (h2 : Covers b c r) : Covers a c (l ++ r) := by
  induction l generalizing a with
  | nil => simp only [Covers] at h1; subst h1; exact h2
  | cons p l ih =>
    obtain ⟨s, e⟩ := p
    obtain ⟨h, h', h''⟩ := h1
    exact ⟨h, h', ih h''⟩

/-- Equal steps. -/
theorem covers_steps (a s m : Nat) : Covers a (a + m * s) ((List.range m).map fun k => (a + k * s, a + k * s + s)) := by
  induction m with
  | zero => simp [Covers]
  | succ m ih =>
    rw [List.range_succ, List.map_append]
    refine ih.append ?_
    simp only [List.map_cons, List.map_nil, Covers]
    exact ⟨trivial, by omega, by rw [Nat.succ_mul]; omega⟩

theorem stepBy_steps (a s m : Nat) (hs : s ≠ 0) : stepBy a (a + m * s) s = .ok ((List.range m).map fun k => a + k * s) := by
  unfold stepBy
  rw [if_neg hs]
  congr 3
  rw [show a + m * s - a + s - 1 = m * s + (s - 1) by omega]
  rw [Nat.mul_comm m s, Nat.mul_add_div (by omega), Nat.div_eq_of_lt (a := s - 1) (by omega)]; omega

/-- The closed form. -/
theorem partition_eq (length n : Nat) (hn : n ≠ 0) (hl : n ≤ length) :
    partitionIndices length n = .ok ((List.range (length % n)).map (fun k => (0 + k * (length / n + 1), 0 + k * (length / n + 1) + (length / n + 1))) ++
      (List.range (n - length % n)).map (fun k => (length % n * (length / n + 1) + k * (length / n), length % n * (length / n + 1) + k * (length / n) + length / n))) := by
  have hmod : length % n < n := Nat.mod_lt _ (by omega)
  have hpos : length / n ≠ 0 := by
    have := Nat.div_pos hl (by omega : 0 < n); omega
  have hsum : length = length % n * (length / n + 1) + (n - length % n) * (length / n) := by
    have h1 : length % n * (length / n + 1) + (n - length % n) * (length / n) = (length % n + (n - length % n)) * (length / n) + length % n := by
      rw [Nat.mul_add, Nat.add_mul]; omega
    rw [h1, show length % n + (n - length % n) = n by omega]
    exact (Nat.div_add_mod length n).symm
  unfold partitionIndices
  rw [if_neg hn]
  have e1 := stepBy_steps 0 (length / n + 1) (length % n) (Nat.succ_ne_zero _)
  have e2 := stepBy_steps (length % n * (length / n + 1)) (length / n) (n - length % n) hpos
  rw [← hsum] at e2
  rw [Nat.zero_add] at e1
  simp only [e1, e2, Res.ok_bind, List.map_map]
  rfl

/-- **C40 (partitions).** `n ≤ length` parts: exactly `n` ranges, one after the other from 0 to `length`, the first `length % n` of size `length / n + 1`
and the others of size `length / n` (so sizes differ by at most one). -/
theorem C40_partition (length n : Nat) (hn : 0 < n) (hl : n ≤ length) :
    ∃ ps, partitionIndices length n = .ok ps ∧ ps.length = n ∧ Covers 0 length ps ∧
      ∀ (i : Nat) (p : Nat × Nat), ps[i]? = some p → p.2 - p.1 = if i < length % n then length / n + 1 else length / n := by
  have hmod : length % n < n := Nat.mod_lt _ hn
  refine ⟨_, partition_eq length n (by omega) hl, by simp; omega, ?_, ?_⟩
  · have hsum : length = length % n * (length / n + 1) + (n - length % n) * (length / n) := by
      have h1 : length % n * (length / n + 1) + (n - length % n) * (length / n) = (length % n + (n - length % n)) * (length / n) + length % n := by
        rw [Nat.mul_add, Nat.add_mul]; omega
      rw [h1, show length % n + (n - length % n) = n by omega]
      exact (Nat.div_add_mod length n).symm
    have c1 := covers_steps 0 (length / n + 1) (length % n)
    have c2 := covers_steps (length % n * (length / n + 1)) (length / n) (n - length % n)
    rw [← hsum] at c2
    rw [Nat.zero_add] at c1
    exact c1.append c2
  · intro i p hp
    by_cases hi : i < length % n
    · rw [if_pos hi, List.getElem?_append_left (by simpa using hi)] at *
      simp only [List.getElem?_map, List.getElem?_range hi, Option.map_some, Option.some.injEq] at hp
      subst hp; simp
    · rw [if_neg hi]
      rw [List.getElem?_append_right (by simpa using hi), List.length_map, List.length_range, List.getElem?_map] at hp
      cases hr : (List.range (n - length % n))[i - length % n]? with
      | none => rw [hr] at hp; simp at hp
      | some k => rw [hr] at hp; simp at hp; subst hp; simp

/-- Sizes differ by at most one. -/
theorem C40_partition_even (length n : Nat) (hn : 0 < n) (hl : n ≤ length) (ps : List (Nat × Nat)) (h : partitionIndices length n = .ok ps)
    (p q : Nat × Nat) (hp : p ∈ ps) (hq : q ∈ ps) : p.2 - p.1 ≤ (q.2 - q.1) + 1 := by
  obtain ⟨ps', h1, _, _, h2⟩ := C40_partition length n hn hl
  rw [h] at h1
  obtain rfl : ps = ps' := by simpa using h1
  obtain ⟨i, hi⟩ := List.mem_iff_getElem?.mp hp
  obtain ⟨j, hj⟩ := List.mem_iff_getElem?.mp hq
  have e1 := h2 i p hi
  have e2 := h2 j q hj
  split at e1 <;> split at e2 <;> omega

/-- Fewer rows than parts, or no parts at all, is a crash. -/
theorem C40_partition_crashes (length n : Nat) (h : length < n ∨ n = 0) : partitionIndices length n = .panic := by
  unfold partitionIndices
  by_cases hn : n = 0
  · rw [if_pos hn]
  · rw [if_neg hn]
    have hlt : length < n := by rcases h with h | h; exact h; exact absurd h hn
    have h0 : length / n = 0 := Nat.div_eq_of_lt hlt
    have e1 := stepBy_steps 0 (length / n + 1) (length % n) (by omega)
    rw [Nat.zero_add] at e1
    simp only [e1, Res.ok_bind]
    simp [h0, stepBy]

example : partitionIndices 25 4 = .ok [(0, 7), (7, 13), (13, 19), (19, 25)] := by decide +kernel

/-! ## Samples -/

/-- In-bounds slices of one size that start after the end of the one before. -/
def Ascending (a b size : Nat) : List (Nat × Nat) → Prop
  | [] => a ≤ b
  | (s, e) :: rest => a ≤ s ∧ e = s + size ∧ Ascending e b size rest

theorem Ascending.weaken {a a' b size : Nat} {l : List (Nat × Nat)} (h : Ascending a b size l) (ha : a' ≤ a) : Ascending a' b size l := by
  cases l with
  | nil => exact Nat.le_trans ha h
  | cons p l => obtain ⟨s, e⟩ := p; exact ⟨Nat.le_trans ha h.1, h.2⟩

theorem pickSlices_ok (pick : Nat → Nat → Nat → Nat) (hpick : ∀ i lo hi, lo ≤ hi → lo ≤ pick i lo hi ∧ pick i lo hi ≤ hi) (size b : Nat) :
    ∀ (ps : List (Nat × Nat)) (i a : Nat), Covers a b ps → (∀ p ∈ ps, size ≤ p.2 - p.1) →
      ∃ out, pickSlices pick i (ps.map fun p => (p, size)) = .ok out ∧ out.length = ps.length ∧ Ascending a b size out
  | [], _, a, hc, _ => ⟨[], rfl, rfl, by simp only [Covers] at hc; simp only [Ascending]; omega⟩
  | (s, e) :: ps, i, a, hc, hsz => by
    obtain ⟨rfl, hle, hc⟩ := hc
    obtain ⟨out, o1, o2, o3⟩ := pickSlices_ok pick hpick size b ps (i + 1) e hc (fun p hp => hsz p (by simp [hp]))
    have hs : size ≤ e - s := hsz (s, e) (by simp)
    have hsub : Res.sub e s = .ok (e - s) := Res.sub_of_le hle
    have hsub2 : Res.sub e size = .ok (e - size) := Res.sub_of_le (by omega)
    have hp := hpick i s (e - size) (by omega)
    refine ⟨(pick i s (e - size), pick i s (e - size) + size) :: out, ?_, by simp [o2], hp.1, rfl, o3.weaken (by omega)⟩
    have h1 : decide (e - s ≥ size) = true := by simpa using hs
    have h2 : decide (s ≤ e - size) = true := by simp; omega
    simp only [List.map_cons, pickSlices, hsub, hsub2, Res.assert, h1, h2, if_true, Res.ok_bind, o1]

theorem sizes_replicate {ps : List (Nat × Nat)} {a b k : Nat} (hc : Covers a b ps) (h : ∀ p ∈ ps, p.2 - p.1 = k) :
    sizes ps = .ok (List.replicate ps.length k) := by
  induction ps generalizing a with
  | nil => rfl
  | cons p ps ih =>
    obtain ⟨s, e⟩ := p
    obtain ⟨rfl, hle, hc⟩ := hc
    have := ih hc (fun p hp => h p (by simp [hp]))
    have hk : e - s = k := h (s, e) (by simp)
    simp only [sizes, Res.mapM_cons, Res.sub_of_le hle, Res.ok_bind] at this ⊢
    rw [this]
    simp [List.replicate_succ, hk]

/-- **C40 (samples).** With at least one sample of at least one row, and a total that fits 16 bits and is below the number of rows: exactly `sampleCount` slices of
exactly `sampleSize` rows (so `sampleSize * sampleCount` rows in total), in bounds, ascending and disjoint — whatever the random generator answers. The internal
assertion never fires. Missing from the full property: totals of 65536 rows and more (`C40_samples_overflow`) and zero counts or sizes (`C40_samples_zero`). -/
theorem C40_samples_partial (checks : Bool) (length size count : Nat) (pick : Nat → Nat → Nat → Nat)
    (hpick : ∀ i lo hi, lo ≤ hi → lo ≤ pick i lo hi ∧ pick i lo hi ≤ hi) (hc : 0 < count) (hs : 0 < size) (h16 : count * size < 2 ^ 16)
    (hlt : count * size < length) :
    ∃ out, stratifiedSlices checks length size count pick = .ok out ∧ out.length = count ∧ Ascending 0 length size out := by
  have hcs : count ≤ count * size := Nat.le_mul_of_pos_right _ hs
  obtain ⟨ps, p1, p2, p3, p4⟩ := C40_partition length count hc (by omega)
  obtain ⟨ss, s1, s2, s3, s4⟩ := C40_partition (count * size) count hc hcs
  have hdiv : count * size / count = size := Nat.mul_div_cancel_left _ hc
  have hmod : count * size % count = 0 := Nat.mul_mod_right _ _
  have hss : sizes ss = .ok (List.replicate ss.length size) := sizes_replicate s3 (by
    intro p hp
    obtain ⟨i, hi⟩ := List.mem_iff_getElem?.mp hp
    have := s4 i p hi
    rw [hmod, hdiv, if_neg (by omega)] at this
    exact this)
  have hle : size ≤ length / count := by
    rw [Nat.le_div_iff_mul_le hc, Nat.mul_comm]; omega
  obtain ⟨out, o1, o2, o3⟩ := pickSlices_ok pick hpick size length ps 0 0 p3 (by
    intro p hp
    obtain ⟨i, hi⟩ := List.mem_iff_getElem?.mp hp
    have := p4 i p hi
    split at this <;> omega)
  refine ⟨out, ?_, by omega, o3⟩
  have hmul : mulU16 checks count size = .ok (count * size) := by
    unfold mulU16
    rw [if_neg (by simp; omega), Nat.mod_eq_of_lt h16]
  have hzip : ps.zip (List.replicate ss.length size) = ps.map fun p => (p, size) := by
    rw [s2, ← p2]
    clear o1 o2 o3 p1 p2 p3 p4
    induction ps with
    | nil => rfl
    | cons p ps ih => simp only [List.length_cons, List.replicate_succ, List.zip_cons_cons, ih, List.map_cons]
  simp only [stratifiedSlices, hmul, Res.ok_bind]
  rw [if_neg (by omega)]
  simp only [p1, s1, hss, Res.ok_bind, hzip, o1]

/-- Few enough rows: the whole array is the sample. -/
theorem C40_samples_whole (checks : Bool) (length size count : Nat) (pick : Nat → Nat → Nat → Nat) (h16 : count * size < 2 ^ 16)
    (hle : length ≤ count * size) : stratifiedSlices checks length size count pick = .ok [(0, length)] := by
  have hmul : mulU16 checks count size = .ok (count * size) := by
    unfold mulU16
    rw [if_neg (by simp; omega), Nat.mod_eq_of_lt h16]
  simp only [stratifiedSlices, hmul, Res.ok_bind]
  rw [if_pos hle]

/-- The product is computed in 16 bits: 64 samples of 1024 rows crash, with overflow checks at the multiplication and without at a zero step. -/
theorem C40_samples_overflow (checks : Bool) (length : Nat) (hl : 65536 < length) (pick : Nat → Nat → Nat → Nat) :
    stratifiedSlices checks length 1024 64 pick = .panic := by
  cases checks with
  | true => rfl
  | false =>
    have hmul : mulU16 false 64 1024 = .ok 0 := by decide
    obtain ⟨ps, p1, _⟩ := C40_partition length 64 (by omega) (by omega)
    simp only [stratifiedSlices, hmul, Res.ok_bind]
    rw [if_neg (by omega)]
    simp only [p1, Res.ok_bind, C40_partition_crashes 0 64 (.inl (by omega))]
    rfl

/-- No samples, or samples of no rows, of a non-empty array: a crash. -/
theorem C40_samples_zero (checks : Bool) (length size count : Nat) (h : count = 0 ∨ size = 0) (hl : 0 < length) (pick : Nat → Nat → Nat → Nat) :
    stratifiedSlices checks length size count pick = .panic := by
  have hz : count * size = 0 := by rcases h with h | h <;> subst h <;> simp
  have hmul : mulU16 checks count size = .ok 0 := by simp [mulU16, hz]
  simp only [stratifiedSlices, hmul, Res.ok_bind]
  rw [if_neg (by omega)]
  by_cases hlc : length < count ∨ count = 0
  · rw [C40_partition_crashes length count hlc]; rfl
  · rw [not_or] at hlc
    obtain ⟨ps, p1, _⟩ := C40_partition length count (by omega) (by omega)
    simp only [p1, Res.ok_bind, C40_partition_crashes 0 count (.inl (by omega))]
    rfl

/-- The default options (16 samples of 64 rows) on 10,000 rows, with a generator that always answers the lowest choice. -/
example : ∃ out, stratifiedSlices true 10000 64 16 (fun _ lo _ => lo) = .ok out ∧ out.length = 16 ∧ Ascending 0 10000 64 out :=
  C40_samples_partial true 10000 64 16 _ (by intro i lo hi h; exact ⟨Nat.le_refl _, h⟩) (by omega) (by omega) (by omega) (by omega)

end Vx.Sampling
