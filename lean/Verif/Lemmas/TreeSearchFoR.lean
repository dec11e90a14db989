import Verif.Lemmas.TreeSearch
import Verif.Props.C08
/-! # Sorted search through a frame-of-reference array -/
namespace Vx.Tree
open Vx.Spec Vx.FoR

variable {env : Env L} {F : FloatOps}

theorem unsigned_bits (p : PType) : (toUnsigned p).bits = p.bits := by cases p <;> rfl

/-- The scalar value of an encoded word. -/
def encCell (p : PType) (c : BitVec p.bits) : SV := .prim ⟨toUnsigned p, BitVec.ofNat _ c.toNat⟩

theorem ofNat_toNat' {p : PType} (c : BitVec p.bits) : (BitVec.ofNat (toUnsigned p).bits c.toNat).toNat = c.toNat := by
  rw [BitVec.toNat_ofNat, unsigned_bits, Nat.mod_eq_of_lt c.isLt]

theorem key_enc {p : PType} (hp : p.isInt = true) (c : BitVec p.bits) :
    PValue.key ⟨toUnsigned p, BitVec.ofNat _ c.toNat⟩ = intKey false c := by
  have h := ofNat_toNat' c
  have h1 : (toUnsigned p).isFloat = false := by cases p <;> first | rfl | cases hp
  have h2 : (toUnsigned p).isSigned = false := by cases p <;> first | rfl | cases hp
  simp only [PValue.key, h1, PValue.toInt, h2, intKey, Bool.false_eq_true, if_false, h]

theorem key_dec {p : PType} (hp : p.isInt = true) (x : BitVec p.bits) : PValue.key ⟨p, x⟩ = intKey p.isSigned x := by
  have h1 : p.isFloat = false := by cases p <;> first | rfl | cases hp
  simp only [PValue.key, h1, PValue.toInt, intKey, Bool.false_eq_true, if_false]

/-- Over values of one type with nulls last, the promise in terms of scalars is the promise in terms of their keys. -/
theorem searchRows_prims (p : PType) (xs : List PValue) (hx : ∀ x ∈ xs, x.pt = p) (k : Nat) (q : PValue) (hq : q.pt = p) (side : Vx.Side) :
    searchRows (xs.map SV.prim ++ List.replicate k SV.null) (.prim q) side = Spec.searchSorted (xs.map PValue.key) q.key side := by
  have hc : ∀ x ∈ xs, SV.cmp (.prim x) (.prim q) = some (compare x.key q.key) := by
    intro x h; simp [SV.cmp, PValue.partialCmp, hx x h, hq]
  have ha : (xs.map SV.prim ++ List.replicate k SV.null).any (fun x => SV.cmp x (.prim q) == some Ordering.eq) = decide (q.key ∈ xs.map PValue.key) := by
    rw [Bool.eq_iff_iff, decide_eq_true_eq, List.any_append, Bool.or_eq_true, List.any_eq_true, List.any_eq_true, List.mem_map]
    constructor
    · rintro (⟨y, hy, he⟩ | ⟨y, hy, he⟩)
      · obtain ⟨x, hx', rfl⟩ := List.mem_map.mp hy
        rw [hc x hx'] at he
        exact ⟨x, hx', by simpa using he⟩
      · rw [List.eq_of_mem_replicate hy, cmp_null rfl] at he
        simp at he
    · rintro ⟨x, hx', he⟩
      exact Or.inl ⟨.prim x, List.mem_map.mpr ⟨x, hx', rfl⟩, by rw [hc x hx', he]; simp⟩
  have hb : (xs.map SV.prim ++ List.replicate k SV.null).countP (rowBefore (.prim q) side) = insertionPoint (xs.map PValue.key) q.key side := by
    rw [List.countP_append, countP_replicate']
    have h0 : rowBefore (.prim q) side .null = false := by simp [rowBefore, cmp_null (v := .prim q) rfl]
    rw [h0]
    simp only [Bool.false_eq_true, if_false, Nat.add_zero]
    cases side
    · simp only [insertionPoint, List.countP_map]
      apply List.countP_congr
      intro x h
      simp only [Function.comp, rowBefore, hc x h, decide_eq_true_eq]
      rcases hcmp : compare x.key q.key with _ | _ | _
      · rw [compare_lt_iff_lt] at hcmp; simpa using hcmp
      · rw [compare_eq_iff_eq] at hcmp; simp [hcmp]
      · rw [compare_gt_iff_gt] at hcmp; simp; omega
    · simp only [insertionPoint, List.countP_map]
      apply List.countP_congr
      intro x h
      simp only [Function.comp, rowBefore, hc x h, decide_eq_true_eq]
      rcases hcmp : compare x.key q.key with _ | _ | _
      · rw [compare_lt_iff_lt] at hcmp; simp; omega
      · rw [compare_eq_iff_eq] at hcmp; simp [hcmp]
      · rw [compare_gt_iff_gt] at hcmp; simp; omega
  unfold searchRows Spec.searchSorted
  rw [ha, hb]
  by_cases h : q.key ∈ xs.map PValue.key <;> simp [h]

theorem sorted_prims (p : PType) (xs : List PValue) (hx : ∀ x ∈ xs, x.pt = p) (k : Nat) :
    SortedRows (xs.map SV.prim ++ List.replicate k SV.null) ↔ (xs.map PValue.key).Pairwise (· ≤ ·) := by
  unfold SortedRows
  rw [List.pairwise_append, List.pairwise_map, List.pairwise_map]
  have hc : ∀ x ∈ xs, ∀ y ∈ xs, (SV.cmp (.prim x) (.prim y) = some .lt ∨ SV.cmp (.prim x) (.prim y) = some .eq) ↔ x.key ≤ y.key := by
    intro x h y h'
    simp only [SV.cmp, PValue.partialCmp, hx x h, hx y h', if_true, Option.some.injEq, compare_lt_iff_lt, compare_eq_iff_eq]
    omega
  constructor
  · intro h
    exact List.Pairwise.imp_of_mem (fun ha hb h => (hc _ ha _ hb).mp h) h.1
  · intro h
    refine ⟨List.Pairwise.imp_of_mem (fun ha hb h => (hc _ ha _ hb).mpr h) h, ?_, ?_⟩
    · rw [List.pairwise_replicate]
      right; right; rfl
    · intro a ha b hb
      obtain ⟨x, _, rfl⟩ := List.mem_map.mp ha
      rw [List.eq_of_mem_replicate hb]
      left; rfl

/-- The plain unsigned array with these words and `k` nulls behind them. -/
def plainEnc (es : List (BitVec w)) (k : Nat) : PArr (BitVec w) :=
  ⟨es ++ List.replicate k 0#w, .array (List.replicate es.length true ++ List.replicate k false)⟩

theorem plainEnc_WF (es : List (BitVec w)) (k : Nat) : (plainEnc es k).WF := by
  simp [plainEnc, PArr.WF, FitsLen, Spec.mask]

theorem zip_all_true (es : List (BitVec w)) : List.zipWith (fun x b => if b then some x else none) es (List.replicate es.length true) = es.map some := by
  induction es with
  | nil => rfl
  | cons e es ih => simp [List.replicate_succ, ih]

theorem plainEnc_rows (es : List (BitVec w)) (k : Nat) : (plainEnc es k).rows = es.map some ++ List.replicate k none := by
  simp only [plainEnc, PArr.rows, Spec.mask, Spec.rows]
  rw [List.zipWith_append (by simp), zip_all_true]
  simp [List.zipWith_replicate]

/-- A well-written child: words for values in ascending order, then nulls. -/
theorem child_shape {p : PType} {r : BitVec p.bits} {s : Nat} (hs : s < p.bits) :
    ∀ (encRows : List SV), (∀ row ∈ encRows, ForWritten p r s row) → SortedRows (encRows.map (decRow env (.for p r s))) →
      ∃ (xs : List (BitVec p.bits)) (k : Nat), encRows = (xs.map (fun x => encCell p (compressVal p.isSigned r s x))) ++ List.replicate k SV.null ∧
        ∀ x ∈ xs, intKey p.isSigned r ≤ intKey p.isSigned x ∧ 2 ^ s ∣ (x - r).toNat := by
  intro encRows
  induction encRows with
  | nil => intro _ _; exact ⟨[], 0, rfl, nofun⟩
  | cons e es ih =>
    intro hw hsort
    simp only [SortedRows, List.map_cons, List.pairwise_cons] at hsort
    obtain ⟨xs, k, h1, h2⟩ := ih (fun row h => hw row (List.mem_cons_of_mem _ h)) hsort.2
    rcases hw e (List.mem_cons_self) with rfl | ⟨x, hx1, hx2, rfl⟩
    · have hall : ∀ y ∈ es, y = .null := by
        intro y hy
        have := hsort.1 _ (List.mem_map.mpr ⟨y, hy, rfl⟩)
        rcases hw y (List.mem_cons_of_mem _ hy) with h | ⟨x, _, _, rfl⟩
        · exact h
        · simp only [decRow] at this
          rw [cmp_null rfl] at this
          simp at this
      refine ⟨[], es.length + 1, ?_, nofun⟩
      simp only [List.map_nil, List.nil_append, List.replicate_succ]
      congr 1
      exact List.eq_replicate_iff.mpr ⟨rfl, hall⟩
    · refine ⟨x :: xs, k, by rw [h1]; rfl, ?_⟩
      intro y hy
      rcases List.mem_cons.mp hy with rfl | hy
      · exact ⟨hx1, hx2⟩
      · exact h2 y hy

theorem enc_sorted {w : Nat} {signed : Bool} {xs : List (BitVec w)} {r : BitVec w} {s : Nat} (hpre : ForPre signed xs r s)
    (hsorted : (xs.map (intKey signed)).Pairwise (· ≤ ·)) :
    ((xs.map (compressVal signed r s)).map (intKey false)).Pairwise (· ≤ ·) := by
  have hs := hpre.shift_lt
  have hcv : ∀ x : BitVec w, compressVal signed r s x = shr signed (x - r) s := by
    intro x
    unfold compressVal
    by_cases h0 : 0 < s
    · simp [h0]
    · have : s = 0 := by omega
      subst this
      cases signed <;> simp [shr]
  rw [List.pairwise_map] at hsorted
  rw [List.pairwise_map, List.pairwise_map]
  refine List.Pairwise.imp_of_mem ?_ hsorted
  intro a b ha hb hab
  simp only [intKey, hcv, Bool.false_eq_true, if_false]
  have h1 := shr_lt_iff hs signed (b - r) (a - r)
  have h2 := sub_toNat_key signed a r (hpre.lower a ha)
  have h3 := sub_toNat_key signed b r (hpre.lower b hb)
  have h4 : (a - r).toNat / 2 ^ s ≤ (b - r).toNat / 2 ^ s := Nat.div_le_div_right (by omega)
  omega

theorem dec_cell {p : PType} {r : BitVec p.bits} {s : Nat} (hs : s < p.bits) (x : BitVec p.bits) (hx : 2 ^ s ∣ (x - r).toNat) :
    decRow env (.for p r s) (encCell p (compressVal p.isSigned r s x)) = .prim ⟨p, x⟩ := by
  have hcv : compressVal p.isSigned r s x = shr p.isSigned (x - r) s := by
    unfold compressVal
    by_cases h0 : 0 < s
    · simp [h0]
    · have : s = 0 := by omega
      subst this
      cases p.isSigned <;> simp [shr]
  simp only [encCell, decRow, Codec.dec]
  rw [ofNat_toNat' (p := p), BitVec.ofNat_toNat, BitVec.setWidth_eq, hcv, (representable_iff (Nat.le_of_lt hs) p.isSigned x r).mpr hx]

theorem search_for {p : PType} {r : BitVec p.bits} {s : Nat} (hp : p.isInt = true) (hs : s < p.bits) {encRows : List SV}
    (hw : ∀ row ∈ encRows, ForWritten p r s row) (hsort : SortedRows (encRows.map (decRow env (.for p r s)))) (q : BitVec p.bits)
    (hq : p.isSigned = true → intKey true q - intKey true r ≤ 2 ^ p.bits - 2 ^ s) (n : Bool) (child : Scalar → Vx.Side → Res SearchResult)
    (t : Scalar) (ht : probeOf F p (.prim p n) t = .ok ⟨p, q⟩) (hchild : SortedRows encRows → ∀ nb (c : BitVec p.bits) sd,
      child ⟨.prim (toUnsigned p) nb, encCell p c⟩ sd = .ok (searchRows encRows (encCell p c) sd)) (side : Vx.Side) :
    searchFoR F p r s (.prim p n) child t side =
      .ok (searchRows (encRows.map (decRow env (.for p r s))) (.prim ⟨p, q⟩) side) := by
  obtain ⟨xs, k, hrows, hxs⟩ := child_shape (env := env) hs encRows hw hsort
  have hpre : ForPre p.isSigned xs r s := ⟨hs, fun x h => (hxs x h).1, fun x h => (hxs x h).2⟩
  -- the decoded rows
  have hdec : encRows.map (decRow env (.for p r s)) = (xs.map (PValue.mk p)).map SV.prim ++ List.replicate k SV.null := by
    rw [hrows, List.map_append, List.map_map, List.map_map]
    congr 1
    · apply List.map_congr_left
      intro x hx
      exact dec_cell hs x (hxs x hx).2
    · simp [decRow]
  have hpt : ∀ x ∈ xs.map (PValue.mk p), x.pt = p := by
    intro x hx; obtain ⟨y, _, rfl⟩ := List.mem_map.mp hx; rfl
  have hkeys : (xs.map (PValue.mk p)).map PValue.key = xs.map (intKey p.isSigned) := by
    rw [List.map_map]; apply List.map_congr_left; intro x _; exact key_dec hp x
  have hsorted : (xs.map (intKey p.isSigned)).Pairwise (· ≤ ·) := by
    rw [hdec] at hsort
    have := (sorted_prims p _ hpt k).mp hsort
    rwa [hkeys] at this
  -- the encoded rows
  let es : List (BitVec p.bits) := xs.map (compressVal p.isSigned r s)
  let ev : List PValue := es.map (fun c => ⟨toUnsigned p, BitVec.ofNat _ c.toNat⟩)
  have henc : encRows = ev.map SV.prim ++ List.replicate k SV.null := by
    rw [hrows]; simp only [ev, es, List.map_map]; rfl
  have hept : ∀ x ∈ ev, x.pt = toUnsigned p := by
    intro x hx; obtain ⟨y, _, rfl⟩ := List.mem_map.mp hx; rfl
  have hekeys : ev.map PValue.key = es.map (intKey false) := by
    simp only [ev, List.map_map]; apply List.map_congr_left; intro x _; exact key_enc hp x
  have hes := enc_sorted hpre hsorted
  have hesort : SortedRows encRows := by
    rw [henc]
    exact (sorted_prims _ _ hept k).mpr (by rw [hekeys]; exact hes)
  have hc : ∀ nb (c : BitVec p.bits) sd, child ⟨.prim (toUnsigned p) nb, encCell p c⟩ sd = primSearch (intKey false) (plainEnc es k) c sd := by
    intro nb c sd
    rw [hchild hesort nb c sd, primSearch_spec (intKey false) (plainEnc es k) (plainEnc_WF es k) es k (plainEnc_rows es k) hes]
    have h1 := searchRows_prims (toUnsigned p) ev hept k ⟨toUnsigned p, BitVec.ofNat _ c.toNat⟩ rfl sd
    rw [hekeys, key_enc hp c] at h1
    rw [henc]
    exact congrArg Res.ok h1
  have hmain := C02_for_search_partial p.isSigned (plainEnc es k) (plainEnc_WF es k) xs k r s hpre (plainEnc_rows es k) hsorted q side
    (fun h => by rw [h]; exact hq h)
  rw [hdec, searchRows_prims p _ hpt k ⟨p, q⟩ rfl, hkeys, key_dec hp q, ← hmain]
  unfold searchFoR FoR.searchSorted
  rw [ht]
  simp only [Res.ok_bind, BitVec.ofNat_toNat, BitVec.setWidth_eq]
  have hc' := hc t.dtype.isNullable
  simp only [encCell, BitVec.ofNat_toNat] at hc'
  simp only [hc']
  rfl

end Vx.Tree
