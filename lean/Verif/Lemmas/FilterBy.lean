import Verif.Spec.FilterBy
import Verif.Props.C23
import Verif.Lemmas.VarBin
/-! # What the kernels learn from a predicate -/
namespace Vx.Tree
namespace Pred

mutual
theorem len_rows : ∀ (p : Pred), WF p → p.len = (rows p).length
  | .plain p, h => by
    have h : p.off + p.len ≤ p.raw.length := h
    simp only [len, rows, BoolPred.bits, List.length_take, List.length_drop]; omega
  | .const b n, _ => by simp [len, rows]
  | .sparse s, _ => by simp [len, rows, Sparse.rows_length]
  | .runEnd r, h => by simp [len, rows, RunEndBool.window_length h.1]
  | .byte b, _ => by simp [len, rows]
  | .roaring r, _ => by simp [len, rows]
  | .chunked cs, h => by simp only [len, rows]; exact lens_rows cs h
theorem lens_rows : ∀ (cs : List Pred), WFs cs → lens cs = (rowss cs).length
  | [], _ => rfl
  | c :: cs, h => by simp only [lens, rowss, List.length_append, len_rows c h.1, lens_rows cs h.2]
end

/-- The canonical form of a sparse predicate: the values are the rows; the validity marks the listed positions. -/
theorem sparse_canon {s : Sparse Bool} (hw : s.WF) (hv : s.values.validity = .nonNullable) (hf : s.fill.isSome = true) :
    ∃ c, s.canonicalBool = .ok c ∧ c.vals = s.rows.map (fun r => r.getD false) ∧
      ((s.fill = some false) → arrowMask c = s.rows.map (fun r => r.getD false)) := by
  have hpv : s.PatchesValid := by
    intro r hr
    rw [PArr.rows, hv, Spec.mask] at hr
    obtain ⟨i, hi, rfl⟩ := List.mem_iff_getElem.mp hr
    simp [Spec.rows]
  obtain ⟨v, b, h1, h2, h3, h4⟩ := Sparse.canonical_core hw hpv (s.fill.getD false)
  have hvals : v = s.rows.map (fun r => r.getD false) := by
    apply List.ext_getElem?
    intro j
    by_cases hj : j < s.len
    · have := h4 j hj
      by_cases hm : s.offset + j ∈ s.indices
      · rw [if_pos hm] at this
        obtain ⟨_, x, g2, g3⟩ := this
        rw [g2, List.getElem?_map, g3]; rfl
      · rw [if_neg hm] at this
        rw [this.2.1, List.getElem?_map, this.2.2]; rfl
    · rw [List.getElem?_eq_none (by omega), List.getElem?_eq_none (by rw [List.length_map, Sparse.rows_length]; omega)]
  refine ⟨⟨v, Validity.ofBooleanBuffer b⟩, by simp only [Sparse.canonicalBool, Sparse.resolved hw, Res.ok_bind, h1], hvals, fun hfalse => ?_⟩
  have hb : ((Validity.ofBooleanBuffer b).toLogical v.length).intoBools = b := by
    rw [h2, ← h3]
    rw [(C23_to_logical _ _ (by simp [Spec.FitsLen, Vx.mask_ofBooleanBuffer])).1, Vx.mask_ofBooleanBuffer]
  rw [← hvals]
  unfold arrowMask
  simp only [hb]
  apply List.ext_getElem?
  intro j
  rw [List.getElem?_zipWith]
  by_cases hj : j < s.len
  · have := h4 j hj
    by_cases hm : s.offset + j ∈ s.indices
    · rw [if_pos hm] at this
      obtain ⟨g1, x, g2, _⟩ := this
      rw [g1, g2]; simp
    · rw [if_neg hm] at this
      rw [this.1, this.2.1, hfalse]; simp
  · rw [List.getElem?_eq_none (l := v) (by omega)]

mutual
/-- Decoding a predicate gives its rows. -/
theorem canon_vals : ∀ (p : Pred), WF p → ∃ c, p.canon = .ok c ∧ c.vals = rows p
  | .plain p, _ => ⟨_, rfl, rfl⟩
  | .const b n, _ => ⟨_, rfl, rfl⟩
  | .sparse s, h => by
    obtain ⟨c, h1, h2, _⟩ := sparse_canon h.1 h.2.1 h.2.2
    exact ⟨c, h1, h2⟩
  | .runEnd r, h => ⟨_, (RunEndBool.C16_canonical r h.1).1, rfl⟩
  | .byte b, h => by
    refine ⟨⟨ByteBool.bools b, b.validity⟩, ?_, rfl⟩
    simp [canon, ByteBool.intoCanonical, Compare.checkLen_of_fits h.1.fits]
  | .roaring r, h => ⟨_, Roaring.canonical_eq h.sorted, rfl⟩
  | .chunked cs, h => by
    obtain ⟨bs, h1, h2⟩ := canons_vals cs h
    exact ⟨⟨bs, .nonNullable⟩, by simp [canon, h1], by simpa [rows] using h2⟩
theorem canons_vals : ∀ (cs : List Pred), WFs cs → ∃ bs, canons cs = .ok bs ∧ bs = rowss cs
  | [], _ => ⟨[], rfl, rfl⟩
  | c :: cs, h => by
    obtain ⟨b, h1, h2⟩ := canon_vals c h.1
    obtain ⟨bs, h3, h4⟩ := canons_vals cs h.2
    exact ⟨b.vals ++ bs, by simp [canons, h1, h3], by simp [rowss, h2, h4]⟩
end

theorem mask_nonNull (bs : List Bool) : arrowMask ⟨bs, .nonNullable⟩ = bs := by
  simp only [arrowMask, Validity.toLogical, LogicalValidity.intoBools]
  apply List.ext_getElem?
  intro j
  rw [List.getElem?_zipWith]
  by_cases hj : j < bs.length
  · simp [hj]
  · rw [List.getElem?_eq_none (l := bs) (i := j) (by omega)]

/-- Arrow sees the rows of an exact predicate. -/
theorem canon_mask {p : Pred} (hw : WF p) (he : Exact p) : ∃ c, p.canon = .ok c ∧ c.vals = rows p ∧ arrowMask c = rows p := by
  obtain ⟨c, h1, h2⟩ := canon_vals p hw
  refine ⟨c, h1, h2, ?_⟩
  rw [← h2]
  obtain ⟨vals, v⟩ := c
  cases p with
  | sparse s =>
    obtain ⟨c', g1, g2, g3⟩ := sparse_canon hw.1 hw.2.1 hw.2.2
    have h1 : s.canonicalBool = .ok ⟨vals, v⟩ := h1
    rw [g1] at h1
    injection h1 with h1
    subst h1
    rw [g3 he.1]; exact h2.symm
  | plain q => injection h1 with h1; injection h1 with _ h1; subst h1; exact mask_nonNull _
  | const b n => injection h1 with h1; injection h1 with _ h1; subst h1; exact mask_nonNull _
  | runEnd r =>
    have h1 : r.canonical = .ok ⟨vals, v⟩ := h1
    rw [(RunEndBool.C16_canonical r hw.1).1] at h1
    injection h1 with h1; injection h1 with _ h1; subst h1; rw [hw.2]; exact mask_nonNull _
  | byte b =>
    have h1 : ByteBool.intoCanonical b = .ok ⟨vals, v⟩ := h1
    rw [ByteBool.intoCanonical, Compare.checkLen_of_fits hw.1.fits] at h1
    injection h1 with h1; injection h1 with _ h1; subst h1; rw [hw.2]; exact mask_nonNull _
  | roaring r =>
    have h1 : Roaring.bIntoCanonical r = .ok ⟨vals, v⟩ := h1
    rw [Roaring.canonical_eq (show Roaring.BWF r from hw).sorted] at h1
    injection h1 with h1; injection h1 with _ h1; subst h1; exact mask_nonNull _
  | chunked cs =>
    obtain ⟨bs, g1, _⟩ := canons_vals cs hw
    have h1 : (canons cs >>= fun bs => Res.ok (⟨bs, .nonNullable⟩ : PArr Bool)) = .ok ⟨vals, v⟩ := h1
    rw [g1] at h1
    injection h1 with h1; injection h1 with _ h1; subst h1; exact mask_nonNull _

mutual
/-- A count that is there is right. -/
theorem stat_eq {known : Known} (hk : Honest known) : ∀ (p : Pred) (n : Nat), WF p → stat known p = some n → n = (rows p).count true
  | p, n, hw, h => by
    cases hkp : known p with
    | some m =>
      have : stat known p = some m := by unfold stat; rw [hkp]
      rw [this] at h; injection h with h; subst h
      exact hk p m hw hkp
    | none =>
      cases p with
      | plain q => simp only [stat, hkp] at h; split at h <;> simp_all [rows]
      | const b m =>
        simp only [stat, hkp, Option.some.injEq] at h
        subst h; cases b <;> simp [rows, List.count_replicate]
      | byte b => simp only [stat, hkp] at h; split at h <;> simp_all [rows, ByteBool.bools]
      | chunked cs =>
        cases cs with
        | nil => simp [stat, hkp] at h
        | cons c cs =>
          simp only [stat, hkp] at h
          obtain ⟨m, h1, h2⟩ := merge_eq hk cs (stat known c) n hw.2 h
          have := stat_eq hk c m hw.1 h1
          simp only [rows, rowss, List.count_append]; omega
      | sparse s => simp [stat, hkp] at h
      | runEnd r => simp [stat, hkp] at h
      | roaring r => simp [stat, hkp] at h
theorem merge_eq {known : Known} (hk : Honest known) : ∀ (cs : List Pred) (acc : Option Nat) (n : Nat), WFs cs → statMerge known acc cs = some n →
    ∃ m, acc = some m ∧ n = m + (rowss cs).count true
  | [], acc, n, _, h => ⟨n, h, by simp [rowss]⟩
  | c :: cs, acc, n, hw, h => by
    simp only [statMerge] at h
    obtain ⟨m, h1, h2⟩ := merge_eq hk cs _ n hw.2 h
    cases acc with
    | none => simp [mergeCount] at h1
    | some a =>
      cases hc : stat known c with
      | none => simp [mergeCount, hc] at h1
      | some x =>
        have := stat_eq hk c x hw.1 hc
        simp only [mergeCount, hc, Option.some.injEq] at h1
        refine ⟨a, rfl, ?_⟩
        simp only [rowss, List.count_append]; omega
end

theorem ascending_ext {xs ys : List Nat} (hx : xs.Pairwise (· < ·)) (hy : ys.Pairwise (· < ·)) (h : ∀ x, x ∈ xs ↔ x ∈ ys) : xs = ys :=
  ((List.perm_ext_iff_of_nodup (hx.imp (fun h => Nat.ne_of_lt h)) (hy.imp (fun h => Nat.ne_of_lt h))).2 h).eq_of_pairwise
    (fun _ _ _ _ h1 h2 => absurd h1 (Nat.lt_asymm h2)) hx hy

theorem indicesFrom_eq (bs : List Bool) (k : Nat) : BoolPred.indicesFrom k bs = (Roaring.setIdx bs).map (· + k) := by
  induction bs generalizing k with
  | nil => rfl
  | cons b bs ih =>
    have hs : Roaring.setIdx (b :: bs) = (if b then [0] else []) ++ (Roaring.setIdx bs).map (· + 1) := by
      simp only [Roaring.setIdx, List.length_cons, List.range_succ_eq_map, List.filter_cons, List.filter_map]
      cases b <;> simp [Function.comp_def]
    rw [hs]
    cases b <;> simp [BoolPred.indicesFrom, ih, Nat.add_comm, Nat.add_left_comm]

theorem slicesFrom_eq (bs : List Bool) (k : Nat) (run : Option Nat) : BoolPred.slicesFrom k run bs = RunEndBool.setSlices k run bs := by
  induction bs generalizing k run with
  | nil => rfl
  | cons b bs ih => cases b <;> cases run <;> simp [BoolPred.slicesFrom, RunEndBool.setSlices, ih]

theorem setSlices_trues (n k s : Nat) : RunEndBool.setSlices k (some s) (List.replicate n true) = [(s, k + n)] := by
  induction n generalizing k with
  | zero => rfl
  | succ n ih => simp only [List.replicate_succ, RunEndBool.setSlices, Option.getD_some, ih]; congr 2; omega

/-- The positions an exact predicate iterates over are those of its true rows. -/
theorem indices_eq {p : Pred} (hw : WF p) (he : Exact p) {is : List Nat} (h : p.indices = .ok is) : is = Chunked.setIndices (rows p) := by
  change is = Roaring.setIdx (rows p)
  cases p with
  | plain q =>
    injection h with h
    subst h
    have he : q.iterBits = q.bits := he
    simp [BoolPred.indices, indicesFrom_eq, he, rows]
  | const b n =>
    injection h with h
    subst h
    cases b with
    | true =>
      refine ascending_ext List.pairwise_lt_range (Roaring.setIdx_sorted _) (fun x => ?_)
      rw [Roaring.mem_setIdx]
      simp only [rows, List.length_replicate, if_true, List.mem_range]
      exact ⟨fun h => ⟨h, by simp [h]⟩, fun h => h.1⟩
    | false =>
      refine ascending_ext List.Pairwise.nil (Roaring.setIdx_sorted _) (fun x => ?_)
      rw [Roaring.mem_setIdx]
      simp only [rows, List.getElem?_replicate]
      constructor
      · intro h; exact absurd h (by simp)
      · rintro ⟨_, h⟩; split at h <;> simp at h
  | sparse s =>
    have h : s.resolvedIndices = .ok is := h
    rw [Sparse.resolved hw.1] at h
    injection h with h
    subst h
    have hw1 := hw.1
    refine ascending_ext ?_ (Roaring.setIdx_sorted _) (fun x => ?_)
    · rw [List.pairwise_map]
      refine List.Pairwise.imp_of_mem ?_ hw1.strict
      intro x y hx _ hxy
      have := hw1.lower x hx
      omega
    rw [Roaring.mem_setIdx]
    simp only [rows, List.length_map, Sparse.rows_length, List.getElem?_map, List.mem_map]
    constructor
    · rintro ⟨i, hi, rfl⟩
      have h1 := hw1.lower i hi
      have h2 := hw1.upper i hi
      refine ⟨by omega, ?_⟩
      rw [Sparse.rows_getElem? s _ (by omega), show s.offset + (i - s.offset) = i by omega]
      obtain ⟨k, hk, rfl⟩ := List.mem_iff_getElem.mp hi
      have hkv : k < s.values.vals.length := by have := hw1.lens; rw [PArr.len] at this; omega
      have hr : s.values.rows[k]? = some (some true) := by
        rw [PArr.rows, hw.2.1, Vx.rows_getElem?]
        simp only [Spec.mask, List.getElem?_replicate, hkv, if_true, List.getElem?_eq_getElem hkv]
        have := he.2 _ (List.getElem_mem hkv)
        simp [this]
      rw [patchOr_found hw1.strict s.fill (List.getElem?_eq_getElem hk) hr]
      rfl
    · rintro ⟨hx, h⟩
      rw [Sparse.rows_getElem? s x hx] at h
      by_cases hm : s.offset + x ∈ s.indices
      · exact ⟨_, hm, by omega⟩
      · rw [patchOr_none _ hm, he.1] at h
        simp at h
  | runEnd r => cases h
  | byte b => cases h
  | roaring r => cases h
  | chunked cs => cases h

/-- The runs an exact predicate with a true row iterates over are those of its rows. -/
theorem slices_eq {p : Pred} (he : Exact p) {ss : List (Nat × Nat)} (h : p.slices = .ok ss) (hpos : 0 < (rows p).count true) :
    ss = RunEndBool.setSlices 0 none (rows p) := by
  cases p with
  | plain q =>
    injection h with h
    subst h
    have he : q.iterBits = q.bits := he
    simp [BoolPred.slices, slicesFrom_eq, he, rows]
  | const b n =>
    injection h with h
    subst h
    cases b with
    | false => simp [rows, List.count_replicate] at hpos
    | true =>
      cases n with
      | zero => simp [rows] at hpos
      | succ n =>
        simp only [if_true, rows, List.replicate_succ, RunEndBool.setSlices, Option.getD_none, setSlices_trues]
        congr 2; omega
  | sparse s => cases h
  | runEnd r => cases h
  | byte b => cases h
  | roaring r => cases h
  | chunked cs => cases h

theorem setIdx_length (bs : List Bool) : (Roaring.setIdx bs).length = bs.count true := by
  have : ∀ k, (BoolPred.indicesFrom k bs).length = bs.count true := by
    induction bs with
    | nil => intro k; rfl
    | cons b bs ih => intro k; cases b <;> simp [BoolPred.indicesFrom, ih]
  have := this 0
  rwa [indicesFrom_eq, List.length_map] at this

/-- `true_count` of an exact predicate, when there is an answer. -/
theorem trueCount_eq {known : Known} (hk : Honest known) {p : Pred} (hw : WF p) (he : Exact p) {n : Nat} (h : p.trueCount known = .ok n) :
    n = (rows p).count true := by
  unfold trueCount at h
  cases hs : stat known p with
  | some m => rw [hs] at h; injection h with h; subst h; exact stat_eq hk p m hw hs
  | none =>
    rw [hs] at h
    obtain ⟨is, h1, h2⟩ := Res.bind_eq_ok.mp h
    injection h2 with h2
    subst h2
    rw [indices_eq hw he h1]
    exact setIdx_length _

end Pred
end Vx.Tree
