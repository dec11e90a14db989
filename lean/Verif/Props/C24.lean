import Verif.Spec.Compare
import Verif.Props.C22
import Verif.Props.C23
/-! # C24: comparison and boolean operators -/

namespace Vx
open Spec

/-! ### The operator tables -/

/-- **C24 (meaning).** On a linearly ordered type the kernels' operator is the mathematical one. -/
theorem C24_op_meaning [LinearOrder α] (op : Op) (a b : α) : op.holds (some (compare a b)) = true ↔ opMeans op a b := by
  cases op <;> simp only [Op.holds, opMeans] <;> rcases lt_trichotomy a b with h | h | h
  all_goals first
    | (have h1 := compare_lt_iff_lt.mpr h; have h2 := le_of_lt h; have h3 := not_lt_of_gt h; have h4 := ne_of_lt h; simp [h1, h, h2, h3, h4]; done)
    | (subst h; have h1 : compare a a = .eq := compare_eq_iff_eq.mpr rfl; simp [h1])
    | (have h1 := compare_gt_iff_gt.mpr h; have h2 := le_of_lt h; have h3 := not_lt_of_gt h; have h4 := ne_of_gt h; simp [h1, h, h2, h3, h4]; done)

/-- **C24 (swap).** `a op b = b swap(op) a`; holds for floats too, NaN included. -/
theorem C24_swap {cmp : α → α → Option Ordering} (hs : SymCmp cmp) (op : Op) (a b : α) : op.swap.holds (cmp b a) = op.holds (cmp a b) := by
  rw [hs a b]
  rcases cmp a b with _ | o
  · cases op <;> rfl
  · cases o <;> cases op <;> rfl

/-- **C24 (inverse).** `not (a op b) = a inverse(op) b` for values that can be ordered. -/
theorem C24_inverse {o : Option Ordering} (ho : o.isSome) (op : Op) : op.inverse.holds o = !op.holds o := by
  cases o with
  | none => cases ho
  | some o => cases o <;> cases op <;> rfl

/-- For unordered values (NaN) the inverse is not the negation: `not (a < NaN)` is true, `a >= NaN` is false. -/
theorem C24_inverse_needs_order : (Op.inverse .lt).holds none ≠ !Op.holds none .lt := by decide

/-- The tables are involutions. -/
theorem C24_swap_swap (op : Op) : op.swap.swap = op := by cases op <;> rfl
theorem C24_inverse_inverse (op : Op) : op.inverse.inverse = op := by cases op <;> rfl

/-! ### The blocked kernel -/

namespace Compare

theorem packBlock_ok (f : α → α → Bool) (lhs rhs : List α) (b k : Nat) (hk : k ≤ 64) (h : lhs.length = rhs.length)
    (hb : k = 0 ∨ (k - 1) + b * 64 < lhs.length) :
    ∃ w, packBlock f lhs rhs b k = .ok w ∧
      ∀ j, j < k → ∀ x y, lhs[j + b * 64]? = some x → rhs[j + b * 64]? = some y → w.getLsbD j = f x y := by
  suffices H : ∃ w, packBlock f lhs rhs b k = .ok w ∧ (∀ j, k ≤ j → w.getLsbD j = false) ∧
      ∀ j, j < k → ∀ x y, lhs[j + b * 64]? = some x → rhs[j + b * 64]? = some y → w.getLsbD j = f x y by
    obtain ⟨w, h1, _, h2⟩ := H; exact ⟨w, h1, h2⟩
  induction k with
  | zero => exact ⟨0, rfl, by simp, by simp⟩
  | succ k ih =>
    have hlt : k + b * 64 < lhs.length := by omega
    obtain ⟨w, h1, h2, h3⟩ := ih (by omega) (by omega)
    refine ⟨w ||| ((if f lhs[k + b * 64] (rhs[k + b * 64]'(by omega)) then 1 else 0 : BitVec 64) <<< k), ?_, ?_, ?_⟩
    · simp only [packBlock, h1, Res.ok_bind, idx_lt hlt, idx_lt (show k + b * 64 < rhs.length by omega)]
    · intro j hj
      rw [BitVec.getLsbD_or, h2 j (by omega), BitVec.getLsbD_shiftLeft]
      split
      · have : (1 : BitVec 64).getLsbD (j - k) = false := by
          rw [show (1 : BitVec 64) = 1#64 from rfl, BitVec.getLsbD_one]; simp; omega
        rw [this]; simp
      · simp
    · intro j hj x y hx hy
      rw [BitVec.getLsbD_or, BitVec.getLsbD_shiftLeft]
      by_cases hjk : j < k
      · rw [h3 j hjk x y hx hy]; simp [hjk]
      · have : j = k := by omega
        subst this
        rw [h2 j (by omega)]
        have h4 : lhs[j + b * 64] = x := by
          obtain ⟨_, h⟩ := List.getElem?_eq_some_iff.mp hx; exact h
        have h5 : rhs[j + b * 64] = y := by
          obtain ⟨_, h⟩ := List.getElem?_eq_some_iff.mp hy; exact h
        rw [h4, h5]
        cases f x y <;> simp <;> omega

/-- **C24 (64-lane kernel).** The packed kernel computes the predicate at every position, for every length. -/
theorem C24_apply_predicate (f : α → α → Bool) (lhs rhs : List α) (h : lhs.length = rhs.length) :
    applyPredicate f lhs rhs = .ok (List.zipWith f lhs rhs) := by
  have hfull : ∃ ws, Res.mapM (fun b => packBlock f lhs rhs b 64) (List.range (lhs.length / 64)) = .ok ws ∧ ws.length = lhs.length / 64 ∧
      ∀ (b : Nat) (w : BitVec 64), ws[b]? = some w → packBlock f lhs rhs b 64 = .ok w := by
    have : ∀ b ∈ List.range (lhs.length / 64), ∃ w, packBlock f lhs rhs b 64 = .ok w := by
      intro b hb
      rw [List.mem_range] at hb
      obtain ⟨w, hw, _⟩ := packBlock_ok f lhs rhs b 64 (by omega) h (by right; omega)
      exact ⟨w, hw⟩
    generalize hl : List.range (lhs.length / 64) = l at this
    have hlen : l.length = lhs.length / 64 := by rw [← hl]; simp
    have hget : ∀ (b : Nat) (x : Nat), l[b]? = some x → x = b := by
      intro b x hx; rw [← hl] at hx; 
      obtain ⟨hb, hx'⟩ := List.getElem?_eq_some_iff.mp hx
      simpa using hx'.symm
    suffices H : ∃ ws, Res.mapM (fun b => packBlock f lhs rhs b 64) l = .ok ws ∧ ws.length = l.length ∧
        ∀ (b : Nat) (w : BitVec 64), ws[b]? = some w → ∃ x, l[b]? = some x ∧ packBlock f lhs rhs x 64 = .ok w by
      obtain ⟨ws, h1, h2, h3⟩ := H
      refine ⟨ws, h1, by omega, fun b w hw => ?_⟩
      obtain ⟨x, hx, hp⟩ := h3 b w hw
      rwa [hget b x hx] at hp
    clear hl hlen hget
    induction l with
    | nil => exact ⟨[], rfl, rfl, by simp⟩
    | cons x l ih =>
      obtain ⟨w, hw⟩ := this x (by simp)
      obtain ⟨ws, h1, h2, h3⟩ := ih (fun b hb => this b (by simp [hb]))
      refine ⟨w :: ws, by simp [Res.mapM, hw, h1], by simp [h2], ?_⟩
      intro b v hv
      cases b with
      | zero => simp at hv; subst hv; exact ⟨x, rfl, hw⟩
      | succ b => simpa using h3 b v (by simpa using hv)
  obtain ⟨ws, h1, h2, h3⟩ := hfull
  have hlast : ∃ ls, lastBlock f lhs rhs = .ok ls ∧ (lhs.length % 64 ≠ 0 → ∃ w, ls = [w] ∧
      packBlock f lhs rhs (lhs.length / 64) (lhs.length % 64) = .ok w) := by
    unfold lastBlock
    by_cases hm : lhs.length % 64 ≠ 0
    · rw [if_pos hm]
      obtain ⟨w, hw, _⟩ := packBlock_ok f lhs rhs (lhs.length / 64) (lhs.length % 64) (by omega) h (by right; omega)
      exact ⟨[w], by simp [hw], fun _ => ⟨w, rfl, hw⟩⟩
    · rw [if_neg hm]; exact ⟨[], rfl, fun h => absurd h hm⟩
  obtain ⟨ls, h4, h5⟩ := hlast
  unfold applyPredicate
  rw [h1, Res.ok_bind, h4, Res.ok_bind]
  unfold readBits
  have key : ∀ i (hi : i < lhs.length), (do
      let w ← idx (ws ++ ls) (i / 64)
      Res.ok (w.getLsbD (i % 64))) = Res.ok (f lhs[i] (rhs[i]'(by omega))) := by
    intro i hi
    have hw : ∃ w k, (ws ++ ls)[i / 64]? = some w ∧ packBlock f lhs rhs (i / 64) k = .ok w ∧ i % 64 < k ∧ k ≤ 64 ∧ (k = 0 ∨ (k - 1) + i / 64 * 64 < lhs.length) := by
      by_cases hb : i / 64 < lhs.length / 64
      · obtain ⟨w, hw⟩ : ∃ w, ws[i / 64]? = some w := ⟨ws[i / 64], List.getElem?_eq_getElem (by omega)⟩
        exact ⟨w, 64, by rw [List.getElem?_append_left (by omega)]; exact hw, h3 _ _ hw, by omega, by omega, by right; omega⟩
      · obtain ⟨w, hw1, hw2⟩ := h5 (by omega)
        have he : i / 64 = lhs.length / 64 := by omega
        refine ⟨w, lhs.length % 64, ?_, by rw [he]; exact hw2, by omega, by omega, by right; omega⟩
        rw [List.getElem?_append_right (by omega), hw1, show i / 64 - ws.length = 0 by omega]; rfl
    obtain ⟨w, k, hw1, hw2, hk1, hk2, hk3⟩ := hw
    obtain ⟨w', hp, hbits⟩ := packBlock_ok f lhs rhs (i / 64) k hk2 h hk3
    rw [hw2] at hp
    obtain rfl := Res.ok.inj hp
    have hidx : i % 64 + i / 64 * 64 = i := by omega
    have := hbits (i % 64) hk1 lhs[i] (rhs[i]'(by omega)) (by rw [hidx]; exact List.getElem?_eq_getElem hi)
      (by rw [hidx]; exact List.getElem?_eq_getElem (by omega))
    simp only [idx, hw1, Res.unwrap, Res.ok_bind, this]
  have : Res.mapM (fun i => do
      let w ← idx (ws ++ ls) (i / 64)
      Res.ok (w.getLsbD (i % 64))) (List.range lhs.length) = .ok ((List.range lhs.length).map (fun i => (List.zipWith f lhs rhs)[i]?.getD false)) := by
    apply Res.mapM_ok
    intro i hi
    rw [List.mem_range] at hi
    rw [key i hi]
    simp [List.getElem?_zipWith, List.getElem?_eq_getElem hi, List.getElem?_eq_getElem (show i < rhs.length by omega)]
  rw [this]
  congr 1
  apply List.ext_getElem?
  intro i
  by_cases hi : i < lhs.length
  · simp [hi, List.getElem?_zipWith, List.getElem?_eq_getElem hi, List.getElem?_eq_getElem (show i < rhs.length by omega)]
  · rw [List.getElem?_eq_none (by simp; omega), List.getElem?_eq_none (by simp; omega)]

example : applyPredicate (fun a b : Nat => decide (a < b)) ((List.range 70)) (List.replicate 70 66) =
    .ok ((List.range 70).map (fun i => decide (i < 66))) := by decide +kernel

end Compare

/-! ### Leaf kernels -/

namespace Compare

theorem mask_intoNullable (v : Validity) (n : Nat) : mask n v.intoNullable = mask n v := by cases v <;> rfl

theorem checkLen_of_fits {v : Validity} {n : Nat} (h : FitsLen v n) : v.checkLen n = .ok () := by
  cases v with
  | array b => unfold FitsLen at h; simp [mask] at h; simp [Validity.checkLen, h]
  | _ => rfl

theorem rows_zip (p : α → β → γ) (xs : List α) (ys : List β) (m1 m2 : List Bool) (h1 : m1.length = xs.length) (h2 : m2.length = ys.length)
    (g : Option α → Option β → Option γ) (hg : ∀ x y b c, g (if b then some x else none) (if c then some y else none) = if b && c then some (p x y) else none) :
    Spec.rows (List.zipWith p xs ys) (List.zipWith (fun a b => a && b) m1 m2) = List.zipWith g (Spec.rows xs m1) (Spec.rows ys m2) := by
  induction xs generalizing ys m1 m2 with
  | nil => simp [Spec.rows]
  | cons x xs ih =>
    cases ys with
    | nil => simp [Spec.rows]
    | cons y ys =>
      cases m1 with
      | nil => simp at h1
      | cons a m1 =>
        cases m2 with
        | nil => simp at h2
        | cons b m2 =>
          have := ih ys m1 m2 (by simpa using h1) (by simpa using h2)
          simp only [Spec.rows, List.zipWith_cons_cons] at this ⊢
          rw [this, hg]

theorem cmpRow_if (p : α → α → Bool) (x y : α) (b c : Bool) :
    cmpRow p (if b then some x else none) (if c then some y else none) = if b && c then some (p x y) else none := by
  cases b <;> cases c <;> rfl

/-- **C24 (primitive).** Two primitive arrays of the same length, any validities: row by row, null if either is null. -/
theorem C24_primitive (cmp : α → α → Option Ordering) (op : Op) (a b : PArr α) (ha : a.WF) (hb : b.WF) (h : a.len = b.len) :
    ∃ x, primPrim cmp op a b = .ok x ∧ x.WF ∧ x.rows = cmpRows (fun x y => op.holds (cmp x y)) a.rows b.rows := by
  have h' : a.vals.length = b.vals.length := h
  obtain ⟨w, hw1, hw2, _⟩ := C23_and a.validity b.validity a.vals.length ha (by rw [h']; exact hb)
  have hz : (List.zipWith (fun x y => op.holds (cmp x y)) a.vals b.vals).length = a.vals.length := by simp [h']
  have hma : (mask a.vals.length a.validity).length = a.vals.length := ha
  have hmb : (mask a.vals.length b.validity).length = a.vals.length := by rw [h']; exact hb
  have hfit : FitsLen w.intoNullable a.vals.length := by
    unfold FitsLen; rw [mask_intoNullable, hw2]; simp [hma, hmb]
  refine ⟨⟨List.zipWith (fun x y => op.holds (cmp x y)) a.vals b.vals, w.intoNullable⟩, ?_, ?_, ?_⟩
  · simp only [primPrim, C24_apply_predicate _ _ _ h', Res.ok_bind, hw1, boolTryNew, hz, checkLen_of_fits hfit]
  · unfold PArr.WF; rw [hz]; exact hfit
  · unfold PArr.rows cmpRows
    simp only
    rw [hz, mask_intoNullable, hw2, ← h']
    exact rows_zip _ _ _ _ _ hma (by rw [hmb, h']) _ (fun x y b c => cmpRow_if _ x y b c)

/-- **C24 (primitive against a non-null constant).** -/
theorem C24_primitive_const (cmp : α → α → Option Ordering) (op : Op) (a : PArr α) (ha : a.WF) (v : α) :
    ∃ x, primConst cmp op a (some v) = .ok x ∧ x.WF ∧ x.rows = cmpRows (fun x y => op.holds (cmp x y)) a.rows (List.replicate a.len (some v)) := by
  have hfit : FitsLen a.validity.intoNullable a.vals.length := by unfold FitsLen; rw [mask_intoNullable]; exact ha
  refine ⟨⟨a.vals.map (fun y => op.holds (cmp y v)), a.validity.intoNullable⟩, ?_, ?_, ?_⟩
  · simp only [primConst, Res.ofOption, Res.ok_bind, boolTryNew, List.length_map, checkLen_of_fits hfit]
  · unfold PArr.WF; simpa using hfit
  · unfold PArr.rows cmpRows PArr.len
    simp only [List.length_map, mask_intoNullable]
    have hma : (mask a.vals.length a.validity).length = a.vals.length := ha
    generalize mask a.vals.length a.validity = m at hma
    generalize a.vals = xs at hma
    induction xs generalizing m with
    | nil => simp [Spec.rows]
    | cons x xs ih =>
      cases m with
      | nil => simp at hma
      | cons b m =>
        have := ih m (by simpa using hma)
        simp only [Spec.rows, List.map_cons, List.length_cons, List.replicate_succ, List.zipWith_cons_cons] at this ⊢
        rw [this]; cases b <;> rfl

/-- A null constant makes the primitive kernel fail, although the answer (all null) exists. -/
theorem C24_primitive_null_const_fails (cmp : α → α → Option Ordering) (op : Op) (a : PArr α) : primConst cmp op a none = .err := rfl

theorem arrow_rows (rs : List (Option Bool)) : (⟨rs.map (·.getD false), .array (rs.map (·.isSome))⟩ : PArr Bool).WF ∧
    (⟨rs.map (·.getD false), .array (rs.map (·.isSome))⟩ : PArr Bool).rows = rs := by
  constructor
  · simp [PArr.WF, FitsLen, mask]
  · simp only [PArr.rows, mask, Spec.rows]
    induction rs with
    | nil => rfl
    | cons r rs ih =>
      simp only [List.map_cons, List.zipWith_cons_cons, ih]
      cases r <;> rfl

theorem arrowCmp_rows (c : Cmps α) (op : Op) (a b : List (Option α)) :
    (arrowCmp c op a b).WF ∧ (arrowCmp c op a b).rows = cmpRows (fun x y => op.holds (c.arrow x y)) a b := by
  have : List.zipWith (arrowRow (fun x y => op.holds (c.arrow x y))) a b = cmpRows (fun x y => op.holds (c.arrow x y)) a b := by
    unfold cmpRows
    congr 1
    funext x y
    cases x <;> cases y <;> rfl
  unfold arrowCmp
  simp only
  rw [this]
  exact arrow_rows _

theorem scalarCmp_eq {c : Cmps α} {cmp : α → α → Option Ordering} (hc : c.Agree cmp) (op : Op) (l r : Option α) (ln rn : Bool)
    (h : op = .eq ∨ op = .notEq → ln = rn) : scalarCmp c op l r ln rn = cmpRow (fun x y => op.holds (cmp x y)) l r := by
  cases l with
  | none => rfl
  | some a =>
    cases r with
    | none => rfl
    | some b =>
      simp only [scalarCmp, cmpRow, hc.scalar, hc.scalarEq]
      cases op with
      | eq => rw [h (Or.inl rfl)]; simp [Op.holds]
      | notEq => rw [h (Or.inr rfl)]; simp [Op.holds, bne]
      | _ => rfl

end Compare

/-! ### Any mixture of encodings -/

namespace CArr

theorem len_chunked (cs : List (CArr α)) : (chunked cs).len = (cs.map len).sum := by
  rw [len]; induction cs with
  | nil => rfl
  | cons c cs ih => rw [lens, ih]; rfl
theorem rows_chunked (cs : List (CArr α)) : (chunked cs).rows = Chunked.rows rows cs := by
  rw [rows]; induction cs with
  | nil => rfl
  | cons c cs ih => rw [rowss, ih]; rfl
theorem depth_chunked (cs : List (CArr α)) : (chunked cs).depth = (cs.map depth).foldr max 0 + 1 := by
  rw [depth]; congr 1; induction cs with
  | nil => rfl
  | cons c cs ih => rw [depths, ih]; rfl

theorem depth_mem {cs : List (CArr α)} {c : CArr α} (h : c ∈ cs) : c.depth < (chunked cs).depth := by
  rw [depth_chunked]
  induction cs with
  | nil => cases h
  | cons d cs ih =>
    simp only [List.map_cons, List.foldr_cons]
    rcases List.mem_cons.mp h with rfl | h
    · omega
    · have := ih h; omega

theorem depth_le {cs : List (CArr α)} {n : Nat} (h : ∀ c ∈ cs, c.depth ≤ n) : (chunked cs).depth ≤ n + 1 := by
  rw [depth_chunked]
  induction cs with
  | nil => simp
  | cons d cs ih =>
    have := ih (fun c hc => h c (by simp [hc]))
    have := h d (by simp)
    simp only [List.map_cons, List.foldr_cons]
    omega

theorem len_eq {c : CArr α} (h : Good c) : c.len = c.rows.length := by
  induction h with
  | prim h => simp only [len, rows]; exact (PArr.rows_len h).symm
  | const _ => simp [len, rows]
  | other h _ => simp only [len, rows]; exact (PArr.rows_len h).symm
  | @chunked cs _ _ ih =>
    rw [len_chunked, rows_chunked, Chunked.rows, List.length_flatMap]
    congr 1
    exact List.map_congr_left (fun c hc => ih c hc)

/-- Well-formed, plus optional restrictions on the constants inside. -/
structure Q (cn nc : Prop) (b : Bool) (c : CArr α) : Prop where
  good : Good c
  cnull : cn → ConstNull b c
  noc : nc → NoConst c

variable {cn nc : Prop} {b : Bool}

theorem Q.chunk {cs : List (CArr α)} (h : Q cn nc b (chunked cs)) : cs ≠ [] ∧ ∀ c ∈ cs, Q cn nc b c := by
  cases h.good with
  | chunked hne hg =>
    refine ⟨hne, fun c hc => ⟨hg c hc, fun hcn => ?_, fun hnc => ?_⟩⟩
    · cases h.cnull hcn with | chunked h => exact h c hc
    · cases h.noc hnc with | chunked h => exact h c hc

theorem Q.ofChunks {cs : List (CArr α)} (hne : cs ≠ []) (h : ∀ c ∈ cs, Q cn nc b c) : Q cn nc b (chunked cs) :=
  ⟨.chunked hne (fun c hc => (h c hc).good), fun hcn => .chunked (fun c hc => (h c hc).cnull hcn), fun hnc => .chunked (fun c hc => (h c hc).noc hnc)⟩

theorem slice_nullable {a x : PArr α} {s e : Nat} (h : a.slice s e = .ok x) : x.validity.nullable = a.validity.nullable := by
  simp only [PArr.slice, Res.bind_eq_ok] at h
  obtain ⟨_, _, v, hv, h⟩ := h
  cases h
  cases hva : a.validity <;> rw [hva] at hv <;> simp only [Validity.slice, Res.bind_eq_ok] at hv
  all_goals first
    | (cases hv; rfl)
    | (obtain ⟨_, _, hv⟩ := hv; cases hv; rfl)

/-- Slicing any mixture. -/
theorem slice_ok (n : Nat) : ∀ (c : CArr α) (s e : Nat), Q cn nc b c → c.depth ≤ n → InBounds c.rows.length s e →
    ∃ c', slice n c s e = .ok c' ∧ Q cn nc b c' ∧ c'.depth ≤ c.depth ∧ c'.rows = Spec.slice c.rows s e := by
  have leaf : ∀ n (c : CArr α) (s e : Nat), c.depth = 0 → Q cn nc b c → InBounds c.rows.length s e →
      ∃ c', slice n c s e = .ok c' ∧ Q cn nc b c' ∧ c'.depth ≤ c.depth ∧ c'.rows = Spec.slice c.rows s e := by
    intro n c s e hd hq hb
    cases hq.good with
    | @prim a hw =>
      rw [rows, PArr.rows_len hw] at hb
      obtain ⟨x, h1, h2, h3, h4⟩ := PArr.slice_ok hw hb
      exact ⟨.prim x, by cases n <;> simp [slice, h1], ⟨.prim h3, fun _ => .prim, fun _ => .prim⟩, by simp [depth], by simpa [rows] using h2⟩
    | @const v nl m hv =>
      simp only [rows, List.length_replicate] at hb
      unfold InBounds at hb
      refine ⟨.const v nl (e - s), by cases n <;> simp [slice, show ¬ (s > m ∨ e > m ∨ s > e) by omega], ⟨.const hv, ?_, ?_⟩, by simp [depth], ?_⟩
      · intro hcn; cases hq.cnull hcn; exact .const
      · intro hnc; cases hq.noc hnc
      · simp only [rows, slice_replicate]; congr 1; omega
    | @other a k hw hk =>
      rw [rows, PArr.rows_len hw] at hb
      obtain ⟨x, h1, h2, h3, h4⟩ := PArr.slice_ok hw hb
      refine ⟨.other x k, by cases n <;> simp [slice, h1], ⟨.other h3 ?_, ?_, ?_⟩, by simp [depth], by simpa [rows] using h2⟩
      · intro hkt r hr r' hr'
        rw [h2] at hr hr'
        exact hk hkt r (List.mem_of_mem_take (List.mem_of_mem_drop hr)) r' (List.mem_of_mem_take (List.mem_of_mem_drop hr'))
      · intro hcn
        cases hq.cnull hcn with | other h => exact .other (fun hkt => by rw [slice_nullable h1]; exact h hkt)
      · intro hnc; cases hq.noc hnc; exact .other
    | @chunked cs _ _ => rw [depth_chunked] at hd; omega
  induction n with
  | zero => intro c s e hq hd hb; exact leaf 0 c s e (by omega) hq hb
  | succ n ih =>
    intro c s e hq hd hb
    by_cases h0 : c.depth = 0
    · exact leaf _ c s e h0 hq hb
    · cases hgood : hq.good with
      | @chunked cs hne hg =>
        obtain ⟨_, hqs⟩ := hq.chunk
        obtain ⟨d, hdd⟩ : ∃ d, (CArr.chunked cs).depth = d + 1 := ⟨_, depth_chunked cs⟩
        have hlen : Chunked.LenLaw (fun c : CArr α => Q cn nc b c ∧ c.depth ≤ d) rows len := fun c hc => len_eq hc.1.good
        have hsl : Chunked.SliceLaw (fun c : CArr α => Q cn nc b c ∧ c.depth ≤ d) rows (slice n) := by
          intro c s e hc hb
          obtain ⟨c', h1, h2, h3, h4⟩ := ih c s e hc.1 (by have := hc.2; omega) hb
          exact ⟨c', h1, ⟨h2, by have := hc.2; omega⟩, h4⟩
        rw [rows_chunked] at hb
        obtain ⟨out, h1, hne', h2, h3⟩ := Chunked.slice_ok' hlen hsl cs hne
          (fun c hc => ⟨hqs c hc, by have := depth_mem hc; omega⟩) s e hb
        refine ⟨.chunked out, by simp [slice, h1], ?_, ?_, by rw [rows_chunked, rows_chunked]; exact h3⟩
        · exact Q.ofChunks hne' (fun c hc => (h2 c hc).1)
        · rw [hdd]; exact depth_le (fun c hc => (h2 c hc).2)
      | prim _ => simp [depth] at h0
      | const _ => simp [depth] at h0
      | other _ _ => simp [depth] at h0


theorem zipWith_slice_append (f : α → β → γ) (xs ys : List α) (zs : List β) (i : Nat) (h : i + xs.length ≤ zs.length) :
    List.zipWith f (xs ++ ys) (zs.drop i) = List.zipWith f xs (Spec.slice zs i (i + xs.length)) ++ List.zipWith f ys (zs.drop (i + xs.length)) := by
  have hz : zs.drop i = Spec.slice zs i (i + xs.length) ++ zs.drop (i + xs.length) := by
    rw [slice_eq_drop_take, Nat.add_sub_cancel_left, ← List.drop_drop]
    exact (List.take_append_drop _ _).symm
  rw [hz, List.zipWith_append]
  rw [slice_length' ⟨by omega, h⟩]; omega

/-- What a call of `compare` must give: the right rows if it returns, and (without constants inside) it does return. -/
def Right (nc : Prop) (p : α → α → Bool) (l r : CArr α) (res : Res (CArr Bool)) : Prop :=
  (∀ x, res = .ok x → x.rows = cmpRows p l.rows r.rows) ∧ (nc → ∃ x, res = .ok x)

theorem chunkLoop_right {p : α → α → Bool} {cmpF : CArr α → CArr α → Res (CArr Bool)} {sl : Nat → Nat → Res (CArr α)} {r : CArr α} {d : Nat}
    (hr : ∀ s e, InBounds r.rows.length s e → ∃ c', sl s e = .ok c' ∧ Q cn nc b c' ∧ c'.depth ≤ d ∧ c'.rows = Spec.slice r.rows s e)
    (cs : List (CArr α)) (hq : ∀ c ∈ cs, Q cn nc b c)
    (hcmp : ∀ c ∈ cs, ∀ r', Q cn nc b r' → r'.depth ≤ d → c.len = r'.len → Right nc p c r' (cmpF c r'))
    (i : Nat) (hi : i + (Chunked.rows rows cs).length = r.rows.length) :
    (∀ xs, chunkLoop cmpF sl i cs = .ok xs → Chunked.rows rows xs = cmpRows p (Chunked.rows rows cs) (r.rows.drop i)) ∧
      (nc → ∃ xs, chunkLoop cmpF sl i cs = .ok xs) := by
  induction cs generalizing i with
  | nil =>
    refine ⟨fun xs h => ?_, fun _ => ⟨[], rfl⟩⟩
    cases h; simp [Chunked.rows, cmpRows]
  | cons c cs ih =>
    have hqc := hq c (by simp)
    have hlen := len_eq hqc.good
    simp only [Chunked.rows, List.flatMap_cons, List.length_append] at hi
    obtain ⟨c', h1, h2, h3, h4⟩ := hr i (i + c.len) ⟨by omega, by omega⟩
    have hcl : c.len = c'.len := by
      rw [len_eq h2.good, h4, slice_length' ⟨by omega, by omega⟩]; omega
    obtain ⟨hx1, hx2⟩ := hcmp c (by simp) c' h2 h3 hcl
    obtain ⟨hs1, hs2⟩ := ih (fun c hc => hq c (by simp [hc])) (fun c hc => hcmp c (by simp [hc])) (i + c.len)
      (by simp only [Chunked.rows]; omega)
    constructor
    · intro xs h
      simp only [chunkLoop, h1, Res.ok_bind, Res.bind_eq_ok] at h
      obtain ⟨x, hx, ys, hys, h⟩ := h
      cases h
      have e1 := hx1 x hx
      have e2 := hs1 ys hys
      simp only [Chunked.rows, List.flatMap_cons, cmpRows] at e1 e2 ⊢
      rw [zipWith_slice_append _ _ _ _ _ (by omega), ← hlen, ← h4, ← e1, ← e2]
    · intro hnc
      obtain ⟨x, hx⟩ := hx2 hnc
      obtain ⟨ys, hys⟩ := hs2 hnc
      exact ⟨x :: ys, by simp [chunkLoop, h1, hx, hys]⟩

theorem cmpRows_swap {p q : α → α → Bool} (h : ∀ a b, p a b = q b a) (l r : List (Option α)) : cmpRows p l r = cmpRows q r l := by
  unfold cmpRows
  rw [List.zipWith_comm]
  congr 1
  funext x y
  cases x <;> cases y <;> simp [cmpRow, h]

theorem Right.swap {p q : α → α → Bool} (h : ∀ a b, p a b = q b a) {l r : CArr α} {res : Res (CArr Bool)} (hr : Right nc p l r res) : Right nc q r l res :=
  ⟨fun x hx => by rw [hr.1 x hx, cmpRows_swap h], hr.2⟩

theorem cmpRows_const (p : α → α → Bool) (v w : Option α) (l r : List (Option α)) (n : Nat) (hl : l.length = n) (hr : r.length = n)
    (hv : ∀ x ∈ l, x = v) (hw : ∀ x ∈ r, x = w) : cmpRows p l r = List.replicate n (cmpRow p v w) := by
  have e1 : l = List.replicate n v := List.eq_replicate_iff.mpr ⟨hl, hv⟩
  have e2 : r = List.replicate n w := List.eq_replicate_iff.mpr ⟨hr, hw⟩
  rw [e1, e2, cmpRows, List.zipWith_replicate]; simp

/-- One more step of fuel for a constant on the left, which is first moved to the right. -/
def isConstLeaf : CArr α → Bool
  | const _ _ _ => true
  | _ => false

theorem compareF_right {c : Cmps α} {cmp : α → α → Option Ordering} (hc : c.Agree cmp) (hs : SymCmp cmp) (n : Nat) :
    ∀ (l r : CArr α) (op : Op), Q cn nc b l → Q cn nc b r → 2 * (l.depth + r.depth) + (if l.isConstLeaf then 2 else 1) ≤ n → l.len = r.len →
      (op = .eq ∨ op = .notEq → cn) → Right nc (fun x y => op.holds (cmp x y)) l r (compareF c n l r op) := by
  induction n with
  | zero => intro l r op _ _ h; split at h <;> omega
  | succ n ih =>
    intro l r op hl hr hn hlen hop
    have hsw : ∀ a b, op.swap.holds (cmp a b) = op.holds (cmp b a) := fun a b => C24_swap hs op b a
    have hop' : op.swap = .eq ∨ op.swap = .notEq → cn := by
      intro h; apply hop; cases op <;> simp_all [Op.swap]
    have hlr : l.rows.length = r.rows.length := by rw [← len_eq hl.good, ← len_eq hr.good, hlen]
    -- a chunked left side
    have chunk : ∀ (cs : List (CArr α)) (r : CArr α) (op : Op), Q cn nc b (chunked cs) → Q cn nc b r →
        2 * ((chunked cs).depth + r.depth) ≤ n → (chunked cs).len = r.len → (op = .eq ∨ op = .notEq → cn) →
        Right nc (fun x y => op.holds (cmp x y)) (chunked cs) r (do
          let xs ← chunkLoop (fun a b => compareF c n a b op) (slice n r) 0 cs
          .ok (.chunked xs)) := by
      intro cs r op hl hr hn hlen hop
      obtain ⟨hne, hqs⟩ := hl.chunk
      have hrl : (Chunked.rows rows cs).length = r.rows.length := by
        rw [← rows_chunked, ← len_eq hl.good, hlen, len_eq hr.good]
      obtain ⟨h1, h2⟩ := chunkLoop_right (p := fun x y => op.holds (cmp x y)) (cmpF := fun a b => compareF c n a b op) (sl := slice n r) (d := r.depth)
        (fun s e hb => slice_ok n r s e hr (by omega) hb) cs hqs (by
          intro c' hc' r' hq' hd' hl'
          apply ih c' r' op (hqs c' hc') hq' _ hl' hop
          have := depth_mem hc'
          split <;> omega) 0 (by omega)
      constructor
      · intro x hx
        simp only [Res.bind_eq_ok] at hx
        obtain ⟨xs, hxs, hx⟩ := hx
        cases hx
        have := h1 xs hxs
        rw [List.drop_zero] at this
        rw [rows_chunked, rows_chunked, this]
      · intro hnc
        obtain ⟨xs, hxs⟩ := h2 hnc
        exact ⟨.chunked xs, by simp [hxs]⟩
    have arrowR : ∀ (l r : CArr α), Right nc (fun x y => op.holds (cmp x y)) l r (.ok (.prim (Compare.arrowCmp c op l.rows r.rows))) := by
      intro l r
      refine ⟨fun x hx => ?_, fun _ => ⟨_, rfl⟩⟩
      cases hx
      rw [rows, (Compare.arrowCmp_rows c op _ _).2, hc.arrow]
    unfold compareF
    rw [if_neg (by omega)]
    match l, r with
    | .const v nl m, .const v' nl' m' =>
      simp only [len] at hlen
      subst hlen
      refine ⟨?_, fun hnc => by cases hl.noc hnc⟩
      intro x hx
      simp only [constCompare, Res.bind_eq_ok] at hx
      obtain ⟨y, hy, hx⟩ := hx
      cases hx
      split at hy
      · cases hy
      · cases hy
        rw [Compare.scalarCmp_eq hc]
        · simp [rows, cmpRows, List.zipWith_replicate]
        · intro h; cases hl.cnull (hop h); cases hr.cnull (hop h); rfl
    | .const v nl m, .prim a =>
      exact (ih (.prim a) (.const v nl m) op.swap hr hl (by simp [depth, isConstLeaf] at hn ⊢; omega) hlen.symm hop').swap hsw
    | .const v nl m, .other a k =>
      exact (ih (.other a k) (.const v nl m) op.swap hr hl (by simp [depth, isConstLeaf] at hn ⊢; omega) hlen.symm hop').swap hsw
    | .const v nl m, .chunked cs =>
      exact (ih (.chunked cs) (.const v nl m) op.swap hr hl (by simp [isConstLeaf] at hn ⊢; omega) hlen.symm hop').swap hsw
    | .chunked cs, r =>
      have := chunk cs r op hl hr (by simp [isConstLeaf] at hn; omega) hlen hop
      cases r <;> exact this
    | .prim a, .const v nl m =>
      have hw : a.WF := by cases hl.good; assumption
      simp only [len] at hlen
      subst hlen
      cases v with
      | none =>
        refine ⟨fun x hx => ?_, fun hnc => by cases hr.noc hnc⟩
        simp [Compare.primConst, Res.ofOption] at hx
      | some v =>
        obtain ⟨x, h1, _, h3⟩ := Compare.C24_primitive_const c.native op a hw v
        refine ⟨fun y hy => ?_, fun hnc => by cases hr.noc hnc⟩
        simp only [h1, Res.ok_bind] at hy
        cases hy
        simp only [rows, h3, hc.native]
    | .prim a, .prim a' =>
      have hw : a.WF := by cases hl.good; assumption
      have hw' : a'.WF := by cases hr.good; assumption
      obtain ⟨x, h1, _, h3⟩ := Compare.C24_primitive c.native op a a' hw hw' (by simpa only [len] using hlen)
      refine ⟨fun y hy => ?_, fun _ => ⟨.prim x, by simp [h1]⟩⟩
      simp only [h1, Res.ok_bind] at hy
      cases hy
      simp only [rows, h3, hc.native]
    | .prim a, .chunked cs =>
      exact (chunk cs (.prim a) op.swap hr hl (by simp [isConstLeaf] at hn; omega) hlen.symm hop').swap hsw
    | .other a k, .chunked cs =>
      exact (chunk cs (.other a k) op.swap hr hl (by simp [isConstLeaf] at hn; omega) hlen.symm hop').swap hsw
    | .prim a, .other a' k => have := arrowR (.prim a) (.other a' k); simpa only [rows] using this
    | .other a k, .prim a' => have := arrowR (.other a k) (.prim a'); simp only [rows] at this; cases k <;> exact this
    | .other a k, .other a' k' => have := arrowR (.other a k) (.other a' k'); simp only [rows] at this; cases k <;> exact this
    | .other a false, .const v nl m => 
      have := arrowR (.other a false) (.const v nl m)
      simpa only [rows] using this
    | .other a true, .const v nl m =>
      refine ⟨?_, fun hnc => by cases hr.noc hnc⟩
      intro x hx
      have hw : a.WF ∧ ∀ r ∈ a.rows, ∀ r' ∈ a.rows, r = r' := by
        cases hl.good with | other h1 h2 => exact ⟨h1, h2 rfl⟩
      simp only [constCompare, Res.bind_eq_ok] at hx
      obtain ⟨y, hy, hx⟩ := hx
      cases hx
      cases hh : a.rows.head? with
      | none => rw [hh] at hy; cases hy
      | some y' =>
        rw [hh] at hy; cases hy
        rw [Compare.scalarCmp_eq hc]
        · simp only [len] at hlen
          simp only [rows]
          have hmem : y ∈ a.rows := List.mem_of_mem_head? hh
          rw [cmpRows_const _ y v a.rows (List.replicate m v) m (by rw [PArr.rows_len hw.1]; exact hlen) (by simp)
            (fun x hx => hw.2 x hx y hmem) (fun x hx => List.eq_of_mem_replicate hx)]
          congr 1
          cases y <;> cases v <;> simp [cmpRow, hsw]
        · intro h
          cases hl.cnull (hop' h) with | other h1 => cases hr.cnull (hop' h); exact (h1 rfl).symm

theorem depth_fuel (l r : CArr α) : 2 * (l.depth + r.depth) + (if l.isConstLeaf then 2 else 1) ≤ 2 * (l.depth + r.depth) + 2 := by split <;> omega

/-- **C24.** For every mixture of primitive, constant, chunked (nested to any depth) and other arrays of the same length and all six
operators: when `compare` returns, row `i` is null if either row `i` is null and else the operator applied to the two values. For `=`
and `!=` the constants involved must agree on nullability (see `C24_const_eq_nullability`). -/
theorem C24_compare_sound {c : Cmps α} {cmp : α → α → Option Ordering} (hc : c.Agree cmp) (hs : SymCmp cmp) (l r : CArr α) (op : Op)
    (hl : Good l) (hr : Good r) (hcn : op = .eq ∨ op = .notEq → ∃ b, ConstNull b l ∧ ConstNull b r) (x : CArr Bool)
    (h : compare c l r op = .ok x) : x.rows = cmpRows (fun a b => op.holds (cmp a b)) l.rows r.rows := by
  by_cases hlen : l.len = r.len
  · by_cases hop : op = .eq ∨ op = .notEq
    · obtain ⟨b, h1, h2⟩ := hcn hop
      exact (compareF_right (cn := True) (nc := False) (b := b) hc hs _ l r op ⟨hl, fun _ => h1, False.elim⟩ ⟨hr, fun _ => h2, False.elim⟩
        (depth_fuel l r) hlen (fun _ => trivial)).1 x h
    · exact (compareF_right (cn := False) (nc := False) (b := true) hc hs _ l r op ⟨hl, False.elim, False.elim⟩ ⟨hr, False.elim, False.elim⟩
        (depth_fuel l r) hlen hop).1 x h
  · simp [compare, compareF, hlen] at h

/-- **C24.** Without constants inside, `compare` of two arrays of the same length always returns. -/
theorem C24_compare_ok {c : Cmps α} {cmp : α → α → Option Ordering} (hc : c.Agree cmp) (hs : SymCmp cmp) (l r : CArr α) (op : Op)
    (hl : Good l) (hr : Good r) (hln : NoConst l) (hrn : NoConst r) (hlen : l.rows.length = r.rows.length) :
    ∃ x, compare c l r op = .ok x ∧ x.rows = cmpRows (fun a b => op.holds (cmp a b)) l.rows r.rows := by
  have hcn : ∀ (b : Bool) {l : CArr α}, NoConst l → ConstNull b l := by
    intro b l h
    induction h with
    | prim => exact .prim
    | other => exact .other (by simp)
    | chunked _ ih => exact .chunked ih
  obtain ⟨h1, h2⟩ := compareF_right (cn := True) (nc := True) (b := true) hc hs _ l r op ⟨hl, fun _ => hcn _ hln, fun _ => hln⟩
    ⟨hr, fun _ => hcn _ hrn, fun _ => hrn⟩ (depth_fuel l r) (by rw [len_eq hl, len_eq hr, hlen]) (fun _ => trivial)
  obtain ⟨x, hx⟩ := h2 trivial
  exact ⟨x, hx, h1 x hx⟩

/-- Different lengths are an error. -/
theorem C24_compare_lengths (c : Cmps α) (l r : CArr α) (op : Op) (h : l.len ≠ r.len) : compare c l r op = .err := by
  simp [compare, compareF, h]

/-- Where the code departs from C24: two equal constants are reported different when only one of their types is nullable. -/
theorem C24_const_eq_nullability (c : Cmps α) (v : α) :
    compare c (.const (some v) false 1) (.const (some v) true 1) .eq = .ok (.const (some false) true 1) := by
  simp [compare, compareF, len, constCompare, Compare.scalarCmp, Res.unwrap]

/-- Where the code departs from C24: comparing two empty constant arrays panics. -/
theorem C24_empty_constants_panic (c : Cmps α) (v w : Option α) (nl nl' : Bool) (op : Op) : compare c (.const v nl 0) (.const w nl' 0) op = .panic := by
  simp [compare, compareF, len, constCompare, Res.unwrap]

/-- The integer comparisons satisfy the hypotheses. -/
def intCmps : Cmps Int where
  native a b := some (Ord.compare a b)
  arrow a b := some (Ord.compare a b)
  scalar a b := some (Ord.compare a b)
  scalarEq a b := a == b

theorem intCmps_agree : intCmps.Agree (fun a b => some (Ord.compare a b)) :=
  ⟨rfl, rfl, rfl, fun a b => by
    have := Std.compare_eq_iff_eq (a := a) (b := b)
    by_cases h : a = b
    · simp [intCmps, h]
    · simp [intCmps, h]⟩

theorem intCmps_sym : SymCmp (fun a b : Int => some (Ord.compare a b)) := fun a b => by
  simp only [Option.map_some]; rw [Std.OrientedCmp.eq_swap (cmp := Ord.compare) (a := b) (b := a)]

/-- Nested chunks against a constant: `[[1, null], [[5]], []] >= 3`. -/
example : (match compare intCmps (.chunked [.prim ⟨[1, 9], .array [true, false]⟩, .chunked [.other ⟨[5], .nonNullable⟩ false], .prim ⟨[], .nonNullable⟩])
    (.const (some 3) false 3) .gte with | .ok x => x.rows | _ => []) = [some false, none, some true] := by decide +kernel

end CArr

/-! ### and, or -/

namespace BArr

/-- Well-formed: validity lengths fit; an array recorded as constant is constant. -/
def Good : BArr → Prop
  | bool a k => a.WF ∧ (k = true → ∀ r ∈ a.rows, ∀ r' ∈ a.rows, r = r')
  | const _ _ => True
  | other a => a.WF

/-- A row of `and`/`or`: null if either side is null, else the operation. -/
def opRow (f : Bool → Bool → Bool) : Option Bool → Option Bool → Option Bool
  | some a, some b => some (f a b)
  | _, _ => none

theorem arrowBool_canon (f : Bool → Bool → Bool) (a b : List (Option Bool)) : (arrowBool f a b).canon = List.zipWith (opRow f) a b := by
  have : List.zipWith (Compare.arrowRow f) a b = List.zipWith (opRow f) a b := by
    congr 1; funext x y; cases x <;> cases y <;> rfl
  unfold arrowBool
  simp only
  rw [this]
  exact (Compare.arrow_rows _).2

theorem opRow_comm {f : Bool → Bool → Bool} (hf : ∀ a b, f a b = f b a) (x y : Option Bool) : opRow f x y = opRow f y x := by
  cases x <;> cases y <;> simp [opRow, hf]

theorem zip_comm {f : Bool → Bool → Bool} (hf : ∀ a b, f a b = f b a) (l r : List (Option Bool)) :
    List.zipWith (opRow f) l r = List.zipWith (opRow f) r l := by
  rw [List.zipWith_comm]; congr 1; funext x y; exact opRow_comm hf y x

theorem canon_length {l : BArr} (h : Good l) : l.canon.length = l.len := by
  cases l with
  | bool a k => exact PArr.rows_len h.1
  | const v n => simp [canon, len]
  | other a => exact PArr.rows_len h

theorem constImpl_sound {f : Bool → Bool → Bool} (hf : ∀ a b, f a b = f b a) (v : Option Bool) (n : Nat) (o : BArr) (hg : Good o) (hl : o.len = n) {x : BArr}
    (h : constImpl f v n o = .ok x) : x.canon = List.zipWith (opRow f) (List.replicate n v) o.canon := by
  have hrow : ∀ r : Option Bool, ((v.bind fun a => r.map fun b => (a, b)).map (fun p => f p.1 p.2)) = opRow f v r := by
    intro r; cases v <;> cases r <;> rfl
  have hlen := canon_length hg
  cases o with
  | bool a k =>
    cases k with
    | true =>
      simp only [constImpl, firstIfConst, Res.bind_eq_ok] at h
      obtain ⟨r, hr, h⟩ := h
      cases h
      cases hh : a.rows.head? with
      | none => rw [hh] at hr; cases hr
      | some r' =>
        rw [hh] at hr; cases hr
        rw [hrow]
        have e : a.rows = List.replicate n r := List.eq_replicate_iff.mpr ⟨by rw [← hl]; exact hlen, fun x hx => hg.2 rfl x hx r (List.mem_of_mem_head? hh)⟩
        simp [canon, e, List.zipWith_replicate]
    | false =>
      simp only [constImpl, firstIfConst] at h
      cases h
      rw [boolImpl, arrowBool_canon, zip_comm hf]; rfl
  | const w m =>
    simp only [len] at hl
    subst hl
    simp only [constImpl, firstIfConst, Res.bind_eq_ok] at h
    obtain ⟨r, hr, h⟩ := h
    cases h
    split at hr
    · cases hr
    · cases hr
      rw [hrow]; simp [canon, List.zipWith_replicate]
  | other a => simp [constImpl, firstIfConst] at h

/-- **C24 (and, or).** When they return, row `i` is null if either operand is null there, else the operation. -/
theorem C24_and_or_sound {f : Bool → Bool → Bool} (hf : ∀ a b, f a b = f b a) (l r : BArr) (hl : Good l) (hr : Good r) (x : BArr)
    (h : boolOp f l r = .ok x) : l.canon.length = r.canon.length ∧ x.canon = List.zipWith (opRow f) l.canon r.canon := by
  unfold boolOp at h
  split at h
  · cases h
  rename_i hlen
  refine ⟨by rw [canon_length hl, canon_length hr]; simpa using hlen, ?_⟩
  have hlen : l.len = r.len := by simpa using hlen
  cases l with
  | bool a k => simp only at h; cases h; rw [boolImpl, arrowBool_canon]
  | const v n => exact constImpl_sound hf v n r hr hlen.symm h
  | other a =>
    cases r with
    | bool b k => simp only at h; cases h; rw [boolImpl, arrowBool_canon, zip_comm hf]
    | const v n =>
      have := constImpl_sound hf v n (.other a) hl hlen h
      rw [this, zip_comm hf]; rfl
    | other b => simp only at h; cases h; rw [boolImpl, arrowBool_canon]; rfl

/-- **C24 (and, or).** They return whenever no constant is involved or the other side is a `BoolArray` (not empty). -/
theorem C24_and_or_ok (f : Bool → Bool → Bool) (l r : BArr) (hlen : l.len = r.len) (h0 : 0 < l.len)
    (hl : Good l) (hr : Good r) (h : ∀ v n, (l = .const v n → ∀ a, r ≠ .other a) ∧ (r = .const v n → ∀ a, l ≠ .other a)) : ∃ x, boolOp f l r = .ok x := by
  have hc : ∀ v n (o : BArr), Good o → o.len = n → 0 < n → (∀ a, o ≠ .other a) → ∃ x, constImpl f v n o = .ok x := by
    intro v n o hg hn hpos ho
    cases o with
    | other a => exact absurd rfl (ho a)
    | const w m => simp only [len] at hn; subst hn; simp [constImpl, firstIfConst, show m ≠ 0 by omega]
    | bool a k =>
      cases k with
      | false => exact ⟨_, rfl⟩
      | true =>
        have : a.rows ≠ [] := by
          intro e
          have := canon_length hg
          rw [canon, e] at this; simp at this; omega
        obtain ⟨y, ys, hy⟩ := List.exists_cons_of_ne_nil this
        simp [constImpl, firstIfConst, hy]
  unfold boolOp
  rw [if_neg (by omega)]
  cases l with
  | bool a k => exact ⟨_, rfl⟩
  | const v n => exact hc v n r hr hlen.symm h0 (fun a => (h v n).1 rfl a)
  | other a =>
    cases r with
    | bool b k => exact ⟨_, rfl⟩
    | const v n => exact absurd rfl ((h v n).2 rfl a)
    | other b => exact ⟨_, rfl⟩

/-- Where the code departs: a constant with an array that has no boolean kernel of its own (say a chunked one) is an error. -/
theorem C24_and_const_other_fails (f : Bool → Bool → Bool) (v : Option Bool) (a : PArr Bool) : boolOp f (.const v a.len) (.other a) = .err := by
  simp [boolOp, len, constImpl, firstIfConst]

example : boolOp (· && ·) (.bool ⟨[true, true, false], .array [true, false, true]⟩ false) (.const (some true) 3) =
    .ok (.bool ⟨[true, false, false], .array [true, false, true]⟩ false) := by decide

end BArr
end Vx
