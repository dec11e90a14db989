import Verif.Model.TreeSearch
import Verif.Spec.TreeSearch
import Verif.Lemmas.SearchSorted
import Verif.Props.C03
import Verif.Props.C29
import Verif.Props.C02FoR
import Verif.Props.C89
import Verif.Lemmas.TreeCompareConst
import Verif.Lemmas.TreeCompareTotal
import Verif.Lemmas.TreeBulk
/-! # Sorted search on trees: proofs -/
namespace Vx.Tree
open Vx.Spec

/-! ### the order of scalar values -/

theorem cmp_self (x : SV) : SV.cmp x x = some .eq := (Vx.cmp_eq x x).mpr rfl

theorem monoCmp_rows {rows : List SV} {v : SV} (hs : SortedRows rows) (c : Nat → Ordering)
    (hc : ∀ i (h : i < rows.length), SV.cmp rows[i] v = some (c i)) : MonoCmp c 0 rows.length := by
  have hle : ∀ i j (hi : i < rows.length) (hj : j < rows.length), i ≤ j → SV.cmp rows[i] rows[j] = some .lt ∨ rows[i] = rows[j] := by
    intro i j hi hj hij
    rcases Nat.lt_or_eq_of_le hij with h | rfl
    · rcases List.pairwise_iff_getElem.mp hs i j hi hj h with h1 | h1
      · exact Or.inl h1
      · exact Or.inr ((Vx.cmp_eq _ _).mp h1)
    · exact Or.inr rfl
  constructor
  · intro i j _ hij hj hlt
    have h1 := hc j hj
    have h2 := hc i (by omega)
    rw [hlt] at h1
    rcases hle i j (by omega) hj hij with h | h
    · rw [Vx.cmp_trans _ _ _ h h1] at h2
      simpa using h2.symm
    · rw [h, h1] at h2
      simpa using h2.symm
  · intro i j _ hij hj hgt
    have h1 := hc j hj
    have h2 := hc i (by omega)
    rw [hgt] at h2
    have h2' : SV.cmp v rows[i] = some .lt := by rw [Vx.cmp_swap, h2]; rfl
    rcases hle i j (by omega) hj hij with h | h
    · have h3 := Vx.cmp_trans _ _ _ h2' h
      rw [Vx.cmp_swap, h3] at h1
      simpa using h1.symm
    · rw [h, h1] at h2
      simpa using h2

/-- Binary search over rows that can be read and compared gives the promised answer. -/
theorem search_rows {rows : List SV} {v : SV} (hs : SortedRows rows) (hv : ProbeFits rows v) (ic : Nat → Res (Option Ordering))
    (hic : ∀ i (h : i < rows.length), ic i = .ok (SV.cmp rows[i] v)) (side : Vx.Side) :
    Vx.searchSorted ic rows.length side = .ok (searchRows rows v side) := by
  let c : Nat → Ordering := fun i => if h : i < rows.length then (SV.cmp rows[i] v).getD .gt else .gt
  have hcx : ∀ i (h : i < rows.length), SV.cmp rows[i] v = some (c i) := by
    intro i h
    have := hv rows[i] (List.getElem_mem h)
    simp only [c, h, dif_pos]
    cases h' : SV.cmp rows[i] v with
    | none => exact absurd h' this
    | some o => rfl
  have hf : ∀ i, i < rows.length → ic i = .ok (some (c i)) := by
    intro i hi; rw [hic i hi, hcx i hi]
  obtain ⟨p, hp, hspl, hres⟩ := searchSorted_spec hf (monoCmp_rows hs c hcx) side
  have hmem : (∃ i, i < rows.length ∧ c i = .eq) ↔ rows.any (fun x => SV.cmp x v == some .eq) = true := by
    rw [List.any_eq_true]
    constructor
    · rintro ⟨i, hi, he⟩
      exact ⟨rows[i], List.getElem_mem hi, by rw [hcx i hi, he]; rfl⟩
    · rintro ⟨x, hx, he⟩
      obtain ⟨i, hi, rfl⟩ := List.mem_iff_getElem.mp hx
      refine ⟨i, hi, ?_⟩
      rw [hcx i hi] at he
      simpa using he
  have hpt : rows.countP (rowBefore v side) = p := by
    cases side with
    | left =>
      apply countP_eq_of_split _ _ _ hp
      · intro i h hi
        have := hspl.1 i hi
        simp [rowBefore, hcx i h, this]
      · intro i h hi
        have := hspl.2 i hi h
        simp only [rowBefore, hcx i h]
        cases hc : c i <;> simp_all
    | right =>
      apply countP_eq_of_split _ _ _ hp
      · intro i h hi
        have := hspl.1 i hi
        simp only [rowBefore, hcx i h]
        cases hc : c i <;> simp_all
      · intro i h hi
        have := hspl.2 i hi h
        simp [rowBefore, hcx i h, this]
  rw [hres, searchRows, hpt]
  by_cases hm : rows.any (fun x => SV.cmp x v == some .eq) = true
  · rw [if_pos hm, if_pos (hmem.mpr hm)]
  · rw [if_neg hm, if_neg (fun h => hm (hmem.mp h))]


variable {env : Env L} {leafRows : L → List SV} {ok : L → Prop} {F : FloatOps} {own : L → Option OwnSearch}

theorem cmp_null {v : SV} (h : v.isNull = false) : SV.cmp .null v = some .gt := by
  cases v <;> first | rfl | simp [SV.isNull] at h

theorem search_generic (hl : LeafLaws env leafRows ok) {a : Arr L} (hw : WF env leafRows ok a) (hr : Regular env leafRows true a)
    {v : SV} (hs : SortedRows (rows env leafRows a)) (hv : ProbeFits (rows env leafRows a) v) (d : DType)
    (hd : d.eqIgnoreNullability (dtype env a) = true) (side : Vx.Side) : searchGeneric env a ⟨d, v⟩ side = .ok (searchRows (rows env leafRows a) v side) := by
  unfold searchGeneric
  rw [len_eq hl a hw]
  apply search_rows hs hv
  intro i hi
  have := C03_scalar_at_partial hl a hw hr i
  rw [List.getElem?_eq_getElem hi] at this
  simp [this, Scalar.partialCmp, eqIgnore_symm hd]

/-! ### primitive arrays -/

theorem readPrim_self (p : PType) (q : PValue) (h : q.pt = p) : SV.readPrim F p (.prim q) = .ok (some q) := by
  obtain ⟨pt, b⟩ := q
  subst h
  have := ScalarConv.readAs_self (F := F) pt b
  simp only [SV.readPrim, this]; rfl

theorem cast_self (d : DType) (v : SV) (h : v.isNull = false) (d' : DType) (hd : d.eqIgnoreNullability d' = true) :
    Scalar.cast F ⟨d, v⟩ d' = .ok ⟨d', v⟩ := by
  unfold Scalar.cast SV.cast
  simp [h, hd, Res.bind]

theorem probe_self (p : PType) (n : Bool) (q : PValue) (h : q.pt = p) (d : DType) (hd : d.eqIgnoreNullability (.prim p n) = true) :
    probeOf F p (.prim p n) ⟨d, .prim q⟩ = .ok q := by
  unfold probeOf
  rw [cast_self _ _ rfl _ hd]
  simp only [Res.ok_bind]
  rw [readPrim_self p q h]
  rfl

theorem search_buffer (hl : LeafLaws env leafRows ok) {p : PType} {vals : List SV} {vd : TVal (Arr L)}
    (hw : WF env leafRows ok (.flat (.prim p) vals vd)) (hr : Regular env leafRows true (.flat (.prim p) vals vd)) {q : PValue} (hq : q.pt = p)
    (hs : SortedRows (rows env leafRows (.flat (.prim p) vals vd))) (side : Vx.Side) :
    searchBuffer env vals vd (.ok q) side = .ok (searchRows (rows env leafRows (.flat (.prim p) vals vd)) (.prim q) side) := by
  have hw' := hw
  simp only [WF] at hw'
  obtain ⟨hk, hv⟩ := hw'
  simp only [Regular] at hr
  have hml := maskOf_length hv
  have hlen : (rows env leafRows (.flat (.prim p) vals vd)).length = vals.length := by simp [rows, masked, hml]
  have hcell : ∀ x ∈ vals, ∃ b : PValue, x = .prim b ∧ b.pt = p := by
    intro x hx
    have := hk x hx
    cases x with
    | prim b => exact ⟨b, rfl, by simpa [Kind.has] using this⟩
    | _ => simp [Kind.has] at this
  have hcomp : ProbeFits (rows env leafRows (.flat (.prim p) vals vd)) (.prim q) := by
    intro x hx
    obtain ⟨i, hi, rfl⟩ := List.mem_iff_getElem.mp hx
    have h1 : i < vals.length := by omega
    obtain ⟨b, hb, hbp⟩ := hcell _ (List.getElem_mem h1)
    simp only [rows, masked, List.getElem_zipWith]
    split
    · rw [hb]; simp [SV.cmp, PValue.partialCmp, hbp, hq]
    · simp [SV.cmp]
  have hrow : ∀ i (h : i < vals.length) (b : Bool), (maskOf env leafRows vd vals.length)[i]? = some b →
      (rows env leafRows (.flat (.prim p) vals vd))[i]? = some (if b then vals[i] else .null) := by
    intro i h b hb
    simp only [rows]
    exact masked_getElem? vals _ i vals[i] b (by simp [h]) hb
  have hnative : ∀ i (h : i < vals.length), ∃ o, nativeCmp vals[i] q = .ok o ∧ SV.cmp vals[i] (.prim q) = some o := by
    intro i h
    obtain ⟨b, hb, hbp⟩ := hcell _ (List.getElem_mem h)
    exact ⟨compare b.key q.key, by rw [hb]; rfl, by rw [hb]; simp [SV.cmp, PValue.partialCmp, hbp, hq]⟩
  have key : ∀ ic : Nat → Res (Option Ordering),
      (∀ i (h : i < vals.length) (b : Bool), (maskOf env leafRows vd vals.length)[i]? = some b → ic i = .ok (SV.cmp (if b then vals[i] else .null) (.prim q))) →
      Vx.searchSorted ic vals.length side = .ok (searchRows (rows env leafRows (.flat (.prim p) vals vd)) (.prim q) side) := by
    intro ic hic
    rw [← hlen]
    apply search_rows hs hcomp
    intro i hi
    have hi' : i < vals.length := by omega
    have hm : i < (maskOf env leafRows vd vals.length).length := by omega
    have h1 := hrow i hi' _ (List.getElem?_eq_getElem hm)
    rw [List.getElem?_eq_getElem hi] at h1
    rw [hic i hi' _ (List.getElem?_eq_getElem hm), Option.some.inj h1]
  have slice : (maskOf env leafRows vd vals.length = List.replicate vals.length true) →
      Vx.searchSorted (fun i => do
        let x ← idx vals i
        let c ← nativeCmp x q
        .ok (some c)) vals.length side = .ok (searchRows (rows env leafRows (.flat (.prim p) vals vd)) (.prim q) side) := by
    intro hmask
    apply key
    intro i h b hb
    rw [hmask] at hb
    have : b = true := by simpa [h] using hb.symm
    subst this
    obtain ⟨o, h1, h2⟩ := hnative i h
    simp [idx_lt h, h1, h2]
  cases vd with
  | nonNullable => exact slice rfl
  | allValid => exact slice rfl
  | allInvalid =>
    simp only [searchBuffer]
    have hnull : rows env leafRows (.flat (.prim p) vals .allInvalid) = List.replicate vals.length .null := by
      simp only [rows, maskOf]
      exact masked_replicate_false vals
    rw [hnull, searchRows]
    have h1 : (List.replicate vals.length SV.null).any (fun x => SV.cmp x (.prim q) == some .eq) = false := by
      rw [List.any_eq_false]
      intro x hx
      rw [List.eq_of_mem_replicate hx]
      rw [cmp_null rfl]; simp
    have h2 : (List.replicate vals.length SV.null).countP (rowBefore (.prim q) side) = 0 := by
      rw [List.countP_eq_zero]
      intro x hx
      rw [List.eq_of_mem_replicate hx]
      simp [rowBefore, cmp_null (v := .prim q) rfl]
    rw [h1, h2]; rfl
  | array m =>
    simp only [searchBuffer, Res.ok_bind]
    apply key
    intro i h b hb
    obtain ⟨b', h1, h2⟩ := isValidV_ok (laws hl (depthV (.array m))) hv hr (Nat.le_refl _) h
    have : b' = b := by rw [hb] at h2; exact (Option.some.inj h2).symm
    subst this
    simp only [h1, Res.ok_bind]
    cases b' with
    | false => simp; exact (cmp_null rfl).symm
    | true =>
      obtain ⟨o, h3, h4⟩ := hnative i h
      simp [idx_lt h, h3, h4]

/-! ### constant arrays -/

theorem countP_replicate' (q : SV → Bool) (n : Nat) (x : SV) : (List.replicate n x).countP q = if q x then n else 0 := by
  rw [List.countP_replicate]

theorem any_replicate' (q : SV → Bool) (n : Nat) (x : SV) : (List.replicate n x).any q = (decide (0 < n) && q x) := by
  induction n with
  | zero => rfl
  | succ n ih => simp [List.replicate_succ, ih]

theorem search_const {dt : DType} {x : SV} {n : Nat} {v : SV} (hc : ProbeFits (List.replicate n x) v) (hn : 0 < n ∨ SV.cmp x v ≠ some .eq)
    (d : DType) (side : Vx.Side) :
    searchFn env F own (.const dt x n) ⟨d, v⟩ side = .ok (searchRows (List.replicate n x) v side) := by
  have hd : ∀ o, SV.cmp x v = o → (0 < n → o ≠ none) ∧ (0 < n ∨ o ≠ some .eq) := by
    rintro o rfl
    exact ⟨fun h => hc x (by simp; omega), hn⟩
  rcases h : SV.cmp x v with _ | o
  · have h1 := hd _ h
    have : n = 0 := Nat.eq_zero_of_not_pos (fun h0 => h1.1 h0 rfl)
    subst this
    simp [searchFn, searchRows, h]
  · have h1 := (hd _ h).2
    cases o <;> cases side <;> simp [searchFn, searchRows, countP_replicate', any_replicate', rowBefore, h] <;> simp_all <;> omega

/-! ### sparse arrays -/

/-- The same answer `m` positions further. -/
def shiftBy (m : Nat) : SearchResult → SearchResult
  | .found i => .found (m + i)
  | .notFound i => .notFound (m + i)

theorem sparse_rows_block {is : List Nat} {vs : List SV} {n off m : Nat} {fill : SV} (hlen : is.length = vs.length)
    (his : is = (List.range is.length).map (fun i => off + m + i)) (hst : is.Pairwise (· < ·)) (hb : ∀ i ∈ is, off ≤ i ∧ i < off + n)
    (hne : is ≠ []) :
    m + is.length ≤ n ∧ patched n off fill (is.zip vs) = List.replicate m fill ++ vs ++ List.replicate (n - m - is.length) fill := by
  have hk : 0 < is.length := List.length_pos_iff.mpr hne
  have hget : ∀ i, i < is.length → is[i]? = some (off + m + i) := by
    intro i hi; rw [his]; simp [hi]
  have hmn : m + is.length ≤ n := by
    have := (hb (off + m + (is.length - 1)) (List.mem_of_getElem? (hget _ (by omega)))).2
    omega
  refine ⟨hmn, ?_⟩
  apply List.ext_getElem?
  intro i
  by_cases hi : i < n
  · simp only [patched, List.getElem?_map, List.getElem?_range hi, Option.map_some]
    by_cases h1 : i < m
    · rw [patchOr_none]
      · rw [List.append_assoc, List.getElem?_append_left (by simpa using h1)]; simp [h1]
      · rw [his]; simp; intro x hx; omega
    · by_cases h2 : i < m + is.length
      · have h3 : i - m < vs.length := by omega
        rw [patchOr_found hst fill (k := i - m) (r := vs[i - m]) (by rw [hget _ (by omega)]; congr 1; omega) (by simp [h3])]
        rw [List.getElem?_append_left (by simp; omega), List.getElem?_append_right (by simp; omega)]
        simp [h3]
      · rw [patchOr_none]
        · rw [List.getElem?_append_right (by simp; omega)]
          simp only [List.length_append, List.length_replicate]
          rw [List.getElem?_replicate, if_pos (by omega)]
        · rw [his]; simp; intro x hx; omega
  · rw [List.getElem?_eq_none (by simp [patched]; omega), List.getElem?_eq_none (by simp; omega)]

theorem searchRows_block (m k : Nat) (fill : SV) (vs : List SV) (v : SV) (side : Vx.Side) (h1 : 0 < m → SV.cmp fill v = some .lt)
    (h2 : 0 < k → SV.cmp fill v = some .gt) :
    searchRows (List.replicate m fill ++ vs ++ List.replicate k fill) v side =
      shiftBy m (searchRows vs v side) := by
  have ha : (List.replicate m fill).any (fun x => SV.cmp x v == some .eq) = false ∧
      (List.replicate m fill).countP (rowBefore v side) = m := by
    rw [any_replicate', countP_replicate']
    rcases Nat.eq_zero_or_pos m with rfl | h
    · simp
    · simp [h1 h, rowBefore]
  have hb : (List.replicate k fill).any (fun x => SV.cmp x v == some .eq) = false ∧
      (List.replicate k fill).countP (rowBefore v side) = 0 := by
    rw [any_replicate', countP_replicate']
    rcases Nat.eq_zero_or_pos k with rfl | h
    · simp
    · simp [h2 h, rowBefore]
  simp only [searchRows, List.any_append, List.countP_append, ha, hb, Bool.false_or, Bool.or_false, Nat.add_zero]
  split <;> rfl

theorem sparsePos_block {is : List Nat} {off m : Nat} (his : is = (List.range is.length).map (fun i => off + m + i)) (hne : is ≠ [])
    (sr : SearchResult) (hsr : sr.toIndex ≤ is.length) :
    sparsePos is off sr = .ok (shiftBy m sr) := by
  have hk : 0 < is.length := List.length_pos_iff.mpr hne
  have hget : ∀ i (h : i < is.length), is[i] = off + m + i := by
    intro i hi
    have : is[i]? = some (off + m + i) := by rw [his]; simp [hi]
    rw [List.getElem?_eq_getElem hi] at this
    exact Option.some.inj this
  cases sr with
  | found i =>
    simp only [SearchResult.toIndex] at hsr
    by_cases h : i = is.length
    · have h1 : 1 ≤ i := by omega
      have h2 : i - 1 < is.length := by omega
      simp only [sparsePos, SearchResult.toOffsetsIndex, if_pos h, Res.sub, h1, if_true, Res.ok_bind, h2, idx_lt h2, hget _ h2]
      rw [if_pos (by omega)]
      simp only [Res.ok_bind, shiftBy]
      congr 2; omega
    · have h2 : i < is.length := by omega
      simp only [sparsePos, SearchResult.toOffsetsIndex, if_neg h, Res.ok_bind, h2, if_true, idx_lt h2, hget _ h2, Res.sub]
      rw [if_pos (by omega)]
      simp only [Res.ok_bind, shiftBy]
      congr 2; omega
  | notFound i =>
    simp only [SearchResult.toIndex] at hsr
    have h2 : i - 1 < is.length := by omega
    simp only [sparsePos, SearchResult.toOffsetsIndex, Res.ok_bind, h2, if_true, idx_lt h2, hget _ h2, Res.sub]
    by_cases h0 : i = 0
    · subst h0
      simp only [if_true]
      rw [if_pos (by omega)]
      simp only [Res.ok_bind, shiftBy]
      congr 2; omega
    · simp only [if_neg h0]
      rw [if_pos (by omega)]
      simp only [Res.ok_bind, shiftBy]
      congr 2; omega

theorem searchRows_le (rows : List SV) (v : SV) (side : Vx.Side) : (searchRows rows v side).toIndex ≤ rows.length := by
  unfold searchRows
  split <;> exact List.countP_le_length

end Vx.Tree
