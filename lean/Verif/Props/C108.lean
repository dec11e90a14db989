import Verif.Lemmas.TreeSearchFoR
/-!
# C108: sorted search does not depend on the encoding
-/
namespace Vx.Tree
open Vx.Spec

variable {env : Env L} {leafRows : L → List SV} {ok : L → Prop} {F : FloatOps} {own : L → Option OwnSearch}

theorem searchFn_ok (hl : LeafLaws env leafRows ok) (ho : OwnLaws env leafRows own ok) : ∀ (a : Arr L) (v : SV), WF env leafRows ok a →
    Regular env leafRows true a → v.isNull = false → SortedRows (rows env leafRows a) → ProbeFits (rows env leafRows a) v →
    Searchable env leafRows a v → ∀ (d : DType), d.eqIgnoreNullability (dtype env a) = true → ∀ side,
      searchFn env F own a ⟨d, v⟩ side = .ok (searchRows (rows env leafRows a) v side)
  | .leaf l, v, hw, hr, hn, hs, hv, hx, d, hd, side => by
    simp only [searchFn]
    cases h : own l with
    | none => exact search_generic hl hw hr hs hv d hd side
    | some o => exact ho l o v d side hw h hd hn hs hv hx
  | .flat (.prim p) vals vd, v, hw, hr, hn, hs, hv, hx, d, hd, side => by
    obtain ⟨q, rfl, hq⟩ := hx
    simp only [searchFn, dtype, Kind.dtype]
    rw [probe_self p vd.nullable q hq d hd]
    exact search_buffer hl hw hr hq hs side
  | .flat .bool vals vd, v, hw, hr, hn, hs, hv, _, d, hd, side => by
    simp only [searchFn]; exact search_generic hl hw hr hs hv d hd side
  | .flat .utf8 vals vd, v, hw, hr, hn, hs, hv, _, d, hd, side => by
    simp only [searchFn]; exact search_generic hl hw hr hs hv d hd side
  | .flat .binary vals vd, v, hw, hr, hn, hs, hv, _, d, hd, side => by
    simp only [searchFn]; exact search_generic hl hw hr hs hv d hd side
  | .null n, v, hw, hr, hn, hs, hv, _, d, hd, side => by
    simp only [searchFn]; exact search_generic hl hw hr hs hv d hd side
  | .const dt x n, v, hw, hr, hn, hs, hv, hx, d, hd, side => by
    simp only [rows] at hv ⊢
    exact search_const hv hx _ side
  | .chunked dt cs, v, hw, hr, hn, hs, hv, _, d, hd, side => by
    simp only [searchFn]; exact search_generic hl hw hr hs hv d hd side
  | .struct _ _ _ _, v, hw, hr, hn, hs, hv, _, d, hd, side => by
    simp only [searchFn]; exact search_generic hl hw hr hs hv d hd side
  | .ext _ _ _, v, hw, hr, hn, hs, hv, _, d, hd, side => by
    simp only [searchFn]; exact search_generic hl hw hr hs hv d hd side
  | .sparse is values n off fill, v, hw, hr, hn, hs, hv, hx, d, hd, side => by
    simp only [WF] at hw
    obtain ⟨w1, w2, w3, w4, w5⟩ := hw
    simp only [Regular] at hr
    obtain ⟨x1, x2, m, x3, x4, x5⟩ := hx
    obtain ⟨hmn, hrows⟩ := sparse_rows_block (fill := fill) w3 x3 w4 w5 x2
    simp only [rows] at hs hv ⊢
    rw [hrows] at hs hv ⊢
    have hs' : SortedRows (rows env leafRows values) := by
      unfold SortedRows at hs ⊢
      exact (List.pairwise_append.mp (List.pairwise_append.mp hs).1).2.1
    have hv' : ProbeFits (rows env leafRows values) v := fun x hx => hv x (by simp [hx])
    have ih := searchFn_ok hl ho values v w1 hr.1 hn hs' hv' x1 _ (eqIgnore_refl _) side
    simp only [searchFn, dtype, searchEntry]
    rw [cast_self _ _ hn _ (by simpa [dtype] using hd)]
    simp only [Res.ok_bind, hn, Bool.false_eq_true, if_false]
    rw [ih]
    simp only [Res.ok_bind]
    rw [sparsePos_block x3 x2 _ (by rw [w3]; exact searchRows_le _ _ _)]
    rw [searchRows_block m (n - m - is.length) fill _ v side x4 (fun h => x5 (by omega))]
  | .dict _ _, v, hw, hr, hn, hs, hv, _, d, hd, side => by
    simp only [searchFn]; exact search_generic hl hw hr hs hv d hd side
  | .runEnd _ _ _ _ _, v, hw, hr, hn, hs, hv, _, d, hd, side => by
    simp only [searchFn]; exact search_generic hl hw hr hs hv d hd side
  | .mapped (.for p r s) enc, v, hw, hr, hn, hs, hv, hx, d, hdd, side => by
    simp only [WF] at hw
    obtain ⟨w1, w2, w3⟩ := hw
    obtain ⟨x1, x2, ⟨q, rfl, x3⟩, x4⟩ := hx
    have hdt : ∃ n, dtype env enc = .prim (toUnsigned p) n ∧ p.isInt = true := by
      cases hd : dtype env enc <;> simp [hd, Codec.outType] at w2
      rename_i q n
      exact ⟨n, by rw [w2.1], w2.2⟩
    obtain ⟨n, hd, hp⟩ := hdt
    have hd' : dtype env (.mapped (.for p r s) enc) = .prim p n := by
      simp [dtype, hd, Codec.outType, hp]
    simp only [Regular] at hr
    simp only [searchFn]
    rw [hd']
    simp only [rows] at hs ⊢
    apply search_for hp x1 x2 hs q x3 n _ ⟨d, .prim ⟨p, q⟩⟩ (probe_self p n ⟨p, q⟩ rfl d (by rw [← hd']; exact hdd))
    intro hse nb c sd
    have hfit : ProbeFits (rows env leafRows enc) (encCell p c) := by
      intro row hrow
      rcases x2 row hrow with rfl | ⟨x, _, _, rfl⟩
      · rw [cmp_null rfl]; simp
      · simp [encCell, SV.cmp, PValue.partialCmp]
    have ih := searchFn_ok hl ho enc (encCell p c) w1 hr rfl hse hfit (x4 _) _ (eqIgnore_refl _) sd
    simp only [searchEntry]
    rw [cast_self _ _ rfl _ (by rw [hd]; cases nb <;> cases n <;> simp [DType.eqIgnoreNullability, DType.beq, DType.withNullability])]
    simp only [Res.ok_bind]
    exact ih
  | .mapped .zigzag _, v, hw, hr, hn, hs, hv, _, d, hd, side => by
    simp only [searchFn]; exact search_generic hl hw hr hs hv d hd side
  | .mapped (.alp _ _) _, v, hw, hr, hn, hs, hv, _, d, hd, side => by
    simp only [searchFn]; exact search_generic hl hw hr hs hv d hd side
  | .alpP _ _ _ _, v, hw, hr, hn, hs, hv, _, d, hd, side => by
    simp only [searchFn]; exact search_generic hl hw hr hs hv d hd side

/-- **C108.** On every array of any encoding whose rows are in order (nulls last), `search_sorted` for a probe that casts to a non-null value
`v` of the array's type finds exactly how many rows come before `v`, and says `Found` exactly if `v` occurs: the answer depends on the rows
alone.

Missing from the full statement (`Searchable`): constant arrays without rows (`C108_empty_constant`), sparse arrays with fill values
between the patches or on the wrong side of the probe (`C108_sparse_ignores_fill`), and frame-of-reference arrays of signed types probed
too far above the reference (`C02_for_search_wraps`). -/
theorem C108_search_sorted_partial (hl : LeafLaws env leafRows ok) (ho : OwnLaws env leafRows own ok) (a : Arr L)
    (hw : WF env leafRows ok a) (hr : Regular env leafRows true a) (hs : SortedRows (rows env leafRows a)) (t : Scalar) (v : SV)
    (ht : t.cast F (dtype env a) = .ok ⟨dtype env a, v⟩) (hn : v.isNull = false) (hv : ProbeFits (rows env leafRows a) v)
    (hx : Searchable env leafRows a v) (side : Vx.Side) :
    a.search env F own t side = .ok (searchRows (rows env leafRows a) v side) := by
  unfold Arr.search searchEntry
  rw [ht]
  simp only [Res.ok_bind, hn, Bool.false_eq_true, if_false]
  exact searchFn_ok hl ho a v hw hr hn hs hv hx _ (eqIgnore_refl _) side

/-- The answer in words: the rows before the reported position are smaller than the probe (not greater, on the right side), the rows from
there on are not, and `Found` means that the probe occurs. -/
theorem C108_meaning {rows : List SV} {v : SV} (hs : SortedRows rows) (hv : ProbeFits rows v) (side : Vx.Side) :
    (searchRows rows v side).toIndex ≤ rows.length ∧
    (∀ i (h : i < rows.length), rowBefore v side rows[i] = decide (i < (searchRows rows v side).toIndex)) ∧
    ((searchRows rows v side).toFound.isSome = true ↔ v ∈ rows) := by
  refine ⟨searchRows_le rows v side, ?_, ?_⟩
  · let c : Nat → Ordering := fun i => if h : i < rows.length then (SV.cmp rows[i] v).getD .gt else .gt
    have hcx : ∀ i (h : i < rows.length), SV.cmp rows[i] v = some (c i) := by
      intro i h
      have := hv rows[i] (List.getElem_mem h)
      simp only [c, h, dif_pos]
      cases h' : SV.cmp rows[i] v with
      | none => exact absurd h' this
      | some o => rfl
    have hm := monoCmp_rows hs c hcx
    have hidx : (searchRows rows v side).toIndex = rows.countP (rowBefore v side) := by
      unfold searchRows; split <;> rfl
    rw [hidx]
    obtain ⟨p, hp, hspl, _⟩ := searchSorted_spec (fun i h => rfl) hm side (ic := fun i => .ok (some (c i)))
    have hb : ∀ i (h : i < rows.length), rowBefore v side rows[i] = decide (i < p) := by
      intro i h
      simp only [rowBefore, hcx i h]
      cases side with
      | left =>
        by_cases hi : i < p
        · simp [hspl.1 i hi, hi]
        · have := hspl.2 i (by omega) h
          cases hc : c i <;> simp_all
      | right =>
        by_cases hi : i < p
        · have := hspl.1 i hi
          cases hc : c i <;> simp_all
        · simp [hspl.2 i (by omega) h, hi]
    have hcount : rows.countP (rowBefore v side) = p := by
      apply countP_eq_of_split _ _ _ hp
      · intro i h hi; rw [hb i h]; simpa using hi
      · intro i h hi; rw [hb i h]; simpa using hi
    rw [hcount]; exact hb
  · have : (searchRows rows v side).toFound.isSome = rows.any (fun x => SV.cmp x v == some .eq) := by
      unfold searchRows
      cases rows.any (fun x => SV.cmp x v == some .eq) <;> rfl
    rw [this, List.any_eq_true]
    constructor
    · rintro ⟨x, hx, he⟩
      rw [beq_iff_eq] at he
      rw [← (Vx.cmp_eq x v).mp he]; exact hx
    · intro h
      exact ⟨v, h, by rw [cmp_self]; rfl⟩

/-- **C108 (same rows, same answer).** Two arrays of the same type and rows, whatever their encodings, answer alike. -/
theorem C108_same_answer_partial (hl : LeafLaws env leafRows ok) (ho : OwnLaws env leafRows own ok) (a b : Arr L)
    (hwa : WF env leafRows ok a) (hra : Regular env leafRows true a) (hwb : WF env leafRows ok b) (hrb : Regular env leafRows true b)
    (hab : rows env leafRows a = rows env leafRows b) (hd : dtype env a = dtype env b)
    (hs : SortedRows (rows env leafRows a)) (t : Scalar) (v : SV) (ht : t.cast F (dtype env a) = .ok ⟨dtype env a, v⟩) (hn : v.isNull = false)
    (hv : ProbeFits (rows env leafRows a) v) (hxa : Searchable env leafRows a v) (hxb : Searchable env leafRows b v) (side : Vx.Side) :
    a.search env F own t side = b.search env F own t side := by
  rw [C108_search_sorted_partial hl ho a hwa hra hs t v ht hn hv hxa side,
    C108_search_sorted_partial hl ho b hwb hrb (hab ▸ hs) t v (hd ▸ ht) hn (hab ▸ hv) hxb side, hab]

/-- **C108 (null probe).** A null of the array's own type is refused on every array. -/
theorem C108_null_refused (a : Arr L) (side : Vx.Side) : a.search env F own ⟨dtype env a, .null⟩ side = .err := by
  unfold Arr.search searchEntry Scalar.cast SV.cast
  cases (dtype env a).isNullable <;> simp [SV.isNull, eqIgnore_refl, Res.bind]

/-! ### many probes -/

theorem mapM_ok {α β : Type} (f : α → Res β) (g : α → β) : ∀ (xs : List α), (∀ x ∈ xs, f x = .ok (g x)) → Res.mapM f xs = .ok (xs.map g)
  | [], _ => rfl
  | x :: xs, h => by
    simp [h x List.mem_cons_self, mapM_ok f g xs (fun y hy => h y (List.mem_cons_of_mem _ hy))]

theorem mapM_pairs {α β : Type} (f : α → Res β) : ∀ (xs : List α) (ys : List β), Res.mapM f xs = .ok ys ↔
    ys.length = xs.length ∧ ∀ (i : Nat) (x : α) (y : β), xs[i]? = some x → ys[i]? = some y → f x = .ok y
  | [], ys => by
    cases ys with
    | nil => simp [Res.mapM]
    | cons y ys => simp [Res.mapM]
  | x :: xs, ys => by
    simp only [Res.mapM, Res.bind_eq_ok]
    constructor
    · rintro ⟨y, hy, zs, hz, h⟩
      cases h
      obtain ⟨h1, h2⟩ := (mapM_pairs f xs zs).mp hz
      refine ⟨by simp [h1], ?_⟩
      intro i x' y' hx' hy'
      cases i with
      | zero => simp at hx' hy'; rw [← hx', ← hy']; exact hy
      | succ i => simp at hx' hy'; exact h2 i x' y' hx' hy'
    · rintro ⟨h1, h2⟩
      cases ys with
      | nil => simp at h1
      | cons y ys =>
        refine ⟨y, h2 0 x y rfl rfl, ys, (mapM_pairs f xs ys).mpr ⟨by simpa using h1, fun i x' y' hx' hy' => h2 (i + 1) x' y' (by simpa using hx') (by simpa using hy')⟩, rfl⟩

/-- **C108 (many probes).** The bulk form answers every pair of a probe and a side as the single form would; surplus probes or sides are
ignored. Missing: leaf encodings with a bulk search of their own (bit-packing's is wrong, `C02_bitpack_many_ignores_patches`). -/
theorem C108_many_partial (hl : LeafLaws env leafRows ok) (ho : OwnLaws env leafRows own ok) (a : Arr L)
    (hleaf : ∀ l, a = .leaf l → own l = none) (hw : WF env leafRows ok a) (hr : Regular env leafRows true a)
    (hs : SortedRows (rows env leafRows a)) (ts : List (Scalar × SV))
    (ht : ∀ p ∈ ts, p.1.cast F (dtype env a) = .ok ⟨dtype env a, p.2⟩ ∧ p.2.isNull = false ∧ ProbeFits (rows env leafRows a) p.2 ∧
      Searchable env leafRows a p.2) (sides : List Vx.Side) :
    a.searchMany env F own (ts.map (·.1)) sides = .ok (((ts.map (·.2)).zip sides).map (fun p => searchRows (rows env leafRows a) p.1 p.2)) := by
  have hcast : Res.mapM (fun t : Scalar => t.cast F (dtype env a)) (ts.map (·.1)) = .ok ((ts.map (·.2)).map (fun v => ⟨dtype env a, v⟩)) := by
    have : Res.mapM (fun t : Scalar => t.cast F (dtype env a)) (ts.map (·.1)) =
        Res.mapM (fun p : Scalar × SV => p.1.cast F (dtype env a)) ts := by
      clear ht
      induction ts with
      | nil => rfl
      | cons t ts ih => simp [ih]
    rw [this, mapM_ok _ (fun p : Scalar × SV => (⟨dtype env a, p.2⟩ : Scalar)) ts (fun p hp => (ht p hp).1), List.map_map]
    rfl
  have hown : Res.mapM (fun p : Scalar × Vx.Side => searchFn env F own a p.1 p.2)
      (((ts.map (·.2)).map (fun v => (⟨dtype env a, v⟩ : Scalar))).zip sides) =
      .ok (((ts.map (·.2)).zip sides).map (fun p => searchRows (rows env leafRows a) p.1 p.2)) := by
    have hz : ((ts.map (·.2)).map (fun v => (⟨dtype env a, v⟩ : Scalar))).zip sides =
        ((ts.map (·.2)).zip sides).map (fun p => ((⟨dtype env a, p.1⟩ : Scalar), p.2)) := by
      rw [List.zip_map_left]; rfl
    rw [hz, mapM_ok _ (fun p : Scalar × Vx.Side => searchRows (rows env leafRows a) p.1.value p.2), List.map_map]
    · rfl
    · intro x hx
      obtain ⟨p, hp, rfl⟩ := List.mem_map.mp hx
      obtain ⟨q, hq, hq'⟩ := List.mem_map.mp (List.of_mem_zip hp).1
      obtain ⟨_, h2, h3, h4⟩ := ht q hq
      rw [hq'] at h2 h3 h4
      exact searchFn_ok hl ho a p.1 hw hr h2 hs h3 h4 _ (eqIgnore_refl _) p.2
  unfold Arr.searchMany
  by_cases ho' : ownSearch own a = true
  · rw [if_pos ho', hcast]
    simp only [Res.ok_bind]
    cases a with
    | leaf l => simp [ownSearch, hleaf l rfl] at ho'
    | _ => exact hown
  · rw [if_neg ho']
    have hz : (ts.map (·.1)).zip sides = (ts.zip sides).map (fun p => (p.1.1, p.2)) := by rw [List.zip_map_left]; rfl
    have hz2 : (ts.map (·.2)).zip sides = (ts.zip sides).map (fun p => (p.1.2, p.2)) := by rw [List.zip_map_left]; rfl
    have : Res.mapM (fun p : Scalar × Vx.Side => a.search env F own p.1 p.2) ((ts.zip sides).map (fun p => (p.1.1, p.2))) =
        Res.mapM (fun p : (Scalar × SV) × Vx.Side => a.search env F own p.1.1 p.2) (ts.zip sides) := by
      generalize ts.zip sides = l
      induction l with
      | nil => rfl
      | cons t ts ih => simp [ih]
    rw [hz, hz2, this, mapM_ok _ (fun p : (Scalar × SV) × Vx.Side => searchRows (rows env leafRows a) p.1.2 p.2), List.map_map]
    · rfl
    · intro p hp
      obtain ⟨h1, h2, h3, h4⟩ := ht p.1 (List.of_mem_zip hp).1
      exact C108_search_sorted_partial hl ho a hw hr hs p.1.1 p.1.2 h1 h2 h3 h4 p.2

/-! ### probes given as `u64` -/

theorem numCast_self (q : PValue) (h : q.pt.isFloat = false) : q.numCast F q.pt = some q := by
  simp only [PValue.numCast, h]
  exact PValue.intCast_self q

theorem searchU64_flat {p : PType} {vals : List SV} {vd : TVal (Arr L)} {b : BitVec 64} {q : PValue} {side : Vx.Side}
    (h : PValue.numCast F ⟨.u64, b⟩ p = some q) :
    (Arr.flat (.prim p) vals vd).searchU64 env F own b side = searchBuffer env vals vd (.ok q) side := by
  simp only [Arr.searchU64, h]

/-- **C108 (`u64` probes, `u64` arrays).** On arrays of type `u64`, of any encoding, `search_sorted_u64` is `search_sorted`. Missing: every
other type, where only primitive, sparse and frame-of-reference arrays convert the number (`C108_u64_dict`, `C108_u64_constant`). -/
theorem C108_u64_partial (hl : LeafLaws env leafRows ok) (ho : OwnLaws env leafRows own ok) (a : Arr L)
    (hleaf : ∀ l, a = .leaf l → own l = none) (hw : WF env leafRows ok a) (hr : Regular env leafRows true a)
    (hs : SortedRows (rows env leafRows a)) (n : Bool) (hd : dtype env a = .prim .u64 n) (b : BitVec 64)
    (hv : ProbeFits (rows env leafRows a) (.prim ⟨.u64, b⟩)) (hx : Searchable env leafRows a (.prim ⟨.u64, b⟩)) (side : Vx.Side) :
    a.searchU64 env F own b side = .ok (searchRows (rows env leafRows a) (.prim ⟨.u64, b⟩) side) := by
  have hi : ∀ m, DType.eqIgnoreNullability (.prim .u64 m) (dtype env a) = true := by
    intro m; rw [hd]; cases m <;> cases n <;> simp [DType.eqIgnoreNullability, DType.beq, DType.withNullability]
  have hg : ∀ m, searchGeneric env a (u64Scalar m b) side = .ok (searchRows (rows env leafRows a) (.prim ⟨.u64, b⟩) side) :=
    fun m => search_generic hl hw hr hs hv (.prim .u64 m) (hi m) side
  have hf : ∀ m, searchFn env F own a (u64Scalar m b) side = .ok (searchRows (rows env leafRows a) (.prim ⟨.u64, b⟩) side) :=
    fun m => searchFn_ok (F := F) hl ho a (.prim ⟨.u64, b⟩) hw hr rfl hs hv hx (.prim .u64 m) (hi m) side
  clear hi hv hx ho
  cases a with
  | leaf l => simp only [Arr.searchU64, hleaf l rfl]; rw [hg]
  | flat k vals vd =>
    cases k with
    | prim p =>
      have hp : p = .u64 := by simp [dtype, Kind.dtype] at hd; exact hd.1
      subst hp
      have hc : PValue.numCast F ⟨.u64, b⟩ .u64 = some ⟨.u64, b⟩ := numCast_self ⟨.u64, b⟩ rfl
      rw [searchU64_flat hc, search_buffer hl hw hr rfl hs side]
    | _ => simp only [Arr.searchU64]; rw [hg]
  | mapped c enc =>
    cases c with
    | «for» p r s => simp only [Arr.searchU64]; rw [hf]
    | _ => simp only [Arr.searchU64]; rw [hg]
  | const dt x n => simp only [Arr.searchU64]; rw [hf]
  | sparse is values n off fill => simp only [Arr.searchU64]; rw [hf]
  | _ => simp only [Arr.searchU64]; rw [hg]

/-- **C108 (many `u64` probes).** The bulk form answers as the single form would, pair by pair, and fails exactly if one of them does. Missing: leaf
encodings with a bulk search of their own (bit-packing truncates the probes, `C02_bitpack_u64_many_truncates`). -/
theorem C108_u64_many_partial (a : Arr L) (hleaf : ∀ l, a = .leaf l → own l = none) (vs : List (BitVec 64)) (sides : List Vx.Side)
    (rs : List SearchResult) : a.searchU64Many env F own vs sides = .ok rs ↔
      rs.length = min vs.length sides.length ∧ ∀ (i : Nat) v s r, vs[i]? = some v → sides[i]? = some s → rs[i]? = some r →
        a.searchU64 env F own v s = .ok r := by
  have h : a.searchU64Many env F own vs sides = Res.mapM (fun p : BitVec 64 × Vx.Side => a.searchU64 env F own p.1 p.2) (vs.zip sides) := by
    cases a with
    | leaf l => simp only [Arr.searchU64Many, hleaf l rfl]
    | _ => rfl
  rw [h, mapM_pairs]
  simp only [List.length_zip]
  constructor
  · rintro ⟨h1, h2⟩
    refine ⟨h1, fun i v s r hv hs hr => h2 i (v, s) r ?_ hr⟩
    rw [List.getElem?_zip_eq_some]; exact ⟨hv, hs⟩
  · rintro ⟨h1, h2⟩
    refine ⟨h1, fun i p r hp hr => ?_⟩
    rw [List.getElem?_zip_eq_some] at hp
    exact h2 i p.1 p.2 r hp.1 hp.2 hr

/-- **C108 (`u64` probes, primitive arrays).** On a primitive array of any integer type without nulls the number is searched for as a number,
also when the type cannot represent it. -/
theorem C108_u64_primitive (hl : LeafLaws env leafRows ok) (p : PType) (hp : p.isInt = true) (xs : List (BitVec p.bits)) (vd : TVal (Arr L))
    (hw : WF env leafRows ok (.flat (.prim p) (xs.map (fun x => .prim ⟨p, x⟩)) vd))
    (hr : Regular env leafRows true (.flat (.prim p) (xs.map (fun x => .prim ⟨p, x⟩)) vd))
    (hnn : rows env leafRows (.flat (.prim p) (xs.map (fun x => .prim ⟨p, x⟩)) vd) = xs.map (fun x => .prim ⟨p, x⟩))
    (hs : (xs.map (fun x => (PValue.mk p x).toInt)).Pairwise (· ≤ ·)) (b : BitVec 64) (side : Vx.Side) :
    (Arr.flat (.prim p) (xs.map (fun x => .prim ⟨p, x⟩)) vd).searchU64 env F own b side =
      .ok (Spec.searchSorted (xs.map (fun x => (PValue.mk p x).toInt)) (b.toNat : Int) side) := by
  have hf : p.isFloat = false := by cases p <;> first | rfl | cases hp
  have hkey : ∀ x : BitVec p.bits, PValue.key ⟨p, x⟩ = (PValue.mk p x).toInt := by
    intro x; simp [PValue.key, hf]
  have hrows : xs.map (fun x => SV.prim ⟨p, x⟩) = (xs.map (PValue.mk p)).map SV.prim ++ List.replicate 0 SV.null := by simp
  have hpt : ∀ x ∈ xs.map (PValue.mk p), x.pt = p := by
    intro x hx; obtain ⟨y, _, rfl⟩ := List.mem_map.mp hx; rfl
  have hks : (xs.map (PValue.mk p)).map PValue.key = xs.map (fun x => (PValue.mk p x).toInt) := by
    rw [List.map_map]; apply List.map_congr_left; intro x _; exact hkey x
  have hsr : SortedRows (rows env leafRows (.flat (.prim p) (xs.map (fun x => .prim ⟨p, x⟩)) vd)) := by
    rw [hnn, hrows]
    exact (sorted_prims p _ hpt 0).mpr (by rw [hks]; exact hs)
  have hcast : PValue.numCast F ⟨.u64, b⟩ p = intCast p (b.toNat : Int) := by
    have h1 : (PValue.mk .u64 b).toInt = (b.toNat : Int) := rfl
    simp only [PValue.numCast, hf, h1]
    rfl
  simp only [Arr.searchU64, hcast, intCast]
  by_cases hin : p.inRange (b.toNat : Int) = true
  · simp only [hin, if_true]
    rw [search_buffer hl hw hr rfl hsr side, hnn, hrows, searchRows_prims p _ hpt 0 _ rfl side, hks]
    have : PValue.key ⟨p, BitVec.ofInt p.bits (b.toNat : Int)⟩ = (b.toNat : Int) := by
      rw [hkey]
      have h := PValue.intCast_some (q := p) (v := (b.toNat : Int)) (w := ⟨p, BitVec.ofInt p.bits (b.toNat : Int)⟩) (by simp [intCast, hin])
      exact h.2
    rw [this]
  · simp only [hin, Bool.false_eq_true, if_false]
    have hbig : ∀ x : BitVec p.bits, (PValue.mk p x).toInt < (b.toNat : Int) := by
      intro x
      have h0 : (0 : Int) ≤ (b.toNat : Int) := Int.natCast_nonneg _
      have h2 := x.isLt
      simp only [PType.inRange] at hin
      simp only [PValue.toInt]
      cases hsg : p.isSigned with
      | true =>
        simp only [hsg, if_true, decide_eq_true_eq] at hin ⊢
        have h3 := BitVec.toInt_lt (x := x)
        have h4 : (0 : Int) < 2 ^ (p.bits - 1) := Int.pow_pos (by decide)
        omega
      | false =>
        simp only [hsg, Bool.false_eq_true, if_false, decide_eq_true_eq] at hin ⊢
        have h5 : ((x.toNat : Nat) : Int) < 2 ^ p.bits := by exact_mod_cast h2
        omega
    have hnm : (b.toNat : Int) ∉ xs.map (fun x => (PValue.mk p x).toInt) := by
      intro h
      obtain ⟨x, _, hx⟩ := List.mem_map.mp h
      have := hbig x
      omega
    have hcount : insertionPoint (xs.map (fun x => (PValue.mk p x).toInt)) (b.toNat : Int) side = xs.length := by
      cases side
      · simp only [insertionPoint]
        rw [List.countP_eq_length.mpr, List.length_map]
        intro y hy
        obtain ⟨x, _, rfl⟩ := List.mem_map.mp hy
        simpa using hbig x
      · simp only [insertionPoint]
        rw [List.countP_eq_length.mpr, List.length_map]
        intro y hy
        obtain ⟨x, _, rfl⟩ := List.mem_map.mp hy
        simpa using Int.le_of_lt (hbig x)
    simp [Spec.searchSorted, hnm, hcount]

/-! ### Concrete arrays -/

def noOwn : Empty → Option OwnSearch := nofun
theorem noOwn_ok : OwnLaws noLeaves noRows noOwn (fun _ => True) := nofun

def i32s (n : Bool) (x : Int) : Scalar := ⟨.prim .i32 n, i32 x⟩

/-- Frame of reference, shifted by one, over a dictionary: -10, -6, -6, 0, null. -/
def exSorted : Arr Empty := .mapped (.for .i32 (BitVec.ofInt 32 (-10)) 1)
  (.dict (.flat (.prim .u8) [u8v 0, u8v 1, u8v 1, u8v 2, u8v 3] .nonNullable)
    (.flat (.prim .u32) [u32v 0, u32v 2, u32v 5, u32v 0] (.array (bools [true, true, true, false]))))

theorem exSorted_rows : rows noLeaves noRows exSorted = [i32 (-10), i32 (-6), i32 (-6), i32 0, .null] := by rfl

theorem exSorted_WF : WF noLeaves noRows (fun _ => True) exSorted := by
  have hrows : rows noLeaves noRows (.dict (.flat (.prim .u8) [u8v 0, u8v 1, u8v 1, u8v 2, u8v 3] .nonNullable)
    (.flat (.prim .u32) [u32v 0, u32v 2, u32v 5, u32v 0] (.array (bools [true, true, true, false])))) =
      [u32v 0, u32v 2, u32v 2, u32v 5, .null] := by rfl
  have hc : rows noLeaves noRows (.flat (.prim .u8) [u8v 0, u8v 1, u8v 1, u8v 2, u8v 3] .nonNullable) = [u8v 0, u8v 1, u8v 1, u8v 2, u8v 3] := by rfl
  have hvals : rows noLeaves noRows (.flat (.prim .u32) [u32v 0, u32v 2, u32v 5, u32v 0] (.array (bools [true, true, true, false]))) =
      [u32v 0, u32v 2, u32v 5, .null] := by rfl
  refine ⟨⟨⟨?_, trivial⟩, ⟨?_, ?_⟩, ⟨.u8, rfl, rfl⟩, ?_⟩, rfl, ?_⟩
  · intro x hx; simp [u8v] at hx; rcases hx with rfl | rfl | rfl | rfl <;> rfl
  · intro x hx; simp [u32v] at hx; rcases hx with rfl | rfl | rfl | rfl <;> rfl
  · exact bools_WF [true, true, true, false]
  · rw [hc, hvals]
    intro r hr
    simp at hr
    rcases hr with rfl | rfl | rfl | rfl
    · exact ⟨0, rfl, by decide⟩
    · exact ⟨1, rfl, by decide⟩
    · exact ⟨2, rfl, by decide⟩
    · exact ⟨3, rfl, by decide⟩
  · rw [hrows]
    intro r hr
    simp at hr
    rcases hr with rfl | rfl | rfl | rfl
    · exact Or.inr ⟨_, rfl⟩
    · exact Or.inr ⟨_, rfl⟩
    · exact Or.inr ⟨_, rfl⟩
    · exact Or.inl rfl

theorem exSorted_Regular : Regular noLeaves noRows true exSorted := by
  have hvals : rows noLeaves noRows (.flat (.prim .u32) [u32v 0, u32v 2, u32v 5, u32v 0] (.array (bools [true, true, true, false]))) =
      [u32v 0, u32v 2, u32v 5, .null] := by rfl
  refine ⟨trivial, trivial, ?_⟩
  intro _ r hr
  rw [hvals] at hr
  simp at hr
  rcases hr with rfl | rfl | rfl | rfl
  · exact Or.inr rfl
  · exact Or.inr rfl
  · exact Or.inr rfl
  · exact Or.inl rfl

theorem exSorted_searchable (x : Int) (h : x = -6 ∨ x = -5) : Searchable noLeaves noRows exSorted (i32 x) := by
  have hrows : rows noLeaves noRows (.dict (.flat (.prim .u8) [u8v 0, u8v 1, u8v 1, u8v 2, u8v 3] .nonNullable)
    (.flat (.prim .u32) [u32v 0, u32v 2, u32v 5, u32v 0] (.array (bools [true, true, true, false])))) =
      [u32v 0, u32v 2, u32v 2, u32v 5, .null] := by rfl
  refine ⟨by decide, ?_, ⟨BitVec.ofInt 32 x, rfl, fun _ => ?_⟩, fun _ => trivial⟩
  · rw [hrows]
    intro r hr
    simp at hr
    rcases hr with rfl | rfl | rfl | rfl
    · exact Or.inr ⟨BitVec.ofInt 32 (-10), by decide, by decide, rfl⟩
    · exact Or.inr ⟨BitVec.ofInt 32 (-6), by decide, by decide, rfl⟩
    · exact Or.inr ⟨BitVec.ofInt 32 0, by decide, by decide, rfl⟩
    · exact Or.inl rfl
  · rcases h with rfl | rfl <;> decide

theorem exSorted_sorted : SortedRows (rows noLeaves noRows exSorted) := by
  rw [exSorted_rows]
  unfold SortedRows
  decide

/-- The hypotheses of `C108_search_sorted_partial` are met by a shifted frame-of-reference array over a dictionary with a null; the answers. -/
example : exSorted.search noLeaves noFloats noOwn (i32s false (-6)) .right = .ok (.found 3) ∧
    exSorted.search noLeaves noFloats noOwn (i32s false (-5)) .left = .ok (.notFound 3) := by
  have hfit : ∀ x : Int, ProbeFits (rows noLeaves noRows exSorted) (i32 x) := by
    intro x
    rw [exSorted_rows]
    intro r hr
    simp at hr
    rcases hr with rfl | rfl | rfl | rfl <;> simp [i32, SV.cmp, PValue.partialCmp]
  constructor
  · rw [C108_search_sorted_partial noLeaves_ok noOwn_ok exSorted exSorted_WF exSorted_Regular exSorted_sorted (i32s false (-6)) (i32 (-6)) rfl rfl
      (hfit _) (exSorted_searchable _ (Or.inl rfl)) .right, exSorted_rows]
    decide
  · rw [C108_search_sorted_partial noLeaves_ok noOwn_ok exSorted exSorted_WF exSorted_Regular exSorted_sorted (i32s false (-5)) (i32 (-5)) rfl rfl
      (hfit _) (exSorted_searchable _ (Or.inr rfl)) .left, exSorted_rows]
    decide

/-- The same answers by running the model. -/
example : exSorted.search noLeaves noFloats noOwn (i32s false (-6)) .right = .ok (.found 3) := by decide +kernel

/-- **C108 is false of a constant array without rows.** It claims to have found the probe. -/
theorem C108_empty_constant : WF noLeaves noRows (fun _ => True) (.const (.prim .i32 false) (i32 5) 0) ∧
    (Arr.const (.prim .i32 false) (i32 5) 0).search noLeaves noFloats noOwn (i32s false 5) .left = .ok (.found 0) ∧
    searchRows (rows noLeaves noRows (.const (.prim .i32 false) (i32 5) 0)) (i32 5) .left = .notFound 0 := by
  refine ⟨rfl, by decide +kernel, by decide⟩

def fillBefore : Arr Empty := .sparse [2] (.flat (.prim .i32) [i32 5] .nonNullable) 3 0 (i32 1)

/-- **C108 is false of sparse arrays with fill values.** The rows are 1, 1, 5 and the probe is 1. -/
theorem C108_sparse_ignores_fill : rows noLeaves noRows fillBefore = [i32 1, i32 1, i32 5] ∧ SortedRows (rows noLeaves noRows fillBefore) ∧
    fillBefore.search noLeaves noFloats noOwn (i32s false 1) .left = .ok (.notFound 2) ∧
    searchRows (rows noLeaves noRows fillBefore) (i32 1) .left = .found 0 := by
  have h : rows noLeaves noRows fillBefore = [i32 1, i32 1, i32 5] := by rfl
  refine ⟨h, ?_, by decide +kernel, by rw [h]; decide⟩
  rw [h]
  unfold SortedRows
  decide

def dictU32 : Arr Empty := .dict (.flat (.prim .u8) [u8v 0, u8v 1] .nonNullable) (.flat (.prim .u32) [u32v 7, u32v 9] .nonNullable)

/-- **C108 is false of `search_sorted_u64`** on a dictionary of `u32` values: 7 is the first row, and is reported missing and beyond the end,
while `search_sorted` finds it. -/
theorem C108_u64_dict : rows noLeaves noRows dictU32 = [u32v 7, u32v 9] ∧
    dictU32.searchU64 noLeaves noFloats noOwn 7#64 .left = .ok (.notFound 2) ∧
    dictU32.search noLeaves noFloats noOwn (u64Scalar false 7#64) .left = .ok (.found 0) := by
  refine ⟨rfl, by decide +kernel, by decide +kernel⟩

/-- The same on a constant array. -/
theorem C108_u64_constant : (Arr.const (.prim .u32 false) (u32v 7) 2 : Arr Empty).searchU64 noLeaves noFloats noOwn 7#64 .left = .ok (.notFound 2) ∧
    (Arr.const (.prim .u32 false) (u32v 7) 2 : Arr Empty).search noLeaves noFloats noOwn (u64Scalar false 7#64) .left = .ok (.found 0) := by
  refine ⟨by decide +kernel, by decide +kernel⟩

/-- **The bulk form does not refuse nulls.** A null probe is an error for one probe and an answer for a list of one. -/
theorem C108_many_null : (Arr.const (.prim .i32 true) (i32 5) 2 : Arr Empty).search noLeaves noFloats noOwn ⟨.prim .i32 true, .null⟩ .left = .err ∧
    (Arr.const (.prim .i32 true) (i32 5) 2 : Arr Empty).searchMany noLeaves noFloats noOwn [⟨.prim .i32 true, .null⟩] [.left] = .ok [.notFound 2] := by
  refine ⟨by decide +kernel, by decide +kernel⟩

/-- Many probes over the same array, and a `u64` probe too large for the type. -/
example : exSorted.searchMany noLeaves noFloats noOwn [i32s false (-6), i32s true (-5)] [.right, .left] = .ok [.found 3, .notFound 3] ∧
    (Arr.flat (.prim .u8) [u8v 3, u8v 200] .nonNullable : Arr Empty).searchU64 noLeaves noFloats noOwn 300#64 .left = .ok (.notFound 2) := by
  refine ⟨by decide +kernel, by decide +kernel⟩

end Vx.Tree
