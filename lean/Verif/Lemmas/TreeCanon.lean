import Verif.Lemmas.TreeShadow
/-! # Decoding and logical validity of trees -/
namespace Vx.Tree
open Vx.Spec (InBounds FitsLen)

variable {L : Type} {env : BEnv L} {leafRows : L → List SV} {ok : L → Prop}

/-- What decoding promises. -/
def Decoded (env : BEnv L) (leafRows : L → List SV) (ok : L → Prop) (r : Res (Arr L)) (a : Arr L) : Prop :=
  ∃ k vals v, r = .ok (.flat k vals v) ∧ WF env.toEnv leafRows ok (.flat k vals v) ∧ Keep env leafRows (.flat k vals v) a ∧
    rows env.toEnv leafRows (.flat k vals v) = rows env.toEnv leafRows a

theorem intoBools_length (lv : LogicalValidity) : lv.intoBools.length = lv.len := by
  cases lv <;> simp [LogicalValidity.intoBools, LogicalValidity.len]

theorem masked_nonNulls (vals : List SV) (m : List Bool) (hl : vals.length = m.length) (hv : ∀ x ∈ vals, x.isNull = false) :
    masked vals (nonNulls (masked vals m)) = masked vals m := by
  rw [nonNulls_masked _ _ hl hv]

theorem nonNulls_append (xs ys : List SV) : nonNulls (xs ++ ys) = nonNulls xs ++ nonNulls ys := by simp [nonNulls]

theorem dflt_has (k : Kind) : k.has k.dflt = true := by
  cases k <;> simp [Kind.has, Kind.dflt]

theorem inst_has {dt : DType} {k : Kind} {x : SV} (hk : kindOf dt = some k) (hi : inst x dt = true) (hx : x.isNull = false) : k.has x = true := by
  cases dt <;> simp [kindOf] at hk <;> subst hk <;> cases x <;> simp_all [inst, Kind.has, SV.isNull]

theorem kind_dtype {dt : DType} {k : Kind} (hk : kindOf dt = some k) : k.dtype dt.isNullable = dt := by
  cases dt <;> simp [kindOf] at hk <;> subst hk <;> simp [Kind.dtype, DType.isNullable]

theorem canon_const {o : Bulks L} (dt : DType) (x : SV) (n : Nat) (hw : WF env.toEnv leafRows ok (.const dt x n))
    (hn : Nice env.toEnv leafRows (.const dt x n)) : Decoded env leafRows ok (canonFn env o (.const dt x n)) (.const dt x n) := by
  simp only [WF] at hw
  simp only [Nice] at hn
  obtain ⟨k, hk⟩ := Option.isSome_iff_exists.mp hn
  have hdt := kind_dtype hk
  refine ⟨k, _, _, by simp only [canonFn, hk]; rfl, ?_, ⟨?_, ?_, ?_, ?_⟩, ?_⟩
  · simp only [WF]
    refine ⟨?_, ?_⟩
    · intro y hy
      have := List.eq_of_mem_replicate hy
      subst this
      cases hx : x.isNull with
      | true => simpa using dflt_has k
      | false => simpa using inst_has hk hw hx
    · simp only [constValidity]
      split
      · trivial
      · split <;> trivial
  · simp only [depth, constValidity]
    split
    · simp [depthV]
    · split <;> simp [depthV]
  · simp only [dtype]
    rw [← hdt]
    congr 1
    simp only [constValidity]
    rw [hdt]
    cases hnn : dt.isNullable with
    | false => simp [TVal.nullable]
    | true => cases x.isNull <;> simp [TVal.nullable]
  · intro _
    simp only [chunkFree, constValidity]
    split
    · rfl
    · split <;> rfl
  · intro _
    simp only [Nice, constValidity]
    split
    · trivial
    · split <;> trivial
  · simp only [rows, List.length_replicate, constValidity]
    cases hx : x.isNull with
    | true =>
      have hxn : x = .null := by cases x <;> simp_all [SV.isNull]
      subst hxn
      have hnul : dt.isNullable = true := by cases dt <;> simpa [inst] using hw
      simp only [hnul, Bool.not_true, Bool.false_eq_true, if_false, if_true, maskOf]
      have := masked_replicate_false (List.replicate n k.dflt)
      simpa using this
    | false =>
      have h1 := masked_replicate_true (List.replicate n x)
      simp only [List.length_replicate] at h1
      cases hnn : dt.isNullable <;> simpa [maskOf] using h1

/-- The chunks decoded one after the other. -/
theorem canon_each {o : Bulks L} {d : Nat} (H : BLaws env leafRows ok o d) (dt : DType) (k : Kind) (hk : kindOf dt = some k) : ∀ (cs : List (Arr L)),
    (∀ c ∈ cs, WF env.toEnv leafRows ok c) → (∀ c ∈ cs, Nice env.toEnv leafRows c) → (∀ c ∈ cs, depth c ≤ d) →
    (∀ c ∈ cs, dtype env.toEnv c = dt) →
    ∃ fs : List (Kind × List SV × TVal (Arr L)), Res.mapM (fun c => do let d ← o.canon c; asFlat d) cs = .ok fs ∧
      (∀ x ∈ fs.flatMap (fun f => f.2.1), k.has x = true) ∧
      (fs.flatMap (fun f => f.2.1)).length = (nonNulls (rowsEach env.toEnv leafRows cs).flatten).length ∧
      masked (fs.flatMap (fun f => f.2.1)) (nonNulls (rowsEach env.toEnv leafRows cs).flatten) = (rowsEach env.toEnv leafRows cs).flatten ∧
      (dt.isNullable = false → (rowsEach env.toEnv leafRows cs).flatten = fs.flatMap (fun f => f.2.1))
  | [], _, _, _, _ => ⟨[], rfl, by simp, by simp [rowsEach, nonNulls], by simp [rowsEach, masked], by simp [rowsEach]⟩
  | c :: cs, hw, hn, hd, ht => by
    obtain ⟨fs, h1, h2, h3, h4, h5⟩ := canon_each H dt k hk cs (fun x hx => hw x (by simp [hx])) (fun x hx => hn x (by simp [hx]))
      (fun x hx => hd x (by simp [hx])) (fun x hx => ht x (by simp [hx]))
    obtain ⟨k', vals, v, c1, c2, c3, c4⟩ := H.canon c (hw c (by simp)) (hn c (by simp)) (hd c (by simp))
    have hdt := c3.dtype
    rw [ht c (by simp)] at hdt
    simp only [dtype] at hdt
    obtain ⟨hk', hnul⟩ := kind_of_dtype hdt
    rw [hk, Option.some.injEq] at hk'
    subst hk'
    have hlen := flat_len c2
    have hst := c2.stored
    have hrl := flat_rows_len c2
    have hfirst : masked vals (nonNulls (rows env.toEnv leafRows c)) = rows env.toEnv leafRows c := by
      rw [← c4]
      simp only [rows]
      exact masked_nonNulls _ _ hlen hst
    have hc : (do let d ← o.canon c; asFlat d) = .ok (k, vals, v) := by rw [c1]; rfl
    refine ⟨(k, vals, v) :: fs, by rw [Res.mapM_cons, hc, Res.ok_bind, h1]; rfl, ?_, ?_, ?_, ?_⟩
    · intro x hx
      simp only [List.flatMap_cons, List.mem_append] at hx
      rcases hx with hx | hx
      · simp only [WF] at c2; exact c2.1 x hx
      · exact h2 x hx
    · simp only [List.flatMap_cons, rowsEach, List.flatten_cons, nonNulls_append, List.length_append, h3]
      congr 1
      simp only [nonNulls, List.length_map]
      rw [← c4, hrl]
    · simp only [List.flatMap_cons, rowsEach, List.flatten_cons, nonNulls_append]
      rw [masked_append _ _ _ _ (by simp only [nonNulls, List.length_map]; rw [← c4, hrl]), hfirst, h4]
    · intro hnn
      simp only [List.flatMap_cons, rowsEach, List.flatten_cons]
      rw [h5 hnn]
      congr 1
      rw [← c4]
      have hv : v = .nonNullable := by
        rw [hnn] at hnul
        cases v <;> first | rfl | (simp [TVal.nullable] at hnul)
      subst hv
      simp only [rows, maskOf]
      exact masked_replicate_true _

theorem valid_each {o : Bulks L} {d : Nat} (H : BLaws env leafRows ok o d) (dt : DType) (hdt : dt.isNullable = true) : ∀ (cs : List (Arr L)),
    (∀ c ∈ cs, WF env.toEnv leafRows ok c) → (∀ c ∈ cs, Nice env.toEnv leafRows c) → (∀ c ∈ cs, depth c ≤ d) →
    (∀ c ∈ cs, dtype env.toEnv c = dt) →
    ∃ lvs, Res.mapM o.valid cs = .ok lvs ∧ lvs.flatMap LogicalValidity.intoBools = nonNulls (rowsEach env.toEnv leafRows cs).flatten
  | [], _, _, _, _ => ⟨[], rfl, by simp [rowsEach, nonNulls]⟩
  | c :: cs, hw, hn, hd, ht => by
    obtain ⟨lvs, h1, h2⟩ := valid_each H dt hdt cs (fun x hx => hw x (by simp [hx])) (fun x hx => hn x (by simp [hx]))
      (fun x hx => hd x (by simp [hx])) (fun x hx => ht x (by simp [hx]))
    obtain ⟨lv, c1, c2⟩ := H.valid c (hw c (by simp)) (hn c (by simp)) (hd c (by simp)) (by rw [ht c (by simp)]; exact hdt)
    exact ⟨lv :: lvs, by simp only [Res.mapM_cons, c1, h1, Res.ok_bind, Res.pure_eq], by
      simp only [List.flatMap_cons, rowsEach, List.flatten_cons, nonNulls_append, c2, h2]⟩

/-- The validity of a chunked array. -/
theorem collect_ok (hl : LeafLaws env.toEnv leafRows ok) {o : Bulks L} {d : Nat} (H : BLaws env leafRows ok o d) (dt : DType)
    (hdt : dt.isNullable = true) (cs : List (Arr L))
    (hw : ∀ c ∈ cs, WF env.toEnv leafRows ok c) (hn : ∀ c ∈ cs, Nice env.toEnv leafRows c) (hd : ∀ c ∈ cs, depth c ≤ d)
    (ht : ∀ c ∈ cs, dtype env.toEnv c = dt) :
    ∃ lvs, Res.mapM o.valid cs = .ok lvs ∧
      ((LogicalValidity.collect lvs).toLogical (lens env.toEnv cs)).intoBools = nonNulls (rowsEach env.toEnv leafRows cs).flatten ∧
      Spec.mask (lens env.toEnv cs) ((LogicalValidity.collect lvs).toLogical (lens env.toEnv cs)).intoValidity =
        nonNulls (rowsEach env.toEnv leafRows cs).flatten ∧ (cs = [] → lvs = []) := by
  obtain ⟨lvs, h1, h2⟩ := valid_each H dt hdt cs hw hn hd ht
  have hlen : lens env.toEnv cs = (lvs.map LogicalValidity.len).sum := by
    rw [lens_eq hl cs ((WFs_iff cs).mpr hw)]
    have h3 := congrArg List.length h2
    simp only [nonNulls, List.length_map, List.length_flatMap] at h3
    rw [← h3]
    congr 1
    apply List.map_congr_left
    intro lv _
    exact intoBools_length lv
  have hc := C23_collect lvs
  rw [← hlen, h2] at hc
  have hf : FitsLen (LogicalValidity.collect lvs) (lens env.toEnv cs) := by
    simp only [FitsLen, hc, nonNulls, List.length_map]
    exact (lens_eq hl cs ((WFs_iff cs).mpr hw)).symm
  obtain ⟨g1, g2, _⟩ := C23_to_logical _ _ hf
  exact ⟨lvs, h1, g1.trans hc, g2.trans hc, by rintro rfl; simpa using h1.symm⟩

theorem canon_chunked (hl : LeafLaws env.toEnv leafRows ok) {o : Bulks L} {d : Nat} (H : BLaws env leafRows ok o d) (dt : DType)
    (cs : List (Arr L)) (hw : WF env.toEnv leafRows ok (.chunked dt cs)) (hn : Nice env.toEnv leafRows (.chunked dt cs))
    (hd : depth (.chunked dt cs) ≤ d + 1) : Decoded env leafRows ok (canonFn env o (.chunked dt cs)) (.chunked dt cs) := by
  simp only [WF, WFs_iff, dtypes_eq] at hw
  simp only [Nice, Nices_iff] at hn
  simp only [depth] at hd
  have hd' := (depths_le cs d).mp (by omega)
  have ht : ∀ c ∈ cs, dtype env.toEnv c = dt := fun c hc => hw.2 _ (List.mem_map_of_mem hc)
  obtain ⟨k, hk⟩ := Option.isSome_iff_exists.mp hn.1
  have hkd := kind_dtype hk
  obtain ⟨fs, h1, h2, h3, h4, h5⟩ := canon_each H dt k hk cs hw.1 hn.2 hd' ht
  have hlen : lens env.toEnv cs = (fs.flatMap (fun f => f.2.1)).length := by
    rw [lens_eq hl cs ((WFs_iff cs).mpr hw.1), h3]; simp only [nonNulls, List.length_map]
  cases hnn : dt.isNullable with
  | false =>
    refine ⟨k, _, _, by simp only [canonFn, hk, h1, Res.ok_bind, hnn]; rfl, ?_, ⟨?_, ?_, ?_, ?_⟩, ?_⟩
    · simp only [WF]; exact ⟨h2, trivial⟩
    · simp only [depth, depthV]; omega
    · simp only [dtype, TVal.nullable]; rw [← hnn]; exact hkd
    · intro _; rfl
    · intro _; trivial
    · simp only [rows, maskOf]
      rw [masked_replicate_true, h5 hnn]
  | true =>
    obtain ⟨lvs, l1, l2, l3, l4⟩ := collect_ok hl H dt hnn cs hw.1 hn.2 hd' ht
    have hf : FitsLen ((LogicalValidity.collect lvs).toLogical (lens env.toEnv cs)).intoValidity (lens env.toEnv cs) := by
      simp only [FitsLen, l3]
      rw [lens_eq hl cs ((WFs_iff cs).mpr hw.1)]; simp only [nonNulls, List.length_map]
    obtain ⟨g1, g2, g3, g4, g5, g6⟩ := maskOf_ofValidity (env := env) (leafRows := leafRows) (ok := ok) _ _ hf
    refine ⟨k, _, _, by simp only [canonFn, hk, h1, Res.ok_bind, hnn, if_true, l1]; rfl, ?_, ⟨?_, ?_, ?_, ?_⟩, ?_⟩
    · simp only [WF]; rw [← hlen]; exact ⟨h2, g2⟩
    · simp only [depth]
      by_cases he : cs = []
      · subst he
        rw [l4 rfl]
        simp [lens, LogicalValidity.collect, Validity.toLogical, LogicalValidity.intoValidity, ofValidity, depthV, depths]
      · obtain ⟨c, hc⟩ := List.exists_mem_of_ne_nil cs he
        have := depth_pos c
        have := (depths_le cs (depths cs)).mp (Nat.le_refl _) c hc
        omega
    · simp only [dtype]
      rw [g6]
      have : ((LogicalValidity.collect lvs).toLogical (lens env.toEnv cs)).intoValidity.nullable = true := by
        generalize (LogicalValidity.collect lvs).toLogical (lens env.toEnv cs) = lv
        cases lv <;> rfl
      rw [this, ← hnn]
      exact hkd
    · intro _; simpa only [chunkFree] using g5
    · intro _; simpa only [Nice] using g3
    · simp only [rows]
      rw [← hlen, g1, l3, h4]

/-! ### sparse, dictionary, run-end -/

theorem patchOr_mem {fill : SV} {is : List Nat} {vs : List SV} {k i : Nat} {x : SV} (hs : is.Pairwise (· < ·)) (hk : is[k]? = some i)
    (hx : vs[k]? = some x) : Spec.patchOr fill (is.zip vs) i = x := by
  induction is generalizing vs k with
  | nil => simp at hk
  | cons j is ih =>
    cases vs with
    | nil => simp at hx
    | cons v vs =>
      cases k with
      | zero =>
        simp only [List.getElem?_cons_zero, Option.some.injEq] at hk hx
        subst hk; subst hx
        simp [Spec.patchOr]
      | succ k =>
        simp only [List.getElem?_cons_succ] at hk hx
        have hne : j ≠ i := by
          have := (List.pairwise_cons.mp hs).1 i (List.mem_of_getElem? hk)
          omega
        have := ih (List.pairwise_cons.mp hs).2 hk hx
        simp only [Spec.patchOr, List.zip_cons_cons, List.find?_cons] at this ⊢
        simp only [beq_eq_false_iff_ne.mpr hne]
        exact this

theorem patchOr_not_mem {fill : SV} {is : List Nat} {vs : List SV} {i : Nat} (h : i ∉ is) : Spec.patchOr fill (is.zip vs) i = fill := by
  have : (is.zip vs).find? (fun p => p.1 == i) = none := by
    rw [List.find?_eq_none]
    intro p hp
    have := (List.of_mem_zip (a := p.1) (b := p.2) hp).1
    simp only [beq_iff_eq]
    rintro rfl
    exact h this
  simp [Spec.patchOr, this]

theorem sparseCanon_ok {k : Kind} {is : List Nat} {vals : List SV} {n off : Nat} {fill : SV} {dt : DType} (hs : is.Pairwise (· < ·))
    (hl : is.length = vals.length) (hb : ∀ i ∈ is, off ≤ i ∧ i < off + n) (hk : kindOf dt = some k) (hf : inst fill dt = true)
    (hv : ∀ x ∈ vals, k.has x = true) (hkind : sparseKind dt fill) :
    ∃ xs w, sparseCanon (L := L) k is vals n off fill = .ok (.flat k xs w) ∧ WF env.toEnv leafRows ok (.flat k xs w) ∧
      depthV w ≤ 1 ∧ w.nullable = dt.isNullable ∧ chunkFreeV w = true ∧ NiceV env.toEnv leafRows w ∧
      rows env.toEnv leafRows (.flat k xs w) = Spec.patched n off fill (is.zip vals) := by
  obtain ⟨js, v, b, h1, h2, h3, h4, h5, h6, h7⟩ := sparse_scatter hs hl hb
    (List.replicate n (if fill.isNull then k.dflt else fill)) (by simp)
  have hhas : ∀ x ∈ v, k.has x = true := by
    intro x hx
    rcases h6 x hx with hx | hx
    · have := List.eq_of_mem_replicate hx
      subst this
      cases hfn : fill.isNull with
      | true => simpa using dflt_has k
      | false => simpa using inst_has hk hf hfn
    · exact hv x hx
  cases hfn : fill.isNull with
  | true =>
    have hfe : fill = .null := by cases fill <;> simp_all [SV.isNull]
    subst hfe
    have hnul : dt.isNullable = true := by cases dt <;> simpa [inst] using hf
    have hfit : FitsLen (Validity.ofBooleanBuffer b) b.length := by simp [FitsLen, mask_ofBooleanBuffer]
    obtain ⟨g1, g2, g3, g4, g5, g6⟩ := maskOf_ofValidity (env := env) (leafRows := leafRows) (ok := ok) _ _ hfit
    refine ⟨v, ofValidity (Validity.ofBooleanBuffer b), ?_, ?_, g4, ?_, g5, g3, ?_⟩
    · simp only [sparseCanon, h1, Res.ok_bind, h2, beq_self_eq_true, Res.assert, if_true, SV.isNull, Bool.or_true]
      simp only [SV.isNull, if_true] at h3
      rw [h3]
      rfl
    · simp only [WF]; rw [h4, ← h5]; exact ⟨hhas, g2⟩
    · rw [g6, hnul]
      unfold Validity.ofBooleanBuffer
      split
      · rfl
      · split <;> rfl
    · simp only [rows]
      rw [h4, ← h5, g1, mask_ofBooleanBuffer]
      apply List.ext_getElem?
      intro j
      by_cases hj : j < n
      · rw [h5, patched_getElem? hj]
        rcases h7 j hj with ⟨hm, hbj, kk, x, hk1, hk2, hk3⟩ | ⟨hm, hbj, hvj⟩
        · rw [masked_getElem? v b j x true hk3 hbj, patchOr_mem hs hk1 hk2]; rfl
        · have hv0 : v[j]? = some v[j] := List.getElem?_eq_getElem (by omega)
          rw [masked_getElem? v b j _ false hv0 hbj, patchOr_not_mem hm]; rfl
      · rw [List.getElem?_eq_none (by simp [masked_length]; omega), List.getElem?_eq_none (by simp; omega)]
  | false =>
    have hkp : k ≠ .bool ∧ dt.isNullable = false := by
      rcases hkind with ⟨p, m, rfl, h⟩ | ⟨m, rfl, h⟩
      · simp only [kindOf, Option.some.injEq] at hk
        subst hk
        refine ⟨by simp, ?_⟩
        cases m with
        | false => rfl
        | true => rw [h rfl] at hfn; simp [SV.isNull] at hfn
      · rw [h] at hfn; simp [SV.isNull] at hfn
    refine ⟨v, .nonNullable, ?_, ?_, Nat.zero_le _, hkp.2.symm, rfl, trivial, ?_⟩
    · simp only [hfn, Bool.false_eq_true, if_false] at h3
      simp only [sparseCanon, h1, Res.ok_bind, h2, beq_self_eq_true, Res.assert, if_true, hfn, Bool.false_eq_true, if_false, h3]
      simp [hkp.1]
    · simp only [WF]; exact ⟨hhas, trivial⟩
    · simp only [rows, maskOf]
      rw [masked_replicate_true]
      apply List.ext_getElem?
      intro j
      by_cases hj : j < n
      · rw [patched_getElem? hj]
        rcases h7 j hj with ⟨hm, hbj, kk, x, hk1, hk2, hk3⟩ | ⟨hm, hbj, hvj⟩
        · rw [hk3, patchOr_mem hs hk1 hk2]
        · rw [hvj, patchOr_not_mem hm]
          simp [hj, hfn]
      · rw [List.getElem?_eq_none (by omega), List.getElem?_eq_none (by simp; omega)]

theorem canon_sparse {o : Bulks L} {d : Nat} (H : BLaws env leafRows ok o d) (is : List Nat) (values : Arr L) (n off : Nat) (fill : SV)
    (hw : WF env.toEnv leafRows ok (.sparse is values n off fill)) (hn : Nice env.toEnv leafRows (.sparse is values n off fill))
    (hd : depth (.sparse is values n off fill) ≤ d + 1) :
    Decoded env leafRows ok (canonFn env o (.sparse is values n off fill)) (.sparse is values n off fill) := by
  simp only [WF] at hw
  simp only [Nice] at hn
  simp only [depth] at hd
  obtain ⟨w1, w2, w3, w4, w5⟩ := hw
  obtain ⟨n1, n2, n3, n4⟩ := hn
  obtain ⟨k, vals, v, c1, c2, c3, c4⟩ := H.canon values w1 n1 (by omega)
  have hvals := flat_rows_nonnull c2 (by rw [c4]; exact n4)
  have hdt := c3.dtype
  simp only [dtype] at hdt
  obtain ⟨hk, hnul⟩ := kind_of_dtype hdt
  have hw2 := c2
  simp only [WF] at hw2
  obtain ⟨xs, w, s1, s2, s3, s4, s5, s6, s7⟩ := sparseCanon_ok (env := env) (leafRows := leafRows) (ok := ok) w4 (by rw [w3, ← c4, hvals]) w5 hk w2 hw2.1 n3
  have hmatch : canonFn env o (.sparse is values n off fill) = sparseCanon k is vals n off fill := by
    simp only [canonFn, c1, Res.ok_bind, asFlat]
    rcases n3 with ⟨p, m, hp, _⟩ | ⟨m, hp, _⟩ <;> rw [hp] at hk <;> simp only [kindOf, Option.some.injEq] at hk <;> subst hk <;> rfl
  refine ⟨k, xs, w, hmatch.trans s1, s2, ⟨?_, ?_, ?_, ?_⟩, ?_⟩
  · simp only [depth]
    have := depth_pos values
    omega
  · simp only [dtype]; rw [s4]; exact kind_dtype hk
  · intro _; simpa only [chunkFree] using s5
  · intro _; simpa only [Nice] using s6
  · rw [s7]
    simp only [rows]
    rw [← c4, hvals]

theorem codes_ok {vals : List SV} {n : Nat} (h : ∀ r ∈ vals, ∃ k, asIdx r = some k ∧ k < n) :
    ∃ ks, codeIdx vals = .ok ks ∧ (∀ k ∈ ks, k < n) ∧ ks.length = vals.length ∧ ks.map some = vals.map asIdx := by
  induction vals with
  | nil => exact ⟨[], rfl, by simp, rfl, rfl⟩
  | cons x xs ih =>
    obtain ⟨k, h1, h2⟩ := h x (by simp)
    obtain ⟨ks, g1, g2, g3, g4⟩ := ih (fun r hr => h r (by simp [hr]))
    simp only [codeIdx] at g1
    refine ⟨k :: ks, by simp only [codeIdx, Res.mapM_cons, h1, Res.unwrap_some, Res.ok_bind, g1], ?_, by simp [g3], by simp [h1, g4]⟩
    intro j hj
    simp only [List.mem_cons] at hj
    rcases hj with rfl | hj
    · exact h2
    · exact g2 j hj

theorem deref_take {codes values : List SV} {ks : List Nat} (h : ks.map some = codes.map asIdx) (hb : ∀ k ∈ ks, k < values.length) :
    Spec.take values ks = codes.map (deref values) := by
  induction ks generalizing codes with
  | nil =>
    cases codes with
    | nil => rfl
    | cons c cs => simp at h
  | cons k ks ih =>
    cases codes with
    | nil => simp at h
    | cons c cs =>
      simp only [List.map_cons, List.cons.injEq] at h
      have hk := hb k (by simp)
      rw [Spec.take_cons hk, ih h.2 (fun j hj => hb j (by simp [hj])), List.map_cons]
      congr 1
      simp [deref, ← h.1, List.getElem?_eq_getElem hk]

/-- The decoded codes of a dictionary. -/
theorem dict_codes {o : Bulks L} {d : Nat} (H : BLaws env leafRows ok o d) (codes values : Arr L)
    (hw : WF env.toEnv leafRows ok (.dict codes values)) (hn : Nice env.toEnv leafRows codes) (hd : depth codes ≤ d) :
    ∃ k vals v ks, o.canon codes = .ok (.flat k vals v) ∧ vals = rows env.toEnv leafRows codes ∧ codeIdx vals = .ok ks ∧
      (∀ j ∈ ks, j < (rows env.toEnv leafRows values).length) ∧ ks.map some = vals.map asIdx := by
  simp only [WF] at hw
  obtain ⟨w1, w2, w3, w4⟩ := hw
  obtain ⟨k, vals, v, c1, c2, c3, c4⟩ := H.canon codes w1 hn hd
  have hvals := flat_rows_nonnull c2 (by
    rw [c4]
    intro r hr
    obtain ⟨j, hj, _⟩ := w4 r hr
    cases r <;> simp_all [asIdx, SV.isNull])
  obtain ⟨ks, g1, g2, _, g4⟩ := codes_ok (vals := vals) (n := (rows env.toEnv leafRows values).length) (by rw [← hvals, c4]; exact w4)
  exact ⟨k, vals, v, ks, c1, by rw [← hvals, c4], g1, g2, g4⟩

theorem canon_dict {o : Bulks L} {d : Nat} (H : BLaws env leafRows ok o d) (codes values : Arr L)
    (hw : WF env.toEnv leafRows ok (.dict codes values)) (hn : Nice env.toEnv leafRows (.dict codes values))
    (hd : depth (.dict codes values) ≤ d + 1) : Decoded env leafRows ok (canonFn env o (.dict codes values)) (.dict codes values) := by
  simp only [Nice] at hn
  simp only [depth] at hd
  obtain ⟨ck, cvals, cv, ks, d1, d2, d3, d4, d5⟩ := dict_codes H codes values hw hn.1 (by omega)
  simp only [WF] at hw
  obtain ⟨k, vals, v, c1, c2, c3, c4⟩ := H.canon values hw.2.1 hn.2.1 (by omega)
  have hrl := flat_rows_len c2
  have hcd := c3.depth
  have hcf := c3.chunkFree hn.2.2.1
  have hcn := c3.nice hn.2.1
  simp only [depth] at hcd
  simp only [chunkFree] at hcf
  simp only [Nice] at hcn
  obtain ⟨w, t1, t2, t3, t4, t5⟩ := takeFlat_ok H c2 hcn (is := ks) (by omega) (by intro i hi; have := d4 i hi; rw [← c4] at this; omega) (Or.inr hcf)
  refine ⟨k, _, w, by simp only [canonFn, c1, d1, Res.ok_bind, asFlat, d3, t1], t2, ⟨?_, ?_, ?_, ?_⟩, ?_⟩
  · have := t3.depth
    simp only [depth] at this ⊢
    omega
  · rw [t3.dtype, c3.dtype]; simp only [dtype]
  · intro _; exact t3.chunkFree (by simpa only [chunkFree] using hcf)
  · intro _; simpa only [Nice] using t4
  · rw [t5, c4, deref_take d5 d4, d2]
    simp only [rows]

theorem canon_runEnd {o : Bulks L} {d : Nat} (H : BLaws env leafRows ok o d) (ends : List Nat) (values : Arr L) (v : TVal (Arr L)) (off n : Nat)
    (hw : WF env.toEnv leafRows ok (.runEnd ends values v off n)) (hn : Nice env.toEnv leafRows (.runEnd ends values v off n))
    (hd : depth (.runEnd ends values v off n) ≤ d + 1) :
    Decoded env leafRows ok (canonFn env o (.runEnd ends values v off n)) (.runEnd ends values v off n) := by
  simp only [WF] at hw
  simp only [Nice] at hn
  simp only [depth] at hd
  obtain ⟨w1, w2, w3, w4, w5, w6, w7, w8⟩ := hw
  obtain ⟨n1, n2, n3, p, m, n4⟩ := hn
  obtain ⟨k, vals, cv, c1, c2, c3, c4⟩ := H.canon values w1 n1 (by omega)
  have hvals := flat_rows_nonnull c2 (by rw [c4]; exact w8)
  have hdt := c3.dtype
  simp only [dtype, n4] at hdt
  obtain ⟨hk, hnul⟩ := kind_of_dtype hdt
  simp only [kindOf, Option.some.injEq] at hk
  subst hk
  obtain ⟨r1, r2, r3⟩ := run_decode (vs := vals) w4 (by rw [w5, ← c4, hvals]) w6 w7
  refine ⟨.prim p, _, v, by simp only [canonFn, c1, Res.ok_bind, asFlat, r1]; rfl, ?_, ⟨?_, ?_, ?_, ?_⟩, ?_⟩
  · simp only [WF, r2]
    refine ⟨?_, w2⟩
    intro x hx
    simp only [WF] at c2
    exact c2.1 x (r3 x hx)
  · simp only [depth]; omega
  · simp only [dtype, n4, Kind.dtype]
    rw [n4] at w3
    simp only [DType.isNullable] at w3
    rw [w3]
  · intro h; simp only [chunkFree, Bool.and_eq_true] at h ⊢; exact h.2
  · intro _; simpa only [Nice] using n2
  · simp only [rows, r2]
    rw [← c4, hvals]

/-! ### value-by-value codecs -/

theorem outType_shape (lb : LeafBulk env leafRows ok) {c : Codec} {dt d : DType} (h : c.outType dt = some d) :
    ∃ q p n, dt = .prim q n ∧ d = .prim p n ∧ ∀ x : PValue, x.pt = q → (c.dec env.toEnv x).pt = p := by
  cases c with
  | «for» p r s =>
    cases dt <;> simp only [Codec.outType, reduceCtorEq] at h
    rename_i q n
    split at h
    · simp only [Option.some.injEq] at h
      exact ⟨q, p, n, rfl, h.symm, fun x _ => rfl⟩
    · cases h
  | zigzag =>
    cases dt <;> simp only [Codec.outType, reduceCtorEq] at h
    rename_i q n
    split at h
    · rename_i hq
      simp only [Option.some.injEq] at h
      refine ⟨q, _, n, rfl, h.symm, ?_⟩
      intro x hx
      obtain ⟨t, b⟩ := x
      simp only at hx
      subst hx
      cases t <;> simp [isUnsigned] at hq <;> rfl
    · cases h
  | alp e f =>
    cases dt <;> simp only [Codec.outType, reduceCtorEq] at h
    rename_i q n
    cases q <;> simp only [reduceCtorEq, Option.some.injEq] at h
    · exact ⟨_, _, n, rfl, h.symm, fun x hx => lb.alp32 e f x hx⟩
    · exact ⟨_, _, n, rfl, h.symm, fun x hx => lb.alp64 e f x hx⟩

theorem decStored_masked (c : Codec) (vals : List SV) (m : List Bool) :
    masked (vals.map (decStored env c)) m = (masked vals m).map (decRow env.toEnv c) := by
  simp only [masked, List.zipWith_map_left, List.map_zipWith]
  congr 1
  funext x b
  cases b with
  | true => cases x <;> rfl
  | false => rfl

/-- The decoded child of a codec. -/
theorem decStored_ok (lb : LeafBulk env leafRows ok) {o : Bulks L} {d : Nat} (H : BLaws env leafRows ok o d) (c : Codec) (enc : Arr L)
    (hw : WF env.toEnv leafRows ok enc) (hn : Nice env.toEnv leafRows enc) (hd : depth enc ≤ d)
    (ht : (c.outType (dtype env.toEnv enc)).isSome = true) :
    ∃ k p n vals v, primKind (c.outType (dtype env.toEnv enc)) = .ok (.prim p) ∧ c.outType (dtype env.toEnv enc) = some (.prim p n) ∧
      o.canon enc = .ok (.flat k vals v) ∧ WF env.toEnv leafRows ok (.flat (.prim p) (vals.map (decStored env c)) v) ∧
      1 + depthV v ≤ depth enc ∧ v.nullable = n ∧ (chunkFree enc = true → chunkFreeV v = true) ∧ NiceV env.toEnv leafRows v ∧
      rows env.toEnv leafRows (.flat (.prim p) (vals.map (decStored env c)) v) = (rows env.toEnv leafRows enc).map (decRow env.toEnv c) ∧
      rows env.toEnv leafRows (.flat k vals v) = rows env.toEnv leafRows enc := by
  obtain ⟨out, hout⟩ := Option.isSome_iff_exists.mp ht
  obtain ⟨q, p, n, t1, t2, t3⟩ := outType_shape lb hout
  subst t2
  obtain ⟨k, vals, v, c1, c2, c3, c4⟩ := H.canon enc hw hn hd
  have hdt := c3.dtype
  simp only [dtype, t1] at hdt
  obtain ⟨hk, hnul⟩ := kind_of_dtype hdt
  simp only [kindOf, Option.some.injEq] at hk
  subst hk
  have hc2 := c2
  simp only [WF] at hc2
  refine ⟨_, p, n, vals, v, by simp only [hout, primKind], hout, c1, ?_, by simpa only [depth] using c3.depth, hnul.symm, fun h => by
    simpa only [chunkFree] using c3.chunkFree h, by simpa only [Nice] using c3.nice hn, ?_, c4⟩
  · simp only [WF, List.length_map]
    refine ⟨?_, hc2.2⟩
    intro x hx
    obtain ⟨y, hy, rfl⟩ := List.mem_map.mp hx
    have := hc2.1 y hy
    cases y <;> simp [Kind.has] at this
    simp only [decStored, Kind.has]
    simpa using t3 _ this
  · rw [← c4]
    simp only [rows, List.length_map]
    exact decStored_masked _ _ _

theorem canon_mapped (lb : LeafBulk env leafRows ok) {o : Bulks L} {d : Nat} (H : BLaws env leafRows ok o d) (c : Codec) (enc : Arr L)
    (hw : WF env.toEnv leafRows ok (.mapped c enc)) (hn : Nice env.toEnv leafRows (.mapped c enc))
    (hd : depth (.mapped c enc) ≤ d + 1) : Decoded env leafRows ok (canonFn env o (.mapped c enc)) (.mapped c enc) := by
  simp only [WF] at hw
  simp only [Nice] at hn
  simp only [depth] at hd
  obtain ⟨k, p, n, vals, v, h1, h2, h3, h4, h5, h6, h7, h8, h9, _⟩ := decStored_ok lb H c enc hw.1 hn (by omega) hw.2.1
  refine ⟨.prim p, _, v, by simp only [canonFn, h1, h3, Res.ok_bind, asFlat], h4, ⟨?_, ?_, ?_, ?_⟩, ?_⟩
  · simp only [depth]; omega
  · simp only [dtype, h2, Option.getD_some, Kind.dtype, h6]
  · intro h; simp only [chunkFree] at h ⊢; exact h7 h
  · intro _; simpa only [Nice] using h8
  · rw [h9]; simp only [rows]

theorem patchRow_zip (e f : Nat) {E P : List SV} {j : Nat} {x p : SV} (hx : E[j]? = some x) (hp : P[j]? = some p) :
    (List.zipWith (patchRow env.toEnv e f) E P)[j]? = some (patchRow env.toEnv e f x p) := by
  simp [List.getElem?_zipWith, hx, hp]

theorem canon_alpP (lb : LeafBulk env leafRows ok) {o : Bulks L} {d : Nat} (H : BLaws env leafRows ok o d) (e f : Nat) (enc patches : Arr L)
    (hw : WF env.toEnv leafRows ok (.alpP e f enc patches)) (hn : Nice env.toEnv leafRows (.alpP e f enc patches))
    (hd : depth (.alpP e f enc patches) ≤ d + 1) : Decoded env leafRows ok (canonFn env o (.alpP e f enc patches)) (.alpP e f enc patches) := by
  simp only [WF] at hw
  simp only [Nice] at hn
  simp only [depth] at hd
  obtain ⟨w1, w2, w3, ⟨out, w4, w5⟩, w6, w7, w8⟩ := hw
  obtain ⟨n1, n2, n3⟩ := hn
  obtain ⟨k, p, n, vals, v, h1, h2, h3, h4, h5, h6, h7, h8, h9, h10⟩ := decStored_ok lb H (.alp e f) enc w1 n1 (by omega) (by rw [w4]; rfl)
  rw [w4, Option.some.injEq] at h2
  subst h2
  -- the patches
  cases patches with
  | sparse is values m off fill =>
    simp only [isPatches] at n3
    have hfe : fill = .null := by cases fill <;> simp_all [SV.isNull]
    subst hfe
    simp only [WF] at w2
    simp only [Nice] at n2
    simp only [depth] at hd
    obtain ⟨s1, s2, s3, s4, s5⟩ := w2
    obtain ⟨m1, m2, m3, m4⟩ := n2
    simp only [rows, patched_length] at w3
    simp only [dtype] at w5 w6
    obtain ⟨pk, pvals, pv, c1, c2, c3, c4⟩ := H.canon values s1 m1 (by omega)
    have hpv := flat_rows_nonnull c2 (by rw [c4]; exact m4)
    have hml := flat_rows_len h4
    have hmm : m = vals.length := by rw [w3, ← h10]; rw [h9] at hml; simpa [h10] using hml
    obtain ⟨js, xs, b, g1, g2, g3, g4, g5, g6, g7⟩ := sparse_scatter s4 (vs := pvals) (by rw [s3, ← c4, hpv]) s5
      (vals.map (decStored env (.alp e f))) (by simp [hmm])
    have hset := setStored_of_scatter _ _ _ _ _ g3
    have hpt : ∀ x ∈ pvals, (Kind.prim p).has x = true := by
      have hpd := c3.dtype
      simp only [dtype] at hpd
      rcases m3 with ⟨q, mm, hq, _⟩ | ⟨mm, hq, _⟩
      · rw [hq] at hpd w5
        obtain ⟨hk, _⟩ := kind_of_dtype hpd
        simp only [kindOf, Option.some.injEq] at hk
        subst hk
        have hqp : q = p := by simpa [DType.eqIgnoreNullability, DType.withNullability, DType.beq] using w5
        subst hqp
        simp only [WF] at c2
        exact c2.1
      · rw [hq] at w5
        simp [DType.eqIgnoreNullability, DType.withNullability, DType.beq] at w5
    have hw4 := h4
    simp only [WF, List.length_map] at hw4
    have hfl := flat_len h4
    simp only [List.length_map] at hfl
    refine ⟨.prim p, xs, v, ?_, ?_, ⟨?_, ?_, ?_, ?_⟩, ?_⟩
    · simp only [canonFn, h1, h3, Res.ok_bind, asFlat, alpPatches, g1, c1, g2, beq_self_eq_true, Res.assert, if_true, hset]
    · simp only [WF]
      refine ⟨?_, by rw [g4, hmm]; exact hw4.2⟩
      intro x hx
      rcases g6 x hx with hx | hx
      · exact hw4.1 x hx
      · exact hpt x hx
    · simp only [depth]; omega
    · simp only [dtype, w4, Option.getD_some, Kind.dtype, h6]
    · intro h; simp only [chunkFree, Bool.and_eq_true] at h ⊢; exact h7 h.1
    · intro _; simpa only [Nice] using h8
    · simp only [rows]
      subst hmm
      rw [g4]
      have hlr : (rows env.toEnv leafRows enc).length = vals.length := w3.symm
      apply List.ext_getElem?
      intro j
      by_cases hj : j < vals.length
      · have hmj : (maskOf env.toEnv leafRows v vals.length)[j]? = some (maskOf env.toEnv leafRows v vals.length)[j] :=
          List.getElem?_eq_getElem (by omega)
        have hej : (rows env.toEnv leafRows enc)[j]? =
            some (if (maskOf env.toEnv leafRows v vals.length)[j] then vals[j] else .null) := by
          rw [← h10]; simp only [rows]
          exact masked_getElem? _ _ _ _ _ (List.getElem?_eq_getElem hj) hmj
        have hpj := patched_getElem? (is := is) (vs := rows env.toEnv leafRows values) (off := off) (fill := .null) hj
        rw [patchRow_zip e f hej hpj]
        have hvp : (vals[j]).isNull = false := by
          have := hw4.1 (decStored env (.alp e f) vals[j]) (List.mem_map_of_mem (List.getElem_mem hj))
          revert this
          cases vals[j] <;> simp [decStored, Kind.has, SV.isNull]
        rcases g7 j hj with ⟨hm, hbj, kk, x, hk1, hk2, hk3⟩ | ⟨hm, hbj, hvj⟩
        · rw [masked_getElem? xs _ j x _ hk3 hmj]
          rw [← c4, hpv, patchOr_mem s4 hk1 hk2]
          have hxn := has_nonnull (hpt x (List.mem_of_getElem? hk2))
          cases hmb : (maskOf env.toEnv leafRows v vals.length)[j] with
          | true => simp [patchRow, hvp, hxn]
          | false => simp [patchRow, SV.isNull]
        · rw [patchOr_not_mem hm]
          have hdj : xs[j]? = some (decStored env (.alp e f) vals[j]) := by rw [hvj]; simp [hj]
          rw [masked_getElem? xs _ j _ _ hdj hmj]
          cases hmb : (maskOf env.toEnv leafRows v vals.length)[j] with
          | true =>
            revert hvp
            cases vals[j] <;> simp [patchRow, SV.isNull, decStored, decRow]
          | false => simp [patchRow, SV.isNull]
      · rw [List.getElem?_eq_none (by simp only [masked_length]; omega), List.getElem?_eq_none (by simp only [List.length_zipWith]; omega)]
  | _ => simp [isPatches] at n3

/-- Decoding one level, given the children's entry points. -/
theorem canon_step (hl : LeafLaws env.toEnv leafRows ok) (lb : LeafBulk env leafRows ok) {o : Bulks L} {d : Nat} (H : BLaws env leafRows ok o d)
    (a : Arr L) (hw : WF env.toEnv leafRows ok a) (hn : Nice env.toEnv leafRows a) (hd : depth a ≤ d + 1) :
    Decoded env leafRows ok (canonFn env o a) a := by
  cases a with
  | leaf l => simp only [WF] at hw; obtain ⟨k, vals, v, h1, h2, h3, h4⟩ := lb.canon l hw; exact ⟨k, vals, v, h1, h2, h3, by rw [h4]; simp only [rows]⟩
  | flat k vals v => exact ⟨k, vals, v, rfl, hw, ⟨Nat.le_refl _, rfl, fun h => h, fun h => h⟩, rfl⟩
  | null n => simp [Nice] at hn
  | const dt x n => exact canon_const dt x n hw hn
  | chunked dt cs => exact canon_chunked hl H dt cs hw hn hd
  | struct names fs n v => simp [Nice] at hn
  | ext id m s => simp [Nice] at hn
  | sparse is values n off fill => exact canon_sparse H is values n off fill hw hn hd
  | dict codes values => exact canon_dict H codes values hw hn hd
  | runEnd ends values v off n => exact canon_runEnd H ends values v off n hw hn hd
  | mapped c enc => exact canon_mapped lb H c enc hw hn hd
  | alpP e f enc patches => exact canon_alpP lb H e f enc patches hw hn hd

/-! ### logical validity -/

theorem sparse_valid {is : List Nat} {vs : List SV} {n off : Nat} (hs : is.Pairwise (· < ·)) (hl : is.length = vs.length)
    (hb : ∀ i ∈ is, off ≤ i ∧ i < off + n) (hv : ∀ x ∈ vs, x.isNull = false) :
    sparseBits is (List.replicate is.length true) n off = .ok (nonNulls (Spec.patched n off .null (is.zip vs))) := by
  obtain ⟨js, v, b, h1, h2, h3, h4, h5, h6, h7⟩ := sparse_scatter hs (vs := List.replicate is.length true) (by simp) hb
    (List.replicate n false) (by simp)
  simp only [sparseBits, h1, h3, Res.ok_bind]
  congr 1
  apply List.ext_getElem?
  intro j
  by_cases hj : j < n
  · simp only [nonNulls, List.getElem?_map, patched_getElem? hj, Option.map_some]
    rcases h7 j hj with ⟨hm, hbj, kk, x, hk1, hk2, hk3⟩ | ⟨hm, hbj, hvj⟩
    · have hkl : kk < vs.length := by
        rw [← hl]; exact (List.getElem?_eq_some_iff.mp hk1).1
      have hy : vs[kk]? = some vs[kk] := List.getElem?_eq_getElem hkl
      rw [hk3, patchOr_mem hs hk1 hy, hv _ (List.getElem_mem hkl)]
      have : x = true := by
        have := List.mem_of_getElem? hk2
        exact List.eq_of_mem_replicate this
      rw [this]; rfl
    · rw [hvj, patchOr_not_mem hm]
      simp [hj, SV.isNull]
  · rw [List.getElem?_eq_none (by omega), List.getElem?_eq_none (by simp [nonNulls]; omega)]

theorem valid_step (hl : LeafLaws env.toEnv leafRows ok) (lb : LeafBulk env leafRows ok) {o : Bulks L} {d : Nat} (H : BLaws env leafRows ok o d)
    (a : Arr L) (hw : WF env.toEnv leafRows ok a) (hn : Nice env.toEnv leafRows a) (hd : depth a ≤ d + 1)
    (ht : (dtype env.toEnv a).isNullable = true) :
    ∃ lv, validFn env o a = .ok lv ∧ lv.intoBools = nonNulls (rows env.toEnv leafRows a) := by
  cases a with
  | leaf l =>
    simp only [WF] at hw
    simp only [dtype] at ht
    simpa only [validFn, rows] using lb.valid l hw ht
  | flat k vals v =>
    have hfl := flat_len hw
    have hst := hw.stored
    simp only [WF] at hw
    simp only [Nice] at hn
    simp only [depth] at hd
    obtain ⟨lv, h1, h2⟩ := logicalV_ok H hw.2 hn (by omega)
    refine ⟨lv, by simpa only [validFn] using h1, ?_⟩
    simp only [rows]
    rw [nonNulls_masked _ _ hfl hst, h2]
  | null n => simp [Nice] at hn
  | const dt x n =>
    refine ⟨_, rfl, ?_⟩
    simp only [rows, nonNulls, List.map_replicate]
    cases x.isNull <;> simp [LogicalValidity.intoBools]
  | chunked dt cs =>
    simp only [WF, WFs_iff, dtypes_eq] at hw
    simp only [Nice, Nices_iff] at hn
    simp only [depth] at hd
    simp only [dtype] at ht
    obtain ⟨lvs, l1, l2, _⟩ := collect_ok hl H dt ht cs hw.1 hn.2 ((depths_le cs d).mp (by omega)) (fun c hc => hw.2 _ (List.mem_map_of_mem hc))
    exact ⟨_, by simp only [validFn, l1, Res.ok_bind]; rfl, by simpa only [rows] using l2⟩
  | struct names fs n v => simp [Nice] at hn
  | ext id m s => simp [Nice] at hn
  | sparse is values n off fill =>
    simp only [WF] at hw
    simp only [Nice] at hn
    simp only [dtype] at ht
    have hfe : fill = .null := by
      rcases hn.2.2.1 with ⟨p, m, hp, h⟩ | ⟨m, hp, h⟩
      · rw [hp] at ht; exact h (by simpa [DType.isNullable] using ht)
      · exact h
    subst hfe
    have := sparse_valid hw.2.2.2.1 hw.2.2.1 hw.2.2.2.2 hn.2.2.2
    exact ⟨_, by simp only [validFn, SV.isNull, if_true, this, Res.ok_bind]; rfl, by simp only [rows, LogicalValidity.intoBools]⟩
  | dict codes values =>
    simp only [Nice] at hn
    simp only [depth] at hd
    simp only [dtype] at ht
    obtain ⟨k, vals, v, ks, d1, d2, d3, d4, d5⟩ := dict_codes H codes values hw hn.1 (by omega)
    refine ⟨_, by simp only [validFn, ht, if_true, d1, Res.ok_bind, asFlat, d3]; rfl, ?_⟩
    simp only [LogicalValidity.intoBools, rows, nonNulls, List.map_map]
    have hz := hn.2.2.2 ht
    rw [d2] at d5
    have hgen : ∀ (ks : List Nat) (cs : List SV), ks.map some = cs.map asIdx →
        (∀ r ∈ cs, (asIdx r = some 0 ↔ deref (rows env.toEnv leafRows values) r = .null)) →
        ks.map (fun k => k != 0) = cs.map ((fun r => !r.isNull) ∘ deref (rows env.toEnv leafRows values)) := by
      intro ks
      induction ks with
      | nil => intro cs h _; cases cs <;> simp_all
      | cons k ks ih =>
        intro cs h hcs
        cases cs with
        | nil => simp at h
        | cons c cs =>
          simp only [List.map_cons, List.cons.injEq] at h ⊢
          refine ⟨?_, ih cs h.2 (fun r hr => hcs r (by simp [hr]))⟩
          have h0 := hcs c (by simp)
          rw [← h.1] at h0
          simp only [Function.comp]
          by_cases hk : k = 0
          · subst hk
            rw [h0.mp rfl]; rfl
          · have hne : deref (rows env.toEnv leafRows values) c ≠ .null := fun hh => hk (by simpa using h0.mpr hh)
            cases hd : deref (rows env.toEnv leafRows values) c <;> simp_all [SV.isNull]
    exact hgen _ _ d5 hz
  | runEnd ends values v off n =>
    simp only [WF] at hw
    simp only [Nice] at hn
    simp only [depth] at hd
    obtain ⟨w1, w2, w3, w4, w5, w6, w7, w8⟩ := hw
    obtain ⟨lv, h1, h2⟩ := logicalV_ok H w2 hn.2.1 (by omega)
    obtain ⟨r1, r2, r3⟩ := run_decode (vs := rows env.toEnv leafRows values) w4 w5 w6 w7
    refine ⟨lv, by simpa only [validFn] using h1, ?_⟩
    simp only [rows]
    rw [nonNulls_masked _ _ (by rw [r2, maskOf_length w2]) (fun x hx => w8 x (r3 x hx)), h2]
  | mapped c enc =>
    simp only [WF] at hw
    simp only [Nice] at hn
    simp only [depth] at hd
    obtain ⟨out, hout⟩ := Option.isSome_iff_exists.mp hw.2.1
    obtain ⟨q, p, n, t1, t2, _⟩ := outType_shape lb hout
    simp only [dtype, hout, Option.getD_some, t2, DType.isNullable] at ht
    obtain ⟨lv, h1, h2⟩ := H.valid enc hw.1 hn (by omega) (by rw [t1]; exact ht)
    refine ⟨lv, by simpa only [validFn] using h1, ?_⟩
    rw [h2]
    simp only [rows, nonNulls, List.map_map]
    apply List.map_congr_left
    intro r hr
    rcases hw.2.2 r hr with rfl | ⟨p, rfl⟩ <;> rfl
  | alpP e f enc patches =>
    simp only [WF] at hw
    simp only [Nice] at hn
    simp only [depth] at hd
    obtain ⟨w1, w2, w3, ⟨out, w4, w5⟩, w6, w7, w8⟩ := hw
    obtain ⟨q, p, n, t1, t2, _⟩ := outType_shape lb w4
    simp only [dtype, w4, Option.getD_some, t2, DType.isNullable] at ht
    obtain ⟨lv, h1, h2⟩ := H.valid enc w1 hn.1 (by omega) (by rw [t1]; exact ht)
    refine ⟨lv, by simpa only [validFn] using h1, ?_⟩
    rw [h2]
    simp only [rows]
    generalize rows env.toEnv leafRows enc = E at *
    generalize rows env.toEnv leafRows patches = P at *
    clear h2
    induction E generalizing P with
    | nil => simp [nonNulls]
    | cons x xs ih =>
      cases P with
      | nil => simp at w3
      | cons y ys =>
        have := ih (fun r hr => w7 r (List.mem_cons_of_mem _ hr)) ys (fun r hr => w8 r (List.mem_cons_of_mem _ hr)) (by simpa using w3)
        simp only [nonNulls, List.map_cons, List.zipWith_cons_cons] at this ⊢
        rw [← this]
        congr 1
        rcases w7 x (by simp) with rfl | ⟨p, rfl⟩
        · simp [patchRow, SV.isNull]
        · rcases w8 y (by simp) with rfl | ⟨q, rfl⟩
          · simp [patchRow, SV.isNull, decRow]
          · simp [patchRow, SV.isNull]

end Vx.Tree
