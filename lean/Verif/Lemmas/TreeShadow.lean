import Verif.Lemmas.TreeBulk
/-! # The index searches of sparse and run-end arrays, for values of any encoding -/
namespace Vx.Tree
open Vx.Spec (InBounds FitsLen)

theorem patchOr_map (f : α → β) (fill : α) (ps : List (Nat × α)) (j : Nat) :
    Spec.patchOr (f fill) (ps.map (fun p => (p.1, f p.2))) j = f (Spec.patchOr fill ps j) := by
  simp only [Spec.patchOr]
  rw [List.find?_map]
  simp only [Function.comp_def]
  cases ps.find? (fun p => p.1 == j) <;> rfl

theorem patched_map (f : α → β) (n off : Nat) (fill : α) (is : List Nat) (vs : List α) :
    Spec.patched n off (f fill) (is.zip (vs.map f)) = (Spec.patched n off fill (is.zip vs)).map f := by
  simp only [Spec.patched, List.map_map]
  apply List.map_congr_left
  intro i _
  have : is.zip (vs.map f) = (is.zip vs).map (fun p => (p.1, f p.2)) := by
    rw [List.zip_map_right]
    rfl
  rw [this, patchOr_map]
  rfl

/-- The sparse array with plain values. -/
def plainSparse (is : List Nat) (vs : List SV) (n off : Nat) (fill : SV) : Sparse SV := ⟨is, ⟨vs, .nonNullable⟩, n, off, some fill⟩

theorem plain_rows (vs : List SV) : (⟨vs, .nonNullable⟩ : PArr SV).rows = vs.map some := by
  simp only [PArr.rows, Spec.mask, Spec.rows]
  induction vs with
  | nil => rfl
  | cons x xs ih => simpa [List.replicate_succ] using ih

theorem plainSparse_wf {is : List Nat} {vs : List SV} {n off : Nat} {fill : SV} (hs : is.Pairwise (· < ·)) (hl : is.length = vs.length)
    (hb : ∀ i ∈ is, off ≤ i ∧ i < off + n) : (plainSparse is vs n off fill).WF :=
  ⟨hs, hl, by simp [plainSparse, PArr.WF, FitsLen, Spec.mask], fun i hi => (hb i hi).1, fun i hi => (hb i hi).2, by simp [plainSparse]⟩

theorem plainSparse_rows (is : List Nat) (vs : List SV) (n off : Nat) (fill : SV) :
    (plainSparse is vs n off fill).rows = (Spec.patched n off fill (is.zip vs)).map some := by
  simp only [Sparse.rows, plainSparse, plain_rows]
  exact patched_map some n off fill is vs

theorem map_some_inj {xs ys : List α} (h : xs.map some = ys.map some) : xs = ys := by
  have := congrArg (fun l => l.filterMap id) h
  simpa using this

theorem plain_take {vs : List SV} {ks : List Nat} {p : PArr SV} (h : (⟨vs, .nonNullable⟩ : PArr SV).take ks = .ok p) :
    p = ⟨Spec.take vs ks, .nonNullable⟩ ∧ ∀ k ∈ ks, k < vs.length := by
  simp only [PArr.take, Validity.take, Res.ok_bind, Res.bind_eq_ok] at h
  obtain ⟨xs, h1, h2⟩ := h
  have hb : ∀ k ∈ ks, k < vs.length := by
    clear h2
    intro k hk
    obtain ⟨i, hi, rfl⟩ := List.mem_iff_getElem.mp hk
    obtain ⟨b, _, hb⟩ := Res.mapM_eq_ok_getElem? h1 (List.getElem?_eq_getElem hi)
    by_contra hcon
    simp only [idx] at hb
    rw [List.getElem?_eq_none (by omega)] at hb
    cases hb
  rw [takeList_ok hb] at h1
  cases h1
  simp only [Res.ok.injEq] at h2
  exact ⟨h2.symm, hb⟩

theorem tryNew_eq {is : List Nat} {vs : PArr SV} {n : Nat} {fill : Option SV} {b : Sparse SV} (h : Sparse.tryNew is vs n fill = .ok b) :
    b = ⟨is, vs, n, 0, fill⟩ := by
  simp only [Sparse.tryNew, Sparse.tryNewWithOffset] at h
  obtain ⟨_, _, h1⟩ := Res.bind_eq_ok.mp h
  obtain ⟨_, _, h2⟩ := Res.bind_eq_ok.mp h1
  split at h2
  · obtain ⟨_, _, h3⟩ := Res.bind_eq_ok.mp h2
    cases h3; rfl
  · obtain ⟨d, _, h3⟩ := Res.bind_eq_ok.mp h2
    split at h3
    · obtain ⟨_, h0, _⟩ := Res.bind_eq_ok.mp h3
      cases h0
    · obtain ⟨_, _, h4⟩ := Res.bind_eq_ok.mp h3
      cases h4; rfl

theorem sparse_take_shadow {is : List Nat} {vs : List SV} {n off : Nat} (fill : SV) (hs : is.Pairwise (· < ·)) (hl : is.length = vs.length)
    (hb : ∀ i ∈ is, off ≤ i ∧ i < off + n) (js : List Nat) (hj : ∀ j ∈ js, j < n) :
    ∃ ps, (shadow is n off).takePlan js = .ok ps ∧ (ps.map (·.1)).Pairwise (· < ·) ∧ (∀ i ∈ ps.map (·.1), i < js.length) ∧
      (∀ k ∈ ps.map (·.2), k < vs.length) ∧
      Spec.patched js.length 0 fill ((ps.map (·.1)).zip (Spec.take vs (ps.map (·.2)))) = Spec.take (Spec.patched n off fill (is.zip vs)) js := by
  have hw := plainSparse_wf (fill := fill) hs hl hb
  obtain ⟨b, h1, h2, h3, h4⟩ := Sparse.C18_take hw js hj
  simp only [Sparse.take] at h1
  obtain ⟨ps, hp, h1⟩ := Res.bind_eq_ok.mp h1
  obtain ⟨w, hv, h1⟩ := Res.bind_eq_ok.mp h1
  obtain ⟨rfl, hk⟩ := plain_take hv
  have hbe := tryNew_eq h1
  subst hbe
  refine ⟨ps, hp, h2.strict, fun i hi => by have := h2.upper i hi; simpa using this, hk, ?_⟩
  rw [plainSparse_rows, Spec.take_map] at h4
  have := plainSparse_rows (ps.map (·.1)) (Spec.take vs (ps.map (·.2))) js.length 0 fill
  exact map_some_inj (this.symm.trans h4)

theorem sparse_filter_shadow {is : List Nat} {vs : List SV} {n off : Nat} (fill : SV) (hs : is.Pairwise (· < ·)) (hl : is.length = vs.length)
    (hb : ∀ i ∈ is, off ≤ i ∧ i < off + n) (m : List Bool) (hm : m.length = n) :
    ∃ coords ps, (shadow is n off).resolvedIndices = .ok coords ∧ Sparse.filterLoop m coords 0 0 0 = .ok ps ∧
      (ps.map (·.1)).Pairwise (· < ·) ∧ (∀ i ∈ ps.map (·.1), i < m.count true) ∧ (∀ k ∈ ps.map (·.2), k < vs.length) ∧
      Spec.patched (m.count true) 0 fill ((ps.map (·.1)).zip (Spec.take vs (ps.map (·.2)))) =
        Spec.filter (Spec.patched n off fill (is.zip vs)) m := by
  have hw := plainSparse_wf (fill := fill) hs hl hb
  obtain ⟨b, h1, h2, h3, h4⟩ := (Sparse.C18_filter hw m).1 hm
  simp only [Sparse.filter] at h1
  rw [if_neg (by simp [plainSparse, hm])] at h1
  obtain ⟨cs, hc, h1⟩ := Res.bind_eq_ok.mp h1
  obtain ⟨ps, hp, h1⟩ := Res.bind_eq_ok.mp h1
  obtain ⟨w, hv, h1⟩ := Res.bind_eq_ok.mp h1
  obtain ⟨rfl, hk⟩ := plain_take hv
  have hbe := tryNew_eq h1
  subst hbe
  refine ⟨cs, ps, hc, hp, h2.strict, fun i hi => by have := h2.upper i hi; simpa using this, hk, ?_⟩
  rw [plainSparse_rows, Spec.filter_map] at h4
  have := plainSparse_rows (ps.map (·.1)) (Spec.take vs (ps.map (·.2))) (m.count true) 0 fill
  exact map_some_inj (this.symm.trans h4)

/-- Writing the patches over `base`. -/
theorem sparse_scatter {is : List Nat} {vs : List α} {n off : Nat} (hs : is.Pairwise (· < ·)) (hl : is.length = vs.length)
    (hb : ∀ i ∈ is, off ≤ i ∧ i < off + n) (base : List α) (hbase : base.length = n) :
    ∃ js v b, Res.mapM (fun i => Res.sub i off) is = .ok js ∧ js.length = vs.length ∧
      Sparse.scatter base (List.replicate n false) (js.zip vs) = .ok (v, b) ∧ v.length = n ∧ b.length = n ∧
      (∀ x ∈ v, x ∈ base ∨ x ∈ vs) ∧
      ∀ j : Nat, j < n → (off + j ∈ is ∧ b[j]? = some true ∧ ∃ (k : Nat) (x : α), is[k]? = some (off + j) ∧ vs[k]? = some x ∧ v[j]? = some x) ∨
        (off + j ∉ is ∧ b[j]? = some false ∧ v[j]? = base[j]?) := by
  have h0 : Res.mapM (fun i => Res.sub i off) is = .ok (is.map (fun i => i - off)) :=
    Res.mapM_ok (fun i hi => Res.sub_of_le (hb i hi).1)
  have hstr : (is.map (fun i => i - off)).Pairwise (· < ·) := by
    rw [List.pairwise_map]
    refine List.Pairwise.imp_of_mem ?_ hs
    intro x y hx hy hxy
    have := hb x hx
    omega
  have hmf : ((is.map (fun i => i - off)).zip vs).map (·.1) = is.map (fun i => i - off) := List.map_fst_zip (by simp [hl])
  obtain ⟨v, b, h1, h2, h3, h4, h5⟩ := Sparse.scatter_spec ((is.map (fun i => i - off)).zip vs) (by rw [hmf]; exact hstr)
    base (List.replicate n false) (by
      intro p hp
      have := (List.of_mem_zip (a := p.1) (b := p.2) hp).1
      obtain ⟨i, hi, he⟩ := List.mem_map.mp this
      have := hb i hi
      simp; omega)
  have hpt : ∀ j : Nat, j < n → (off + j ∈ is ∧ b[j]? = some true ∧ ∃ (k : Nat) (x : α), is[k]? = some (off + j) ∧ vs[k]? = some x ∧ v[j]? = some x) ∨
      (off + j ∉ is ∧ b[j]? = some false ∧ v[j]? = base[j]?) := by
    intro j hj
    by_cases hm : off + j ∈ is
    · left
      obtain ⟨k, hk, hke⟩ := List.mem_iff_getElem.mp hm
      have hkv : k < vs.length := by omega
      have hmem : (j, vs[k]) ∈ (is.map (fun i => i - off)).zip vs := by
        rw [List.mem_iff_getElem]
        refine ⟨k, by simp only [List.length_zip, List.length_map]; omega, ?_⟩
        simp [hke]
      obtain ⟨g1, g2⟩ := h4 _ hmem
      exact ⟨hm, g2, k, vs[k], by rw [List.getElem?_eq_getElem hk, hke], List.getElem?_eq_getElem hkv, g1⟩
    · right
      have hn : j ∉ ((is.map (fun i => i - off)).zip vs).map (·.1) := by
        rw [hmf]
        intro hcon
        obtain ⟨i, hi, he⟩ := List.mem_map.mp hcon
        have := hb i hi
        exact hm (by rwa [show off + j = i by omega])
      obtain ⟨g1, g2⟩ := h5 j hn
      refine ⟨hm, ?_, g1⟩
      rw [g2]; simp [hj]
  refine ⟨_, v, b, h0, by simp [hl], h1, by omega, by simpa using h3, ?_, hpt⟩
  intro x hx
  obtain ⟨j, hj, rfl⟩ := List.mem_iff_getElem.mp hx
  rcases hpt j (by omega) with ⟨_, _, k, y, _, hk, hy⟩ | ⟨_, _, hy⟩
  · right
    rw [List.getElem?_eq_getElem hj] at hy
    cases hy
    exact List.mem_iff_getElem?.mpr ⟨k, hk⟩
  · left
    rw [List.getElem?_eq_getElem hj] at hy
    exact List.mem_iff_getElem?.mpr ⟨j, hy.symm⟩

theorem setStored_of_scatter (ps : List (Nat × SV)) (vals : List SV) (valid : List Bool) (v : List SV) (b : List Bool)
    (h : Sparse.scatter vals valid ps = .ok (v, b)) : setStored vals ps = .ok v := by
  induction ps generalizing vals valid with
  | nil => simp only [Sparse.scatter, Res.ok.injEq, Prod.mk.injEq] at h; simp [setStored, h.1]
  | cons p ps ih =>
    obtain ⟨i, x⟩ := p
    simp only [Sparse.scatter] at h
    obtain ⟨w, h1, h⟩ := Res.bind_eq_ok.mp h
    obtain ⟨c, h2, h⟩ := Res.bind_eq_ok.mp h
    simp only [setStored, h1, Res.ok_bind]
    exact ih _ _ h

theorem patched_getElem? {is : List Nat} {vs : List SV} {n off : Nat} {fill : SV} {j : Nat} (hj : j < n) :
    (Spec.patched n off fill (is.zip vs))[j]? = some (Spec.patchOr fill (is.zip vs) (off + j)) := by
  simp [Spec.patched, hj]

@[simp] theorem patched_length {n off : Nat} {fill : SV} {ps : List (Nat × SV)} : (Spec.patched n off fill ps).length = n := by
  simp [Spec.patched]

/-! ### run-end -/

def plainRuns (ends : List Nat) (vs : List SV) (off n : Nat) : RunEnd SV := ⟨ends, ⟨vs, .nonNullable⟩, .nonNullable, off, n⟩

theorem plainRuns_wf {ends : List Nat} {vs : List SV} {off n : Nat} (hs : ends.Pairwise (· < ·)) (hl : ends.length = vs.length)
    (hfirst : off = 0 ∨ ∀ e ∈ ends.head?, off < e) (hlast : off + n ≤ ends.getLast?.getD 0) : (plainRuns ends vs off n).WF :=
  ⟨hs, hl, rfl, hfirst, hlast, by simp [plainRuns, FitsLen, Spec.mask]⟩

theorem plain_masked (xs : List SV) (k : Nat) (hk : xs.length = k) : Spec.rows xs (Spec.mask k .nonNullable) = xs.map some := by
  subst hk
  exact plain_rows xs

theorem run_take_shadow {ends : List Nat} {vs : List SV} {off n : Nat} (hs : ends.Pairwise (· < ·)) (hl : ends.length = vs.length)
    (hfirst : off = 0 ∨ ∀ e ∈ ends.head?, off < e) (hlast : off + n ≤ ends.getLast?.getD 0) (is : List Nat) (hi : ∀ i ∈ is, i < n) :
    ∃ ph, (shadowRuns ends off n).takePhysical is = .ok ph ∧ ph.length = is.length ∧ (∀ k ∈ ph, k < vs.length) ∧
      Spec.take vs ph = Spec.take (Spec.slice (Spec.expand ends vs) off (off + n)) is := by
  have hw := plainRuns_wf hs hl hfirst hlast
  obtain ⟨t, h1, h2, h3⟩ := RunEnd.C15_take _ hw is hi
  simp only [RunEnd.take] at h1
  obtain ⟨ph, hp, h1⟩ := Res.bind_eq_ok.mp h1
  obtain ⟨w, hv, h1⟩ := Res.bind_eq_ok.mp h1
  obtain ⟨rfl, hk⟩ := plain_take hv
  simp only [RunEnd.takeNulls, plainRuns, Res.ok.injEq] at h1
  subst h1
  have hpl : ph.length = is.length := by
    simp only [RunEnd.takePhysical] at hp
    obtain ⟨adj, ha, hp⟩ := Res.bind_eq_ok.mp hp
    rw [Res.mapM_eq_ok_length hp, Res.mapM_eq_ok_length ha]
  refine ⟨ph, hp, hpl, hk, ?_⟩
  simp only [RunEnd.Taken.rows, plain_rows] at h3
  have e := RunEnd.window_length hw
  rw [RunEnd.rows] at h3
  rw [show (plainRuns ends vs off n).validity = .nonNullable from rfl, plain_masked _ _ e, Spec.take_map] at h3
  exact map_some_inj h3

theorem mem_expandFrom {s : Nat} {ends : List Nat} {vs : List α} {x : α} (h : x ∈ Spec.expandFrom s ends vs) : x ∈ vs := by
  induction ends generalizing s vs with
  | nil => simp [Spec.expandFrom] at h
  | cons e es ih =>
    cases vs with
    | nil => simp [Spec.expandFrom] at h
    | cons v vs =>
      simp only [Spec.expandFrom, List.mem_append] at h
      rcases h with h | h
      · rw [List.eq_of_mem_replicate h]; simp
      · simp [ih h]

theorem run_decode {ends : List Nat} {vs : List SV} {off n : Nat} (hs : ends.Pairwise (· < ·)) (hl : ends.length = vs.length)
    (hfirst : off = 0 ∨ ∀ e ∈ ends.head?, off < e) (hlast : off + n ≤ ends.getLast?.getD 0) :
    RunEnd.decodePrimitive ends vs off n = .ok (Spec.slice (Spec.expand ends vs) off (off + n)) ∧
      (Spec.slice (Spec.expand ends vs) off (off + n)).length = n ∧
      (∀ x ∈ Spec.slice (Spec.expand ends vs) off (off + n), x ∈ vs) := by
  have hw := plainRuns_wf hs hl hfirst hlast
  obtain ⟨p, h1, h2, h3, h4⟩ := RunEnd.C15_canonical _ hw
  refine ⟨?_, RunEnd.window_length hw, ?_⟩
  · simp only [RunEnd.canonical] at h1
    obtain ⟨xs, hx, h1⟩ := Res.bind_eq_ok.mp h1
    cases h1
    have hx' : RunEnd.decodePrimitive ends vs off n = .ok xs := hx
    rw [hx']
    exact congrArg Res.ok h4
  · intro x hx
    exact mem_expandFrom (mem_slice hx)

/-- A sparse array over the set positions of a mask, holding the filtered rows, is those rows with nulls elsewhere. -/
theorem patched_of_mask (D : List SV) (dv : List Bool) (hl : D.length = dv.length) :
    Spec.patched dv.length 0 .null ((RunEnd.setIndices dv).zip (Spec.filter D dv)) = masked D dv := by
  have hf : (Spec.filter D dv).length = dv.count true := Spec.filter_length hl
  obtain ⟨sp, h1, h2, h3⟩ := RunEnd.sparse_of_mask D dv ⟨Spec.filter D dv, .allValid⟩ hl (by
    simp only [PArr.rows, Spec.mask, Spec.filter_map]
    exact plain_rows _) (by simp [PArr.WF, FitsLen, Spec.mask]) rfl
  have := tryNew_eq h1
  subst this
  have hr : (⟨Spec.filter D dv, .allValid⟩ : PArr SV).rows = (Spec.filter D dv).map some := plain_rows _
  simp only [Sparse.rows, hr] at h3
  have h4 := congrArg (List.map (fun x : Option SV => x.getD .null)) h3
  rw [← patched_map (fun x : Option SV => x.getD .null)] at h4
  simp only [List.map_map, Function.comp_def, Option.getD_some, List.map_id', Option.getD_none] at h4
  rw [h4]
  clear h1 h2 h3 h4 hr hf
  induction D generalizing dv with
  | nil => simp [Spec.rows, masked]
  | cons x xs ih =>
    cases dv with
    | nil => simp at hl
    | cons b bs =>
      have := ih bs (by simpa using hl)
      simp only [Spec.rows, masked, List.zipWith_cons_cons, List.map_cons] at this ⊢
      rw [this]
      cases b <;> simp

end Vx.Tree
