import Verif.Lemmas.TreeCompareTotal
/-! # Comparing a tree with a constant: when it succeeds -/
namespace Vx.Tree
open Spec

variable {L : Type} {env : CEnv L} {leafRows : L → List SV} {ok : L → Prop} {sty : DType}

theorem slice_const {dt : DType} {x : SV} {n s e : Nat} (hb : InBounds n s e) :
    Arr.slice env.toEnv (.const dt x n : Arr L) s e = .ok (.const dt x (e - s)) := by
  have h1 : ¬ s > n := by have := hb.1; have := hb.2; omega
  have h2 : ¬ e > n := by have := hb.2; omega
  have h3 : ¬ s > e := by have := hb.1; omega
  simp [Arr.slice, Tree.depth, ops, step, slice, sliceFn, Tree.len, h1, h2, h3]

/-- What is required of a leaf encoding's own comparison with a constant: it has none, or it succeeds with an answer that is not a constant. -/
def LeafConst (env : CEnv L) : Prop := ∀ op l dt x n, SV.isNull x = false →
  env.leafCmp op l (.const dt x n) = none ∨ ∃ b, env.leafCmp op l (.const dt x n) = some (.ok b) ∧ Fresh env b

theorem not_alp {op : Op} {l : Arr L} {dt : DType} {x : SV} {k : Nat} (hc : Comparable env leafRows ok op l (.const dt x k)) (he : isEnd l = true) :
    isAlp l = false := by
  rcases hc.alp with h | h
  · exact (Path_end he).mp h.1
  · have := (Path_end rfl).mp h.2.2
    simp [isConstArr] at this

theorem constChunks_total (hl : LeafLaws env.toEnv leafRows ok) {cmp : Arr L → Arr L → Res (Arr L)} {op : Op} {dt dt' : DType} {cs0 : List (Arr L)}
    {x : SV} {k d : Nat} (hc : Comparable env leafRows ok op (.chunked dt cs0) (.const dt' x k)) (hst : Straight env leafRows sty (.chunked dt cs0))
    (hd : dt.eqIgnoreNullability dt' = true) (hdep : depths cs0 ≤ d)
    (IH : ∀ l k, Comparable env leafRows ok op l (.const dt' x k) → Straight env leafRows sty l →
      (rows env.toEnv leafRows l).length = k → (dtype env.toEnv l).eqIgnoreNullability dt' = true → depth l ≤ d →
      ∃ b, cmp l (.const dt' x k) = .ok b ∧ Fresh env b) :
    ∀ (cs : List (Arr L)) (i : Nat), (∀ c ∈ cs, c ∈ cs0) →
      i + ((rowsEach env.toEnv leafRows cs).flatten).length ≤ k →
      ∃ out, compareChunks env cmp (.const dt' x k) i cs = .ok out ∧ ∀ c ∈ out, dtype env.toEnv c = .bool true
  | [], i, _, _ => ⟨[], rfl, by simp⟩
  | c :: cs, i, hmem, hlen => by
    have hcm := hmem c List.mem_cons_self
    obtain ⟨hwc, hdc⟩ : WF env.toEnv leafRows ok c ∧ dtype env.toEnv c = dt := by
      cases hc.left with
      | array hw _ _ =>
        simp only [WF] at hw
        exact ⟨(WFs_iff cs0).mp hw.1 c hcm, hw.2 _ (by rw [dtypes_eq]; exact List.mem_map_of_mem hcm)⟩
    have hlc := len_eq hl c hwc
    simp only [rowsEach, List.flatten_cons, List.length_append] at hlen
    have hib : InBounds k i (i + len env.toEnv c) := ⟨by omega, by omega⟩
    have hib' : InBounds (rows env.toEnv leafRows (.const dt' x k : Arr L)).length i (i + len env.toEnv c) := by simpa only [rows, List.length_replicate] using hib
    obtain ⟨r', h1, h2, h3⟩ := slice_sliced hl hc.right (.inr rfl) hib'
    have hcmp := hc.chunk hcm h2 (by
      intro x hx
      rw [h3] at hx
      exact mem_slice hx) (fun hne => by
      have := List.length_pos_iff.mpr hne
      rw [h3]
      exact slice_ne_nil (by omega) hib'.2)
    rw [slice_const hib] at h1
    injection h1 with h1
    have hk : i + len env.toEnv c - i = len env.toEnv c := by omega
    rw [hk] at h1
    subst h1
    simp only [Straight, Path] at hst
    have hdep1 := (depths_le cs0 (depths cs0)).mp (Nat.le_refl _) c hcm
    obtain ⟨b, b1, b2⟩ := IH c _ hcmp ((Paths_iff cs0).mp hst c hcm) hlc.symm (by rw [hdc]; exact hd) (by omega)
    obtain ⟨out, k1, k2⟩ := constChunks_total hl hc hst hd hdep IH cs (i + len env.toEnv c) (fun c hc => hmem c (List.mem_cons_of_mem _ hc)) (by omega)
    refine ⟨b :: out, by simp only [compareChunks, slice_const hib, hk, b1, k1, Res.ok_bind], ?_⟩
    intro c' hc'
    rcases List.mem_cons.mp hc' with rfl | h
    · exact b2.1
    · exact k2 c' h

theorem eqIgnore_refl (d : DType) : d.eqIgnoreNullability d = true := by
  unfold DType.eqIgnoreNullability
  rw [DType.beq_eq]

theorem compareF_const_total (hl : LeafLaws env.toEnv leafRows ok) (lb : LeafBulk env.toBEnv leafRows ok) (hns : NoStats env) (hleaf : LeafConst env)
    {x : SV} (hx : x.isNull = false) :
    ∀ (n : Nat) (op : Op) (l : Arr L) (dt : DType) (k : Nat), Comparable env leafRows ok op l (.const dt x k) → Straight env leafRows sty l →
      (rows env.toEnv leafRows l).length = k → (dtype env.toEnv l).eqIgnoreNullability dt = true → depth l ≤ n →
      ∃ b, compareF env n op l (.const dt x k) = .ok b ∧ Fresh env b
  | 0, _, l, _, _, _, _, _, _, hd => by have := depth_pos l; omega
  | n + 1, op, l, dt, k, hc, hsl, hlen, hd, hdep => by
    have IH := compareF_const_total hl lb hns hleaf hx n
    have hll := hc.left.len hl
    have cl := straight_not_const hsl
    have hn1 : ¬ (len env.toEnv l ≠ len env.toEnv (.const dt x k : Arr L)) := by simp only [Tree.len]; omega
    have hd1 : (dtype env.toEnv l).eqIgnoreNullability (dtype env.toEnv (.const dt x k : Arr L)) = true := by simpa only [dtype] using hd
    simp only [compareF, hn1, if_false, hd1, Bool.not_true, Bool.false_eq_true, cl, Bool.false_and]
    have hsw : isEnd l = true → (own env (compareF env n) op l (.const dt x k) = none) → ∃ b, (match own env (compareF env n) op l (.const dt x k) with
          | some res => res
          | none => match own env (compareF env n) op.swap (.const dt x k) l with
            | some res => res
            | none => viaArrow env op l (.const dt x k)) = .ok b ∧ Fresh env b := by
      intro hel hno
      have nl := ((Path_end hel).mp hsl)
      have wl := side_wf hc.left cl
      have hk : known env l = false := by
        cases l <;> first | exact hns _ | simp [isConstArr] at cl
      have hno' : own env (compareF env n) op.swap (.const dt x k) l = none := by simp only [own, hk]; rfl
      rw [hno, hno']
      have hkind := nice_kind_cmp hl lb wl nl.1
      obtain ⟨wr, nr⟩ : WF env.toEnv leafRows ok (.const dt x k : Arr L) ∧ Nice env.toEnv leafRows (.const dt x k : Arr L) := by
        cases hr : hc.right with
        | array hw _ hsh =>
          refine ⟨hw, ?_⟩
          have := (Path_end (a := (.const dt x k : Arr L)) rfl).mp hsh
          simpa [isNullOrStruct] using this
        | extConst id m nl' =>
          exfalso
          obtain ⟨_, _, _, h⟩ := eqIgnore_ext (eqIgnore_symm hd)
          rw [h] at hkind
          simp [kindOf] at hkind
      obtain ⟨b, b1, _, _, _, b5⟩ := fromArrowBools_ok (env := env) (leafRows := leafRows) (ok := ok) _ (zip_opRow_bool op
        (rows env.toEnv leafRows l) (rows env.toEnv leafRows (.const dt x k : Arr L)))
      refine ⟨b, ?_, b5, fromArrowBools_fresh b1⟩
      have hrow : (arrowRow op : SV → SV → SV) = opRow op := by funext x y; exact arrowRow_eq op x y
      simp only [viaArrow, arrowRows_nice hl lb wl nl.1, arrowRows_nice hl lb wr nr, Res.ok_bind, hrow, b1]
    cases l with
    | chunked dt0 cs =>
      simp only [rows] at hlen
      simp only [depth] at hdep
      obtain ⟨out, k1, k2⟩ := constChunks_total (cmp := compareF env n op) (d := n) hl hc hsl (by simpa only [dtype] using hd) (by omega)
        (fun l k => IH op l dt k) cs 0 (fun _ h => h) (by omega)
      have hall : out.all (fun c => decide (dtype env.toEnv c = .bool true)) = true := by
        rw [List.all_eq_true]; intro c hc; simpa using k2 c hc
      exact ⟨.chunked (.bool true) out, by simp only [own, k1, Res.ok_bind, mkChunked, Res.guard, hall, if_true], rfl, rfl⟩
    | ext id m s =>
      have hsl' := hsl
      simp only [Straight, Path] at hsl'
      simp only [depth] at hdep
      simp only [dtype] at hd
      obtain ⟨b, b1, b2⟩ := IH op s (dtype env.toEnv s) k (hc.extConst hl lb (eqIgnore_ext hd)) hsl'.2 (by simpa only [rows] using hlen)
        (eqIgnore_refl _) (by omega)
      exact ⟨b, by simp only [own, b1], b2⟩
    | leaf l =>
      rcases hleaf op l dt x k hx with h | ⟨b, h1, h2⟩
      · exact hsw rfl h
      · exact ⟨b, by simp only [own, h1], h2⟩
    | const => simp [isConstArr] at cl
    | flat kd vals v =>
      obtain ⟨hw, hn⟩ := flat_shape_cmp hc.left
      have hk : k = vals.length := by rw [← hlen, flat_rows_len (env := env.toBEnv) hw]
      simp only [dtype] at hd
      cases kd with
      | prim p =>
        obtain ⟨q, rfl⟩ : ∃ q, x = .prim q := by
          have : ∃ nl, dt = .prim p nl := by
            unfold DType.eqIgnoreNullability at hd
            rw [DType.beq_eq] at hd
            cases dt <;> simp [Kind.dtype, DType.withNullability] at hd
            exact ⟨_, by rw [hd]⟩
          obtain ⟨nl, rfl⟩ := this
          cases hr : hc.right with
          | array hw' _ _ =>
            simp only [WF] at hw'
            cases x <;> simp [inst, SV.isNull] at hw' hx
            exact ⟨_, rfl⟩
        have := prim_const_type hc.right hd
        injection this with hp
        subst hk
        obtain ⟨b, b1, b2⟩ := primConst_ok (op := op) (dt := dt) hl hw hp.symm hn hc.ordinaryL hc.ordinaryR
        have hfr : isConstArr b = false := mkBool_fresh (by simpa only [primConst] using b1)
        refine ⟨b, by simp only [own, b1], ?_, hfr⟩
        rcases b2.dtype with h | ⟨dt, m, h⟩
        · exact h
        · subst h; simp [isConstArr] at hfr
      | bool => exact hsw rfl (by simp [own])
      | utf8 =>
        obtain ⟨b, b1, _, b3⟩ := bytes_sound (op := op) (dt := dt) (x := x) hl lb hw hn hk
        have hfr : isConstArr b = false := by
          simp only [bytesConst, Res.bind_eq_ok] at b1
          obtain ⟨_, _, h⟩ := b1
          exact fromArrowBools_fresh h
        exact ⟨b, by simp only [own, b1], b3, hfr⟩
      | binary =>
        obtain ⟨b, b1, _, b3⟩ := bytes_sound (op := op) (dt := dt) (x := x) hl lb hw hn hk
        have hfr : isConstArr b = false := by
          simp only [bytesConst, Res.bind_eq_ok] at b1
          obtain ⟨_, _, h⟩ := b1
          exact fromArrowBools_fresh h
        exact ⟨b, by simp only [own, b1], b3, hfr⟩
    | mapped c enc =>
      have := not_alp hc rfl
      cases c with
      | alp e f => simp [isAlp] at this
      | _ => exact hsw rfl (by simp [own])
    | alpP e f enc ps => have := not_alp hc rfl; simp [isAlp] at this
    | _ => exact hsw rfl (by simp [own])

end Vx.Tree
