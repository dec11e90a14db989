import Verif.Lemmas.Stored
/-! # Stored trees are built by the constructors, and read back as the trees they are -/
namespace Vx.Store
open Own
open Vx.Tree (TVal Kind Codec WF WFs WFV LeafLaws)

variable {L : Type} {sc : Scalars} {S : Leaves L} {env : Tree.Env L} {leafRows : L → List SV} {ok : L → Prop} {C : Compute}

/-! ## Types and lengths -/

theorem phys_dtype (hS : StoreLaws C S env ok) : ∀ t : Tree.Arr L, WF env leafRows ok t → (phys sc S env t).dtype = Tree.dtype env t
  | .leaf l, h => hS.dtype l h
  | .flat k vals v, _ => by cases k <;> rfl
  | .null _, _ => rfl
  | .const _ _ _, _ => rfl
  | .chunked _ _, _ => rfl
  | .struct _ _ _ _, _ => rfl
  | .ext _ _ _, _ => rfl
  | .sparse _ _ _ _ _, _ => rfl
  | .dict _ _, _ => rfl
  | .runEnd _ _ _ _ _, _ => rfl
  | .mapped c enc, _ => by cases c <;> rfl
  | .alpP _ _ _ _, _ => rfl

theorem phys_len (hS : StoreLaws C S env ok) : ∀ t : Tree.Arr L, WF env leafRows ok t → (phys sc S env t).len = Tree.len env t
  | .leaf l, h => hS.len l h
  | .flat k vals v, _ => by cases k <;> rfl
  | .null _, _ => rfl
  | .const _ _ _, _ => rfl
  | .chunked _ _, _ => rfl
  | .struct _ _ _ _, _ => rfl
  | .ext _ _ _, _ => rfl
  | .sparse _ _ _ _ _, _ => rfl
  | .dict _ _, _ => rfl
  | .runEnd _ _ _ _ _, _ => rfl
  | .mapped c enc, _ => by cases c <;> rfl
  | .alpP _ _ _ _, _ => rfl

theorem physs_dtypes (hS : StoreLaws C S env ok) : ∀ cs : List (Tree.Arr L), WFs env leafRows ok cs → (physs sc S env cs).map Arr.dtype = Tree.dtypes env cs
  | [], _ => rfl
  | c :: cs, h => by
    simp only [WFs] at h
    simp only [physs, List.map_cons, Tree.dtypes, phys_dtype hS c h.1, physs_dtypes hS cs h.2]

theorem physs_lens (hS : StoreLaws C S env ok) : ∀ cs : List (Tree.Arr L), WFs env leafRows ok cs → ((physs sc S env cs).map Arr.len).sum = Tree.lens env cs
  | [], _ => rfl
  | c :: cs, h => by
    simp only [WFs] at h
    simp only [physs, List.map_cons, List.sum_cons, Tree.lens, phys_len hS c h.1, physs_lens hS cs h.2]

theorem physs_length : ∀ cs : List (Tree.Arr L), (physs sc S env cs).length = cs.length
  | [] => rfl
  | c :: cs => by simp [physs, physs_length cs]

/-! ## Chunk offsets -/

theorem chunkOffsets_length : ∀ (ls : List Nat) (acc : Nat), (chunkOffsets acc ls).length = ls.length + 1
  | [], _ => rfl
  | l :: ls, acc => by simp [chunkOffsets, chunkOffsets_length ls]

theorem chunkOffsets_last : ∀ (ls : List Nat) (acc : Nat), (chunkOffsets acc ls).getLast? = some (acc + ls.sum)
  | [], acc => by simp [chunkOffsets]
  | l :: ls, acc => by
    have h := chunkOffsets_last ls (acc + l)
    have hne : chunkOffsets (acc + l) ls ≠ [] := by intro h0; rw [h0] at h; simp at h
    simp only [chunkOffsets, List.sum_cons]
    rw [List.getLast?_cons_of_ne_nil hne, h]
    congr 1; omega

theorem offsetsFrom_eq : ∀ (ls : List Nat) (acc : Nat), acc + ls.sum < 2 ^ 64 → offsetsFrom acc ls = .ok (chunkOffsets acc ls)
  | [], _, _ => rfl
  | l :: ls, acc, h => by
    simp only [List.sum_cons] at h
    simp only [offsetsFrom, Res.assert, chunkOffsets]
    rw [offsetsFrom_eq ls (acc + l) (by omega)]
    have : decide (acc + l < 2 ^ 64) = true := decide_eq_true (by omega)
    rw [this]
    rfl

/-! ## Validity -/

/-- The validity of a tree as a constructor's argument. -/
def valid (sc : Scalars) (S : Leaves L) (env : Tree.Env L) : TVal (Tree.Arr L) → Valid
  | .nonNullable => .nonNullable
  | .allValid => .allValid
  | .allInvalid => .allInvalid
  | .array a => .array (phys sc S env a)

theorem valid_nullable (v : TVal (Tree.Arr L)) : (valid sc S env v).nullable = v.nullable := by cases v <;> rfl
theorem valid_into (v : TVal (Tree.Arr L)) : (valid sc S env v).intoArray = physV sc S env v := by cases v <;> rfl

theorem valid_meta (hl : ∀ l, ok l → env.len l = (leafRows l).length) (hS : StoreLaws C S env ok) {v : TVal (Tree.Arr L)} {n : Nat} (h : WFV env leafRows ok v n) :
    (valid sc S env v).toMetadata n = .ok (vmeta v) := by
  cases v with
  | array a =>
    simp only [WFV] at h
    simp only [valid, Valid.toMetadata, phys_len hS a h.1, Tree.len_of hl a h.1, h.2.2.1, if_true, vmeta]
  | _ => rfl

theorem valid_owes (hS : StoreLaws C S env ok) {v : TVal (Tree.Arr L)} {n : Nat} (h : WFV env leafRows ok v n) : VOwes (valid sc S env v) := by
  cases v with
  | array a => simp only [WFV] at h; simp only [valid, VOwes, phys_dtype hS a h.1, h.2.1]
  | _ => trivial

theorem numbers_built (C : Compute) (p : PType) (xs : List Nat) : Built C (numbers p xs) :=
  .mk (.prim p xs .nonNullable) _ (by simp [Call.args, Valid.intoArray]) trivial rfl

/-! ## Built by the constructors -/

theorem guard_true {b : Bool} (h : b = true) : Res.guard b = .ok () := by subst h; rfl

theorem codeType_built {d : DType} {p : PType} (h : d = .prim p false) : codeType d = p := by subst h; rfl

theorem toUnsigned_eq (p : PType) : Tree.toUnsigned p = Own.toUnsigned p := by cases p <;> rfl
theorem toSigned_eq (p : PType) : Tree.toSigned p = Own.toSigned p := by cases p <;> rfl
theorem unsigned_eq (p : PType) : Tree.isUnsigned p = Own.unsigned p := by cases p <;> rfl

theorem alp_out {e f : Nat} {d d' : DType} (h : (Codec.alp e f).outType d = some d') : alpDType d = .ok d' := by
  cases d with
  | prim p n => cases p <;> simp_all [Codec.outType, alpDType]
  | _ => simp [Codec.outType] at h

theorem physs_all_len (hl : ∀ l, ok l → env.len l = (leafRows l).length) (hS : StoreLaws C S env ok) {n : Nat} : ∀ cs : List (Tree.Arr L), WFs env leafRows ok cs →
    (∀ c ∈ Tree.rowsEach env leafRows cs, c.length = n) → ∀ x ∈ physs sc S env cs, (x.len == n) = true
  | [], _, _ => by simp [physs]
  | c :: cs, h, hn => by
    simp only [WFs] at h
    simp only [Tree.rowsEach, List.mem_cons, forall_eq_or_imp] at hn
    simp only [physs, List.mem_cons]
    rintro x (rfl | hx)
    · rw [phys_len hS c h.1, Tree.len_of hl c h.1, hn.1]; simp
    · exact physs_all_len hl hS cs h.2 hn.2 x hx

theorem strs_built (k : Kind) (hk : k = .utf8 ∨ k = .binary) (vals : List SV) (v : TVal (Tree.Arr L))
    (hm : (valid sc S env v).toMetadata vals.length = .ok (vmeta v)) (ho : VOwes (valid sc S env v)) (hv : ∀ x ∈ physV sc S env v, Built C x)
    (hsz : k = .utf8 ∨ k = .binary → (vals.map fun x => (bytesOf x).length).sum < 2 ^ 32) : Built C (phys sc S env (.flat k vals v)) := by
  obtain ⟨b1, b2⟩ := buildViews_length (vals.map bytesOf) []
  have hw : (numbers .u8 (buildViews [] (vals.map bytesOf)).1).len = 16 * vals.length := by
    simp only [numbers, Arr.len, b1, List.length_map]
  refine .mk (.varbinview (numbers .u8 (buildViews [] (vals.map bytesOf)).1) [numbers .u8 (buildViews [] (vals.map bytesOf)).2] (k.dtype v.nullable) (valid sc S env v))
    _ ?_ ⟨by omega, ho⟩ ?_
  · simp only [Call.args, valid_into, List.mem_cons, List.mem_append, List.not_mem_nil, or_false]
    rintro x (rfl | rfl | hx)
    · exact numbers_built C _ _
    · exact numbers_built C _ _
    · exact hv x hx
  · have h1 : (buildViews [] (vals.map bytesOf)).2.length < 2 ^ 32 := by
      have := hsz hk
      rw [List.map_map] at b2
      refine Nat.lt_of_le_of_lt b2 ?_
      simpa [Function.comp_def] using this
    have h2 : (k.dtype v.nullable).isNullable = v.nullable := by rcases hk with rfl | rfl <;> rfl
    simp only [Call.run, valid_nullable, valid_into, h2, hw, show 16 * vals.length / 16 = vals.length by omega, hm, Res.ok_bind]
    rw [guard_true (show decide ((numbers .u8 (buildViews [] (vals.map bytesOf)).1).dtype = bytesD) = true from decide_eq_true rfl),
      guard_true (show [numbers .u8 (buildViews [] (vals.map bytesOf)).2].all (fun b => decide (b.dtype = bytesD)) = true from by simp [numbers, Arr.dtype]),
      guard_true (show (v.nullable != !v.nullable) = true from by cases v.nullable <;> rfl),
      guard_true (show [numbers .u8 (buildViews [] (vals.map bytesOf)).2].all (fun b => decide (b.len < 2 ^ 32)) = true from by
        simp only [List.all_cons, List.all_nil, Bool.and_true, numbers, Arr.len]; exact decide_eq_true h1)]
    rcases hk with rfl | rfl <;> rfl

section
variable (hC : C.Lawful) (hO : SortedOk C) (hl : ∀ l, ok l → env.len l = (leafRows l).length) (hS : StoreLaws C S env ok)

set_option linter.unusedSectionVars false
include hC hO hl hS in
mutual
theorem phys_built : ∀ t : Tree.Arr L, WF env leafRows ok t → Fits sc env t → Built C (phys sc S env t)
  | .leaf l, h, _ => hS.built l h
  | .flat k vals v, h, hf => by
    simp only [WF] at h
    simp only [Fits] at hf
    have hv := physV_built v h.2 hf.1
    have hm := valid_meta (sc := sc) hl hS h.2
    have ho := valid_owes (sc := sc) hS h.2
    cases k with
    | prim p =>
      refine .mk (.prim p (vals.map numOf) (valid sc S env v)) _ ?_ ho ?_
      · simpa [Call.args, valid_into] using hv
      · simp only [Call.run, List.length_map, hm, expect, Res.ok_bind, valid_nullable, valid_into, phys]
    | bool =>
      refine .mk (.bool (packBits vals) 0 vals.length (valid sc S env v)) _ ?_ ho ?_
      · simpa [Call.args, valid_into] using hv
      · simp only [Call.run, hm, Res.ok_bind, valid_nullable, valid_into, phys]
        rfl
    | utf8 => exact strs_built .utf8 (.inl rfl) vals v (valid_meta hl hS h.2) ho hv hf.2
    | binary => exact strs_built .binary (.inr rfl) vals v (valid_meta hl hS h.2) ho hv hf.2
  | .null n, _, _ => .mk (.null n) _ (by simp [Call.args]) trivial rfl
  | .const dt x n, _, _ => .mk (.constant dt (sc.num x) n) _ (by simp [Call.args]) trivial rfl
  | .chunked dt cs, h, hf => by
    simp only [WF] at h
    simp only [Fits] at hf
    refine .mk (.chunked (physs sc S env cs) dt) _ (physs_built cs h.1 hf.1) trivial ?_
    have h1 : (physs sc S env cs).all (fun c => decide (c.dtype = dt)) = true := by
      rw [List.all_eq_true]
      intro c hc
      have : c.dtype ∈ (physs sc S env cs).map Arr.dtype := List.mem_map_of_mem hc
      rw [physs_dtypes hS cs h.1] at this
      exact decide_eq_true (h.2 _ this)
    have hs := physs_lens (sc := sc) hS cs h.1
    simp only [Call.run, guard_true h1, Res.ok_bind]
    rw [offsetsFrom_eq _ 0 (by rw [hs]; omega)]
    simp only [Res.ok_bind, chunkOffsets_length, chunkOffsets_last, Res.sub, List.length_map, physs_length, Res.unwrap, hs, Nat.zero_add]
    simp [phys, numbers, chunkOffsets_length, physs_length]
  | .struct names fs n v, h, hf => by
    simp only [WF] at h
    simp only [Fits] at hf
    have hv := physV_built v h.2.2.2 hf.2
    have hm := valid_meta (sc := sc) hl hS h.2.2.2
    refine .mk (.struct names (physs sc S env fs) n (valid sc S env v)) _ ?_ (valid_owes (sc := sc) hS h.2.2.2) ?_
    · simp only [Call.args, valid_into, List.mem_append]
      rintro x (hx | hx)
      · exact physs_built fs h.2.1 hf.1 x hx
      · exact hv x hx
    · have h1 : (names.length == (physs sc S env fs).length) = true := by simp [physs_length, h.1]
      have h2 : (physs sc S env fs).all (fun f => f.len == n) = true := by
        rw [List.all_eq_true]
        exact physs_all_len hl hS fs h.2.1 h.2.2.1
      simp only [Call.run, guard_true h1, guard_true h2, Res.ok_bind, hm, valid_into, valid_nullable, physs_dtypes hS fs h.2.1, phys]
  | .ext id m s, h, hf => by
    simp only [WF] at h
    simp only [Fits] at hf
    refine .mk (.ext id m (phys sc S env s)) _ (by simpa [Call.args] using phys_built s h hf) trivial ?_
    simp only [Call.run, phys, phys_dtype hS s h, phys_len hS s h]
  | .sparse is values n off fill, h, hf => by
    simp only [WF] at h
    simp only [Fits] at hf
    refine .mk (.sparse (numbers .u64 is) (phys sc S env values) n off (sc.num fill) true) _ ?_ trivial ?_
    · simp only [Call.args, List.mem_cons, List.not_mem_nil, or_false]
      rintro x (rfl | rfl)
      · exact numbers_built C _ _
      · exact phys_built values h.1 hf.1
    · have h1 : ((numbers .u64 is).len == (phys sc S env values).len) = true := by
        rw [phys_len hS values h.1, Tree.len_of hl values h.1, ← h.2.2.1]; simp [numbers, Arr.len]
      have h0 : decide ((numbers .u64 is).dtype = u64) = true := decide_eq_true rfl
      simp only [Call.run, guard_true h1, guard_true h0, Res.ok_bind, guard_true (rfl : true = true)]
      have hlen : (numbers .u64 is).len = is.length := rfl
      rw [hlen]
      by_cases hne : is.length > 0
      · rw [if_pos hne]
        have hm := hC.mem is (is.length - 1) (by omega)
        rw [show C.memAt (numbers .u64 is) (is.length - 1) = _ from hm]
        have hb := h.2.2.2.2 _ (List.getElem_mem (by omega : is.length - 1 < is.length))
        simp only [Res.ok_bind, Res.sub, if_pos hb.1]
        rw [guard_true (decide_eq_true (by omega))]
        simp only [Res.ok_bind, phys, phys_dtype hS values h.1]
      · rw [if_neg hne]
        simp only [phys, phys_dtype hS values h.1]
  | .dict codes values, h, hf => by
    simp only [WF] at h
    simp only [Fits] at hf
    refine .mk (.dict (phys sc S env codes) (phys sc S env values)) _ ?_ trivial ?_
    · simp only [Call.args, List.mem_cons, List.not_mem_nil, or_false]
      rintro x (rfl | rfl)
      · exact phys_built codes h.1 hf.1
      · exact phys_built values h.2.1 hf.2
    · obtain ⟨p, hp, hu⟩ := h.2.2.1
      simp only [Call.run, phys_dtype hS codes h.1, phys_dtype hS values h.2.1, phys_len hS codes h.1, phys_len hS values h.2.1, hp, phys]
      rw [guard_true (by simp [isUnsignedD, ← unsigned_eq, hu, DType.isNullable])]
      rfl
  | .runEnd ends values v off n, h, hf => by
    simp only [WF] at h
    simp only [Fits] at hf
    obtain ⟨w1, w2, w3, w4, w5, w6, w7, w8⟩ := h
    have hv := physV_built v w2 hf.2.1
    refine .mk (.runEnd (numbers .u64 ends) (phys sc S env values) (valid sc S env v) off n) _ ?_ ⟨?_, valid_owes (sc := sc) hS w2⟩ ?_
    · simp only [Call.args, valid_into, List.mem_append, List.mem_cons, List.not_mem_nil, or_false]
      rintro x ((rfl | rfl) | hx)
      · exact numbers_built C _ _
      · exact phys_built values w1 hf.1
      · exact hv x hx
    · rw [phys_len hS values w1, Tree.len_of hl values w1, ← w5]; rfl
    · have hfirst : ∃ f, firstEnd C (numbers .u64 ends) off = .ok f ∧ off < f := by
        unfold firstEnd
        by_cases hc : off ≠ 0 ∧ (numbers .u64 ends).len > 0
        · rw [if_pos hc]
          have hpos : 0 < ends.length := hc.2
          refine ⟨ends[0], hC.mem ends 0 hpos, ?_⟩
          rcases w6 with w6 | w6
          · exact absurd w6 hc.1
          · exact w6 _ (by rw [List.head?_eq_getElem?, List.getElem?_eq_getElem hpos]; rfl)
        · rw [if_neg hc]; exact ⟨_, rfl, by omega⟩
      obtain ⟨f, hf1, hf2⟩ := hfirst
      simp only [Call.run, phys_dtype hS values w1, valid_nullable, w3, hf1, Res.ok_bind, valid_meta (sc := sc) hl hS w2, valid_into]
      rw [guard_true (by simp), guard_true (decide_eq_true hf2), guard_true (hO ends w4)]
      rfl
  | .mapped c enc, h, hf => by
    simp only [WF] at h
    simp only [Fits] at hf
    have he := phys_built enc h.1 hf.1
    obtain ⟨d, hd⟩ := Option.isSome_iff_exists.mp h.2.1
    cases c with
    | «for» p r s =>
      have hx : ∃ n, Tree.dtype env enc = .prim (Tree.toUnsigned p) n ∧ d = .prim p n := by
        generalize Tree.dtype env enc = x at hd
        cases x with
        | prim q n =>
          simp only [Codec.outType] at hd
          split at hd
          · rename_i hq
            simp only [Bool.and_eq_true, beq_iff_eq] at hq
            exact ⟨n, by rw [hq.1], (Option.some.inj hd).symm⟩
          · simp at hd
        | _ => simp [Codec.outType] at hd
      obtain ⟨n, hx1, hx2⟩ := hx
      refine .mk (.for (phys sc S env enc) (.prim p false) false (sc.num (.prim ⟨p, r⟩)) s) _ (by simpa [Call.args] using he)
        ⟨p, false, n, rfl, by rw [phys_dtype hS enc h.1, hx1, toUnsigned_eq]⟩ ?_
      simp only [Call.run, phys, hd, phys_dtype hS enc h.1, phys_len hS enc h.1, hx2, Option.getD_some]
      rw [hx1]
      rfl
    | zigzag =>
      refine .mk (.zigzag (phys sc S env enc)) _ (by simpa [Call.args] using he) trivial ?_
      simp only [Call.run, phys, hd, phys_dtype hS enc h.1, phys_len hS enc h.1, Option.getD_some]
      generalize Tree.dtype env enc = x at hd
      cases x with
      | prim q n =>
        simp only [Codec.outType] at hd
        split at hd
        · rename_i hq
          rw [guard_true (by simp only [isUnsignedD, ← unsigned_eq]; exact hq)]
          simp only [Res.ok_bind, ptypeOf, DType.isNullable, ← toSigned_eq, (Option.some.inj hd)]
        · simp at hd
      | _ => simp [Codec.outType] at hd
    | alp e f =>
      refine .mk (.alp (phys sc S env enc) (e, f) none) _ (by simpa [Call.args, optList] using he) trivial ?_
      simp only [Call.run, phys, phys_dtype hS enc h.1, phys_len hS enc h.1, alp_out hd, hd, Option.getD_some, Res.ok_bind, optList, List.all_nil]
      rfl
  | .alpP e f enc patches, h, hf => by
    simp only [WF] at h
    simp only [Fits] at hf
    obtain ⟨w1, w2, w3, ⟨d, hd, w4⟩, w5, _⟩ := h
    refine .mk (.alp (phys sc S env enc) (e, f) (some (phys sc S env patches))) _ ?_ trivial ?_
    · simp only [Call.args, optList, List.mem_cons, List.not_mem_nil, or_false]
      rintro x (rfl | rfl)
      · exact phys_built enc w1 hf.1
      · exact phys_built patches w2 hf.2
    · simp only [Call.run, phys, phys_dtype hS enc w1, phys_dtype hS patches w2, phys_len hS enc w1, phys_len hS patches w2, alp_out hd, hd, Option.getD_some,
        Res.ok_bind, optList, List.all_cons, List.all_nil, Bool.and_true, w4, w5, Tree.len_of hl enc w1, Tree.len_of hl patches w2, w3]
      simp [Res.guard]
theorem physs_built : ∀ cs : List (Tree.Arr L), WFs env leafRows ok cs → Fitss sc env cs → ∀ x ∈ physs sc S env cs, Built C x
  | [], _, _ => by simp [physs]
  | c :: cs, h, hf => by
    simp only [WFs] at h
    simp only [Fitss] at hf
    simp only [physs, List.mem_cons]
    rintro x (rfl | hx)
    · exact phys_built c h.1 hf.1
    · exact physs_built cs h.2 hf.2 x hx
theorem physV_built : ∀ (v : TVal (Tree.Arr L)) {n : Nat}, WFV env leafRows ok v n → FitsV sc env v → ∀ x ∈ physV sc S env v, Built C x
  | .array a, _, h, hf => by
    simp only [WFV] at h
    simp only [FitsV] at hf
    simp only [physV, List.mem_cons, List.not_mem_nil, or_false]
    rintro x rfl
    exact phys_built a h.1 hf
  | .nonNullable, _, _, _ => by simp [physV]
  | .allValid, _, _, _ => by simp [physV]
  | .allInvalid, _, _, _ => by simp [physV]
end
end

/-! ## Read back -/

theorem allSome_some (xs : List α) : allSome (xs.map some) = some xs := by
  induction xs with
  | nil => rfl
  | cons x xs ih => simp [allSome, ih]

theorem views_append (xs ys : List Own.Arr) : views sc S (xs ++ ys) = views sc S xs ++ views sc S ys := by
  induction xs with
  | nil => rfl
  | cons x xs ih => simp only [List.cons_append, views, ih]

theorem view_mk (e : Enc) (d : DType) (l : Nat) (b : List Nat) (cs : List Own.Arr) : view sc S (.mk e d l b cs) = viewNode sc S (.mk e d l b cs) (views sc S cs) := by
  simp only [view]

theorem view_leaf (hS : StoreLaws C S env ok) (l : L) (h : ok l) : view sc S (S.store l) = some (.leaf l) := by
  have h1 := hS.load l h
  have h2 := hS.enc l h
  generalize S.store l = a at h1 h2
  obtain ⟨e, d, n, b, cs⟩ := a
  rw [view_mk]
  cases e <;> simp [spelled, Arr.enc] at h2 <;> simp [viewNode, Arr.enc, h1]

theorem view_strs (k : Kind) (hk : k = .utf8 ∨ k = .binary) (vals : List SV) (v : TVal (Tree.Arr L)) (hh : ∀ x ∈ vals, k.has x = true)
    (hv : viewV (vmeta v) (views sc S (physV sc S env v))[0]? = some v)
    (hsz : k = .utf8 ∨ k = .binary → (vals.map fun x => (bytesOf x).length).sum < 2 ^ 32) : view sc S (phys sc S env (.flat k vals v)) = some (.flat k vals v) := by
  obtain ⟨b1, b2⟩ := buildViews_length (vals.map bytesOf) []
  have h1 : (buildViews [] (vals.map bytesOf)).2.length < 2 ^ 32 := by
    have := hsz hk
    rw [List.map_map] at b2
    refine Nat.lt_of_le_of_lt b2 ?_
    simpa [Function.comp_def] using this
  have hr := readViews_build (vals.map bytesOf) [] _ ⟨[], (List.append_nil _).symm⟩ h1
  rw [List.length_map] at hr
  have hb := strings_back k hk vals hh
  have h0 : (views sc S (numbers .u8 (buildViews [] (vals.map bytesOf)).1 :: (numbers .u8 (buildViews [] (vals.map bytesOf)).2 :: physV sc S env v)))[2]? =
      (views sc S (physV sc S env v))[0]? := rfl
  rcases hk with rfl | rfl
  · simp only [phys]
    rw [view_mk]
    simp only [viewNode, Arr.enc, Arr.dtype, Kind.dtype, Arr.children, Arr.len, List.length_cons, List.length_nil, Nat.zero_add, h0, hv]
    simp [content, numbers, Arr.enc, Arr.data, allSome, hr]
    rw [← List.map_map]; exact hb
  · simp only [phys]
    rw [view_mk]
    simp only [viewNode, Arr.enc, Arr.dtype, Kind.dtype, Arr.children, Arr.len, List.length_cons, List.length_nil, Nat.zero_add, h0, hv]
    simp [content, numbers, Arr.enc, Arr.data, allSome, hr]
    rw [← List.map_map]; exact hb

section
variable (hS : StoreLaws C S env ok)

set_option linter.unusedSectionVars false
include hS in
mutual
theorem view_phys : ∀ t : Tree.Arr L, WF env leafRows ok t → Fits sc env t → view sc S (phys sc S env t) = some t
  | .leaf l, h, _ => view_leaf hS l h
  | .flat k vals v, h, hf => by
    simp only [WF] at h
    simp only [Fits] at hf
    have hv := viewV_phys v h.2 hf.1
    cases k with
    | prim p =>
      simp only [phys]
      rw [view_mk]
      simp only [viewNode, Arr.enc, Arr.dtype, Arr.data, hv, Option.map_some, prims_back p vals h.1]
    | bool =>
      simp only [phys]
      rw [view_mk]
      simp only [viewNode, Arr.enc, Arr.data, Arr.len, hv, Option.map_some, unpack_pack vals h.1]
    | utf8 => exact view_strs .utf8 (.inl rfl) vals v h.1 hv hf.2
    | binary => exact view_strs .binary (.inr rfl) vals v h.1 hv hf.2
  | .null n, _, _ => by simp only [phys]; rw [view_mk]; rfl
  | .const dt x n, _, hf => by
    simp only [Fits, Kept] at hf
    simp only [phys]
    rw [view_mk]
    simp only [viewNode, Arr.enc, Arr.dtype, Arr.len, hf, Option.map_some]
  | .chunked dt cs, h, hf => by
    simp only [WF] at h
    simp only [Fits] at hf
    simp only [phys]
    rw [view_mk]
    simp only [viewNode, Arr.enc, Arr.dtype, views, List.tail_cons, views_physs cs h.1 hf.1, allSome_some, Option.map_some]
  | .struct names fs n v, h, hf => by
    simp only [WF] at h
    simp only [Fits] at hf
    have hv := viewV_phys v h.2.2.2 hf.2
    have hl : (Tree.dtypes env fs).length = fs.length := by rw [Tree.dtypes_eq, List.length_map]
    simp only [phys]
    rw [view_mk, views_append, views_physs fs h.2.1 hf.1]
    have h1 : (fs.map some ++ views sc S (physV sc S env v)).take fs.length = fs.map some := by
      rw [List.take_append_of_le_length (by simp), List.take_of_length_le (by simp)]
    have h2 : (fs.map some ++ views sc S (physV sc S env v))[fs.length]? = (views sc S (physV sc S env v))[0]? := by
      rw [List.getElem?_append_right (by simp)]; simp
    simp only [viewNode, Arr.enc, Arr.dtype, Arr.len, hl, h1, h2, hv, allSome_some]
    rfl
  | .ext id m s, h, hf => by
    simp only [WF] at h
    simp only [Fits] at hf
    simp only [phys]
    rw [view_mk]
    simp only [viewNode, Arr.enc, Arr.dtype, views, view_phys s h hf]
  | .sparse is values n off fill, h, hf => by
    simp only [WF] at h
    simp only [Fits, Kept] at hf
    simp only [phys]
    rw [view_mk]
    simp only [viewNode, Arr.enc, Arr.dtype, Arr.children, views, view_phys values h.1 hf.1, hf.2.1]
    rfl
  | .dict codes values, h, hf => by
    simp only [WF] at h
    simp only [Fits] at hf
    simp only [phys]
    rw [view_mk]
    simp only [viewNode, Arr.enc, views, view_phys values h.2.1 hf.2, view_phys codes h.1 hf.1]
  | .runEnd ends values v off n, h, hf => by
    simp only [WF] at h
    simp only [Fits] at hf
    have hv := viewV_phys v h.2.1 hf.2.1
    simp only [phys]
    rw [view_mk]
    simp only [viewNode, Arr.enc, Arr.children, List.cons_append, List.nil_append, views, view_phys values h.1 hf.1, hv]
    rfl
  | .mapped c enc, h, hf => by
    simp only [WF] at h
    simp only [Fits] at hf
    have he := view_phys enc h.1 hf.1
    obtain ⟨d, hd⟩ := Option.isSome_iff_exists.mp h.2.1
    cases c with
    | «for» p r s =>
      have hx : d = .prim p (Tree.dtype env enc).isNullable := by
        generalize Tree.dtype env enc = x at hd
        cases x with
        | prim q n =>
          simp only [Codec.outType] at hd
          split at hd
          · exact (Option.some.inj hd).symm
          · simp at hd
        | _ => simp [Codec.outType] at hd
      have hk : sc.read (.prim p (Tree.dtype env enc).isNullable) (sc.num (.prim ⟨p, r⟩)) = some (.prim ⟨p, r⟩) := hf.2
      simp only [phys, hd, Option.getD_some, hx]
      rw [view_mk]
      simp only [viewNode, Arr.enc, Arr.dtype, views, he, hk, dif_pos]
    | zigzag =>
      simp only [phys]
      rw [view_mk]
      simp only [viewNode, Arr.enc, views, he]
    | alp e f =>
      simp only [phys]
      rw [view_mk]
      simp only [viewNode, Arr.enc, views, he]
  | .alpP e f enc patches, h, hf => by
    simp only [WF] at h
    simp only [Fits] at hf
    simp only [phys]
    rw [view_mk]
    simp only [viewNode, Arr.enc, views, view_phys enc h.1 hf.1, view_phys patches h.2.1 hf.2]
theorem views_physs : ∀ cs : List (Tree.Arr L), WFs env leafRows ok cs → Fitss sc env cs → views sc S (physs sc S env cs) = cs.map some
  | [], _, _ => rfl
  | c :: cs, h, hf => by
    simp only [WFs] at h
    simp only [Fitss] at hf
    simp only [physs, views, view_phys c h.1 hf.1, views_physs cs h.2 hf.2, List.map_cons]
theorem viewV_phys : ∀ (v : TVal (Tree.Arr L)) {n : Nat}, WFV env leafRows ok v n → FitsV sc env v →
    viewV (vmeta v) (views sc S (physV sc S env v))[0]? = some v
  | .array a, _, h, hf => by
    simp only [WFV] at h
    simp only [FitsV] at hf
    simp only [physV, views, view_phys a h.1 hf]
    rfl
  | .nonNullable, _, _, _ => rfl
  | .allValid, _, _, _ => rfl
  | .allInvalid, _, _, _ => rfl
end
end

end Vx.Store
