import Verif.Lemmas.SelfDescribe
/-! # C91: an encoded array describes its own children

`Built` (Spec/SelfDescribe.lean) are the arrays made bottom-up by any tree of successful constructor calls, over every encoding of the
workspace, in which every caller met the obligations `Call.Owes` that the constructor itself does not check. -/
namespace Vx.Own
open Vx

theorem memOffs_ok {C : Compute} (hC : C.Lawful) (a : Arr) : OffsOk a (memOffs C a) := by
  intro xs rest h i hi
  unfold memOffs Arr.child
  rw [h]
  simp only [List.getElem?_cons_zero, dtype_mk, len_mk, Res.assert, decide_true, if_true, Res.ok_bind, expect]
  exact hC.mem xs i hi

theorem viewOffs_ok {C : Compute} (hC : C.Lawful) (a : Arr) : OffsOk a (viewOffs C (eraseAll a.children)) := by
  intro xs rest h i hi
  unfold viewOffs
  rw [h]
  simp only [eraseAll, erase, List.getElem?_cons_zero, Res.unwrap_some, Res.ok_bind]
  exact hC.view xs i hi

/-- Every accessor of such an array succeeds (none panics), and together they return exactly the array's children, in order. -/
theorem C91_accessors_partial {C : Compute} (hC : C.Lawful) (a : Arr) (h : Built C a) : openAll C a = .ok a.children := by
  obtain ⟨c, _, _, ho, hr⟩ := h
  unfold openAll
  rw [run_slots C c a hr ho _ (memOffs_ok hC a), Res.ok_bind]
  exact mapM_child [] a.children a rfl

theorem open_facts {C : Compute} {a : Arr} {cs : List Arr} (h : openAll C a = .ok cs) :
    ∃ slots, accessors (memOffs C a) a.children.length a.enc a.dtype a.len = .ok slots ∧
      ∀ s ∈ slots, ∃ c, a.children[s.idx]? = some c ∧ c.dtype = s.dtype ∧ c.len = s.len := by
  simp only [openAll, Res.bind_eq_ok] at h
  obtain ⟨slots, h1, h2⟩ := h
  refine ⟨slots, h1, fun s hs => ?_⟩
  obtain ⟨i, hi⟩ := List.getElem?_of_mem hs
  obtain ⟨x, _, hx⟩ := Res.mapM_eq_ok_getElem? h2 hi
  revert hx
  unfold Arr.child
  cases hc : a.children[s.idx]? with
  | none => simp [expect]
  | some c =>
    simp only [expect]
    intro hx
    refine ⟨c, rfl, ?_⟩
    by_cases hd : c.dtype = s.dtype <;> by_cases hl : c.len = s.len <;> simp_all [Res.assert]

theorem vowes_of {v : Valid} {n i : Nat} {m : VMeta} {cs : List Arr} (hm : v.toMetadata n = .ok m)
    (h : ∀ s ∈ vslot m i n, ∃ c, cs[s.idx]? = some c ∧ c.dtype = s.dtype ∧ c.len = s.len)
    (hx : ∀ x, v = .array x → cs[i]? = some x) : VOwes v := by
  cases v with
  | array x =>
    simp only [Valid.toMetadata] at hm
    split at hm
    · cases hm
      obtain ⟨c, h1, h2, _⟩ := h ⟨i, boolD, n⟩ (by simp [vslot])
      rw [hx x rfl] at h1; cases h1
      exact h2
    · cases hm
  | _ => trivial

/-- The exact condition: after a successful constructor call, all accessors succeed if and only if the caller met the obligations. In particular
no obligation in `Call.Owes` is superfluous and none is missing. -/
theorem C92_exact {C : Compute} (hC : C.Lawful) (c : Call) (a : Arr) (hr : c.run C = .ok a) : (∃ cs, openAll C a = .ok cs) ↔ c.Owes := by
  constructor
  · rintro ⟨cs, h⟩
    obtain ⟨slots, hs, hm⟩ := open_facts h
    clear h cs
    cases c with
    | bool bytes off len v =>
      simp only [Call.run, Res.bind_eq_ok] at hr
      obtain ⟨m, h1, hr⟩ := hr; cases hr
      cases hs
      exact vowes_of h1 hm (by rintro x rfl; rfl)
    | byteBool bytes v =>
      simp only [Call.run, Res.bind_eq_ok] at hr
      obtain ⟨m, h1, hr⟩ := hr; cases hr
      cases hs
      exact vowes_of h1 hm (by rintro x rfl; rfl)
    | prim p xs v =>
      simp only [Call.run, Res.bind_eq_ok] at hr
      obtain ⟨m, h1, hr⟩ := hr; cases hr
      have h1 : v.toMetadata xs.length = .ok m := by
        revert h1; cases v.toMetadata xs.length <;> simp [expect]
      cases hs
      exact vowes_of h1 hm (by rintro x rfl; rfl)
    | struct names fields len v =>
      simp only [Call.run, Res.bind_eq_ok] at hr
      obtain ⟨_, _, _, _, m, h1, hr⟩ := hr; cases hr
      cases hs
      refine vowes_of h1 (fun s hs => hm s (List.mem_append_right _ hs)) ?_
      rintro x rfl
      simp [children_mk, Valid.intoArray]
    | varbin offs bytes d v =>
      simp only [Call.run, Res.bind_eq_ok] at hr
      obtain ⟨_, _, _, _, _, _, _, _, _, _, _, _, m, h1, hr⟩ := hr; cases hr
      cases hs
      exact vowes_of h1 (fun s hs => hm s (List.mem_append_right _ hs)) (by rintro x rfl; rfl)
    | varbinview views bufs d v =>
      simp only [Call.run, Res.bind_eq_ok] at hr
      obtain ⟨_, _, _, _, _, _, _, _, _, _, m, h1, hr⟩ := hr; cases hr
      cases hs
      refine ⟨?_, vowes_of h1 (fun s hs => hm s (List.mem_cons_of_mem _ (List.mem_append_right _ hs))) ?_⟩
      · obtain ⟨c, e1, _, e2⟩ := hm _ (List.mem_cons_self ..)
        cases e1
        simp only at e2
        rw [e2]; exact Nat.mul_mod_left _ _
      · rintro x rfl
        simp [children_mk, Valid.intoArray]
    | runEnd ends values v off len =>
      simp only [Call.run, Res.bind_eq_ok] at hr
      obtain ⟨_, _, _, _, _, _, _, _, _, _, m, h1, _, _, hr⟩ := hr; cases hr
      cases hs
      refine ⟨?_, vowes_of h1 (fun s hs => hm s (List.mem_append_right _ hs)) (by rintro x rfl; rfl)⟩
      obtain ⟨c, e1, _, e2⟩ := hm _ (List.mem_append_left _ (List.mem_cons_of_mem _ (List.mem_cons_self ..)))
      cases e1
      exact e2
    | runEndBool ends start v len off =>
      simp only [Call.run, Res.bind_eq_ok] at hr
      obtain ⟨_, _, _, _, _, _, _, _, m, h1, hr⟩ := hr; cases hr
      cases hs
      exact vowes_of h1 (fun s hs => hm s (List.mem_cons_of_mem _ hs)) (by rintro x rfl; rfl)
    | alprd d left dct right rw_ exc =>
      simp only [Call.run, Res.bind_eq_ok] at hr
      obtain ⟨_, _, _, _, _, h3, _, h4, lp, hlp, _, h5, _, _, _, _, hr⟩ := hr; cases hr
      have h3 := guard_ok h3
      have h4 := guard_ok h4
      have h5 := guard_ok h5
      simp only [accessors, enc_mk, dtype_mk, len_mk] at hs
      cases d with
      | prim p n =>
        have hd : left.dtype = .prim lp n := by
          cases hd : left.dtype <;> simp_all [isUnsignedD, ptypeOf, expect, DType.isNullable]
        cases hs
        refine ⟨?_, ?_⟩
        · obtain ⟨c, e1, e2, _⟩ := hm _ (List.mem_append_left _ (List.mem_cons_of_mem _ (List.mem_cons_self ..)))
          cases e1
          rw [e2]
          simp only [DType.withNullability, DType.prim.injEq, and_true]
        · rintro e rfl
          obtain ⟨c, e1, e2, e3⟩ := hm ⟨2, .prim lp true, left.len⟩ (List.mem_append_right _ (by simp))
          cases e1
          exact ⟨by rw [hd]; exact e2, e3⟩
      | _ => cases hs
    | bitPacked packed p v patches width len off =>
      simp only [Call.run, Res.bind_eq_ok] at hr
      obtain ⟨_, _, _, _, _, _, _, _, _, _, m, h1, hr⟩ := hr; cases hr
      cases hs
      refine ⟨?_, vowes_of h1 (fun s hs => hm s (List.mem_append_right _ hs)) ?_⟩
      · rintro q rfl
        obtain ⟨c, e1, e2, e3⟩ := hm ⟨0, .prim p true, len⟩ (List.mem_append_left _ (by simp [DType.withNullability, dtype_mk, len_mk]))
        cases e1
        exact e2
      · rintro x rfl
        cases patches <;> rfl
    | delta bases deltas v off len =>
      simp only [Call.run, Res.bind_eq_ok] at hr
      obtain ⟨_, _, _, _, _, _, m, h1, _, _, _, _, _, _, _, _, hr⟩ := hr; cases hr
      simp only [accessors, enc_mk, dtype_mk, len_mk, Res.bind_eq_ok] at hs
      obtain ⟨_, _, hs⟩ := hs; cases hs
      exact vowes_of h1 (fun s hs => hm s (List.mem_append_right _ hs)) (by rintro x rfl; rfl)
    | «for» child rd rnull r shift =>
      simp only [Call.run, Res.bind_eq_ok] at hr
      obtain ⟨_, _, hr⟩ := hr; cases hr
      simp only [accessors, enc_mk, dtype_mk, len_mk] at hs
      cases rd with
      | prim p n =>
        simp only [DType.withNullability] at hs
        cases hs
        obtain ⟨c, e1, e2, _⟩ := hm _ (List.mem_cons_self ..)
        cases e1
        refine ⟨p, n, child.dtype.isNullable, rfl, ?_⟩
        have e3 : child.dtype = if p.isSigned then .prim (toUnsigned p) child.dtype.isNullable else .prim p child.dtype.isNullable := e2
        generalize child.dtype.isNullable = m at e3
        rw [e3]
        cases p <;> rfl
      | _ => simp [DType.withNullability] at hs
    | _ => trivial
  · intro ho
    refine ⟨a.children, ?_⟩
    unfold openAll
    rw [run_slots C c a hr ho _ (memOffs_ok hC a), Res.ok_bind]
    exact mapM_child [] a.children a rfl

theorem run_children {C : Compute} {c : Call} {a : Arr} (hr : c.run C = .ok a) :
    ∀ x ∈ a.children, x ∈ c.args ∨ ∃ xs, x = .mk (.prim .nonNullable) u64 xs.length xs [] := by
  cases c <;> simp only [Call.run, Res.bind_eq_ok] at hr
  case sparse ind val len off fill fillOk =>
    obtain ⟨_, _, _, _, _, _, h⟩ := hr
    have : a = .mk (.sparse off ind.len fill) val.dtype len [] [ind, val] := by
      split at h
      · simp only [Res.bind_eq_ok] at h
        obtain ⟨_, _, _, _, _, _, h⟩ := h; cases h; rfl
      · cases h; rfl
    subst this
    exact fun x hx => .inl hx
  case null => cases hr; exact fun x hx => .inl hx
  case constant => cases hr; exact fun x hx => .inl hx
  case ext => cases hr; exact fun x hx => .inl hx
  case dict => obtain ⟨_, _, _, _, hr⟩ := hr; cases hr; intro x hx; simp [children_mk] at hx; exact .inl (by rcases hx with rfl | rfl <;> simp [Call.args])
  case chunked =>
    obtain ⟨_, _, os, _, _, _, _, _, hr⟩ := hr; cases hr
    intro x hx
    rcases List.mem_cons.mp hx with rfl | hx
    · exact .inr ⟨os, rfl⟩
    · exact .inl hx
  case bool => obtain ⟨_, _, hr⟩ := hr; cases hr; exact fun x hx => .inl hx
  case byteBool => obtain ⟨_, _, hr⟩ := hr; cases hr; exact fun x hx => .inl hx
  case prim => obtain ⟨_, _, hr⟩ := hr; cases hr; exact fun x hx => .inl hx
  case struct => obtain ⟨_, _, _, _, _, _, hr⟩ := hr; cases hr; exact fun x hx => .inl hx
  case varbin => obtain ⟨_, _, _, _, _, _, _, _, _, _, _, _, _, _, hr⟩ := hr; cases hr; exact fun x hx => .inl hx
  case varbinview => obtain ⟨_, _, _, _, _, _, _, _, _, _, _, _, hr⟩ := hr; cases hr; exact fun x hx => .inl hx
  case runEnd => obtain ⟨_, _, _, _, _, _, _, _, _, _, _, _, _, _, hr⟩ := hr; cases hr; exact fun x hx => .inl hx
  case runEndBool => obtain ⟨_, _, _, _, _, _, _, _, _, _, hr⟩ := hr; cases hr; exact fun x hx => .inl hx
  case alp => obtain ⟨_, _, _, _, _, _, hr⟩ := hr; cases hr; exact fun x hx => .inl hx
  case alprd => obtain ⟨_, _, _, _, _, _, _, _, _, _, _, _, _, _, _, _, hr⟩ := hr; cases hr; exact fun x hx => .inl hx
  case bitPacked => obtain ⟨_, _, _, _, _, _, _, _, _, _, _, _, hr⟩ := hr; cases hr; exact fun x hx => .inl hx
  case delta => obtain ⟨_, _, _, _, _, _, _, _, _, _, _, _, _, _, _, _, hr⟩ := hr; cases hr; exact fun x hx => .inl hx
  case «for» => obtain ⟨_, _, hr⟩ := hr; cases hr; exact fun x hx => .inl hx
  case zigzag => obtain ⟨_, _, _, _, hr⟩ := hr; cases hr; exact fun x hx => .inl hx
  case fsst => obtain ⟨_, _, _, _, _, _, _, _, _, _, _, _, _, _, _, _, _, _, hr⟩ := hr; cases hr; exact fun x hx => .inl hx
  case dateTimeParts => obtain ⟨_, _, _, _, _, _, _, _, _, _, _, _, _, _, hr⟩ := hr; cases hr; exact fun x hx => .inl hx
  case roaringBool => obtain ⟨_, _, hr⟩ := hr; cases hr; exact fun x hx => .inl hx
  case roaringInt => obtain ⟨_, _, _, _, hr⟩ := hr; cases hr; exact fun x hx => .inl hx

theorem built_offsets (C : Compute) (xs : List Nat) : Built C (.mk (.prim .nonNullable) u64 xs.length xs []) :=
  .mk (.prim .u64 xs .nonNullable) _ (by simp [Call.args, Valid.intoArray]) trivial rfl

theorem built_children {C : Compute} {a : Arr} (h : Built C a) : ∀ x ∈ a.children, Built C x := by
  obtain ⟨c, _, hargs, _, hr⟩ := h
  intro x hx
  rcases run_children hr x hx with h | ⟨xs, rfl⟩
  · exact hargs x h
  · exact built_offsets C xs

theorem eraseAll_length : ∀ cs : List Arr, (eraseAll cs).length = cs.length
  | [] => rfl
  | _ :: cs => by simp [eraseAll, eraseAll_length cs]

mutual
theorem readBack_built {C : Compute} (hC : C.Lawful) : ∀ a : Arr, Built C a → readBack C a.dtype a.len (erase a) = .ok a
  | .mk e d l b cs, h => by
    have hb := built_children h
    obtain ⟨c, _, _, ho, hr⟩ := h
    have := run_slots C c _ hr ho _ (viewOffs_ok hC (.mk e d l b cs))
    simp only [enc_mk, dtype_mk, len_mk, children_mk] at this hb
    simp only [erase, readBack, dtype_mk, len_mk, eraseAll_length, this, Res.ok_bind]
    have hr := readAll_built hC cs [] hb
    rw [List.nil_append, List.length_nil] at hr
    rw [hr, Res.ok_bind]
theorem readAll_built {C : Compute} (hC : C.Lawful) : ∀ (cs pre : List Arr), (∀ x ∈ cs, Built C x) →
    readAll C (slotsOf 0 (pre ++ cs)) pre.length (eraseAll cs) = .ok cs
  | [], _, _ => rfl
  | c :: cs, pre, h => by
    have hf := slotsOf_find (pre ++ c :: cs) 0 pre.length
    rw [Nat.zero_add] at hf
    have hget : (pre ++ c :: cs)[pre.length]? = some c := by simp
    rw [hget] at hf
    have h1 := readBack_built hC c (h c (List.mem_cons_self ..))
    have h2 := readAll_built hC cs (pre ++ [c]) (fun x hx => h x (List.mem_cons_of_mem _ hx))
    rw [List.length_append, List.length_singleton, List.append_assoc, List.singleton_append] at h2
    simp only [eraseAll, readAll, hf, Option.map_some, Res.ofOption_some, Res.ok_bind, h1, h2]
end

/-- From the root's dtype and length and the serialised tree – which holds no dtype or length at all – a reader recovers the array: the type
and length of every descendant, at any depth, are the original's. -/
theorem C92_reread {C : Compute} (hC : C.Lawful) (a : Arr) (h : Built C a) : readBack C a.dtype a.len (erase a) = .ok a :=
  readBack_built hC a h

/-- The same as a part of C91, which asks it of every array a constructor accepts. -/
theorem C91_reread_partial {C : Compute} (hC : C.Lawful) (a : Arr) (h : Built C a) : readBack C a.dtype a.len (erase a) = .ok a :=
  C92_reread hC a h

/-- The serialised tree with the root's dtype and length identifies the array. -/
theorem C92_identifies {C : Compute} (hC : C.Lawful) (a b : Arr) (ha : Built C a) (hb : Built C b) (hd : a.dtype = b.dtype)
    (hl : a.len = b.len) (he : erase a = erase b) : a = b := by
  have h1 := C91_reread_partial hC a ha
  rw [hd, hl, he, C91_reread_partial hC b hb] at h1
  exact (Res.ok.inj h1).symm

/-- `DeltaArray::try_new` accepts exactly the layout delta compression produces (C09): one base per lane and full block, one for a remainder. -/
theorem C92_delta_bases {C : Compute} {p : PType} (hp : unsigned p = true) {n : Bool} (bases deltas : Arr) (hb : bases.dtype = .prim p n)
    (hd : deltas.dtype = .prim p n) (v : Valid) (off len : Nat) (ho : off < 1024) (hl : off + len ≤ deltas.len) {m : VMeta} (hv : v.toMetadata len = .ok m) :
    (∃ a, (Call.delta bases deltas v off len).run C = .ok a) ↔
      bases.len = deltas.len / 1024 * (1024 / p.bits) + (if deltas.len % 1024 = 0 then 0 else 1) := by
  have hlan : lanes bases.dtype = .ok (1024 / p.bits) := by rw [hb]; simp [lanes, hp]
  have hbl : basesLen bases.dtype deltas.len = .ok (deltas.len / 1024 * (1024 / p.bits) + (if deltas.len % 1024 = 0 then 0 else 1)) := by
    simp only [basesLen, hlan, Res.ok_bind]
    congr 2
    by_cases h0 : deltas.len % 1024 = 0
    · simp [h0]
    · rw [if_pos (by omega), if_neg h0]
  constructor
  · rintro ⟨a, h⟩
    simp only [Call.run, Res.bind_eq_ok] at h
    obtain ⟨_, _, _, _, _, _, _, _, _, _, bl, h1, _, h2, _⟩ := h
    rw [hbl] at h1; cases h1
    simpa using assert_ok h2
  · intro h
    have h1 : 1 < 1024 / p.bits := by cases p <;> simp [unsigned] at hp <;> decide
    have hg : ((deltas.len % 1024 == 0) ==
        ((deltas.len / 1024 * (1024 / p.bits) + if deltas.len % 1024 = 0 then 0 else 1) % (1024 / p.bits) == 0)) = true := by
      generalize 1024 / p.bits = l at h1
      by_cases h0 : deltas.len % 1024 = 0
      · simp [h0]
      · rw [if_neg h0, Nat.mul_comm, Nat.mul_add_mod, Nat.mod_eq_of_lt h1]; simp [h0]
    refine ⟨.mk (.delta m deltas.len off) bases.dtype len [] ([bases, deltas] ++ v.intoArray), ?_⟩
    simp only [Call.run, ho, hl, hb, hd, hv, decide_true, Res.guard, if_true, Res.ok_bind]
    rw [← hb, hlan, hbl]
    simp only [Res.ok_bind, h, beq_self_eq_true, Res.assert, if_true, hg]

/-! ## A concrete instance and the disagreements -/

def dataOf : Node → List Nat | .mk _ b _ => b

/-- Reads a row straight from the buffer. -/
def plain : Compute where
  memAt a i := Res.ofOption a.data[i]?
  viewAt _ _ n i := Res.ofOption (dataOf n)[i]?
  strict _ := none

theorem plain_lawful : plain.Lawful where
  mem xs i h := by simp [plain, Arr.data, h]
  view xs i h := by simp [plain, dataOf, h]

def primArr (p : PType) (xs : List Nat) : Arr := .mk (.prim .nonNullable) (.prim p false) xs.length xs []

theorem built_prim (p : PType) (xs : List Nat) : Built plain (primArr p xs) :=
  .mk (.prim p xs .nonNullable) _ (by simp [Call.args, Valid.intoArray]) trivial rfl

/-- Nullable run-end values: two runs over five rows, with a validity array. -/
def exValues : Arr := .mk (.prim .allValid) (.prim .i32 true) 2 [7, 9] []
def exValidity : Arr := .mk (.bool .nonNullable 0) (.bool false) 5 [21] []
def exRunEnd : Arr := .mk (.runEnd .array .u16 2 0) (.prim .i32 true) 5 [] [primArr .u16 [2, 5], exValues, exValidity]
def exDict : Arr := .mk (.dict .u8 2) (.prim .i32 true) 3 [] [exValues, primArr .u8 [1, 0, 1]]
def exChunked : Arr := .mk (.chunked 2) (.prim .i32 true) 8 [] [primArr .u64 [0, 5, 8], exRunEnd, exDict]

example : Built plain exChunked := by
  have hv : Built plain exValues := .mk (.prim .i32 [7, 9] .allValid) _ (by simp [Call.args, Valid.intoArray]) trivial rfl
  have hb : Built plain exValidity := .mk (.bool [21] 0 5 .nonNullable) _ (by simp [Call.args, Valid.intoArray]) trivial rfl
  have h1 : Built plain exRunEnd := .mk (.runEnd (primArr .u16 [2, 5]) exValues (.array exValidity) 0 5) _
    (by simp only [Call.args, Valid.intoArray, List.cons_append, List.nil_append, List.mem_cons, List.not_mem_nil, or_false]
        rintro x (rfl | rfl | rfl)
        · exact built_prim _ _
        · exact hv
        · exact hb) ⟨rfl, rfl⟩ rfl
  have h2 : Built plain exDict := .mk (.dict (primArr .u8 [1, 0, 1]) exValues) _
    (by simp only [Call.args, List.mem_cons, List.not_mem_nil, or_false]
        rintro x (rfl | rfl)
        · exact built_prim _ _
        · exact hv) trivial rfl
  exact .mk (.chunked [exRunEnd, exDict] (.prim .i32 true)) _
    (by simp only [Call.args, List.mem_cons, List.not_mem_nil, or_false]
        rintro x (rfl | rfl)
        · exact h1
        · exact h2) trivial (by simp [Call.run, offsetsFrom, Res.guard, Res.assert, Res.sub, exRunEnd, exDict, exChunked, Arr.dtype, Arr.len, primArr])

/-- `RunEndArray::try_new` accepts two ends with one value; `values()` then panics, and a reader of the serialised array believes the one stored
value is two rows long. -/
theorem C91_run_end_length : ∃ (c : Call) (a : Arr), c.run plain = .ok a ∧ openAll plain a = .panic ∧
    ∃ b, readBack plain a.dtype a.len (erase a) = .ok b ∧ (b.children.map Arr.len, a.children.map Arr.len) = ([2, 2], [2, 1]) :=
  ⟨.runEnd (primArr .u16 [2, 5]) (primArr .i32 [7]) .nonNullable 0 5, _, rfl, rfl, _, rfl, rfl⟩

/-- `FoRArray::try_new` accepts an `i32` reference over `u64` residuals: every row access panics. -/
theorem C91_for_type : ∃ (c : Call) (a : Arr), c.run plain = .ok a ∧ openAll plain a = .panic :=
  ⟨.for (primArr .u64 [1, 2]) (.prim .i32 false) false 10 0, _, rfl, rfl⟩

/-- `ALPRDArray::try_new` accepts right parts of any unsigned width; the accessor wants `u32` for `f32` and `u64` otherwise. -/
theorem C91_alprd_right : ∃ (c : Call) (a : Arr), c.run plain = .ok a ∧ openAll plain a = .panic :=
  ⟨.alprd (.prim .f32 false) (primArr .u8 [0, 1]) [3, 4] (primArr .u64 [1, 2]) 16 none, _, rfl, rfl⟩

/-- `BitPackedArray::try_new` accepts patches of another type than the array's. -/
theorem C91_bitpacked_patches : ∃ (c : Call) (a : Arr), c.run plain = .ok a ∧ openAll plain a = .panic :=
  ⟨.bitPacked [] .u16 .nonNullable (some (.mk (.sparse 0 1 0) (.prim .u32 true) 1 [] [primArr .u64 [0], .mk (.prim .allValid) (.prim .u32 true) 1 [99999] []])) 0 1 0,
    _, rfl, rfl⟩

/-- A validity array of nullable booleans is accepted everywhere; `validity()` then panics. -/
theorem C91_validity_type : ∃ (c : Call) (a : Arr), c.run plain = .ok a ∧ openAll plain a = .panic :=
  ⟨.prim .i32 [1, 2] (.array (.mk (.bool .allValid 0) (.bool true) 2 [3] [])), _, rfl, rfl⟩

/-- `VarBinViewArray::try_new` accepts a views buffer that is not a whole number of views. -/
theorem C91_views_length : ∃ (c : Call) (a : Arr), c.run plain = .ok a ∧ openAll plain a = .panic :=
  ⟨.varbinview (primArr .u8 (List.replicate 17 0)) [] (.utf8 false) .nonNullable, _, rfl, rfl⟩

/-- `DeltaArray::try_new` means to return an error for a wrong number of bases, but its own accessor panics first; and `VarBinArray::try_new`
subtracts one from the length of empty offsets. -/
theorem C91_constructor_panics :
    (Call.delta (primArr .u32 [1, 2]) (primArr .u32 [0, 1, 1]) .nonNullable 0 3).run plain = .panic ∧
    (Call.varbin (primArr .i32 []) (primArr .u8 []) (.utf8 false) .nonNullable).run plain = .panic := ⟨rfl, rfl⟩

end Vx.Own
