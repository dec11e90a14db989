import Verif.Spec.TreeCompare
import Verif.Lemmas.TreeSliceNice
import Verif.Lemmas.TreeFilter
import Verif.Props.C24
import Verif.Props.C29
/-! # Comparing trees: the parts -/
namespace Vx.Tree
open Spec

/-! ### Values -/

theorem opRow_eq (op : Op) (x y : SV) : opRow op x y = if x.isNull || y.isNull then .null else .bool (op.holds (SV.cmp x y)) := by
  cases x <;> cases y <;> simp [opRow, SV.isNull]

theorem arrowRow_eq (op : Op) (x y : SV) : arrowRow op x y = opRow op x y := by rw [opRow_eq, arrowRow]

theorem symCmp : SymCmp SV.cmp := fun a b => cmp_swap a b

theorem opRow_swap (op : Op) (x y : SV) : opRow op.swap y x = opRow op x y := by
  rw [opRow_eq, opRow_eq, Bool.or_comm, C24_swap symCmp]

theorem zipWith_opRow_swap (op : Op) (xs ys : List SV) : List.zipWith (opRow op.swap) ys xs = List.zipWith (opRow op) xs ys := by
  rw [List.zipWith_comm]
  congr 1
  funext x y
  exact opRow_swap op x y

theorem zero_of_mag {f : Fmt} (hw : 0 < f.width) {a : BitVec f.width} (hz : f.isZero a = true) (hm : a.msb = false) : a = 0 := by
  have h1 : f.mag a = 0 := by simpa [Fmt.isZero] using hz
  have h2 := BitVec.msb_eq_false_iff_two_mul_lt.mp hm
  have h3 : f.width = f.exp + f.man + 1 := rfl
  simp only [Fmt.mag] at h1
  apply BitVec.eq_of_toNat_eq
  have h4 : (2 : Nat) ^ f.width = 2 * 2 ^ (f.exp + f.man) := by rw [h3, Nat.pow_succ]; omega
  rw [Nat.mod_eq_of_lt (by omega)] at h1
  simpa using h1

theorem native_eq {p q : PValue} (hp : ordinary (.prim p) = true) (hq : ordinary (.prim q) = true) (h : p.pt = q.pt) :
    p.native q = SV.cmp (.prim p) (.prim q) := by
  obtain ⟨t, a⟩ := p
  obtain ⟨u, b⟩ := q
  simp only at h
  subst h
  simp only [ordinary, Bool.and_eq_true, Bool.not_eq_true'] at hp hq
  simp only [PValue.native, hp.1, hq.1, Bool.or_false, Bool.false_eq_true, if_false, SV.cmp]
  split
  · rename_i hz
    simp only [Bool.and_eq_true] at hz
    rw [hz.1, Bool.true_and] at hp
    rw [hz.2, Bool.true_and] at hq
    symm
    rw [partialCmp_eq]
    cases t <;> simp only [PValue.isZero, Bool.false_eq_true, false_and] at hz
    · rw [zero_of_mag (f := PValue.fmt16) (by decide) hz.1 hp.2, zero_of_mag (f := PValue.fmt16) (by decide) hz.2 hq.2]
    · rw [zero_of_mag (f := Spec.f32) (by decide) hz.1 hp.2, zero_of_mag (f := Spec.f32) (by decide) hz.2 hq.2]
    · rw [zero_of_mag (f := Spec.f64) (by decide) hz.1 hp.2, zero_of_mag (f := Spec.f64) (by decide) hz.2 hq.2]
  · rfl

theorem eq_of_ordinary {x y : SV} (hx : ordinary x = true) (hy : ordinary y = true) : x.eq y = (SV.cmp x y == some .eq) := by
  have key : x.eq y = true ↔ x = y := by
    cases x with
    | prim p =>
      cases y with
      | prim q =>
        simp only [SV.eq, SV.prim.injEq]
        obtain ⟨t, a⟩ := p
        obtain ⟨u, b⟩ := q
        by_cases hf : t.isFloat = true
        · by_cases htu : t = u
          · subst htu
            simp only [ordinary, Bool.and_eq_true, Bool.not_eq_true'] at hx hy
            have hfmt : ∀ (f : Fmt) (hw : 0 < f.width) (a b : BitVec f.width), f.isNaN a = false → f.isNaN b = false →
                (f.isZero a && a.msb) = false → (f.isZero b && b.msb) = false → (f.eq a b = true ↔ a = b) := by
              intro f hw a b ha hb ha' hb'
              simp only [Fmt.eq, ha, hb, Bool.not_false, Bool.true_and, Bool.or_eq_true, beq_iff_eq, Bool.and_eq_true]
              constructor
              · rintro (h | ⟨h1, h2⟩)
                · exact h
                · rw [h1, Bool.true_and] at ha'
                  rw [h2, Bool.true_and] at hb'
                  rw [zero_of_mag hw h1 ha', zero_of_mag hw h2 hb']
              · exact Or.inl
            cases t <;> simp only [PType.isFloat, Bool.false_eq_true] at hf
            · exact ⟨fun h => congrArg (PValue.mk .f16) ((hfmt PValue.fmt16 (by decide) a b hx.1 hy.1 hx.2 hy.2).mp h),
                fun h => (hfmt PValue.fmt16 (by decide) a b hx.1 hy.1 hx.2 hy.2).mpr (by injection h)⟩
            · exact ⟨fun h => congrArg (PValue.mk .f32) ((hfmt Spec.f32 (by decide) a b hx.1 hy.1 hx.2 hy.2).mp h),
                fun h => (hfmt Spec.f32 (by decide) a b hx.1 hy.1 hx.2 hy.2).mpr (by injection h)⟩
            · exact ⟨fun h => congrArg (PValue.mk .f64) ((hfmt Spec.f64 (by decide) a b hx.1 hy.1 hx.2 hy.2).mp h),
                fun h => (hfmt Spec.f64 (by decide) a b hx.1 hy.1 hx.2 hy.2).mpr (by injection h)⟩
          · have : (⟨t, a⟩ : PValue) ≠ ⟨u, b⟩ := by intro h; injection h with h; exact htu h
            simp only [this, iff_false, Bool.not_eq_true]
            cases t <;> cases u <;> first | exact absurd rfl htu | simp [PValue.eq]
        · exact pvalue_eq_iff _ _ (by simpa using hf)
      | _ => simp [SV.eq]
    | list xs => simp [ordinary] at hx
    | bool x => exact C29_value_eq _ _ trivial
    | buffer x => exact C29_value_eq _ _ trivial
    | str x => exact C29_value_eq _ _ trivial
    | null => exact C29_value_eq _ _ trivial
  rw [Bool.eq_iff_iff, key, beq_iff_eq, cmp_eq]

theorem same_dtype {d e : DType} (h : d.eqIgnoreNullability e = true) (hn : d.isNullable = e.isNullable) : d = e := by
  unfold DType.eqIgnoreNullability at h
  rw [DType.beq_eq] at h
  cases d <;> cases e <;> simp_all [DType.withNullability, DType.isNullable]

theorem scalarCmp_eq {op : Op} {dx dy : DType} {x y : SV} (h : dx.eqIgnoreNullability dy = true) (hx : ordinary x = true)
    (hy : ordinary y = true) (hs : (op ≠ .eq ∧ op ≠ .notEq) ∨ dx.isNullable = dy.isNullable) : scalarCmp op dx x dy y = opRow op x y := by
  rw [opRow_eq]
  unfold scalarCmp
  split
  · rfl
  congr 1
  have ho : Scalar.partialCmp ⟨dx, x⟩ ⟨dy, y⟩ = SV.cmp x y := by simp [Scalar.partialCmp, h]
  have he : dx.isNullable = dy.isNullable → Scalar.eq ⟨dx, x⟩ ⟨dy, y⟩ = (SV.cmp x y == some .eq) := by
    intro hd
    have hd : dx = dy := same_dtype h hd
    subst hd
    have hb : dx.beq dx = true := (DType.beq_eq _ _).mpr rfl
    simp only [Scalar.eq, hb, Bool.true_and, eq_of_ordinary hx hy]
  cases op with
  | eq => exact he (hs.resolve_left (fun h => h.1 rfl))
  | notEq => simp only [he (hs.resolve_left (fun h => h.2 rfl)), Op.holds, bne]
  | _ => simp only [ho]

/-! ### The way down through chunks and extension arrays -/

variable {L : Type}

theorem Paths_iff {E T : Arr L → Prop} (cs : List (Arr L)) : Paths E T cs ↔ ∀ c ∈ cs, Path E T c := by
  induction cs with
  | nil => simp [Paths]
  | cons c cs ih => simp [Paths, ih]

/-- Neither chunked nor an extension array. -/
def isEnd : Arr L → Bool
  | .chunked _ _ => false
  | .ext _ _ _ => false
  | _ => true

theorem Path_end {E T : Arr L → Prop} {a : Arr L} (h : isEnd a = true) : Path E T a ↔ T a := by
  cases a <;> simp_all [isEnd, Path]

variable {env : BEnv L} {leafRows : L → List SV} {ok : L → Prop} {st : Bool}

theorem sliceV_plain {d : Nat} {v w : TVal (Arr L)} {s e : Nat} (h : sliceV (ops env.toEnv d) v s e = .ok w) (hp : plainV v = true) :
    plainV w = true := by
  cases v with
  | array a =>
    simp only [sliceV, Res.bind_eq_ok] at h
    obtain ⟨b, hb, h⟩ := h
    injection h with h; subst h
    cases d with
    | zero => cases hb
    | succ d =>
      obtain ⟨_, _, hb⟩ := slice_bounds hb
      cases a with
      | flat k vals u =>
        cases k <;> simp [plainV] at hp
        simp only [sliceFn, Res.bind_eq_ok] at hb
        obtain ⟨_, _, hb⟩ := hb
        injection hb with hb; subst hb
        rfl
      | _ => simp [plainV] at hp
  | _ => simp only [sliceV] at h; injection h with h; subst h; rfl

/-- A slice of an array that is neither chunked nor an extension array has the same encoding. -/
theorem slice_head (hl : LeafLaws env.toEnv leafRows ok) {d : Nat} {a b : Arr L} {s e : Nat} (h : slice env.toEnv (ops env.toEnv d) a s e = .ok b)
    (hw : WF env.toEnv leafRows ok a) (he : isEnd a = true) :
    isEnd b = true ∧ isAlp b = isAlp a ∧ isNullOrStruct b = isNullOrStruct a ∧ isConstArr b = isConstArr a ∧ (plainArr a = true → plainArr b = true) := by
  obtain ⟨hse, hel, h⟩ := slice_bounds h
  have hlen := len_eq hl a hw
  cases a with
  | leaf l =>
    obtain ⟨l', h1, _⟩ := hl.slice l s e hw ⟨hse, by rw [hlen] at hel; exact hel⟩
    simp only [sliceFn] at h
    rw [h1] at h; injection h with h; subst h
    exact ⟨rfl, rfl, rfl, rfl, fun h => h⟩
  | flat k vals v =>
    simp only [sliceFn, Res.bind_eq_ok] at h
    obtain ⟨w, hv, h⟩ := h
    injection h with h; subst h
    exact ⟨rfl, rfl, rfl, rfl, fun h => sliceV_plain hv h⟩
  | null n => simp only [sliceFn] at h; injection h with h; subst h; exact ⟨rfl, rfl, rfl, rfl, fun h => h⟩
  | const dt x n => simp only [sliceFn] at h; injection h with h; subst h; exact ⟨rfl, rfl, rfl, rfl, fun h => h⟩
  | chunked dt cs => simp [isEnd] at he
  | struct names fs n v =>
    simp only [sliceFn, Res.bind_eq_ok, mkStruct] at h
    obtain ⟨gs, _, w, _, _, _, _, _, _, _, h⟩ := h
    injection h with h; subst h
    exact ⟨rfl, rfl, rfl, rfl, fun h => h⟩
  | ext id m t => simp [isEnd] at he
  | sparse is vs n off fill =>
    simp only [sliceFn, Res.bind_eq_ok, mkSparse] at h
    obtain ⟨_, _, _, _, _, _, _, _, _, _, _, _, _, _, h⟩ := h
    injection h with h; subst h
    exact ⟨rfl, rfl, rfl, rfl, fun h => h⟩
  | dict codes vs =>
    simp only [sliceFn, Res.bind_eq_ok, mkDict] at h
    obtain ⟨c, _, h⟩ := h
    split at h
    · split at h
      · injection h with h; subst h; exact ⟨rfl, rfl, rfl, rfl, fun h => h⟩
      · cases h
    · cases h
  | runEnd ends vs v off n =>
    simp only [sliceFn, Res.bind_eq_ok, mkRunEnd] at h
    obtain ⟨_, _, _, _, _, _, _, _, _, _, _, _, _, _, _, _, _, _, h⟩ := h
    injection h with h; subst h
    exact ⟨rfl, rfl, rfl, rfl, fun h => h⟩
  | mapped c enc =>
    simp only [sliceFn, Res.bind_eq_ok, mkMapped] at h
    obtain ⟨x, _, h⟩ := h
    split at h
    · injection h with h; subst h; exact ⟨rfl, by cases c <;> rfl, rfl, rfl, fun h => h⟩
    · cases h
  | alpP x f enc patches =>
    simp only [sliceFn, Res.bind_eq_ok, mkAlpP] at h
    obtain ⟨_, _, _, _, h⟩ := h
    split at h
    · cases h
    · split at h
      · cases h
      · split at h
        · cases h
        · injection h with h; subst h; exact ⟨rfl, rfl, rfl, rfl, fun h => h⟩

/-- Slicing keeps what holds on the way down. -/
theorem slice_path (hl : LeafLaws env.toEnv leafRows ok) {E T : Arr L → Prop}
    (hE : ∀ s t, dtype env.toEnv t = dtype env.toEnv s → (Nice env.toEnv leafRows s → Nice env.toEnv leafRows t) → E s → E t)
    (hT : ∀ a b : Arr L, isAlp b = isAlp a → isNullOrStruct b = isNullOrStruct a → isConstArr b = isConstArr a →
      (plainArr a = true → plainArr b = true) → (Nice env.toEnv leafRows a → Nice env.toEnv leafRows b) → T a → T b) :
    ∀ (d : Nat) (a : Arr L) (s e : Nat) (b : Arr L), (ops env.toEnv d).slice a s e = .ok b → WF env.toEnv leafRows ok a →
      Regular env.toEnv leafRows st a → depth a ≤ d → (s < (rows env.toEnv leafRows a).length ∨ runFree a = true) → Path E T a → Path E T b
  | 0, a, s, e, b, h, _, _, hd, _, _ => by have := depth_pos a; omega
  | d + 1, a, s, e, b, h, hw, hr, hd, hs, hp => by
    have IH := slice_path hl hE hT d
    have H := laws hl d
    have hkeep := slice_stays hl (d + 1) a s e b h hw hr hd hs
    by_cases hend : isEnd a = true
    · obtain ⟨h1, h2, h3, h4, h5⟩ := slice_head hl h hw hend
      rw [Path_end hend] at hp
      rw [Path_end h1]
      exact hT a b h2 h3 h4 h5 hkeep.nice hp
    obtain ⟨hse, hel, h⟩ := slice_bounds (o := ops env.toEnv d) (a := a) h
    have hlen := len_eq hl a hw
    cases a with
    | chunked dt cs =>
      have hb : InBounds (rows env.toEnv leafRows (.chunked dt cs)).length s e := ⟨hse, by rw [hlen] at hel; exact hel⟩
      simp only [WF, Regular, depth, rows, runFree, Path] at hw hr hd hb hs hp
      let Good : Arr L → Prop := fun c => WF env.toEnv leafRows ok c ∧ Regular env.toEnv leafRows st c ∧ depth c ≤ depths cs ∧
        (runFrees cs = true → runFree c = true) ∧ Path E T c
      have hg : ∀ c ∈ cs, Good c := fun c hc =>
        ⟨(WFs_iff cs).mp hw.1 c hc, (Regulars_iff cs).mp hr.2 c hc, (depths_le cs _).mp (Nat.le_refl _) c hc,
          fun h => (runFrees_iff cs).mp h c hc, (Paths_iff cs).mp hp c hc⟩
      have hflat : (rowsEach env.toEnv leafRows cs).flatten = Chunked.rows (rows env.toEnv leafRows) cs := by
        rw [rowsEach_eq, Chunked.rows_eq_flatten]
      rw [hflat] at hb hs
      obtain ⟨out, h1, h2, h3, h4⟩ := Chunked.slice_okP (Good := Good) (rowsOf := rows env.toEnv leafRows) (len := len env.toEnv)
        (sl := (ops env.toEnv d).slice) (runFrees cs = true) (fun c hc => len_eq hl c hc.1)
        (fun c s' e' hc hb' hs' => by
          have hs'' := hs'.imp_right (fun h => hc.2.2.2.1 h)
          obtain ⟨b, b1, b2, b3, b4, b5⟩ := H.slice st c s' e' hc.1 hc.2.1 (by have := hc.2.2.1; omega) hb' hs''
          have k := IH c s' e' b b1 hc.1 hc.2.1 (by have := hc.2.2.1; omega) hs'' hc.2.2.2.2
          exact ⟨b, b1, ⟨b2, b3, Nat.le_trans b4.depth hc.2.2.1, fun h => b4.runFree (hc.2.2.2.1 h), k⟩, b5⟩)
        cs hr.1 hg s e hb hs
      simp only [sliceFn, h1, Res.ok_bind, mkChunked, Res.bind_eq_ok] at h
      obtain ⟨_, _, h⟩ := h
      injection h with h; subst h
      simp only [Path]
      exact (Paths_iff out).mpr (fun c hc => (h3 c hc).2.2.2.2)
    | ext id m t =>
      simp only [sliceFn, Res.bind_eq_ok] at h
      obtain ⟨u, hu, h⟩ := h
      injection h with h; subst h
      have hb : InBounds (rows env.toEnv leafRows t).length s e := ⟨hse, by rw [hlen] at hel; exact hel⟩
      simp only [WF, Regular, depth, rows, runFree, Path] at hw hr hd hs hp ⊢
      obtain ⟨b, b1, b2, b3, b4, b5⟩ := H.slice st t s e hw hr (by omega) hb hs
      rw [hu] at b1; injection b1 with b1; subst b1
      have k := slice_stays hl d t s e u hu hw hr (by omega) hs
      exact ⟨hE t u b4.dtype k.nice hp.1, IH t s e u hu hw hr (by omega) hs hp.2⟩
    | _ => simp [isEnd] at hend

/-! ### No empty chunks -/

theorem FullEach_iff {env : CEnv L} (cs : List (Arr L)) :
    FullEach env leafRows cs ↔ ∀ c ∈ cs, rows env.toEnv leafRows c ≠ [] ∧ FullChunks env leafRows c := by
  induction cs with
  | nil => simp [FullEach]
  | cons c cs ih => simp [FullEach, ih, and_assoc]

theorem FullChunks_end {env : CEnv L} {a : Arr L} (h : isEnd a = true) : FullChunks env leafRows a := by
  cases a <;> simp [isEnd] at h <;> exact trivial

theorem slice_ne_nil {α : Type} {xs : List α} {s e : Nat} (h : s < e) (he : e ≤ xs.length) : Spec.slice xs s e ≠ [] := by
  intro h0
  have := congrArg List.length h0
  simp only [Spec.slice, List.length_drop, List.length_take, List.length_nil] at this
  omega

/-- A slice that is not empty has no empty chunks if the array has none. -/
theorem slice_full {env : CEnv L} (hl : LeafLaws env.toEnv leafRows ok) : ∀ (d : Nat) (a : Arr L) (s e : Nat) (b : Arr L),
    (ops env.toEnv d).slice a s e = .ok b → WF env.toEnv leafRows ok a → Regular env.toEnv leafRows st a → depth a ≤ d → s < e →
    FullChunks env leafRows a → FullChunks env leafRows b
  | 0, a, s, e, b, h, _, _, hd, _, _ => by have := depth_pos a; omega
  | d + 1, a, s, e, b, h, hw, hr, hd, hs, hp => by
    have IH := slice_full hl d
    have H := laws hl d
    by_cases hend : isEnd a = true
    · exact FullChunks_end (slice_head (env := env.toBEnv) hl h hw hend).1
    obtain ⟨hse, hel, h⟩ := slice_bounds (env := env.toBEnv) (o := ops env.toEnv d) (a := a) h
    have hlen := len_eq hl a hw
    cases a with
    | chunked dt cs =>
      have hb : InBounds (rows env.toEnv leafRows (.chunked dt cs)).length s e := ⟨hse, by rw [hlen] at hel; exact hel⟩
      simp only [WF, Regular, depth, rows, FullChunks] at hw hr hd hb hp
      let Good : Arr L → Prop := fun c => WF env.toEnv leafRows ok c ∧ Regular env.toEnv leafRows st c ∧ depth c ≤ depths cs ∧
        rows env.toEnv leafRows c ≠ [] ∧ FullChunks env leafRows c
      have hg : ∀ c ∈ cs, Good c := fun c hc =>
        ⟨(WFs_iff cs).mp hw.1 c hc, (Regulars_iff cs).mp hr.2 c hc, (depths_le cs _).mp (Nat.le_refl _) c hc, (FullEach_iff cs).mp hp c hc⟩
      have hflat : (rowsEach env.toEnv leafRows cs).flatten = Chunked.rows (rows env.toEnv leafRows) cs := by
        rw [rowsEach_eq, Chunked.rows_eq_flatten]
      rw [hflat] at hb
      obtain ⟨out, h1, h2, h3, h4⟩ := Chunked.slice_okQ (Good := Good) (rowsOf := rows env.toEnv leafRows) (len := len env.toEnv)
        (sl := (ops env.toEnv d).slice) False False (fun c hc => len_eq hl c hc.1)
        (fun c s' e' hc hb' hs' hl' => by
          have hlt : s' < e' := hl'.resolve_right id
          have hs'' : s' < (rows env.toEnv leafRows c).length ∨ runFree c = true := .inl (hs'.resolve_right id)
          obtain ⟨b, b1, b2, b3, b4, b5⟩ := H.slice st c s' e' hc.1 hc.2.1 (by have := hc.2.2.1; omega) hb' hs''
          have k := IH c s' e' b b1 hc.1 hc.2.1 (by have := hc.2.2.1; omega) hlt hc.2.2.2.2
          exact ⟨b, b1, ⟨b2, b3, Nat.le_trans b4.depth hc.2.2.1, by rw [b5]; exact slice_ne_nil hlt hb'.2, k⟩, b5⟩)
        cs hr.1 hg s e hb (.inl (Nat.lt_of_lt_of_le hs hb.2)) (.inl hs)
      simp only [sliceFn, h1, Res.ok_bind, mkChunked, Res.bind_eq_ok] at h
      obtain ⟨_, _, h⟩ := h
      injection h with h; subst h
      simp only [FullChunks]
      exact (FullEach_iff out).mpr (fun c hc => (h3 c hc).2.2.2)
    | ext id m t =>
      simp only [sliceFn, Res.bind_eq_ok] at h
      obtain ⟨u, hu, h⟩ := h
      injection h with h; subst h
      simp only [WF, Regular, depth, FullChunks] at hw hr hd hp ⊢
      exact IH t s e u hu hw hr (by omega) hs hp
    | _ => simp [isEnd] at hend

end Vx.Tree
