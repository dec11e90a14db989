import Verif.Lemmas.CompressDriver
import Verif.Props.C03Canon
/-!
# C41: compression never changes data
-/
namespace Vx.Tree
open Vx.Spec (InBounds)

variable {L : Type} {env : BEnv L} {leafRows : L → List SV} {ok : L → Prop} {ch : Choice L}

/-- **C41.** Whatever compressors are enabled and at whatever depth (`ctx`), whatever sample is drawn, whatever the statistics, sizes and
ratios make the search choose (`ch`), and whatever compression tree is reused (`like`): if `compress` returns an array, it is well formed
and has the length, the type and the rows of the input, up to the sign of floating-point zeros. -/
theorem C41_compress_partial (hl : LeafLaws env.toEnv leafRows ok) (lb : LeafBulk env leafRows ok) (hc : ChoiceLaws env.toEnv leafRows ok ok ch)
    (fuel : Nat) (ctx : Ctx) (a b : Arr L) (like t : Option CTree) (hg : Good env.toEnv leafRows ok a)
    (h : compress env ch fuel ctx a like = .ok (b, t)) :
    WF env.toEnv leafRows ok b ∧ dtype env.toEnv b = dtype env.toEnv a ∧ len env.toEnv b = len env.toEnv a ∧
      (rows env.toEnv leafRows b).map norm = (rows env.toEnv leafRows a).map norm := by
  have s := compress_sound (fun _ h => h) hl lb hc fuel ctx a like b t h hg
  exact ⟨s.wf, s.dtype, by rw [len_eq hl b s.wf, len_eq hl a hg.wf, sd_length s], s.rows⟩

mutual
/-- No floating-point zero anywhere in the value. -/
def zeroFree : SV → Bool
  | .prim p => (floatParts p.pt).isNone || (decide (p.bits.toNat ≠ 0) && !isNegZero p)
  | .list vs => zeroFrees vs
  | _ => true
def zeroFrees : List SV → Bool
  | [] => true
  | v :: vs => zeroFree v && zeroFrees vs
end

theorem posZero_eq {p q : PValue} (hp : ((floatParts p.pt).isNone || (decide (p.bits.toNat ≠ 0) && !isNegZero p)) = true)
    (h : posZero q = posZero p) : q = p := by
  have hpt : q.pt = p.pt := by rw [← posZero_pt q, h, posZero_pt]
  cases hf : floatParts p.pt with
  | none => rw [posZero_int (p := q) (by rw [hpt]; exact hf), posZero_int hf] at h; exact h
  | some em =>
    simp only [hf, Option.isNone_some, Bool.false_or, Bool.and_eq_true, decide_eq_true_eq, Bool.not_eq_true'] at hp
    have hpp : posZero p = p := by simp [posZero, hp.2]
    rw [hpp] at h
    simp only [posZero] at h
    split at h
    · exfalso; apply hp.1; rw [← h]; simp
    · exact h

mutual
theorem zeroFree_eq : ∀ (x y : SV), zeroFree x = true → norm y = norm x → y = x
  | .prim p, y, hx, h => by
    cases y <;> simp only [norm, SV.prim.injEq, reduceCtorEq] at h
    rw [posZero_eq (by simpa only [zeroFree] using hx) h]
  | .list vs, y, hx, h => by
    cases y <;> simp only [norm, SV.list.injEq, reduceCtorEq] at h
    rename_i ws
    rw [zeroFrees_eq vs ws (by simpa only [zeroFree] using hx) h]
  | .bool b, y, _, h => by cases y <;> simp_all [norm]
  | .buffer b, y, _, h => by cases y <;> simp_all [norm]
  | .str b, y, _, h => by cases y <;> simp_all [norm]
  | .null, y, _, h => by cases y <;> simp_all [norm]
theorem zeroFrees_eq : ∀ (xs ys : List SV), zeroFrees xs = true → norms ys = norms xs → ys = xs
  | [], ys, _, h => by cases ys <;> simp_all [norms]
  | x :: xs, ys, hx, h => by
    cases ys with
    | nil => simp [norms] at h
    | cons y ys =>
      simp only [norms, List.cons.injEq] at h
      simp only [zeroFrees, Bool.and_eq_true] at hx
      rw [zeroFree_eq x y hx.1 h.1, zeroFrees_eq xs ys hx.2 h.2]
end

/-- **C41 (exactly the rows).** Where no floating-point zero occurs, the rows are equal bit for bit. -/
theorem C41_compress_rows_partial (hl : LeafLaws env.toEnv leafRows ok) (lb : LeafBulk env leafRows ok) (hc : ChoiceLaws env.toEnv leafRows ok ok ch)
    (fuel : Nat) (ctx : Ctx) (a b : Arr L) (like t : Option CTree) (hg : Good env.toEnv leafRows ok a)
    (hz : ∀ r ∈ rows env.toEnv leafRows a, zeroFree r = true) (h : compress env ch fuel ctx a like = .ok (b, t)) :
    rows env.toEnv leafRows b = rows env.toEnv leafRows a := by
  have s := (compress_sound (fun _ h => h) hl lb hc fuel ctx a like b t h hg).rows
  rw [← norms_eq, ← norms_eq] at s
  refine zeroFrees_eq _ _ ?_ s
  generalize rows env.toEnv leafRows a = l at hz ⊢
  induction l with
  | nil => rfl
  | cons x xs ih => simp only [zeroFrees, Bool.and_eq_true]; exact ⟨hz x (by simp), ih (fun r hr => hz r (by simp [hr]))⟩

/-- **C41 (element access).** `scalar_at` of the compressed array is `scalar_at` of the original, at every index, in and out of range. -/
theorem C41_scalar_at_partial (hl : LeafLaws env.toEnv leafRows ok) (lb : LeafBulk env leafRows ok) (hc : ChoiceLaws env.toEnv leafRows ok ok ch)
    (fuel : Nat) (ctx : Ctx) (a b : Arr L) (like t : Option CTree) (hg : Good env.toEnv leafRows ok a)
    (hz : ∀ r ∈ rows env.toEnv leafRows a, zeroFree r = true) (h : compress env ch fuel ctx a like = .ok (b, t))
    (hb : Regular env.toEnv leafRows true b) (i : Nat) : b.scalarAt env.toEnv i = a.scalarAt env.toEnv i := by
  have s := compress_sound (fun _ h => h) hl lb hc fuel ctx a like b t h hg
  rw [C03_scalar_at_partial hl b s.wf hb i, C03_scalar_at_partial hl a hg.wf hg.regular i, C41_compress_rows_partial hl lb hc fuel ctx a b like t hg hz h]

/-- **C41 (decoding).** Decoding the compressed array gives the plain array with the original's type and rows. -/
theorem C41_decode_partial (hl : LeafLaws env.toEnv leafRows ok) (lb : LeafBulk env leafRows ok) (hc : ChoiceLaws env.toEnv leafRows ok ok ch)
    (fuel : Nat) (ctx : Ctx) (a b : Arr L) (like t : Option CTree) (hg : Good env.toEnv leafRows ok a)
    (hz : ∀ r ∈ rows env.toEnv leafRows a, zeroFree r = true) (h : compress env ch fuel ctx a like = .ok (b, t))
    (hb : Nice env.toEnv leafRows b) :
    ∃ k vals v, b.canon env = .ok (.flat k vals v) ∧ rows env.toEnv leafRows (.flat k vals v) = rows env.toEnv leafRows a ∧
      k.dtype v.nullable = dtype env.toEnv a := by
  have s := compress_sound (fun _ h => h) hl lb hc fuel ctx a like b t h hg
  obtain ⟨k, vals, v, h1, h2, h3, _⟩ := C03_canonical_partial hl lb b s.wf hb
  exact ⟨k, vals, v, h1, by rw [h2, C41_compress_rows_partial hl lb hc fuel ctx a b like t hg hz h], by rw [h3, s.dtype]⟩

/-! ### A concrete policy -/

/-- Every compressor of the tree model accepts what it can; the sample is the decoded first row; ALP makes everything an exception. -/
def exChoice : Choice Empty where
  can i a := match i with
    | .constant =>
      let rs := rows noLeaves noRows a
      !rs.isEmpty && rs.all (fun r => inst r (dtype noLeaves a)) && rs.all (fun r => rs.all (fun s => svEq (norm r) (norm s)))
    | .zigzag => match a with
      | .flat (.prim p) _ _ => isSigned p
      | _ => false
    | .for => match a with
      | .flat (.prim p) _ _ => p.isInt
      | _ => false
    | .dict => match a with
      | .flat k _ _ => decide (k ≠ .bool)
      | _ => false
    | .runEnd => match a with
      | .flat (.prim _) _ _ => true
      | _ => false
    | .sparse => match a with
      | .sparse _ _ _ _ _ => true
      | _ => false
    | .alp => match a with
      | .flat (.prim .f32) _ _ | .flat (.prim .f64) _ _ => true
      | _ => false
    | _ => false
  cost _ := 1
  maxCost := 2
  own _ _ := false
  small a := len noLeaves a ≤ 2
  sample a := do
    let s ← a.slice noLeaves 0 1
    s.canon noLeavesB
  better best _ _ := best.isNone
  unsatisfactory _ _ _ := false
  nbytes a := len noLeaves a
  targetBytes := 4
  targetRows := 4
  leafEnc _ _ _ := .err
  alpEnc p vals := .ok (0, 0, vals.map (fun _ => .prim ⟨if p = .f32 then .i32 else .i64, 0⟩), List.range vals.length)

theorem exChoice_laws : ChoiceLaws noLeavesB.toEnv noRows (fun _ => True) (fun _ => True) exChoice := by
  constructor
  · intro a _ h
    simp only [exChoice, Bool.and_eq_true, List.all_eq_true, svEq_iff] at h
    exact ⟨h.1.2, h.2⟩
  · intro i a like l _ _ h; simp [exChoice] at h
  · intro p q vals e f enc exc hpq _ h
    simp only [exChoice, Res.ok.injEq, Prod.mk.injEq] at h
    obtain ⟨_, _, rfl, rfl⟩ := h
    refine ⟨by simp, ?_, List.pairwise_lt_range, by simp, ?_⟩
    · intro x hx
      simp only [List.mem_map] at hx
      obtain ⟨_, _, rfl⟩ := hx
      rcases hpq with ⟨rfl, rfl⟩ | ⟨rfl, rfl⟩ <;> rfl
    · intro i x y hi hx
      exfalso
      apply hi
      simp only [List.mem_range]
      exact (List.getElem?_eq_some_iff.mp hx).1

/-- All compressors enabled. -/
def exCtx : Ctx := ⟨[.runEnd, .zigzag, .for, .dict, .alp, .sparse], 0, []⟩

/-- A column with runs, in three chunks. -/
def exColumn : Arr Empty := .chunked (.prim .i32 false) [.flat (.prim .i32) [i32 7, i32 7, i32 7] .nonNullable,
  .flat (.prim .i32) [i32 (-2)] .nonNullable, .flat (.prim .i32) [i32 4, i32 4, i32 9, i32 9] .nonNullable]

theorem exColumn_good : Good noLeavesB.toEnv noRows (fun _ => True) exColumn := by
  refine ⟨⟨?_, ?_⟩, ⟨?_, ?_⟩, ?_, ?_⟩
  · rw [WFs_iff]
    intro c hc
    simp only [List.mem_cons, List.not_mem_nil, or_false] at hc
    rcases hc with rfl | rfl | rfl <;> exact ⟨by intro x hx; simp only [List.mem_cons, List.not_mem_nil, or_false] at hx; rcases hx with rfl | rfl | rfl | rfl <;> rfl, trivial⟩
  · rw [dtypes_eq]; intro d hd; simp only [List.map_cons, List.map_nil, dtype, List.mem_cons, List.not_mem_nil, or_false, Kind.dtype, TVal.nullable] at hd
    rcases hd with rfl | rfl | rfl <;> rfl
  · simp
  · exact ⟨trivial, trivial, trivial, trivial⟩
  · exact ⟨⟨trivial, trivial⟩, ⟨trivial, trivial⟩, ⟨trivial, trivial⟩, trivial⟩
  · exact ⟨trivial, trivial, trivial, trivial⟩

/-- The search on it ends: the first two chunks are combined, then each is run-end encoded with zigzag values. The theorem applies. -/
theorem exColumn_compressed : ∃ b t, compress noLeavesB exChoice 8 exCtx exColumn none = .ok (b, t) ∧
    b = .chunked (.prim .i32 false) [
      .runEnd [3, 4] (.mapped .zigzag (.flat (.prim .u32) [u32v 14, u32v 3] .nonNullable)) .nonNullable 0 4,
      .runEnd [2, 4] (.mapped .zigzag (.flat (.prim .u32) [u32v 8, u32v 18] .nonNullable)) .nonNullable 0 4] := ⟨_, _, rfl, rfl⟩

example : ∃ b t, compress noLeavesB exChoice 8 exCtx exColumn none = .ok (b, t) ∧
    rows noLeavesB.toEnv noRows b = [i32 7, i32 7, i32 7, i32 (-2), i32 4, i32 4, i32 9, i32 9] := by
  obtain ⟨b, t, h, _⟩ := exColumn_compressed
  refine ⟨b, t, h, ?_⟩
  rw [C41_compress_rows_partial noLeavesB_laws noLeavesB_ok exChoice_laws 8 exCtx exColumn b none t exColumn_good ?_ h]
  · rfl
  · intro r hr
    have : rows noLeavesB.toEnv noRows exColumn = [i32 7, i32 7, i32 7, i32 (-2), i32 4, i32 4, i32 9, i32 9] := rfl
    rw [this] at hr
    simp only [List.mem_cons, List.not_mem_nil, or_false] at hr
    rcases hr with rfl | rfl | rfl | rfl | rfl | rfl | rfl | rfl <;> rfl

/-! ### Where the claim fails -/

def f64v (n : Nat) : SV := .prim ⟨.f64, BitVec.ofNat 64 n⟩

/-- The claim without the normalisation of zeros fails: `[0.0, -0.0]` counts as constant and becomes `[0.0, 0.0]`. -/
theorem C41_negative_zero : ∃ b t,
    compress noLeavesB exChoice 3 exCtx (.flat (.prim .f64) [f64v 0, f64v (2 ^ 63)] .nonNullable) none = .ok (b, t) ∧
    rows noLeavesB.toEnv noRows b = [f64v 0, f64v 0] ∧ f64v 0 ≠ f64v (2 ^ 63) :=
  ⟨_, _, rfl, rfl, by intro h; have := congrArg (fun x => match x with | SV.prim p => p.bits.toNat | _ => 0) h; exact absurd this (by decide)⟩

/-- A slice of a sparse array (rows 7, 0): its compressor drops the offset of the indices. -/
def exSlice : Arr Empty := .sparse [1] (.flat (.prim .i32) [i32 7] .nonNullable) 2 1 (i32 0)

theorem C41_sparse_offset : rows noLeavesB.toEnv noRows exSlice = [i32 7, i32 0] ∧
    ∃ b t, compress noLeavesB exChoice 3 exCtx exSlice none = .ok (b, t) ∧ rows noLeavesB.toEnv noRows b = [i32 0, i32 7] :=
  ⟨rfl, _, _, rfl, rfl⟩

/-- Both children of a sparse array are compressed like the first child tree, and one that ends earlier than needed is a crash: reusing a
tree without children on a sparse array panics. -/
theorem C41_reuse_panics : compress noLeavesB exChoice 3 exCtx exSlice (some (.node .sparse [])) = .panic := rfl

/-! ### When two neighbours start a new run -/

/-- The test that ends a run is the inequality of the value type: IEEE `!=` on the three float types (`Spec/Float.lean`), different bits on
integers. -/
theorem C41_run_ends_f16 (a b : BitVec 16) : valNe (.prim ⟨.f16, a⟩) (.prim ⟨.f16, b⟩) = PValue.fmt16.ne a b := by
  have hn : ∀ x : BitVec 16, isNaN ⟨.f16, x⟩ = PValue.fmt16.isNaN x := by
    intro x
    have hx := x.isLt
    rw [Bool.eq_iff_iff]
    show ((x.toNat / 2 ^ 10) % 2 ^ 5 == 2 ^ 5 - 1 && x.toNat % 2 ^ 10 != 0) = true ↔ decide ((2 ^ 5 - 1) * 2 ^ 10 < x.toNat % 2 ^ 15) = true
    refine Iff.trans ?_ (@decide_eq_true_iff _ _).symm
    simp only [Bool.and_eq_true, beq_iff_eq, bne_iff_ne, Nat.reducePow, Nat.reduceSub, Nat.reduceMul, ne_eq]
    omega
  have hz : ∀ x : BitVec 16, posZero ⟨.f16, x⟩ = ⟨.f16, if x.toNat = 2 ^ 15 then 0 else x⟩ := by
    intro x
    show (if (x.toNat == 2 ^ 15) = true then (⟨.f16, 0⟩ : PValue) else ⟨.f16, x⟩) = _
    by_cases h : x.toNat = 2 ^ 15 <;> simp [h]
  have hinj : ∀ x y : BitVec 16, ((⟨.f16, x⟩ : PValue) = ⟨.f16, y⟩) ↔ x.toNat = y.toNat := fun x y =>
    ⟨fun h => by injection h with _ h; exact congrArg BitVec.toNat h, fun h => by rw [BitVec.eq_of_toNat_eq h]⟩
  have hbeq : (a == b) = decide (a.toNat = b.toNat) := by
    rw [Bool.eq_iff_iff]; simp [BitVec.toNat_inj]
  have hite : ∀ x : BitVec 16, BitVec.toNat (if x.toNat = 2 ^ 15 then 0 else x) = if x.toNat = 2 ^ 15 then 0 else x.toNat := by
    intro x; split <;> rfl
  have ha := a.isLt; have hb := b.isLt
  show (isNaN ⟨.f16, a⟩ || isNaN ⟨.f16, b⟩ || decide (posZero ⟨.f16, a⟩ ≠ posZero ⟨.f16, b⟩)) =
    !(!PValue.fmt16.isNaN a && !PValue.fmt16.isNaN b && ((a == b) || (a.toNat % 2 ^ 15 == 0 && b.toNat % 2 ^ 15 == 0)))
  rw [hn, hn, hz, hz, hbeq]
  have hq : decide ((⟨.f16, if a.toNat = 2 ^ 15 then 0 else a⟩ : PValue) ≠ ⟨.f16, if b.toNat = 2 ^ 15 then 0 else b⟩) =
      !(decide (a.toNat = b.toNat) || (a.toNat % 2 ^ 15 == 0 && b.toNat % 2 ^ 15 == 0)) := by
    rw [Bool.eq_iff_iff]
    refine Iff.trans decide_eq_true_iff (Iff.trans (not_congr (Iff.trans (hinj _ _) (Iff.of_eq (congr (congrArg Eq (hite a)) (hite b))))) ?_)
    simp only [Bool.not_eq_true', Bool.or_eq_false_iff, Bool.and_eq_false_iff, decide_eq_false_iff_not, beq_eq_false_iff_ne]
    clear hz hinj hite hn hbeq
    split <;> split <;> omega
  rw [hq]
  cases PValue.fmt16.isNaN a <;> cases PValue.fmt16.isNaN b <;> rfl

theorem C41_run_ends_f32 (a b : BitVec 32) : valNe (.prim ⟨.f32, a⟩) (.prim ⟨.f32, b⟩) = Vx.Spec.f32.ne a b := by
  have hn : ∀ x : BitVec 32, isNaN ⟨.f32, x⟩ = Vx.Spec.f32.isNaN x := by
    intro x
    have hx := x.isLt
    rw [Bool.eq_iff_iff]
    show ((x.toNat / 2 ^ 23) % 2 ^ 8 == 2 ^ 8 - 1 && x.toNat % 2 ^ 23 != 0) = true ↔ decide ((2 ^ 8 - 1) * 2 ^ 23 < x.toNat % 2 ^ 31) = true
    refine Iff.trans ?_ (@decide_eq_true_iff _ _).symm
    simp only [Bool.and_eq_true, beq_iff_eq, bne_iff_ne, Nat.reducePow, Nat.reduceSub, Nat.reduceMul, ne_eq]
    omega
  have hz : ∀ x : BitVec 32, posZero ⟨.f32, x⟩ = ⟨.f32, if x.toNat = 2 ^ 31 then 0 else x⟩ := by
    intro x
    show (if (x.toNat == 2 ^ 31) = true then (⟨.f32, 0⟩ : PValue) else ⟨.f32, x⟩) = _
    by_cases h : x.toNat = 2 ^ 31 <;> simp [h]
  have hinj : ∀ x y : BitVec 32, ((⟨.f32, x⟩ : PValue) = ⟨.f32, y⟩) ↔ x.toNat = y.toNat := fun x y =>
    ⟨fun h => by injection h with _ h; exact congrArg BitVec.toNat h, fun h => by rw [BitVec.eq_of_toNat_eq h]⟩
  have hbeq : (a == b) = decide (a.toNat = b.toNat) := by
    rw [Bool.eq_iff_iff]; simp [BitVec.toNat_inj]
  have hite : ∀ x : BitVec 32, BitVec.toNat (if x.toNat = 2 ^ 31 then 0 else x) = if x.toNat = 2 ^ 31 then 0 else x.toNat := by
    intro x; split <;> rfl
  have ha := a.isLt; have hb := b.isLt
  show (isNaN ⟨.f32, a⟩ || isNaN ⟨.f32, b⟩ || decide (posZero ⟨.f32, a⟩ ≠ posZero ⟨.f32, b⟩)) =
    !(!Vx.Spec.f32.isNaN a && !Vx.Spec.f32.isNaN b && ((a == b) || (a.toNat % 2 ^ 31 == 0 && b.toNat % 2 ^ 31 == 0)))
  rw [hn, hn, hz, hz, hbeq]
  have hq : decide ((⟨.f32, if a.toNat = 2 ^ 31 then 0 else a⟩ : PValue) ≠ ⟨.f32, if b.toNat = 2 ^ 31 then 0 else b⟩) =
      !(decide (a.toNat = b.toNat) || (a.toNat % 2 ^ 31 == 0 && b.toNat % 2 ^ 31 == 0)) := by
    rw [Bool.eq_iff_iff]
    refine Iff.trans decide_eq_true_iff (Iff.trans (not_congr (Iff.trans (hinj _ _) (Iff.of_eq (congr (congrArg Eq (hite a)) (hite b))))) ?_)
    simp only [Bool.not_eq_true', Bool.or_eq_false_iff, Bool.and_eq_false_iff, decide_eq_false_iff_not, beq_eq_false_iff_ne]
    clear hz hinj hite hn hbeq
    split <;> split <;> omega
  rw [hq]
  cases Vx.Spec.f32.isNaN a <;> cases Vx.Spec.f32.isNaN b <;> rfl

theorem C41_run_ends_f64 (a b : BitVec 64) : valNe (.prim ⟨.f64, a⟩) (.prim ⟨.f64, b⟩) = Vx.Spec.f64.ne a b := by
  have hn : ∀ x : BitVec 64, isNaN ⟨.f64, x⟩ = Vx.Spec.f64.isNaN x := by
    intro x
    have hx := x.isLt
    rw [Bool.eq_iff_iff]
    show ((x.toNat / 2 ^ 52) % 2 ^ 11 == 2 ^ 11 - 1 && x.toNat % 2 ^ 52 != 0) = true ↔ decide ((2 ^ 11 - 1) * 2 ^ 52 < x.toNat % 2 ^ 63) = true
    refine Iff.trans ?_ (@decide_eq_true_iff _ _).symm
    simp only [Bool.and_eq_true, beq_iff_eq, bne_iff_ne, Nat.reducePow, Nat.reduceSub, Nat.reduceMul, ne_eq]
    omega
  have hz : ∀ x : BitVec 64, posZero ⟨.f64, x⟩ = ⟨.f64, if x.toNat = 2 ^ 63 then 0 else x⟩ := by
    intro x
    show (if (x.toNat == 2 ^ 63) = true then (⟨.f64, 0⟩ : PValue) else ⟨.f64, x⟩) = _
    by_cases h : x.toNat = 2 ^ 63 <;> simp [h]
  have hinj : ∀ x y : BitVec 64, ((⟨.f64, x⟩ : PValue) = ⟨.f64, y⟩) ↔ x.toNat = y.toNat := fun x y =>
    ⟨fun h => by injection h with _ h; exact congrArg BitVec.toNat h, fun h => by rw [BitVec.eq_of_toNat_eq h]⟩
  have hbeq : (a == b) = decide (a.toNat = b.toNat) := by
    rw [Bool.eq_iff_iff]; simp [BitVec.toNat_inj]
  have hite : ∀ x : BitVec 64, BitVec.toNat (if x.toNat = 2 ^ 63 then 0 else x) = if x.toNat = 2 ^ 63 then 0 else x.toNat := by
    intro x; split <;> rfl
  have ha := a.isLt; have hb := b.isLt
  show (isNaN ⟨.f64, a⟩ || isNaN ⟨.f64, b⟩ || decide (posZero ⟨.f64, a⟩ ≠ posZero ⟨.f64, b⟩)) =
    !(!Vx.Spec.f64.isNaN a && !Vx.Spec.f64.isNaN b && ((a == b) || (a.toNat % 2 ^ 63 == 0 && b.toNat % 2 ^ 63 == 0)))
  rw [hn, hn, hz, hz, hbeq]
  have hq : decide ((⟨.f64, if a.toNat = 2 ^ 63 then 0 else a⟩ : PValue) ≠ ⟨.f64, if b.toNat = 2 ^ 63 then 0 else b⟩) =
      !(decide (a.toNat = b.toNat) || (a.toNat % 2 ^ 63 == 0 && b.toNat % 2 ^ 63 == 0)) := by
    rw [Bool.eq_iff_iff]
    refine Iff.trans decide_eq_true_iff (Iff.trans (not_congr (Iff.trans (hinj _ _) (Iff.of_eq (congr (congrArg Eq (hite a)) (hite b))))) ?_)
    simp only [Bool.not_eq_true', Bool.or_eq_false_iff, Bool.and_eq_false_iff, decide_eq_false_iff_not, beq_eq_false_iff_ne]
    clear hz hinj hite hn hbeq
    split <;> split <;> omega
  rw [hq]
  cases Vx.Spec.f64.isNaN a <;> cases Vx.Spec.f64.isNaN b <;> rfl

theorem C41_run_ends_int (p : PType) (hp : p.isInt = true) (a b : BitVec p.bits) : valNe (.prim ⟨p, a⟩) (.prim ⟨p, b⟩) = decide (a ≠ b) := by
  cases p <;> simp_all [PType.isInt, PType.isFloat, valNe, isNaN, posZero, isNegZero, floatParts]

/-- A NaN ends every run, the two zeros share one. -/
example : valNe (f64v 0) (f64v (2 ^ 63)) = false ∧ valNe (f64v (0x7ff8 * 2 ^ 48)) (f64v (0x7ff8 * 2 ^ 48)) = true := by
  constructor
  · exact (C41_run_ends_f64 0 (BitVec.ofNat 64 (2 ^ 63))).trans (by decide +kernel)
  · exact (C41_run_ends_f64 (BitVec.ofNat 64 (0x7ff8 * 2 ^ 48)) (BitVec.ofNat 64 (0x7ff8 * 2 ^ 48))).trans (by decide +kernel)

end Vx.Tree
