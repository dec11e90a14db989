import Verif.Lemmas.TreeExprTotal
import Verif.Props.C06
/-! # C104: comparing encoded arrays is comparing their rows -/
namespace Vx.Tree
open Spec

variable {L : Type} {env : CEnv L} {leafRows : L → List SV} {ok : L → Prop}

/-- **C104.** Whatever the encodings of the two sides, an answer of `compare` says of each pair of rows whether the operator holds between
the two values, and null where either is null; the answer is a well-formed array that decodes. Left out (`Comparable`): NaN and negative
zero, ALP against constants, equality of constants of different nullability, empty chunks against run-end arrays, and what does not decode. -/
theorem C104_compare_sound_partial (hl : LeafLaws env.toEnv leafRows ok) (lb : LeafBulk env.toBEnv leafRows ok) (lc : LeafCompare env leafRows ok)
    {op : Op} {l r b : Arr L} (hc : Comparable env leafRows ok op l r) (h : l.compare env op r = .ok b) :
    rows env.toEnv leafRows b = List.zipWith (opRow op) (rows env.toEnv leafRows l) (rows env.toEnv leafRows r) ∧
      WF env.toEnv leafRows ok b ∧ Nice env.toEnv leafRows b ∧ (dtype env.toEnv b = .bool true ∨ ∃ dt n, b = .const dt .null n) :=
  have a := compareF_sound hl lb lc _ op l r b h hc
  ⟨a.rows, a.wf, a.nice, a.dtype⟩

/-- **C104.** Without constants, null arrays and structs, and if plain number arrays have plain validities, the comparison succeeds. -/
theorem C104_compare_succeeds_partial (hl : LeafLaws env.toEnv leafRows ok) (lb : LeafBulk env.toBEnv leafRows ok) (lc : LeafCompare env leafRows ok)
    (hns : NoStats env) (hleaf : ∀ op l r, isConstArr r = false → env.leafCmp op l r = none) {op : Op} {l r : Arr L} {sty : DType}
    (hc : Comparable env leafRows ok op l r) (hsl : Straight env leafRows sty l) (hsr : Straight env leafRows sty r)
    (hlen : (rows env.toEnv leafRows l).length = (rows env.toEnv leafRows r).length)
    (hd : (dtype env.toEnv l).eqIgnoreNullability (dtype env.toEnv r) = true) :
    ∃ b, l.compare env op r = .ok b ∧ dtype env.toEnv b = .bool true ∧
      rows env.toEnv leafRows b = List.zipWith (opRow op) (rows env.toEnv leafRows l) (rows env.toEnv leafRows r) := by
  obtain ⟨b, b1, b2⟩ := compareF_total hl lb hns hleaf (2 * (depth l + depth r) + 2) op l r hc hsl hsr hlen hd (by omega)
  exact ⟨b, b1, b2.1, (compareF_sound hl lb lc _ op l r b b1 hc).rows⟩

/-- The answer does not depend on the encodings: two comparisons of arrays with the same rows give the same rows. -/
theorem C104_encoding_free_partial (hl : LeafLaws env.toEnv leafRows ok) (lb : LeafBulk env.toBEnv leafRows ok) (lc : LeafCompare env leafRows ok)
    {op : Op} {l r b l' r' b' : Arr L} (hc : Comparable env leafRows ok op l r) (hc' : Comparable env leafRows ok op l' r')
    (h : l.compare env op r = .ok b) (h' : l'.compare env op r' = .ok b')
    (hl' : rows env.toEnv leafRows l = rows env.toEnv leafRows l') (hr' : rows env.toEnv leafRows r = rows env.toEnv leafRows r') :
    rows env.toEnv leafRows b = rows env.toEnv leafRows b' := by
  rw [(C104_compare_sound_partial hl lb lc hc h).1, (C104_compare_sound_partial hl lb lc hc' h').1, hl', hr']

/-- Turning the comparison around gives the same rows. -/
theorem C104_swap_partial (hl : LeafLaws env.toEnv leafRows ok) (lb : LeafBulk env.toBEnv leafRows ok) (lc : LeafCompare env leafRows ok)
    {op : Op} {l r b b' : Arr L} (hc : Comparable env leafRows ok op l r) (h : l.compare env op r = .ok b)
    (h' : r.compare env op.swap l = .ok b') : rows env.toEnv leafRows b = rows env.toEnv leafRows b' := by
  rw [(C104_compare_sound_partial hl lb lc hc h).1, (C104_compare_sound_partial hl lb lc hc.swap h').1, zipWith_opRow_swap]

theorem zip_replicate (f : SV → SV → SV) (x : SV) : ∀ xs : List SV, List.zipWith f xs (List.replicate xs.length x) = xs.map (fun r => f r x)
  | [] => rfl
  | y :: xs => by simp [List.replicate_succ, zip_replicate f x xs]

/-- **C104.** An array without constants inside, null arrays and structs, against a constant that is not null, on either side: the comparison succeeds. -/
theorem C104_constant_succeeds_partial (hl : LeafLaws env.toEnv leafRows ok) (lb : LeafBulk env.toBEnv leafRows ok) (lc : LeafCompare env leafRows ok)
    (hns : NoStats env) (hlc : LeafConst env) (hleaf : ∀ op l r, isConstArr r = false → env.leafCmp op l r = none)
    {op : Op} {a : Arr L} {sty dt : DType} {x : SV} (hx : x ≠ .null) (hs : Straight env leafRows sty a)
    (hc : Comparable env leafRows ok op a (.const dt x (rows env.toEnv leafRows a).length))
    (hd : (dtype env.toEnv a).eqIgnoreNullability dt = true) :
    (∃ b, a.compare env op (.const dt x (rows env.toEnv leafRows a).length) = .ok b ∧ dtype env.toEnv b = .bool true ∧
      rows env.toEnv leafRows b = (rows env.toEnv leafRows a).map (fun r => opRow op r x)) ∧
    ∃ b, (Arr.const dt x (rows env.toEnv leafRows a).length).compare env op.swap a = .ok b ∧ dtype env.toEnv b = .bool true ∧
      rows env.toEnv leafRows b = (rows env.toEnv leafRows a).map (fun r => opRow op r x) := by
  have hx' : x.isNull = false := by cases x <;> first | rfl | exact absurd rfl hx
  obtain ⟨b, b1, b2⟩ := compare_total hl lb hns hleaf hlc hc (.right sty dt x _ hs hx') (by simp [rows]) (by simpa only [dtype] using hd)
  obtain ⟨c, c1, c2⟩ := compare_total hl lb hns hleaf hlc hc.swap (.left sty dt x _ hs hx') (by simp [rows])
    (by simpa only [dtype] using eqIgnore_symm hd)
  refine ⟨⟨b, b1, b2.1, ?_⟩, c, c1, c2.1, ?_⟩
  · rw [(C104_compare_sound_partial hl lb lc hc b1).1]
    exact zip_replicate _ x _
  · rw [← C104_swap_partial hl lb lc hc b1 c1, (C104_compare_sound_partial hl lb lc hc b1).1]
    exact zip_replicate _ x _

/-- What the answer for a row means, in terms of the order of the values. -/
theorem C104_row_meaning (op : Op) (x y : SV) (hx : x ≠ .null) (hy : y ≠ .null) : opRow op x y = .bool (op.holds (SV.cmp x y)) ∧
    opRow op .null y = .null ∧ opRow op x .null = .null ∧ opRow .eq x y = .bool (decide (SV.cmp x y = some .eq)) ∧
    (opRow .eq x y = .bool true ↔ x = y) := by
  have h : opRow op x y = .bool (op.holds (SV.cmp x y)) := by rw [opRow_eq]; cases x <;> cases y <;> simp_all [SV.isNull]
  have h' : opRow .eq x y = .bool (Op.holds (SV.cmp x y) .eq) := by rw [opRow_eq]; cases x <;> cases y <;> simp_all [SV.isNull]
  refine ⟨h, by rw [opRow_eq]; rfl, by rw [opRow_eq]; cases x <;> rfl, ?_, ?_⟩
  · rw [h']
    simp only [Op.holds]
    congr 1
    by_cases e : SV.cmp x y = some .eq <;> simp [e]
  · rw [h']
    simp only [Op.holds, SV.bool.injEq, beq_iff_eq]
    exact cmp_eq x y

/-- Different lengths or types are refused. -/
theorem C104_mismatch_refused (op : Op) (l r : Arr L)
    (h : len env.toEnv l ≠ len env.toEnv r ∨ (dtype env.toEnv l).eqIgnoreNullability (dtype env.toEnv r) = false) : l.compare env op r = .err := by
  unfold Arr.compare
  rw [compareF]
  rcases h with h | h
  · rw [if_pos h]
  · by_cases h' : len env.toEnv l ≠ len env.toEnv r
    · rw [if_pos h']
    · rw [if_neg h', h]; rfl

/-! ## Where the code is wrong or stuck -/

/-- No leaf encodings, no statistics. -/
def cmpEnv : CEnv Empty := { noLeavesB with isConst := fun _ => false, alpEnc := fun _ _ _ => none, leafCmp := nofun }

theorem cmpEnv_leaf : LeafCompare cmpEnv noRows (fun _ => True) := ⟨fun _ h => (by cases h), fun _ l => l.elim⟩

theorem cmpEnv_noStats : NoStats cmpEnv := fun _ => rfl

def f64c (b : BitVec 64) : SV := .prim ⟨.f64, b⟩

/-- **C104 is false of the code.** A NaN equals itself in a dictionary but not in a plain array: the answer depends on the encoding. -/
theorem C104_nan_depends_on_encoding :
    ∃ (a d : Arr Empty) (b b' : Arr Empty), WF noLeaves noRows (fun _ => True) a ∧ WF noLeaves noRows (fun _ => True) d ∧
      rows noLeaves noRows a = [f64c 0x7FF8000000000000#64] ∧ rows noLeaves noRows d = rows noLeaves noRows a ∧
      a.compare cmpEnv .eq a = .ok b ∧ d.compare cmpEnv .eq d = .ok b' ∧
      rows noLeaves noRows b = [.bool false] ∧ rows noLeaves noRows b' = [.bool true] := by
  have hk : ∀ x ∈ [f64c 0x7FF8000000000000#64], (Kind.prim .f64).has x = true := by intro x hx; simp at hx; subst hx; rfl
  refine ⟨.flat (.prim .f64) [f64c 0x7FF8000000000000#64] .nonNullable,
    .dict (.flat (.prim .u8) [.prim ⟨.u8, 0#8⟩] .nonNullable) (.flat (.prim .f64) [f64c 0x7FF8000000000000#64] .nonNullable),
    .flat .bool [.bool false] .allValid, .flat .bool [.bool true] .allValid, ⟨hk, trivial⟩, ⟨⟨?_, trivial⟩, ⟨hk, trivial⟩, ⟨.u8, rfl, rfl⟩, ?_⟩,
    rfl, rfl, rfl, rfl, rfl, rfl⟩
  · intro x hx; simp at hx; subst hx; rfl
  · intro x hx
    have : x = .prim ⟨.u8, 0#8⟩ := by simpa [rows, masked, maskOf] using hx
    subst this
    exact ⟨0, by decide, by decide⟩

/-- **C104 is false of the code.** Two equal constants, one of a nullable type: they are said to differ. -/
theorem C104_constants_nullability : (Arr.const (.prim .i32 true) (i32 7) 2 : Arr Empty).compare cmpEnv .eq (.const (.prim .i32 false) (i32 7) 2) =
    .ok (.const (.bool true) (.bool false) 2) := rfl

/-- A number column cannot be compared with a null constant, on either side. -/
theorem C104_null_constant_fails (op : Op) : (Arr.flat (.prim .i32) [i32 1, i32 2] .allValid : Arr Empty).compare cmpEnv op (.const (.prim .i32 true) .null 2) = .err ∧
    (Arr.const (.prim .i32 true) .null 2 : Arr Empty).compare cmpEnv op (.flat (.prim .i32) [i32 1, i32 2] .allValid) = .err := by
  cases op <;> exact ⟨rfl, rfl⟩

/-- Two number columns whose validities are both arrays, one of them not a plain boolean array, cannot be compared. -/
theorem C104_encoded_validity_fails (op : Op) : (Arr.flat (.prim .i32) [i32 1, i32 2] (.array (.const (.bool false) (.bool true) 2)) : Arr Empty).compare cmpEnv op
    (.flat (.prim .i32) [i32 1, i32 2] (.array (.flat .bool [.bool true, .bool false] .nonNullable))) = .err := by
  cases op <;> rfl

/-- Comparing two empty constants stops the process. -/
theorem C104_empty_constants_panic (op : Op) (x y : SV) :
    (Arr.const (.prim .i32 false) x 0 : Arr Empty).compare cmpEnv op (.const (.prim .i32 false) y 0) = .panic := by
  cases op <;> rfl

/-- An ALP array against a value that has no code: always "false", though 0.0 < 1.0 (a decoding that sends every code to 0.0). -/
theorem C104_alp_constant :
    ∃ b, (Arr.mapped (.alp 0 0) (.flat (.prim .i64) [.prim ⟨.i64, 0#64⟩] .nonNullable) : Arr Empty).compare cmpEnv .lt
        (.const (.prim .f64 false) (f64c 0x3FF0000000000000#64) 1) = .ok b ∧
      rows noLeaves noRows (Arr.mapped (.alp 0 0) (.flat (.prim .i64) [.prim ⟨.i64, 0#64⟩] .nonNullable) : Arr Empty) = [f64c 0#64] ∧
      rows noLeaves noRows b = [.bool false] ∧ opRow .lt (f64c 0#64) (f64c 0x3FF0000000000000#64) = .bool true :=
  ⟨.flat .bool [.bool false] .allValid, rfl, rfl, rfl, rfl⟩

/-! ## Cases that meet the hypotheses -/

/-- 1, null | 3 in two chunks. -/
def cmpL : Arr Empty := .chunked (.prim .i32 true)
  [.flat (.prim .i32) [i32 1, i32 2] (.array (.flat .bool [.bool true, .bool false] .nonNullable)), .flat (.prim .i32) [i32 3] .allValid]

/-- 3, 1, 1 as a dictionary. -/
def cmpR : Arr Empty := .dict (.flat (.prim .u8) [.prim ⟨.u8, 0#8⟩, .prim ⟨.u8, 1#8⟩, .prim ⟨.u8, 1#8⟩] .nonNullable)
  (.flat (.prim .i32) [i32 3, i32 1] .nonNullable)

theorem cmpL_rows : rows cmpEnv.toEnv noRows cmpL = [i32 1, .null, i32 3] := rfl
theorem cmpR_rows : rows cmpEnv.toEnv noRows cmpR = [i32 3, i32 1, i32 1] := rfl

theorem cmpL_straight : Straight cmpEnv noRows .null cmpL := by
  refine ⟨⟨?_, rfl, rfl⟩, ⟨?_, rfl, rfl⟩, trivial⟩
  · simp [Nice, NiceV]
  · simp [Nice, NiceV]

theorem cmpR_nice : Nice cmpEnv.toEnv noRows cmpR := by
  refine ⟨trivial, trivial, rfl, ?_⟩
  intro h
  cases h

theorem cmpR_straight : Straight cmpEnv noRows .null cmpR := ⟨cmpR_nice, rfl, rfl⟩

theorem cmp_comparable (op : Op) : Comparable cmpEnv noRows (fun _ => True) op cmpL cmpR where
  left := by
    refine .array ⟨⟨⟨?_, ⟨⟨?_, trivial⟩, rfl, rfl, ?_⟩⟩, ⟨?_, trivial⟩, trivial⟩, ?_⟩ ⟨by simp, ⟨trivial, trivial, trivial⟩⟩
      ⟨.inr ?_, .inr ?_, trivial⟩
    · intro x hx; simp at hx; rcases hx with rfl | rfl <;> rfl
    · intro x hx; simp at hx; rcases hx with rfl | rfl <;> rfl
    · intro r hr
      have : r ∈ [SV.bool true, SV.bool false] := hr
      simp at this
      rcases this with rfl | rfl <;> exact ⟨_, rfl⟩
    · intro x hx; simp at hx; subst hx; rfl
    · intro d hd
      have hd : d ∈ [DType.prim .i32 true, DType.prim .i32 true] := hd
      simpa using hd
    · simp [Nice, NiceV]
    · simp [Nice, NiceV]
  right := by
    refine .array ⟨⟨?_, trivial⟩, ⟨?_, trivial⟩, ⟨.u8, rfl, rfl⟩, ?_⟩ ⟨trivial, trivial, fun _ => ?_⟩ (.inr cmpR_nice)
    · intro x hx; simp at hx; rcases hx with rfl | rfl <;> rfl
    · intro x hx; simp at hx; rcases hx with rfl | rfl <;> rfl
    · intro r hr
      have : r ∈ [SV.prim ⟨.u8, 0#8⟩, .prim ⟨.u8, 1#8⟩, .prim ⟨.u8, 1#8⟩] := hr
      simp at this
      rcases this with rfl | rfl
      · exact ⟨0, by decide, by decide⟩
      · exact ⟨1, by decide, by decide⟩
    · intro r hr
      have : r ∈ [i32 3, i32 1] := hr
      simp at this
      rcases this with rfl | rfl <;> exact .inr rfl
  ordinaryL := by rw [cmpL_rows]; intro x hx; simp at hx; rcases hx with rfl | rfl | rfl <;> rfl
  ordinaryR := by rw [cmpR_rows]; intro x hx; simp at hx; rcases hx with rfl | rfl <;> rfl
  fitsL := by intro _ _ _ _ _ h; cases h
  fitsR := by intro _ _ _ _ _ h; cases h
  alp := .inl ⟨⟨rfl, rfl, trivial⟩, rfl⟩
  nullability := .inr (.inr ⟨cmpEnv_noStats, .inl ⟨rfl, rfl, trivial⟩⟩)
  chunks := .inl ⟨rfl, rfl⟩

/-- Chunks of nullable numbers against a dictionary: true, null, false. -/
example : ∃ b, cmpL.compare cmpEnv .lt cmpR = .ok b ∧ rows cmpEnv.toEnv noRows b = [.bool true, .null, .bool false] := by
  obtain ⟨b, h1, _, h3⟩ := C104_compare_succeeds_partial noLeavesB_laws noLeavesB_ok cmpEnv_leaf cmpEnv_noStats nofun (cmp_comparable .lt)
    cmpL_straight cmpR_straight (by rw [cmpL_rows, cmpR_rows]; rfl) rfl
  refine ⟨b, h1, ?_⟩
  rw [h3, cmpL_rows, cmpR_rows]
  rfl

/-- And the other way round. -/
example : ∃ b, cmpR.compare cmpEnv .gt cmpL = .ok b ∧ rows cmpEnv.toEnv noRows b = [.bool true, .null, .bool false] := by
  obtain ⟨b, h1, _, h3⟩ := C104_compare_succeeds_partial noLeavesB_laws noLeavesB_ok cmpEnv_leaf cmpEnv_noStats nofun (cmp_comparable .lt).swap
    cmpR_straight cmpL_straight (by rw [cmpL_rows, cmpR_rows]; rfl) rfl
  refine ⟨b, h1, ?_⟩
  rw [h3, cmpL_rows, cmpR_rows]
  rfl

theorem cmp_const_comparable (op : Op) (k : Nat) : Comparable cmpEnv noRows (fun _ => True) op cmpL (.const (.prim .i32 false) (i32 2) k) where
  left := (cmp_comparable op).left
  right := .array rfl trivial (.inr (by simp [Nice, kindOf]))
  ordinaryL := (cmp_comparable op).ordinaryL
  ordinaryR := by
    intro x hx
    simp only [rows, List.mem_replicate] at hx
    rw [hx.2]; rfl
  fitsL := by intro _ _ _ _ _ h; cases h
  fitsR := by intro _ _ _ _ _ h; cases h
  alp := .inl ⟨⟨rfl, rfl, trivial⟩, rfl⟩
  nullability := .inr (.inr ⟨cmpEnv_noStats, .inl ⟨rfl, rfl, trivial⟩⟩)
  chunks := .inl ⟨rfl, rfl⟩

/-- 3, 3, 1 as runs. -/
def cmpE : Arr Empty := .runEnd [2, 3] (.flat (.prim .i32) [i32 3, i32 1] .nonNullable) .nonNullable 0 3

theorem cmpE_rows : rows cmpEnv.toEnv noRows cmpE = [i32 3, i32 3, i32 1] := rfl

theorem cmpE_nice : Nice cmpEnv.toEnv noRows cmpE := ⟨trivial, trivial, rfl, .i32, false, rfl⟩

theorem cmpE_comparable (op : Op) : Comparable cmpEnv noRows (fun _ => True) op cmpL cmpE where
  left := (cmp_comparable op).left
  right := by
    refine .array ⟨⟨?_, trivial⟩, trivial, rfl, by decide, rfl, .inl rfl, by decide, ?_⟩ ⟨trivial, trivial⟩ (.inr cmpE_nice)
    · intro x hx; simp at hx; rcases hx with rfl | rfl <;> rfl
    · intro r hr
      have : r ∈ [i32 3, i32 1] := hr
      simp at this
      rcases this with rfl | rfl <;> rfl
  ordinaryL := (cmp_comparable op).ordinaryL
  ordinaryR := by rw [cmpE_rows]; intro x hx; simp at hx; rcases hx with rfl | rfl <;> rfl
  fitsL := by intro _ _ _ _ _ h; cases h
  fitsR := by intro _ _ _ _ _ h; cases h
  alp := .inl ⟨⟨rfl, rfl, trivial⟩, rfl⟩
  nullability := .inr (.inr ⟨cmpEnv_noStats, .inl ⟨rfl, rfl, trivial⟩⟩)
  chunks := .inr ⟨⟨List.cons_ne_nil _ _, trivial, List.cons_ne_nil _ _, trivial, trivial⟩, trivial⟩

/-- **An empty last chunk cannot be compared with runs**: the runs are sliced at their very end, which is an error. -/
theorem C104_empty_chunk : (Arr.chunked (.prim .i32 false) [.flat (.prim .i32) [i32 1, i32 2, i32 3] .nonNullable, .flat (.prim .i32) [] .nonNullable] : Arr Empty).compare
    cmpEnv .lt cmpE = .err := by
  have h : (match (Arr.chunked (.prim .i32 false) [.flat (.prim .i32) [i32 1, i32 2, i32 3] .nonNullable, .flat (.prim .i32) [] .nonNullable] : Arr Empty).compare
      cmpEnv .lt cmpE with | .err => true | _ => false) = true := by decide +kernel
  revert h
  cases (Arr.chunked (.prim .i32 false) [.flat (.prim .i32) [i32 1, i32 2, i32 3] .nonNullable, .flat (.prim .i32) [] .nonNullable] : Arr Empty).compare
    cmpEnv .lt cmpE <;> simp

/-- Chunks of nullable numbers against runs: true, null, false. -/
example : ∃ b, cmpL.compare cmpEnv .lt cmpE = .ok b ∧ rows cmpEnv.toEnv noRows b = [.bool true, .null, .bool false] := by
  obtain ⟨b, h1, _, h3⟩ := C104_compare_succeeds_partial noLeavesB_laws noLeavesB_ok cmpEnv_leaf cmpEnv_noStats nofun (cmpE_comparable .lt)
    cmpL_straight ⟨cmpE_nice, rfl, rfl⟩ (by rw [cmpL_rows, cmpE_rows]; rfl) rfl
  refine ⟨b, h1, ?_⟩
  rw [h3, cmpL_rows, cmpE_rows]
  rfl

theorem cmpEnv_const : LeafConst cmpEnv := fun _ l => l.elim

/-- Chunks of nullable numbers against 2: true, null, false. -/
example : ∃ b, cmpL.compare cmpEnv .lt (.const (.prim .i32 false) (i32 2) 3) = .ok b ∧
    rows cmpEnv.toEnv noRows b = [.bool true, .null, .bool false] := by
  obtain ⟨⟨b, h1, _, h3⟩, _⟩ := C104_constant_succeeds_partial (op := .lt) (a := cmpL) noLeavesB_laws noLeavesB_ok cmpEnv_leaf cmpEnv_noStats cmpEnv_const nofun
    (by intro h; cases h) cmpL_straight (cmp_const_comparable .lt _) rfl
  refine ⟨b, h1, ?_⟩
  rw [h3, cmpL_rows]
  rfl

/-- A timestamp column against a constant of its type. -/
example : (Arr.ext timestampId (some [2, 0, 0]) (.flat (.prim .i64) [.prim ⟨.i64, 5#64⟩, .prim ⟨.i64, 9#64⟩] .nonNullable) : Arr Empty).compare cmpEnv .gte
    (.const (.ext timestampId (some [2, 0, 0]) false) (.prim ⟨.i64, 9#64⟩) 2) = .ok (.flat .bool [.bool false, .bool true] .allValid) := rfl

end Vx.Tree
