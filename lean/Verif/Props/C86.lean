import Verif.Model.StoredStats
import Verif.Props.C85
/-! # C86: statistics written with an array are the statistics read back -/
namespace Vx
open Vx.Spec Vx.Flex Vx.StoredStats

/-- The statistics of a column of type `d` have the shapes every producer in the code gives them: booleans, non-negative integers of any
integer type, lists of `u64`; minimum and maximum are null or values of the column's type (binary and `f16` left out, see C85). -/
structure ProperStats (d : DType) (m : SMap) : Prop where
  bools : ∀ s ∈ [Stat.isConstant, .isSorted, .isStrictSorted], ∀ v, m s = some v → ∃ n b, v = ⟨.bool n, .bool b⟩
  counts : ∀ s ∈ [Stat.runCount, .trueCount, .nullCount], ∀ v, m s = some v →
    ∃ p n, v = ⟨.prim p.pt n, .prim p⟩ ∧ p.pt.isFloat = false ∧ 0 ≤ p.toInt
  freqs : ∀ s ∈ [Stat.bitWidthFreq, .trailingZeroFreq], ∀ v, m s = some v →
    ∃ (n n' : Bool) (bs : List (BitVec 64)), v = ⟨.list (.prim .u64 n) n', .list (bs.map u64v)⟩
  bounds : ∀ s ∈ [Stat.min, .max], ∀ v, m s = some v → v.dtype = d ∧ (v.value = .null ∨ (HasType d v.value ∧ Storable d v.value))

namespace StoredStats

theorem toInt_lt (p : PValue) (h : p.pt.isFloat = false) : p.toInt < 2 ^ 64 := by
  obtain ⟨q, b⟩ := p
  have hb : q.bits ≤ 64 := by cases q <;> decide
  have hp : (2 : Nat) ^ q.bits ≤ 2 ^ 64 := Nat.pow_le_pow_right (by omega) hb
  have h1 : b.toNat < 2 ^ q.bits := b.isLt
  have h2 : b.toInt ≤ b.toNat := by
    rw [BitVec.toInt_eq_toNat_cond]; split <;> omega
  unfold PValue.toInt
  dsimp only
  split <;> omega

/-- A non-negative integer read as `u64`. -/
theorem readAs_u64 (F : FloatOps) (p : PValue) (h : p.pt.isFloat = false) (h0 : 0 ≤ p.toInt) :
    p.readAs F .u64 = some ⟨.u64, BitVec.ofInt 64 p.toInt⟩ := by
  have hl := toInt_lt p h
  have hr : PType.u64.inRange p.toInt = true := by
    have hl' : p.toInt < 18446744073709551616 := hl
    simp [PType.inRange, PType.isSigned, PType.bits, h0, hl']
  have e : p.readAs F .u64 = p.numCast F .u64 := by
    obtain ⟨q, b⟩ := p
    have : (⟨q, b⟩ : PValue).readAs F .u64 = if (⟨q, b⟩ : PValue).pt.isFloat = PType.u64.isFloat then (⟨q, b⟩ : PValue).numCast F .u64 else none := by
      cases q <;> rfl
    rw [this, if_pos (by rw [h]; rfl)]
  rw [e, PValue.numCast, h]
  simp only [PType.isFloat, intCast, hr, if_true, PType.bits]

theorem numCast_u64 (F : FloatOps) (p : PValue) (h : p.pt.isFloat = false) (h0 : 0 ≤ p.toInt) :
    p.numCast F .u64 = some ⟨.u64, BitVec.ofInt 64 p.toInt⟩ := by
  have hl := toInt_lt p h
  have hr : PType.u64.inRange p.toInt = true := by
    have hl' : p.toInt < 18446744073709551616 := hl
    simp [PType.inRange, PType.isSigned, PType.bits, h0, hl']
  rw [PValue.numCast, h]
  simp only [PType.isFloat, intCast, hr, if_true, PType.bits]

theorem u64_toInt (b : BitVec 64) : (⟨.u64, b⟩ : PValue).toInt = b.toNat := rfl

theorem ofInt_u64 (b : BitVec 64) : BitVec.ofInt 64 (⟨.u64, b⟩ : PValue).toInt = b := by
  rw [u64_toInt]; simp

/-- Reading an integer at its own type. -/
theorem readAs_self (F : FloatOps) (p : PValue) (h : p.pt.isFloat = false) : p.readAs F p.pt = some p := by
  rw [PValue.readAs_int F p p.pt h h, PValue.intCast_self]

theorem numCast_self (F : FloatOps) (p : PValue) (h : p.pt.isFloat = false) : p.numCast F p.pt = some p := by
  unfold PValue.numCast
  simp only [h]
  exact PValue.intCast_self p

theorem asU64_u64 (F : FloatOps) (b : BitVec 64) (n : Bool) : asU64 F ⟨.prim .u64 n, .prim ⟨.u64, b⟩⟩ = .ok b := by
  have := readAs_u64 F ⟨.u64, b⟩ rfl (by rw [u64_toInt]; omega)
  rw [ofInt_u64] at this
  have e : SV.readPrim F .u64 (.prim ⟨.u64, b⟩) = .ok (some ⟨.u64, b⟩) := by
    simp only [SV.readPrim, this]; rfl
  simp only [asU64, e]; rfl

theorem cast_same (F : FloatOps) (p : PValue) (n : Bool) (x : BitVec 64) (h1 : p.readAs F .u64 = some ⟨.u64, x⟩) :
    asU64 F ⟨.prim .u64 n, .prim p⟩ = .ok x := by
  have e : SV.readPrim F .u64 (.prim p) = .ok (some ⟨.u64, x⟩) := by
    simp only [SV.readPrim, h1]; rfl
  simp only [asU64, e]; rfl

theorem cast_other (F : FloatOps) (p : PValue) (n : Bool) (x : BitVec 64) (h : p.pt.isFloat = false)
    (h2 : p.numCast F .u64 = some ⟨.u64, x⟩) :
    SV.castFlat F (.prim p.pt n) (.prim p) (.prim .u64 false) = .ok (u64v x) := by
  simp only [SV.castFlat, SV.readPrim, readAs_self F p h]
  show SV.castPrim F .u64 (some p) = _
  simp only [SV.castPrim, h2]; rfl

theorem cast_u64 (F : FloatOps) (p : PValue) (n : Bool) (x : BitVec 64) (h : p.pt.isFloat = false)
    (h1 : p.readAs F .u64 = some ⟨.u64, x⟩) (h2 : p.numCast F .u64 = some ⟨.u64, x⟩) :
    ∃ v, SV.cast F (.prim p.pt n) (.prim p) (.prim .u64 false) = .ok v ∧ asU64 F ⟨.prim .u64 false, v⟩ = .ok x := by
  simp only [SV.cast, SV.isNull, Bool.false_and, Bool.false_eq_true, if_false]
  by_cases hq : (DType.prim p.pt n).eqIgnoreNullability (.prim .u64 false) = true
  · rw [if_pos hq]
    exact ⟨_, rfl, cast_same F p false x h1⟩
  · rw [if_neg hq]
    exact ⟨_, cast_other F p n x h h2, asU64_u64 F x false⟩

theorem getAsCast_read (F : FloatOps) (p : PValue) (n : Bool) (x : BitVec 64) (h : p.pt.isFloat = false)
    (h1 : p.readAs F .u64 = some ⟨.u64, x⟩) (h2 : p.numCast F .u64 = some ⟨.u64, x⟩) :
    getAsCast F (some ⟨.prim p.pt n, .prim p⟩) = .ok (some x) := by
  obtain ⟨v, e1, e2⟩ := cast_u64 F p n x h h1 h2
  simp only [getAsCast, SV.isNull, Bool.false_eq_true, if_false, Scalar.cast, e1, Res.bind, e2, orPanic]

theorem getAsCast_count (F : FloatOps) (p : PValue) (n : Bool) (h : p.pt.isFloat = false) (h0 : 0 ≤ p.toInt) :
    getAsCast F (some ⟨.prim p.pt n, .prim p⟩) = .ok (some (BitVec.ofInt 64 p.toInt)) :=
  getAsCast_read F p n _ h (readAs_u64 F p h h0) (numCast_u64 F p h h0)

theorem asUsize_count (F : FloatOps) (p : PValue) (d : DType) (h : p.pt.isFloat = false) (h0 : 0 ≤ p.toInt) :
    asUsize F ⟨d, .prim p⟩ = .ok (BitVec.ofInt 64 p.toInt) := by
  simp only [asUsize, readAs_u64 F p h h0]

theorem asVec_u64 (F : FloatOps) (bs : List (BitVec 64)) (n n' : Bool) :
    asVec (asU64 F) ⟨.list (.prim .u64 n) n', .list (bs.map u64v)⟩ = .ok bs := by
  simp only [asVec]
  induction bs with
  | nil => rfl
  | cons b bs ih =>
    have e : asU64 F ⟨.prim .u64 n, u64v b⟩ = .ok b := asU64_u64 F b n
    rw [List.map_cons, Res.mapM_cons, e, ih]
    rfl

theorem asUsize_u64 (F : FloatOps) (b : BitVec 64) (d : DType) : asUsize F ⟨d, u64v b⟩ = .ok b := by
  have := asUsize_count F ⟨.u64, b⟩ d rfl (by rw [u64_toInt]; omega)
  rw [ofInt_u64] at this
  exact this

theorem asVec_usize (F : FloatOps) (bs : List (BitVec 64)) (n n' : Bool) :
    asVec (asUsize F) ⟨.list (.prim .u64 n) n', .list (bs.map u64v)⟩ = .ok bs := by
  simp only [asVec]
  induction bs with
  | nil => rfl
  | cons b bs ih =>
    rw [List.map_cons, Res.mapM_cons, asUsize_u64, ih]
    rfl

end StoredStats

/-- What the two ways of asking for the statistics agree on: presence, booleans, counts and histograms through every accessor, and the
minimum and maximum read at the column's type. -/
structure SameStats (F : FloatOps) (d : DType) (m m' : SMap) : Prop where
  present : ∀ s, (m' s).isSome = (m s).isSome
  bools : ∀ s ∈ [Stat.isConstant, .isSorted, .isStrictSorted], ∃ x, getAs asBool (m s) = .ok x ∧ getAs asBool (m' s) = .ok x
  counts : ∀ s ∈ [Stat.runCount, .trueCount, .nullCount],
    (∃ x, getAsCast F (m s) = .ok x ∧ getAsCast F (m' s) = .ok x) ∧ ∃ x, getAs (asUsize F) (m s) = .ok x ∧ getAs (asUsize F) (m' s) = .ok x
  freqs : ∀ s ∈ [Stat.bitWidthFreq, .trailingZeroFreq],
    (∃ x, getAs (asVec (asUsize F)) (m s) = .ok x ∧ getAs (asVec (asUsize F)) (m' s) = .ok x) ∧
    ∃ x, getAs (asVec (asU64 F)) (m s) = .ok x ∧ getAs (asVec (asU64 F)) (m' s) = .ok x
  bounds : ∀ s ∈ [Stat.min, .max], ∀ v, m s = some v → ∃ v', m' s = some v' ∧ v'.dtype = d ∧ readAt F d v'.value = .ok v.value

namespace StoredStats

theorem getAs_bool {d : DType} {m : SMap} (hm : ProperStats d m) (s : Stat) (hs : s ∈ [Stat.isConstant, .isSorted, .isStrictSorted]) :
    ∃ x, getAs asBool (m s) = .ok x ∧ x.isSome = (m s).isSome := by
  cases h : m s with
  | none => exact ⟨none, rfl, rfl⟩
  | some v =>
    obtain ⟨n, b, rfl⟩ := hm.bools s hs v h
    exact ⟨some b, rfl, rfl⟩

theorem getAs_bool_back (x : Option Bool) : getAs asBool (x.map boolScalar) = .ok x := by cases x <;> rfl

theorem get_count {F : FloatOps} {d : DType} {m : SMap} (hm : ProperStats d m) (s : Stat) (hs : s ∈ [Stat.runCount, .trueCount, .nullCount]) :
    ∃ x, getAsCast F (m s) = .ok x ∧ getAs (asUsize F) (m s) = .ok x ∧ x.isSome = (m s).isSome := by
  cases h : m s with
  | none => exact ⟨none, rfl, rfl, rfl⟩
  | some v =>
    obtain ⟨p, n, rfl, h1, h2⟩ := hm.counts s hs v h
    exact ⟨_, getAsCast_count F p n h1 h2, by simp only [getAs, asUsize_count F p _ h1 h2, orPanic]; rfl, rfl⟩

theorem getAs_ok {conv : Scalar → Res β} {s : Scalar} {x : β} (h : conv s = .ok x) : getAs conv (some s) = .ok (some x) := by
  simp only [getAs, h]; rfl

theorem getAsCast_u64 (F : FloatOps) (b : BitVec 64) : getAsCast F (some (u64Scalar b)) = .ok (some b) :=
  getAsCast_read F ⟨.u64, b⟩ false b rfl (readAs_self F ⟨.u64, b⟩ rfl) (numCast_self F ⟨.u64, b⟩ rfl)

theorem getAs_usize_u64 (F : FloatOps) (b : BitVec 64) : getAs (asUsize F) (some (u64Scalar b)) = .ok (some b) := by
  have h2 : asUsize F (u64Scalar b) = .ok b := by rw [u64Scalar, asUsize_u64]
  exact getAs_ok h2

theorem get_count_back (F : FloatOps) (x : Option (BitVec 64)) :
    getAsCast F (x.map u64Scalar) = .ok x ∧ getAs (asUsize F) (x.map u64Scalar) = .ok x := by
  cases x with
  | none => exact ⟨rfl, rfl⟩
  | some b => exact ⟨getAsCast_u64 F b, getAs_usize_u64 F b⟩

theorem get_freq {F : FloatOps} {d : DType} {m : SMap} (hm : ProperStats d m) (s : Stat) (hs : s ∈ [Stat.bitWidthFreq, .trailingZeroFreq]) :
    ∃ x, getAs (asVec (asU64 F)) (m s) = .ok x ∧ getAs (asVec (asUsize F)) (m s) = .ok x ∧ x.isSome = (m s).isSome := by
  cases h : m s with
  | none => exact ⟨none, rfl, rfl, rfl⟩
  | some v =>
    obtain ⟨n, n', bs, rfl⟩ := hm.freqs s hs v h
    exact ⟨some bs, by simp only [getAs, asVec_u64, orPanic]; rfl, by simp only [getAs, asVec_usize, orPanic]; rfl, rfl⟩

theorem get_freq_back (F : FloatOps) (x : Option (List (BitVec 64))) :
    getAs (asVec (asU64 F)) (x.map u64List) = .ok x ∧ getAs (asVec (asUsize F)) (x.map u64List) = .ok x := by
  cases x with
  | none => exact ⟨rfl, rfl⟩
  | some bs => exact ⟨by simp only [Option.map_some, u64List, getAs, asVec_u64, orPanic]; rfl,
      by simp only [Option.map_some, u64List, getAs, asVec_usize, orPanic]; rfl⟩

end StoredStats

/-- **C86**: writing proper statistics succeeds, and the array read from the message answers every question about its statistics as the
array written did. -/
theorem C86_stored_partial {F : FloatOps} (hF : ExactFloats F) {W : List Val → Width} (hW : WideEnough F W) (d : DType) (m : SMap)
    (hm : ProperStats d m) : ∃ fb, write F W m = .ok fb ∧ SameStats F d m (viewGet d (some fb)) := by
  obtain ⟨tz, a1, a2, a3⟩ := get_freq (F := F) hm .trailingZeroFreq (by simp)
  obtain ⟨bw, b1, b2, b3⟩ := get_freq (F := F) hm .bitWidthFreq (by simp)
  obtain ⟨so, c1, c2⟩ := getAs_bool hm .isSorted (by simp)
  obtain ⟨ss, d1, d2⟩ := getAs_bool hm .isStrictSorted (by simp)
  obtain ⟨co, e1, e2⟩ := getAs_bool hm .isConstant (by simp)
  obtain ⟨rc, f1, f2, f3⟩ := get_count (F := F) hm .runCount (by simp)
  obtain ⟨tc, g1, g2, g3⟩ := get_count (F := F) hm .trueCount (by simp)
  obtain ⟨nc, i1, i2, i3⟩ := get_count (F := F) hm .nullCount (by simp)
  refine ⟨_, by simp only [write, a1, b1, c1, d1, e1, f1, g1, i1, Res.ok_bind]; rfl, ?_⟩
  have key : ∀ v : Scalar, v.dtype = d ∧ (v.value = .null ∨ (HasType d v.value ∧ Storable d v.value)) →
      readAt F d (storeRoot F W v.value) = .ok v.value := by
    rintro v ⟨_, hv | ⟨h1, h2⟩⟩
    · rw [hv]; rfl
    · exact C85_root_partial hF hW d v.value h1 h2
  constructor
  · intro s
    cases s <;> simp [viewGet, a3, b3, c2, d2, e2, f3, g3, i3]
  · intro s hs
    simp only [List.mem_cons, List.not_mem_nil, or_false] at hs
    rcases hs with rfl | rfl | rfl
    · exact ⟨co, e1, getAs_bool_back co⟩
    · exact ⟨so, c1, getAs_bool_back so⟩
    · exact ⟨ss, d1, getAs_bool_back ss⟩
  · intro s hs
    simp only [List.mem_cons, List.not_mem_nil, or_false] at hs
    rcases hs with rfl | rfl | rfl
    · exact ⟨⟨rc, f1, (get_count_back F rc).1⟩, rc, f2, (get_count_back F rc).2⟩
    · exact ⟨⟨tc, g1, (get_count_back F tc).1⟩, tc, g2, (get_count_back F tc).2⟩
    · exact ⟨⟨nc, i1, (get_count_back F nc).1⟩, nc, i2, (get_count_back F nc).2⟩
  · intro s hs
    simp only [List.mem_cons, List.not_mem_nil, or_false] at hs
    rcases hs with rfl | rfl
    · exact ⟨⟨bw, b2, (get_freq_back F bw).2⟩, bw, b1, (get_freq_back F bw).1⟩
    · exact ⟨⟨tz, a2, (get_freq_back F tz).2⟩, tz, a1, (get_freq_back F tz).1⟩
  · intro s hs v hv
    have hb := hm.bounds s hs v hv
    simp only [List.mem_cons, List.not_mem_nil, or_false] at hs
    rcases hs with rfl | rfl
    · exact ⟨⟨d, storeRoot F W v.value⟩, by simp [viewGet, hv], rfl, key v hb⟩
    · exact ⟨⟨d, storeRoot F W v.value⟩, by simp [viewGet, hv], rfl, key v hb⟩

theorem StoredStats.foldl_set (g : Stat → Option Scalar) (l : List Stat) (m : SMap) (s : Stat) :
    l.foldl (fun m t => match g t with
      | some v => m.set t v
      | none => m) m s = if s ∈ l then (g s).or (m s) else m s := by
  induction l generalizing m with
  | nil => simp
  | cons t l ih =>
    rw [List.foldl_cons, ih]
    cases h : g t with
    | none =>
      by_cases hs : s = t
      · subst hs; simp [h]
      · simp [hs]
    | some v =>
      by_cases hs : s = t
      · subst hs; simp [h, SMap.set]
      · simp [hs, SMap.set]

/-- The set a view gives out holds exactly what `get` answers. -/
theorem C86_to_set (d : DType) (fb : Option FbStats) (s : Stat) : viewToSet d fb s = viewGet d fb s := by
  have := StoredStats.foldl_set (viewGet d fb) allStats (fun _ => none) s
  rw [if_pos (by cases s <;> decide), Option.or_none] at this
  exact this

/-- A view answers from the message when it can, and otherwise what its encoding computes; nothing is remembered. -/
theorem C86_compute (d : DType) (fb : Option FbStats) (cs : Stat → Res SMap) (s : Stat) :
    (∀ v, viewGet d fb s = some v → viewCompute d fb cs s = .ok (some v)) ∧
    (viewGet d fb s = none → ∀ m, cs s = .ok m → viewCompute d fb cs s = .ok (m s)) ∧
    (viewGet d fb s = none → cs s = .err → viewCompute d fb cs s = .ok none) := by
  refine ⟨?_, ?_, ?_⟩
  · intro v h; simp [viewCompute, h]
  · intro h m hm; simp [viewCompute, h, hm]
  · intro h hm; simp [viewCompute, h, hm]

/-- Counts held as nulls are written as if they were not there. -/
theorem C86_null_counts (F : FloatOps) (W : List Val → Width) (m : SMap) (nulls : List Stat) (hn : ∀ s ∈ nulls, s ∈ [Stat.runCount, .trueCount, .nullCount])
    (d : DType) : write F W (fun s => if s ∈ nulls then some ⟨d, .null⟩ else m s) = write F W (fun s => if s ∈ nulls then none else m s) := by
  have key : ∀ s, getAsCast F (if s ∈ nulls then some ⟨d, .null⟩ else m s) = getAsCast F (if s ∈ nulls then none else m s) := by
    intro s
    split <;> rfl
  have no : ∀ s, s ∉ [Stat.runCount, .trueCount, .nullCount] → s ∉ nulls := fun s h h' => h (hn s h')
  simp only [write, key, no .min (by decide), no .max (by decide), no .isSorted (by decide), no .isStrictSorted (by decide), no .isConstant (by decide),
    no .bitWidthFreq (by decide), no .trailingZeroFreq (by decide), if_false]

/-- The minimum of a binary column read from a message is a scalar of binary type that cannot be read as bytes: asking for it as one is a panic. -/
theorem C86_binary_minimum_panics (F : FloatOps) (W : List Val → Width) (bs : List UInt8) (n : Bool) :
    ∃ fb, write F W (fun s => if s = .min then some ⟨.binary n, .buffer bs⟩ else none) = .ok fb ∧
      ∃ v, viewGet (.binary n) (some fb) .min = some v ∧ getAs (fun s => readAt F s.dtype s.value) (some v) = .panic := by
  refine ⟨_, by simp [write, getAs, getAsCast]; rfl, ⟨.binary n, storeRoot F W (.buffer bs)⟩, rfl, ?_⟩
  have := C85_binary_unreadable F W ((ofSV F (.buffer bs)).width F) bs n
  simp only [getAs]
  show (orPanic (readAt F (.binary n) (storeField F W _ _))).bind _ = _
  rw [this]
  rfl

/-! ### non-vacuity -/

/-- The statistics of the column `[Some(-5), None, Some(200)]` of `i16`, the run count as an `i32`. -/
def exSMap : SMap
  | .min => some ⟨.prim .i16 true, .prim ⟨.i16, -5⟩⟩
  | .max => some ⟨.prim .i16 true, .prim ⟨.i16, 200⟩⟩
  | .isSorted => some ⟨.bool false, .bool true⟩
  | .runCount => some ⟨.prim .i32 false, .prim ⟨.i32, 2⟩⟩
  | .nullCount => some ⟨.prim .u64 false, .prim ⟨.u64, 1⟩⟩
  | .bitWidthFreq => some (u64List [1, 0, 0, 0, 0, 0, 0, 0, 1, 0, 0, 0, 0, 0, 0, 0, 1])
  | _ => none

example : ProperStats (.prim .i16 true) exSMap := by
  refine ⟨?_, ?_, ?_, ?_⟩
  · intro s hs v hv
    simp only [List.mem_cons, List.not_mem_nil, or_false] at hs
    rcases hs with rfl | rfl | rfl <;> simp [exSMap] at hv
    exact ⟨_, _, hv.symm⟩
  · intro s hs v hv
    simp only [List.mem_cons, List.not_mem_nil, or_false] at hs
    rcases hs with rfl | rfl | rfl <;> simp [exSMap] at hv
    · exact ⟨⟨.i32, 2⟩, false, hv.symm, rfl, by decide⟩
    · exact ⟨⟨.u64, 1⟩, false, hv.symm, rfl, by decide⟩
  · intro s hs v hv
    simp only [List.mem_cons, List.not_mem_nil, or_false] at hs
    rcases hs with rfl | rfl <;> simp [exSMap] at hv
    exact ⟨false, false, _, hv.symm⟩
  · intro s hs v hv
    simp only [List.mem_cons, List.not_mem_nil, or_false] at hs
    rcases hs with rfl | rfl <;> simp [exSMap] at hv <;> subst hv <;>
      refine ⟨rfl, .inr ⟨by simp [HasType], by simp [Storable], by simp, fun x hx => (nomatch congrArg PValue.pt hx)⟩⟩

end Vx
