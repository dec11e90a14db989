import Verif.Lemmas.Scalar
/-!
# C29: scalar casts and ordering

The full claim also says that casting never fails on a nullable target; the code panics when a null scalar is cast to a *different*
nullable primitive or list type (`C29_null_cast_panics`). Everything else of the claim is proved.
-/
namespace Vx
open Vx.Spec

/-! ## Casts -/

/-- Integer to integer: the cast succeeds exactly when the target represents the number, and then the number is unchanged. -/
theorem C29_int_cast (F : FloatOps) (p q : PType) (b : BitVec p.bits) (n m : Bool) (hp : p.isFloat = false) (hq : q.isFloat = false) :
    (q.inRange (⟨p, b⟩ : PValue).toInt = true → ∃ w : PValue, w.pt = q ∧ w.toInt = (⟨p, b⟩ : PValue).toInt ∧
      SV.cast F (.prim p n) (.prim ⟨p, b⟩) (.prim q m) = .ok (.prim w)) ∧
    (q.inRange (⟨p, b⟩ : PValue).toInt = false → SV.cast F (.prim p n) (.prim ⟨p, b⟩) (.prim q m) = .err) := by
  by_cases hpq : p = q
  · subst hpq
    have hr := PValue.inRange_toInt ⟨p, b⟩
    simp only at hr
    have hc : SV.cast F (.prim p n) (.prim ⟨p, b⟩) (.prim p m) = .ok (.prim ⟨p, b⟩) := by
      simp [SV.cast, SV.isNull, DType.eqIgnoreNullability, DType.withNullability, DType.beq]
    exact ⟨fun _ => ⟨⟨p, b⟩, rfl, rfl, hc⟩, fun h => by rw [hr] at h; simp at h⟩
  · have hstep : SV.cast F (.prim p n) (.prim ⟨p, b⟩) (.prim q m) =
        (Res.ofOption (intCast q (⟨p, b⟩ : PValue).toInt)).bind (fun x => .ok (.prim x)) := by
      have hne : ((DType.prim p n).eqIgnoreNullability (.prim q m)) = false := by
        simp [DType.eqIgnoreNullability, DType.withNullability, DType.beq, hpq]
      simp only [SV.cast, SV.isNull, Bool.false_and, Bool.false_eq_true, if_false, hne, SV.castFlat, SV.readPrim]
      rw [PValue.readAs_int F ⟨p, b⟩ p hp hp]
      have := PValue.intCast_self ⟨p, b⟩
      simp only at this
      rw [this]
      simp [Res.bind, SV.castPrim, PValue.numCast, hp, hq]
    constructor
    · intro hr
      cases hc : intCast q (⟨p, b⟩ : PValue).toInt with
      | none => rw [PValue.intCast_none, hr] at hc; simp at hc
      | some w =>
        obtain ⟨h1, h2⟩ := PValue.intCast_some hc
        exact ⟨w, h1, h2, by rw [hstep, hc]; rfl⟩
    · intro hr
      rw [hstep, PValue.intCast_none.mpr hr]; rfl

/-- A cast never changes the number: if an integer cast succeeds, the result is the same number at the target type. -/
theorem C29_int_cast_value (F : FloatOps) (p q : PType) (b : BitVec p.bits) (n m : Bool) (hp : p.isFloat = false)
    (hq : q.isFloat = false) (v : SV) (h : SV.cast F (.prim p n) (.prim ⟨p, b⟩) (.prim q m) = .ok v) :
    ∃ w : PValue, v = .prim w ∧ w.pt = q ∧ w.toInt = (⟨p, b⟩ : PValue).toInt := by
  obtain ⟨h1, h2⟩ := C29_int_cast F p q b n m hp hq
  cases hr : q.inRange (⟨p, b⟩ : PValue).toInt with
  | false => rw [h2 hr] at h; simp at h
  | true =>
    obtain ⟨w, hw, hv, hc⟩ := h1 hr
    rw [hc] at h
    simp only [Res.ok.injEq] at h
    exact ⟨w, h.symm, hw, hv⟩

/-- Casting there and back gives the original scalar value. -/
theorem C29_int_cast_round_trip (F : FloatOps) (p q : PType) (b : BitVec p.bits) (n m : Bool) (hp : p.isFloat = false)
    (hq : q.isFloat = false) (v : SV) (h : SV.cast F (.prim p n) (.prim ⟨p, b⟩) (.prim q m) = .ok v) :
    SV.cast F (.prim q m) v (.prim p n) = .ok (.prim ⟨p, b⟩) := by
  obtain ⟨⟨wp, wb⟩, rfl, hw, hv⟩ := C29_int_cast_value F p q b n m hp hq v h
  simp only at hw
  subst hw
  have hr := PValue.inRange_toInt ⟨p, b⟩
  rw [← hv] at hr
  obtain ⟨u, hu, huv, hc⟩ := (C29_int_cast F wp p wb m n hq hp).1 hr
  rw [hc, PValue.ext_toInt (p := u) (q := ⟨p, b⟩) hu (huv.trans hv)]

/-- The result of a successful cast carries the requested type, and casting to the same type up to nullability keeps the value. -/
theorem C29_cast_dtype (F : FloatOps) (s t : Scalar) (d : DType) (h : s.cast F d = .ok t) : t.dtype = d := by
  unfold Scalar.cast at h
  cases hc : SV.cast F s.dtype s.value d with
  | ok v => rw [hc] at h; simp only [Res.bind, Res.ok.injEq] at h; rw [← h]
  | err => rw [hc] at h; simp [Res.bind] at h
  | panic => rw [hc] at h; simp [Res.bind] at h

theorem C29_cast_same_type (F : FloatOps) (s : Scalar) (d : DType) (heq : s.dtype.withNullability true = d.withNullability true)
    (hn : s.value.isNull = true → d.isNullable = true) : s.cast F d = .ok ⟨d, s.value⟩ := by
  have he : s.dtype.eqIgnoreNullability d = true := by
    simp only [DType.eqIgnoreNullability]; exact (DType.beq_eq _ _).mpr heq
  have hnn : (s.value.isNull && !d.isNullable) = false := by
    cases h1 : s.value.isNull with
    | false => rfl
    | true => simp [hn h1]
  unfold Scalar.cast
  unfold SV.cast
  rw [hnn, if_neg (by simp), he, if_pos rfl]
  rfl

/-- A null casts only to nullable types. -/
theorem C29_null_cast (F : FloatOps) (src dst : DType) (v : SV) (h : SV.cast F src .null dst = .ok v) : dst.isNullable = true := by
  cases hd : dst.isNullable with
  | true => rfl
  | false => simp [SV.cast, SV.isNull, hd] at h

/-- …and stays null: no cast turns a null into a value. -/
theorem C29_null_stays_null (F : FloatOps) (src dst : DType) (v : SV) (h : SV.cast F src .null dst = .ok v) : v = .null := by
  simp only [SV.cast] at h
  split at h
  · simp at h
  split at h
  · simpa using h.symm
  cases dst <;> cases src <;> simp [SV.castFlat, SV.readPrim, SV.castPrim, Res.bind] at h
  split at h
  · simpa using h.symm
  · simp at h

theorem isNull_iff (v : SV) : v.isNull = true ↔ v = .null := by cases v <;> simp [SV.isNull]

/-- No cast produces a null out of a value. -/
theorem C29_value_stays_value (F : FloatOps) (src dst : DType) (v : SV) (hv : v ≠ .null) (w : SV)
    (h : SV.cast F src v dst = .ok w) : w ≠ .null := by
  have hn : v.isNull = false := by cases hh : v.isNull with
    | false => rfl
    | true => exact absurd ((isNull_iff v).mp hh) hv
  unfold SV.cast at h
  simp only [hn, Bool.false_and, Bool.false_eq_true, if_false] at h
  split at h
  · simp only [Res.ok.injEq] at h; exact h ▸ hv
  cases v with
  | null => exact absurd rfl hv
  | list vs =>
    simp only at h
    cases dst <;> cases src <;> simp at h
    split at h
    · generalize SV.castFields F _ _ vs = r at h
      cases r with
      | ok ws => simp only [Res.bind, Res.ok.injEq] at h; rw [← h]; simp
      | err => simp [Res.bind] at h
      | panic => simp [Res.bind] at h
    · simp at h
  | prim p =>
    cases dst <;> cases src <;> simp [SV.castFlat, SV.readPrim] at h
    generalize p.readAs F _ = r at h
    cases r with
    | none => simp [Res.bind] at h
    | some x =>
      simp only [Res.ofOption_some, Res.bind, SV.castPrim] at h
      generalize x.numCast F _ = r2 at h
      cases r2 with
      | none => simp at h
      | some y => simp at h; rw [← h]; simp
  | bool b => cases dst <;> cases src <;> simp [SV.castFlat, SV.readPrim, Res.bind] at h <;> rw [← h] <;> simp
  | buffer b => cases dst <;> cases src <;> simp [SV.castFlat, SV.readPrim, Res.bind] at h
  | str b => cases dst <;> cases src <;> simp [SV.castFlat, SV.readPrim, Res.bind] at h

theorem castFields_ok (F : FloatOps) : ∀ (vs : List SV) (es ds : List DType) (ws : List SV), SV.castFields F es ds vs = .ok ws →
    ws.length = vs.length ∧ ∀ (i : Nat) (v : SV), vs[i]? = some v →
      ∃ e d w, es[i]? = some e ∧ ds[i]? = some d ∧ ws[i]? = some w ∧ SV.cast F e v d = .ok w
  | [], es, ds, ws, h => by
    simp only [SV.castFields, Res.ok.injEq] at h
    subst h
    exact ⟨rfl, by intro i v hv; simp at hv⟩
  | v :: vs, es, ds, ws, h => by
    cases es with
    | nil => simp [SV.castFields] at h
    | cons e es =>
      cases ds with
      | nil => simp [SV.castFields] at h
      | cons d ds =>
        simp only [SV.castFields] at h
        obtain ⟨w, hw, h⟩ := Res.bind_eq_ok.mp h
        obtain ⟨ws', hws, h⟩ := Res.bind_eq_ok.mp h
        simp only [Res.ok.injEq] at h
        subst h
        obtain ⟨hl, hi⟩ := castFields_ok F vs es ds ws' hws
        refine ⟨by simp [hl], ?_⟩
        intro i u hu
        cases i with
        | zero => simp only [List.getElem?_cons_zero, Option.some.injEq] at hu; subst hu; exact ⟨e, d, w, rfl, rfl, rfl, hw⟩
        | succ i => exact hi i u (by simpa using hu)

/-- A struct is cast field by field: as many fields as before, each the cast of the field at the same position to the target's type. -/
theorem C29_struct_cast (F : FloatOps) (ns ms : List Str) (es ds : List DType) (n m : Bool) (vs : List SV) (w : SV)
    (h : SV.cast F (.struct ns es n) (.list vs) (.struct ms ds m) = .ok w) :
    w = .list vs ∧ (DType.struct ns es n).eqIgnoreNullability (.struct ms ds m) = true ∨
    ∃ ws, w = .list ws ∧ ds.length = es.length ∧ ws.length = vs.length ∧ ∀ (i : Nat) (v : SV), vs[i]? = some v →
      ∃ e d w, es[i]? = some e ∧ ds[i]? = some d ∧ ws[i]? = some w ∧ SV.cast F e v d = .ok w := by
  unfold SV.cast at h
  simp only [SV.isNull, Bool.false_and, Bool.false_eq_true, if_false] at h
  split at h
  · rename_i heq
    exact .inl ⟨by simpa using h.symm, heq⟩
  · split at h
    · simp at h
    · rename_i hlen
      obtain ⟨ws, hws, h⟩ := Res.bind_eq_ok.mp h
      have := castFields_ok F vs es ds ws hws
      refine .inr ⟨ws, by simpa using h.symm, by simpa using hlen, this.1, this.2⟩

/-- The defect: a null of one nullable primitive type cast to another one panics ("Invalid value") instead of giving a null. -/
theorem C29_null_cast_panics (F : FloatOps) (p q : PType) (h : p ≠ q) : SV.cast F (.prim p true) .null (.prim q true) = .panic := by
  simp [SV.cast, SV.isNull, DType.isNullable, DType.eqIgnoreNullability, DType.withNullability, DType.beq, h, SV.castFlat, SV.readPrim,
    SV.castPrim, Res.bind]

/-- `reinterpret_cast` between types of one width keeps the bits, and undoing it gives the original. -/
theorem C29_reinterpret (p : PValue) (q : PType) (h : p.pt.bits = q.bits) :
    ∃ w, p.reinterpret q = .ok w ∧ w.pt = q ∧ w.bits.toNat = p.bits.toNat ∧ w.reinterpret p.pt = .ok p := by
  obtain ⟨pt, b⟩ := p
  by_cases hq : q = pt
  · subst hq
    exact ⟨⟨q, b⟩, by simp [PValue.reinterpret], rfl, rfl, by simp [PValue.reinterpret]⟩
  · have hq' : pt ≠ q := fun hh => hq hh.symm
    simp only at h
    have key : ∀ (k : Nat) (hk : pt.bits = k) , (hk ▸ b : BitVec k).toNat = b.toNat := by intro k hk; subst hk; rfl
    refine ⟨⟨q, h ▸ b⟩, by simp [PValue.reinterpret, hq, h], rfl, key _ h, ?_⟩
    simp only [PValue.reinterpret, hq', if_false, h, dite_true]
    congr 2
    apply BitVec.eq_of_toNat_eq
    have key2 : ∀ (k : Nat) (x : BitVec q.bits) (hk : q.bits = k), (hk ▸ x : BitVec k).toNat = x.toNat := by
      intro k x hk; subst hk; rfl
    rw [key2, key _ h]

/-! ## Order -/

/-- Comparison of integer scalars is comparison of numbers. -/
theorem C29_order_ints (p : PType) (a b : BitVec p.bits) (h : p.isFloat = false) :
    (⟨p, a⟩ : PValue).partialCmp ⟨p, b⟩ = some (compare (⟨p, a⟩ : PValue).toInt (⟨p, b⟩ : PValue).toInt) := by
  simp [PValue.partialCmp, PValue.key, h]

/-- The flip of `total_cmp` is injective: only identical bit patterns compare equal. -/
theorem totalKey_inj {w : Nat} {x y : BitVec w} (h : PValue.totalKey x = PValue.totalKey y) : x = y := by
  unfold PValue.totalKey at h
  have h' := BitVec.toInt_inj.mp h
  have hmask : ∀ x : BitVec w, (x ^^^ (if x.msb then (BitVec.allOnes w) >>> 1 else 0#w)).msb = x.msb := by
    intro x
    rw [BitVec.msb_xor]
    cases x.msb with
    | false => simp
    | true =>
      have : ((BitVec.allOnes w) >>> 1).msb = false := by
        simp
      simp [this]
  have hm : x.msb = y.msb := by rw [← hmask x, ← hmask y, h']
  rw [hm] at h'
  have h2 := congrArg (fun z => z ^^^ (if y.msb then (BitVec.allOnes w) >>> 1 else 0#w)) h'
  simpa only [BitVec.xor_assoc, BitVec.xor_self, BitVec.xor_zero] using h2

theorem key_inj {p : PType} {a b : BitVec p.bits} (h : (⟨p, a⟩ : PValue).key = (⟨p, b⟩ : PValue).key) : a = b := by
  unfold PValue.key at h
  simp only at h
  split at h
  · exact totalKey_inj h
  · have := PValue.ext_toInt (p := ⟨p, a⟩) (q := ⟨p, b⟩) rfl h
    simpa using this

theorem compare_swap (a b : Int) : compare b a = (compare a b).swap := by
  simp only [compare, compareOfLessAndEq]
  split <;> split <;> (try split) <;> (try split) <;> first | rfl | omega

theorem compare_swap_nat (a b : Nat) : compare b a = (compare a b).swap := by
  simp only [compare, compareOfLessAndEq]
  split <;> split <;> (try split) <;> (try split) <;> first | rfl | omega

theorem compare_eq_int {a b : Int} : compare a b = .eq ↔ a = b := by
  simp only [compare, compareOfLessAndEq]
  split
  · simp; omega
  · split <;> simp_all

theorem compare_eq_nat {a b : Nat} : compare a b = .eq ↔ a = b := by
  simp only [compare, compareOfLessAndEq]
  split
  · simp; omega
  · split <;> simp_all

theorem compare_lt_int {a b : Int} : compare a b = .lt ↔ a < b := by
  simp only [compare, compareOfLessAndEq]
  split
  · simp; omega
  · split <;> simp_all

theorem compare_lt_nat {a b : Nat} : compare a b = .lt ↔ a < b := by
  simp only [compare, compareOfLessAndEq]
  split
  · simp; omega
  · split <;> simp_all

theorem cmpBytes_swap : ∀ a b : List UInt8, SV.cmpBytes b a = (SV.cmpBytes a b).swap
  | [], [] => rfl
  | [], _ :: _ => rfl
  | _ :: _, [] => rfl
  | a :: as, b :: bs => by
    simp only [SV.cmpBytes, compare_swap_nat a.toNat b.toNat]
    cases h : compare a.toNat b.toNat <;> simp [Ordering.swap, cmpBytes_swap as bs]

theorem cmpBytes_eq : ∀ a b : List UInt8, SV.cmpBytes a b = .eq ↔ a = b
  | [], [] => by simp [SV.cmpBytes]
  | [], _ :: _ => by simp [SV.cmpBytes]
  | _ :: _, [] => by simp [SV.cmpBytes]
  | a :: as, b :: bs => by
    simp only [SV.cmpBytes, List.cons.injEq]
    cases h : compare a.toNat b.toNat with
    | lt => simp; intro hab; rw [compare_lt_nat] at h; subst hab; omega
    | gt => simp; intro hab; subst hab; rw [compare_eq_nat.mpr rfl] at h; simp at h
    | eq =>
      have : a = b := UInt8.toNat_inj.mp (compare_eq_nat.mp h)
      simp [this, cmpBytes_eq as bs]

theorem cmpBytes_trans : ∀ a b c : List UInt8, SV.cmpBytes a b = .lt → SV.cmpBytes b c = .lt → SV.cmpBytes a c = .lt
  | [], b, [] => by cases b <;> simp [SV.cmpBytes]
  | [], b, _ :: _ => by simp [SV.cmpBytes]
  | a :: as, [], c => by simp [SV.cmpBytes]
  | a :: as, b :: bs, [] => by simp [SV.cmpBytes]
  | a :: as, b :: bs, c :: cs => by
    simp only [SV.cmpBytes]
    cases h1 : compare a.toNat b.toNat with
    | gt => simp
    | lt =>
      intro _
      rw [compare_lt_nat] at h1
      cases h2 : compare b.toNat c.toNat with
      | gt => simp
      | lt =>
        rw [compare_lt_nat] at h2
        intro _
        rw [compare_lt_nat.mpr (by omega)]
      | eq =>
        rw [compare_eq_nat] at h2
        intro _
        rw [compare_lt_nat.mpr (by omega)]
    | eq =>
      rw [compare_eq_nat] at h1
      simp only
      intro hab
      rw [h1]
      cases h2 : compare b.toNat c.toNat with
      | gt => simp
      | lt => simp
      | eq => exact fun hbc => cmpBytes_trans as bs cs hab hbc

theorem partialCmp_swap (p q : PValue) : q.partialCmp p = (p.partialCmp q).map Ordering.swap := by
  unfold PValue.partialCmp
  by_cases h : p.pt = q.pt
  · rw [if_pos h, if_pos h.symm, compare_swap p.key q.key]; rfl
  · rw [if_neg h, if_neg (fun hh => h hh.symm)]; rfl

theorem partialCmp_eq (p q : PValue) : p.partialCmp q = some .eq ↔ p = q := by
  obtain ⟨p, a⟩ := p
  obtain ⟨q, b⟩ := q
  unfold PValue.partialCmp
  constructor
  · intro h
    split at h
    · rename_i hpq
      simp only at hpq
      subst hpq
      simp only [Option.some.injEq, compare_eq_int] at h
      rw [key_inj h]
    · simp at h
  · intro h; rw [h]; simp [compare_eq_int]

theorem partialCmp_trans (p q r : PValue) (h1 : p.partialCmp q = some .lt) (h2 : q.partialCmp r = some .lt) :
    p.partialCmp r = some .lt := by
  unfold PValue.partialCmp at *
  split at h1
  · split at h2
    · rename_i hpq hqr
      simp only [Option.some.injEq, compare_lt_int] at h1 h2
      rw [if_pos (hpq.trans hqr)]
      simp only [Option.some.injEq, compare_lt_int]; omega
    · simp at h2
  · simp at h1

theorem cmp_tag {a b : SV} (h : a.tag ≠ b.tag) : SV.cmp a b = some (compare a.tag b.tag) := by
  cases a <;> cases b <;> simp [SV.tag] at h <;> simp [SV.cmp, SV.tag]

mutual
/-- Antisymmetry: exchanging the operands reverses the result. -/
theorem cmp_swap : ∀ a b : SV, SV.cmp b a = (SV.cmp a b).map Ordering.swap
  | .bool a, .bool b => by simp [SV.cmp, compare_swap_nat a.toNat b.toNat]
  | .prim p, .prim q => by simp [SV.cmp, partialCmp_swap p q]
  | .buffer a, .buffer b => by simp [SV.cmp, cmpBytes_swap a b]
  | .str a, .str b => by simp [SV.cmp, cmpBytes_swap a b]
  | .list a, .list b => by simp [SV.cmp, cmps_swap a b]
  | .null, .null => rfl
  | .bool _, .prim _ | .bool _, .buffer _ | .bool _, .str _ | .bool _, .list _ | .bool _, .null
  | .prim _, .bool _ | .prim _, .buffer _ | .prim _, .str _ | .prim _, .list _ | .prim _, .null
  | .buffer _, .bool _ | .buffer _, .prim _ | .buffer _, .str _ | .buffer _, .list _ | .buffer _, .null
  | .str _, .bool _ | .str _, .prim _ | .str _, .buffer _ | .str _, .list _ | .str _, .null
  | .list _, .bool _ | .list _, .prim _ | .list _, .buffer _ | .list _, .str _ | .list _, .null
  | .null, .bool _ | .null, .prim _ | .null, .buffer _ | .null, .str _ | .null, .list _ => rfl
theorem cmps_swap : ∀ a b : List SV, SV.cmps b a = (SV.cmps a b).map Ordering.swap
  | [], [] => rfl
  | [], _ :: _ => rfl
  | _ :: _, [] => rfl
  | a :: as, b :: bs => by
    have h1 := cmp_swap a b
    have h2 := cmps_swap as bs
    simp only [SV.cmps, h1]
    cases hc : SV.cmp a b with
    | none => simp
    | some o => cases o <;> simp [Ordering.swap, h2]
end

mutual
/-- Only equal values compare equal. -/
theorem cmp_eq : ∀ a b : SV, SV.cmp a b = some .eq ↔ a = b
  | .bool a, .bool b => by cases a <;> cases b <;> simp [SV.cmp] <;> decide
  | .prim p, .prim q => by simp [SV.cmp, partialCmp_eq p q]
  | .buffer a, .buffer b => by simp [SV.cmp, cmpBytes_eq a b]
  | .str a, .str b => by simp [SV.cmp, cmpBytes_eq a b]
  | .list a, .list b => by simp [SV.cmp, cmps_eq a b]
  | .null, .null => by simp [SV.cmp]
  | .bool _, .prim _ | .bool _, .buffer _ | .bool _, .str _ | .bool _, .list _ | .bool _, .null
  | .prim _, .bool _ | .prim _, .buffer _ | .prim _, .str _ | .prim _, .list _ | .prim _, .null
  | .buffer _, .bool _ | .buffer _, .prim _ | .buffer _, .str _ | .buffer _, .list _ | .buffer _, .null
  | .str _, .bool _ | .str _, .prim _ | .str _, .buffer _ | .str _, .list _ | .str _, .null
  | .list _, .bool _ | .list _, .prim _ | .list _, .buffer _ | .list _, .str _ | .list _, .null
  | .null, .bool _ | .null, .prim _ | .null, .buffer _ | .null, .str _ | .null, .list _ => by
    simp [SV.cmp, SV.tag, compare_eq_nat]
theorem cmps_eq : ∀ a b : List SV, SV.cmps a b = some .eq ↔ a = b
  | [], [] => by simp [SV.cmps]
  | [], _ :: _ => by simp [SV.cmps]
  | _ :: _, [] => by simp [SV.cmps]
  | a :: as, b :: bs => by
    have h1 := cmp_eq a b
    have h2 := cmps_eq as bs
    simp only [SV.cmps, List.cons.injEq]
    cases hc : SV.cmp a b with
    | none => rw [hc] at h1; simp at h1; simp [h1]
    | some o =>
      cases o with
      | eq => rw [hc] at h1; simp at h1; simp [h1, h2]
      | lt => rw [hc] at h1; simp at h1; simp [h1]
      | gt => rw [hc] at h1; simp at h1; simp [h1]
end

theorem cmp_lt_tag {a b : SV} (h : SV.cmp a b = some .lt) : a.tag < b.tag ∨ a.tag = b.tag := by
  by_cases ht : a.tag = b.tag
  · exact .inr ht
  · rw [cmp_tag ht] at h
    simp only [Option.some.injEq, compare_lt_nat] at h
    exact .inl h

mutual
/-- Transitivity. -/
theorem cmp_trans : ∀ a b c : SV, SV.cmp a b = some .lt → SV.cmp b c = some .lt → SV.cmp a c = some .lt := by
  intro a b c h1 h2
  by_cases hab : a.tag = b.tag
  · by_cases hbc : b.tag = c.tag
    · cases a with
      | bool a =>
        cases b <;> simp [SV.tag] at hab
        cases c <;> simp [SV.tag] at hbc
        rename_i b c
        cases a <;> cases b <;> cases c <;> revert h1 h2 <;> decide
      | prim p =>
        cases b <;> simp [SV.tag] at hab
        cases c <;> simp [SV.tag] at hbc
        simp only [SV.cmp] at *
        exact partialCmp_trans _ _ _ h1 h2
      | buffer x =>
        cases b <;> simp [SV.tag] at hab
        cases c <;> simp [SV.tag] at hbc
        simp only [SV.cmp, Option.some.injEq] at *
        exact cmpBytes_trans _ _ _ h1 h2
      | str x =>
        cases b <;> simp [SV.tag] at hab
        cases c <;> simp [SV.tag] at hbc
        simp only [SV.cmp, Option.some.injEq] at *
        exact cmpBytes_trans _ _ _ h1 h2
      | list x =>
        cases b <;> simp [SV.tag] at hab
        cases c <;> simp [SV.tag] at hbc
        simp only [SV.cmp] at *
        exact cmps_trans x _ _ h1 h2
      | null =>
        cases b <;> simp [SV.tag] at hab
        simp [SV.cmp] at h1
    · have : b.tag < c.tag := (cmp_lt_tag h2).resolve_right hbc
      rw [cmp_tag (by omega), compare_lt_nat.mpr (by omega)]
  · have h3 : a.tag < b.tag := (cmp_lt_tag h1).resolve_right hab
    have h4 := cmp_lt_tag h2
    rw [cmp_tag (by omega), compare_lt_nat.mpr (by omega)]
theorem cmps_trans : ∀ a b c : List SV, SV.cmps a b = some .lt → SV.cmps b c = some .lt → SV.cmps a c = some .lt
  | [], b, [] => by cases b <;> simp [SV.cmps]
  | [], b, _ :: _ => by simp [SV.cmps]
  | a :: as, [], c => by simp [SV.cmps]
  | a :: as, b :: bs, [] => by simp [SV.cmps]
  | a :: as, b :: bs, c :: cs => by
    have ih := cmps_trans as bs cs
    have iha := cmp_trans a b c
    simp only [SV.cmps]
    cases h1 : SV.cmp a b with
    | none => simp
    | some o1 =>
      cases o1 with
      | gt => simp
      | eq =>
        rw [cmp_eq] at h1
        subst h1
        cases h2 : SV.cmp a c with
        | none => simp
        | some o2 => cases o2 <;> simp; exact fun h3 h4 => ih h3 h4
      | lt =>
        intro _
        cases h2 : SV.cmp b c with
        | none => simp
        | some o2 =>
          cases o2 with
          | gt => simp
          | lt => intro _; rw [iha h1 h2]
          | eq => rw [cmp_eq] at h2; subst h2; intro _; rw [h1]
end

mutual
/-- No extension type anywhere (extension types do not fix the type of their storage). -/
def NoExt (d : DType) : Prop :=
  match d with
  | .ext _ _ _ => False
  | .struct _ ds _ => NoExts ds
  | .list e _ => NoExt e
  | _ => True
def NoExts (ds : List DType) : Prop :=
  match ds with
  | [] => True
  | d :: ds => NoExt d ∧ NoExts ds
end

theorem hasType_nullable {d : DType} {v : SV} (h : HasType d v) : HasType (d.withNullability true) v := by
  cases v <;> cases d <;> simp_all [HasType, DType.withNullability, DType.isNullable]

mutual
/-- Values of one type (up to nullability) are always comparable. -/
theorem cmp_total : ∀ (a b : SV) (d : DType), (∀ i m n, d ≠ .ext i m n) → NoExt d → HasType (d.withNullability true) a →
    HasType (d.withNullability true) b → ∃ o, SV.cmp a b = some o := by
  intro a b d he hd ha hb
  by_cases ht : a.tag = b.tag
  · cases a with
    | bool x => cases b <;> simp [SV.tag] at ht; exact ⟨_, rfl⟩
    | prim p =>
      cases b <;> simp [SV.tag] at ht
      rename_i q
      cases d <;> simp [HasType, DType.withNullability] at ha hb
      · exact ⟨_, by simp only [SV.cmp, PValue.partialCmp]; rw [if_pos (ha.trans hb.symm)]⟩
      · exact absurd rfl (he _ _ _)
    | buffer x => cases b <;> simp [SV.tag] at ht; exact ⟨_, rfl⟩
    | str x => cases b <;> simp [SV.tag] at ht; exact ⟨_, rfl⟩
    | null => cases b <;> simp [SV.tag] at ht; exact ⟨_, rfl⟩
    | list xs =>
      cases b <;> simp [SV.tag] at ht
      rename_i ys
      cases d <;> simp [HasType, DType.withNullability] at ha hb
      · simp only [SV.cmp]
        rename_i ds _
        exact cmps_total_fields xs ys ds (by simpa [NoExt] using hd) ha hb
      · simp only [SV.cmp]
        rename_i e _
        exact cmps_total_elems xs ys e (by simpa [NoExt] using hd) ha hb
  · exact ⟨_, cmp_tag ht⟩
theorem cmps_total_fields : ∀ (xs ys : List SV) (ds : List DType), NoExts ds → HaveTypes ds xs → HaveTypes ds ys →
    ∃ o, SV.cmps xs ys = some o
  | [], [], _, _, _, _ => ⟨_, rfl⟩
  | [], _ :: _, _, _, _, _ => ⟨_, rfl⟩
  | _ :: _, [], _, _, _, _ => ⟨_, rfl⟩
  | x :: xs, y :: ys, ds, hd, hx, hy => by
    cases ds with
    | nil => simp [HaveTypes] at hx
    | cons d ds =>
      simp only [HaveTypes] at hx hy
      simp only [NoExts] at hd
      obtain ⟨o, ho⟩ := cmp_total x y d (fun i m n h => by rw [h] at hd; simp [NoExt] at hd) hd.1 (hasType_nullable hx.1)
        (hasType_nullable hy.1)
      obtain ⟨o', ho'⟩ := cmps_total_fields xs ys ds hd.2 hx.2 hy.2
      simp only [SV.cmps, ho]
      cases o <;> simp [ho']
theorem cmps_total_elems : ∀ (xs ys : List SV) (d : DType), NoExt d → AllHaveType d xs → AllHaveType d ys →
    ∃ o, SV.cmps xs ys = some o
  | [], [], _, _, _, _ => ⟨_, rfl⟩
  | [], _ :: _, _, _, _, _ => ⟨_, rfl⟩
  | _ :: _, [], _, _, _, _ => ⟨_, rfl⟩
  | x :: xs, y :: ys, d, hd, hx, hy => by
    simp only [AllHaveType] at hx hy
    obtain ⟨o, ho⟩ := cmp_total x y d (fun i m n h => by rw [h] at hd; simp [NoExt] at hd) hd (hasType_nullable hx.1)
      (hasType_nullable hy.1)
    obtain ⟨o', ho'⟩ := cmps_total_elems xs ys d hd hx.2 hy.2
    simp only [SV.cmps, ho]
    cases o <;> simp [ho']
end

/-- The order on scalars of one type (ignoring top-level nullability) is a total order: always defined, antisymmetric, transitive,
and only identical values compare equal. -/
theorem C29_order_total (d : DType) (n1 n2 n3 : Bool) (hd : NoExt d) (a b c : SV) (ha : HasType (d.withNullability n1) a)
    (hb : HasType (d.withNullability n2) b) :
    let x : Scalar := ⟨d.withNullability n1, a⟩
    let y : Scalar := ⟨d.withNullability n2, b⟩
    let z : Scalar := ⟨d.withNullability n3, c⟩
    (∃ o, x.partialCmp y = some o) ∧ y.partialCmp x = (x.partialCmp y).map Ordering.swap ∧ (x.partialCmp y = some .eq ↔ a = b) ∧
      (x.partialCmp y = some .lt → y.partialCmp z = some .lt → x.partialCmp z = some .lt) := by
  have heq : ∀ k l : Bool, (d.withNullability k).eqIgnoreNullability (d.withNullability l) = true := by
    intro k l
    simp only [DType.eqIgnoreNullability]
    apply (DType.beq_eq _ _).mpr
    cases d <;> rfl
  have hw : ∀ (k : Bool) (v : SV), HasType (d.withNullability k) v → HasType (d.withNullability true) v := by
    intro k v h
    have := hasType_nullable h
    cases d <;> exact this
  simp only [Scalar.partialCmp, heq, if_true]
  exact ⟨cmp_total a b d (fun i m n h => by rw [h] at hd; simp [NoExt] at hd) hd (hw _ _ ha) (hw _ _ hb), cmp_swap a b, cmp_eq a b,
    cmp_trans a b c⟩

/-- Extension scalars: an extension type does not record its storage type, so it is a hypothesis that both values are of one storage
type `st`; then they are totally ordered like their storage values. -/
theorem C29_order_total_ext (i : Str) (m : Option (List UInt8)) (n1 n2 n3 : Bool) (st : DType) (hst : NoExt st) (a b c : SV)
    (ha : HasType (st.withNullability true) a) (hb : HasType (st.withNullability true) b) :
    let x : Scalar := ⟨.ext i m n1, a⟩
    let y : Scalar := ⟨.ext i m n2, b⟩
    let z : Scalar := ⟨.ext i m n3, c⟩
    (∃ o, x.partialCmp y = some o) ∧ y.partialCmp x = (x.partialCmp y).map Ordering.swap ∧ (x.partialCmp y = some .eq ↔ a = b) ∧
      (x.partialCmp y = some .lt → y.partialCmp z = some .lt → x.partialCmp z = some .lt) ∧
      x.partialCmp y = (Scalar.mk (st.withNullability true) a).partialCmp ⟨st.withNullability true, b⟩ := by
  have heq : ∀ k l : Bool, (DType.ext i m k).eqIgnoreNullability (.ext i m l) = true := by
    intro k l
    simp only [DType.eqIgnoreNullability]
    exact (DType.beq_eq _ _).mpr rfl
  have hst2 : (st.withNullability true).eqIgnoreNullability (st.withNullability true) = true := by
    simp only [DType.eqIgnoreNullability]
    exact (DType.beq_eq _ _).mpr rfl
  simp only [Scalar.partialCmp, heq, hst2, if_true]
  exact ⟨cmp_total a b st (fun i m n h => by rw [h] at hst; simp [NoExt] at hst) hst ha hb, cmp_swap a b, cmp_eq a b,
    cmp_trans a b c, trivial⟩

/-- Nulls are consistently last: a null is greater than every non-null value, and equal to a null. -/
theorem C29_null_last (v : SV) (h : v ≠ .null) : SV.cmp v .null = some .lt ∧ SV.cmp .null v = some .gt ∧ SV.cmp .null .null = some .eq := by
  cases v <;> first | exact absurd rfl h | exact ⟨rfl, rfl, rfl⟩

/-- Scalars of different types (ignoring nullability) are incomparable rather than mis-ordered. -/
theorem C29_different_types_incomparable (x y : Scalar) (h : x.dtype.withNullability true ≠ y.dtype.withNullability true) :
    x.partialCmp y = none := by
  have : x.dtype.eqIgnoreNullability y.dtype = false := by
    cases hh : x.dtype.eqIgnoreNullability y.dtype with
    | false => rfl
    | true => exact absurd ((DType.beq_eq _ _).mp hh) h
  simp [Scalar.partialCmp, this]

/-- The sign-magnitude reading of a float's bits. On numbers that are not NaN it is strictly monotone in the real value, up to `-0 = +0`. -/
def signMag {w : Nat} (x : BitVec w) : Int := if x.msb then -(x.toNat % 2 ^ (w - 1) : Nat) else (x.toNat % 2 ^ (w - 1) : Nat)

theorem xor_twoPow {n k : Nat} (h1 : 2 ^ k ≤ n) (h2 : n < 2 * 2 ^ k) : n ^^^ 2 ^ k = n - 2 ^ k := by
  obtain ⟨m, rfl⟩ : ∃ m, n = 2 ^ k + m := ⟨n - 2 ^ k, by omega⟩
  have hm : m < 2 ^ k := by omega
  rw [show 2 ^ k + m - 2 ^ k = m by omega]
  apply Nat.eq_of_testBit_eq
  intro i
  rw [Nat.testBit_xor, Nat.testBit_two_pow]
  rcases Nat.lt_trichotomy i k with h | h | h
  · rw [Nat.testBit_two_pow_add_gt h, decide_eq_false (show ¬ k = i by omega), Bool.xor_false]
  · subst h
    rw [Nat.testBit_two_pow_add_eq, Nat.testBit_lt_two_pow hm]; simp
  · rw [Nat.testBit_lt_two_pow (x := m) (Nat.lt_of_lt_of_le hm (Nat.pow_le_pow_right (by omega) (by omega))),
      Nat.testBit_lt_two_pow (Nat.lt_of_lt_of_le h2 (by rw [show 2 * 2 ^ k = 2 ^ (k+1) from by rw [Nat.pow_succ]; omega]; exact Nat.pow_le_pow_right (by omega) (by omega)))]
    simp; omega

theorem totalKey_eq {w : Nat} (hw : 0 < w) (x : BitVec w) :
    PValue.totalKey x = if x.msb then -1 - ((x.toNat % 2 ^ (w - 1) : Nat) : Int) else (x.toNat % 2 ^ (w - 1) : Nat) := by
  have hpow : 2 ^ w = 2 * 2 ^ (w - 1) := by
    rw [show w = (w - 1) + 1 from by omega, Nat.pow_succ]; simp; omega
  unfold PValue.totalKey
  cases hm : x.msb with
  | false =>
    simp only [Bool.false_eq_true, if_false, BitVec.xor_zero]
    have hlt : x.toNat < 2 ^ (w - 1) := by
      have := BitVec.msb_eq_false_iff_two_mul_lt.mp hm
      omega
    rw [BitVec.toInt_eq_toNat_of_lt (by omega), Nat.mod_eq_of_lt hlt]
  | true =>
    simp only [if_true]
    have hge : 2 ^ (w - 1) ≤ x.toNat := by
      have := BitVec.msb_eq_true_iff_two_mul_ge.mp hm
      omega
    have hlt := x.isLt
    have hmask : (BitVec.allOnes w >>> 1).toNat = 2 ^ (w - 1) - 1 := by
      simp only [BitVec.toNat_ushiftRight, BitVec.toNat_allOnes, Nat.shiftRight_eq_div_pow]
      omega
    have hmod : x.toNat % 2 ^ (w - 1) = x.toNat - 2 ^ (w - 1) := by
      rw [Nat.mod_eq_sub_mod hge, Nat.mod_eq_of_lt (by omega)]
    have hsum : (x ^^^ (BitVec.allOnes w >>> 1)).toNat + (x.toNat - 2 ^ (w - 1)) = 2 * 2 ^ (w - 1) - 1 := by
      have hxor : (x ^^^ (BitVec.allOnes w >>> 1)) = ~~~(x ^^^ BitVec.twoPow w (w - 1)) := by
        apply BitVec.eq_of_getLsbD_eq
        intro i hi
        simp only [BitVec.getLsbD_xor, BitVec.getLsbD_ushiftRight, BitVec.getLsbD_allOnes, BitVec.getLsbD_not,
          BitVec.getLsbD_twoPow]
        by_cases h1 : i = w - 1
        · subst h1
          have : ¬ (1 + (w - 1) < w) := by omega
          simp [hi, this]
        · have : (1 + i < w) := by omega
          have h2 : ¬ (w - 1 = i) := by omega
          simp [hi, this, h2]
      have hx2 : (x ^^^ BitVec.twoPow w (w - 1)).toNat = x.toNat - 2 ^ (w - 1) := by
        rw [BitVec.toNat_xor, BitVec.toNat_twoPow, Nat.mod_eq_of_lt (by omega)]
        exact xor_twoPow hge (by omega)
      rw [hxor, BitVec.toNat_not, hx2]
      omega
    rw [hmod, BitVec.toInt_eq_toNat_cond, if_neg (by omega)]
    omega

/-- Floats: on values that differ as numbers the order is the numeric one (`-0.0` sorts just below `+0.0`; NaNs sort by sign beyond the
infinities). -/
theorem C29_order_floats {w : Nat} (hw : 0 < w) (x y : BitVec w) (h : signMag x < signMag y) : PValue.totalKey x < PValue.totalKey y := by
  rw [totalKey_eq hw, totalKey_eq hw]
  unfold signMag at h
  split <;> split <;> rename_i h1 h2 <;> simp only [h1, h2, if_true, if_false, Bool.false_eq_true] at h <;> omega

/-- `PartialEq` and `PartialOrd` disagree on floats: `-0.0 == 0.0` but compares less, and a NaN is not equal to itself but compares
equal to itself. -/
theorem C29_eq_and_cmp_disagree_on_floats :
    (PValue.mk .f32 0x80000000#32).eq ⟨.f32, 0#32⟩ = true ∧ (PValue.mk .f32 0x80000000#32).partialCmp ⟨.f32, 0#32⟩ = some .lt ∧
    (PValue.mk .f32 0x7fc00000#32).eq ⟨.f32, 0x7fc00000#32⟩ = false ∧
    (PValue.mk .f32 0x7fc00000#32).partialCmp ⟨.f32, 0x7fc00000#32⟩ = some .eq := by decide +kernel

/-- On everything but floats equality is "compares equal". -/
theorem C29_eq_is_cmp_eq (p q : PValue) (h : p.pt.isFloat = false) : p.eq q = true ↔ p.partialCmp q = some .eq := by
  rw [partialCmp_eq]
  obtain ⟨p, a⟩ := p
  cases p <;> simp [PType.isFloat] at h <;> simp [PValue.eq]

/-- Lists (and structs) are equal exactly when they have the same length and equal elements at every position. -/
theorem C29_list_eq : ∀ as bs : List SV, SV.eq (.list as) (.list bs) = true ↔
    as.length = bs.length ∧ ∀ (i : Nat) (a b : SV), as[i]? = some a → bs[i]? = some b → a.eq b = true := by
  suffices h : ∀ as bs : List SV, SV.eqs as bs = true ↔
      as.length = bs.length ∧ ∀ (i : Nat) (a b : SV), as[i]? = some a → bs[i]? = some b → a.eq b = true by
    intro as bs; rw [SV.eq]; exact h as bs
  intro as
  induction as with
  | nil => intro bs; cases bs <;> simp [SV.eqs]
  | cons a as ih =>
    intro bs
    cases bs with
    | nil => simp [SV.eqs]
    | cons b bs =>
      simp only [SV.eqs, Bool.and_eq_true, ih bs, List.length_cons]
      constructor
      · rintro ⟨h1, h2, h3⟩
        refine ⟨by omega, fun i x y hx hy => ?_⟩
        cases i with
        | zero => simp at hx hy; subst hx hy; exact h1
        | succ i => simp at hx hy; exact h3 i x y hx hy
      · rintro ⟨h1, h2⟩
        exact ⟨h2 0 a b rfl rfl, by omega, fun i x y hx hy => h2 (i + 1) x y (by simpa using hx) (by simpa using hy)⟩

mutual
/-- No floating-point number anywhere inside. -/
def FloatFree : SV → Prop
  | .prim p => p.pt.isFloat = false
  | .list vs => FloatFrees vs
  | _ => True
def FloatFrees : List SV → Prop
  | [] => True
  | v :: vs => FloatFree v ∧ FloatFrees vs
end

theorem pvalue_eq_iff (p q : PValue) (h : p.pt.isFloat = false) : p.eq q = true ↔ p = q := by
  obtain ⟨p, a⟩ := p
  cases p <;> simp [PType.isFloat] at h <;> simp [PValue.eq]

mutual
/-- Without floats, `==` on scalar values is identity, however deeply nested. -/
theorem C29_value_eq : ∀ a b : SV, FloatFree a → (a.eq b = true ↔ a = b)
  | .bool x, b, _ => by cases b <;> simp [SV.eq]
  | .prim p, b, h => by
    cases b <;> simp [SV.eq]
    exact pvalue_eq_iff p _ h
  | .buffer x, b, _ => by cases b <;> simp [SV.eq]
  | .str x, b, _ => by cases b <;> simp [SV.eq]
  | .list xs, b, h => by
    cases b <;> simp [SV.eq]
    exact values_eq xs _ h
  | .null, b, _ => by cases b <;> simp [SV.eq]
theorem values_eq : ∀ as bs : List SV, FloatFrees as → (SV.eqs as bs = true ↔ as = bs)
  | [], bs, _ => by cases bs <;> simp [SV.eqs]
  | a :: as, bs, h => by
    cases bs with
    | nil => simp [SV.eqs]
    | cons b bs => simp [SV.eqs, C29_value_eq a b h.1, values_eq as bs h.2]
end

/-- `==` on scalars without floats is identity of type (nullability included) and value. -/
theorem C29_scalar_eq (a b : Scalar) (h : FloatFree a.value) : a.eq b = true ↔ a = b := by
  obtain ⟨d, v⟩ := a
  obtain ⟨e, w⟩ := b
  simp [Scalar.eq, DType.beq_eq, C29_value_eq v w h]

example : FloatFree (.list [.prim ⟨.i8, 5#8⟩, .list [.null, .str [97]]]) := by simp [FloatFree, FloatFrees, PType.isFloat]

/-- Non-vacuity: 300 does not fit `u8`, 200 does. -/
def noFloats : FloatOps := ⟨fun _ _ _ => 0, fun _ _ => 0, fun _ _ => none⟩
example : SV.cast noFloats (.prim .i32 false) (.prim ⟨.i32, 300#32⟩) (.prim .u8 true) = .err := by rfl
example : SV.cast noFloats (.prim .i32 false) (.prim ⟨.i32, 200#32⟩) (.prim .u8 true) = .ok (.prim ⟨.u8, 200#8⟩) := by rfl
example : SV.cast noFloats (.struct [['a']] [.prim .i32 false] false) (.list [.prim ⟨.i32, 200#32⟩]) (.struct [['b']] [.prim .u8 true] false)
    = .ok (.list [.prim ⟨.u8, 200#8⟩]) := by rfl
example : HasType ((DType.list (.prim .i8 true) false).withNullability true) (.list [.prim ⟨.i8, 5#8⟩, .null]) ∧
    NoExt (.list (.prim .i8 true) false) := by
  simp [HasType, AllHaveType, NoExt, DType.withNullability, DType.isNullable]

end Vx
