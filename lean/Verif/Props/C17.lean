import Verif.Model.DateTimeParts
import Verif.Lemmas.Primitive
import Verif.Lemmas.Validity
import Verif.Lemmas.Rows
import Verif.Props.C23
/-! # C17: date-time parts -/

namespace Vx.DateTimeParts
open Vx Spec

/-- The number of ticks of the unit per second, independent of the code. -/
def ticks : TimeUnit → Int
  | .s => 1
  | .ms => 10 ^ 3
  | .us => 10 ^ 6
  | .ns => 10 ^ 9
  | .d => 0

theorem divisor_ok {u : TimeUnit} (h : u ≠ .d) : divisor u = .ok (ticks u) := by
  cases u <;> first | rfl | exact absurd rfl h

theorem split1_eq {u : TimeUnit} (h : u ≠ .d) (t : Int) :
    split1 (ticks u) t = .ok (t.tdiv (86400 * ticks u), (t.tmod (86400 * ticks u)).tdiv (ticks u),
      (t.tmod (86400 * ticks u)).tmod (ticks u)) := by
  cases u <;> first | (exact absurd rfl h) | simp [split1, mulI, chk, IsI64, ticks]

theorem tdiv_facts (t k : Int) (hk : 0 < k) :
    t = t.tdiv k * k + t.tmod k ∧
      ((0 ≤ t ∧ 0 ≤ t.tdiv k ∧ t.tdiv k * k ≤ t ∧ 0 ≤ t.tmod k ∧ t.tmod k < k ∧ 0 ≤ t.tdiv k * k) ∨
       (t ≤ 0 ∧ t.tdiv k ≤ 0 ∧ t ≤ t.tdiv k * k ∧ t.tmod k ≤ 0 ∧ -k < t.tmod k ∧ t.tdiv k * k ≤ 0)) := by
  have e := Int.tdiv_mul_add_tmod t k
  refine ⟨e.symm, ?_⟩
  rcases Int.le_total 0 t with h | h
  · left
    have h1 := Int.tmod_nonneg k h
    have h2 := Int.tmod_lt_of_pos t hk
    have h3 := Int.tdiv_nonneg h (Int.le_of_lt hk)
    exact ⟨h, h3, by omega, h1, h2, Int.mul_nonneg h3 (by omega)⟩
  · right
    have h1 := Int.tmod_nonneg k (show 0 ≤ -t by omega)
    have h2 := Int.tmod_lt_of_pos (-t) hk
    have h3 := Int.tdiv_nonneg (show 0 ≤ -t by omega) (Int.le_of_lt hk)
    rw [Int.neg_tmod] at h1 h2
    rw [Int.neg_tdiv] at h3
    exact ⟨h, by omega, by omega, by omega, by omega, Int.mul_nonpos_of_nonpos_of_nonneg (by omega) (by omega)⟩

theorem chk_ok {x : Int} (h : IsI64 x) : chk x = .ok x := by simp [chk, h]

/-- Recombination never overflows on parts that come from one `i64`. -/
theorem combine_split (k t : Int) (hk : 0 < k) (hk2 : k ≤ 10 ^ 9) (ht : IsI64 t) :
    combine k (t.tdiv (86400 * k)) ((t.tmod (86400 * k)).tdiv k) ((t.tmod (86400 * k)).tmod k) = .ok t := by
  obtain ⟨e1, r1⟩ := tdiv_facts t (86400 * k) (by omega)
  obtain ⟨e2, r2⟩ := tdiv_facts (t.tmod (86400 * k)) k hk
  generalize t.tdiv (86400 * k) = d at *
  generalize t.tmod (86400 * k) = m at *
  generalize m.tdiv k = s at *
  generalize m.tmod k = u at *
  have a1 : d * (86400 * k) = d * 86400 * k := by rw [← Int.mul_assoc]
  rw [a1] at e1 r1
  obtain ⟨l, h⟩ := ht
  have ha : IsI64 (d * 86400) ∧ IsI64 (d * 86400 * k) := by
    rcases r1 with ⟨h0, h1, h2, _, _, _⟩ | ⟨h0, h1, h2, _, _, _⟩
    · have : d * 86400 * 1 ≤ d * 86400 * k := Int.mul_le_mul_of_nonneg_left (by omega) (by omega)
      constructor <;> constructor <;> omega
    · have : d * 86400 * k ≤ d * 86400 * 1 := Int.mul_le_mul_of_nonpos_left (by omega) (by omega)
      constructor <;> constructor <;> omega
  have hb : IsI64 (s * k) := by
    rcases r2 with ⟨h0, h1, h2, _, _, _⟩ | ⟨h0, h1, h2, _, _, _⟩ <;> constructor <;> omega
  have hc : IsI64 (d * 86400 * k + s * k) := by
    rcases r1 with ⟨h0, h1, h2, _, _, _⟩ | ⟨h0, h1, h2, _, _, _⟩ <;>
    rcases r2 with ⟨g0, g1, g2, _, _, _⟩ | ⟨g0, g1, g2, _, _, _⟩ <;> constructor <;> omega
  have hd : d * 86400 * k + s * k + u = t := by omega
  have he : IsI64 (d * 86400 * k + s * k + u) := by rw [hd]; exact ⟨l, h⟩
  simp [combine, mulI, addI, chk_ok ha.1, chk_ok ha.2, chk_ok hb, chk_ok hc, chk_ok he]
  exact hd

/-- **C17, scalar form.** For every unit except day and every 64-bit timestamp, splitting gives three parts whose recombination, with
every intermediate `i64` operation checked for overflow, is the timestamp. -/
theorem C17_scalar_roundtrip (u : TimeUnit) (hu : u ≠ .d) (t : Int) (ht : IsI64 t) :
    ∃ k d s ss, divisor u = .ok k ∧ split1 k t = .ok (d, s, ss) ∧ combine k d s ss = .ok t :=
  ⟨_, _, _, _, divisor_ok hu, split1_eq hu t,
    combine_split _ _ (by cases u <;> first | exact absurd rfl hu | decide) (by cases u <;> decide) ht⟩

/-- **C17.** The parts have calendar meaning: fewer than 86 400 seconds, fewer than one second of sub-seconds, all three with the sign
of the timestamp, and each fits an `i64`. -/
theorem C17_parts_range (u : TimeUnit) (hu : u ≠ .d) (t : Int) (ht : IsI64 t) (d s ss : Int)
    (h : split1 (ticks u) t = .ok (d, s, ss)) :
    t = (d * 86400 + s) * ticks u + ss ∧ -86400 < s ∧ s < 86400 ∧ -ticks u < ss ∧ ss < ticks u ∧
      (0 ≤ t → 0 ≤ d ∧ 0 ≤ s ∧ 0 ≤ ss) ∧ (t ≤ 0 → d ≤ 0 ∧ s ≤ 0 ∧ ss ≤ 0) ∧ IsI64 d ∧ IsI64 s ∧ IsI64 ss := by
  rw [split1_eq hu] at h
  simp only [Res.ok.injEq, Prod.mk.injEq] at h
  obtain ⟨rfl, rfl, rfl⟩ := h
  have hk : 0 < ticks u := by cases u <;> first | exact absurd rfl hu | decide
  have hk2 : ticks u ≤ 10 ^ 9 := by cases u <;> decide
  generalize ticks u = k at *
  obtain ⟨e1, r1⟩ := tdiv_facts t (86400 * k) (by omega)
  obtain ⟨e2, r2⟩ := tdiv_facts (t.tmod (86400 * k)) k hk
  generalize t.tdiv (86400 * k) = d at *
  generalize t.tmod (86400 * k) = m at *
  generalize m.tdiv k = s at *
  generalize m.tmod k = w at *
  have a1 : d * (86400 * k) = d * 86400 * k := by rw [← Int.mul_assoc]
  rw [a1] at e1 r1
  obtain ⟨l, h⟩ := ht
  have hd : IsI64 d := by
    rcases r1 with ⟨h0, h1, h2, _, _, _⟩ | ⟨h0, h1, h2, _, _, _⟩
    · have : d * 86400 * 1 ≤ d * 86400 * k := Int.mul_le_mul_of_nonneg_left (by omega) (by omega)
      constructor <;> omega
    · have : d * 86400 * k ≤ d * 86400 * 1 := Int.mul_le_mul_of_nonpos_left (by omega) (by omega)
      constructor <;> omega
  have hs1 : s < 86400 := by
    apply Int.lt_of_mul_lt_mul_right (a := k) _ (by omega)
    rcases r1 with ⟨h0, h1, h2, _, _, _⟩ | ⟨h0, h1, h2, _, _, _⟩ <;>
    rcases r2 with ⟨g0, g1, g2, _, _, _⟩ | ⟨g0, g1, g2, _, _, _⟩ <;> omega
  have hs2 : -86400 < s := by
    apply Int.lt_of_mul_lt_mul_right (a := k) _ (by omega)
    rcases r1 with ⟨h0, h1, h2, _, _, _⟩ | ⟨h0, h1, h2, _, _, _⟩ <;>
    rcases r2 with ⟨g0, g1, g2, _, _, _⟩ | ⟨g0, g1, g2, _, _, _⟩ <;> omega
  have hm : (d * 86400 + s) * k = d * 86400 * k + s * k := Int.add_mul _ _ _
  have hm0 : m = 0 → s = 0 := by
    intro hm0
    have : s * k = 0 := by rcases r2 with ⟨g0, g1, g2, _, _, _⟩ | ⟨g0, g1, g2, _, _, _⟩ <;> omega
    rcases Int.mul_eq_zero.mp this with h | h <;> omega
  have hd0 : t = 0 → d = 0 := by
    intro ht0
    have : d * 86400 * k = 0 := by rcases r1 with ⟨g0, g1, g2, _, _, _⟩ | ⟨g0, g1, g2, _, _, _⟩ <;> omega
    rcases Int.mul_eq_zero.mp this with h | h <;> omega
  have hw : -k < w ∧ w < k := by rcases r2 with ⟨g0, g1, g2, _, _, _⟩ | ⟨g0, g1, g2, _, _, _⟩ <;> constructor <;> omega
  have hmt : (0 ≤ t → 0 ≤ m) ∧ (t ≤ 0 → m ≤ 0) := by
    constructor
    · intro ht; by_cases h0 : t = 0
      · have := hd0 h0; subst this; simp at e1; omega
      · rcases r1 with ⟨g0, g1, g2, _, _, _⟩ | ⟨g0, g1, g2, _, _, _⟩ <;> omega
    · intro ht; by_cases h0 : t = 0
      · have := hd0 h0; subst this; simp at e1; omega
      · rcases r1 with ⟨g0, g1, g2, _, _, _⟩ | ⟨g0, g1, g2, _, _, _⟩ <;> omega
  have hsw : (0 ≤ m → 0 ≤ s ∧ 0 ≤ w) ∧ (m ≤ 0 → s ≤ 0 ∧ w ≤ 0) := by
    constructor
    · intro ht; by_cases h0 : m = 0
      · have := hm0 h0; subst this; simp at e2; omega
      · rcases r2 with ⟨g0, g1, g2, _, _, _⟩ | ⟨g0, g1, g2, _, _, _⟩ <;> omega
    · intro ht; by_cases h0 : m = 0
      · have := hm0 h0; subst this; simp at e2; omega
      · rcases r2 with ⟨g0, g1, g2, _, _, _⟩ | ⟨g0, g1, g2, _, _, _⟩ <;> omega
  have hdt : (0 ≤ t → 0 ≤ d) ∧ (t ≤ 0 → d ≤ 0) := by
    constructor
    · intro ht; by_cases h0 : t = 0
      · have := hd0 h0; omega
      · rcases r1 with ⟨g0, g1, g2, _, _, _⟩ | ⟨g0, g1, g2, _, _, _⟩ <;> omega
    · intro ht; by_cases h0 : t = 0
      · have := hd0 h0; omega
      · rcases r1 with ⟨g0, g1, g2, _, _, _⟩ | ⟨g0, g1, g2, _, _, _⟩ <;> omega
  refine ⟨by omega, hs2, hs1, hw.1, hw.2, fun ht => ⟨hdt.1 ht, hsw.1 (hmt.1 ht)⟩, fun ht => ⟨hdt.2 ht, hsw.2 (hmt.2 ht)⟩, hd, ?_, ?_⟩
  · constructor <;> omega
  · constructor <;> omega

/-- **C17.** Day-granularity columns are rejected. -/
theorem C17_day_rejected (ts : PArr Int) : encode .d ts = .err := rfl

theorem zip3_map (f g h : α → Int) (xs : List α) :
    zip3 (xs.map f) (xs.map g) (xs.map h) = .ok (xs.map fun x => (f x, g x, h x)) := by
  induction xs with
  | nil => rfl
  | cons x xs ih => simp [zip3, ih]

theorem zip3_ok {ds ss us : List Int} (h1 : ds.length = ss.length) (h2 : ds.length = us.length) :
    zip3 ds ss us = .ok (ds.zip (ss.zip us)) := by
  induction ds generalizing ss us with
  | nil => cases ss <;> cases us <;> simp_all [zip3]
  | cons d ds ih =>
    cases ss <;> cases us <;> simp_all [zip3]

/-- Constructor invariant of the encoded array (`try_new`'s checks plus well-formed children). -/
structure WF (a : Arr) : Prop where
  unit : a.unit ≠ .d
  days : a.days.WF
  nullable : a.nullable = a.days.validity.nullable
  sec : a.seconds.validity = .nonNullable
  sub : a.subsecond.validity = .nonNullable
  len1 : a.seconds.len = a.days.len
  len2 : a.subsecond.len = a.days.len

theorem nn_of {v : Validity} (h : v.nullable = false) : v = .nonNullable := by
  cases v <;> first | rfl | simp [Validity.nullable] at h

/-- `try_new` establishes the invariant. -/
theorem tryNew_WF {u : TimeUnit} (hu : u ≠ .d) {n : Bool} {d s ss : PArr Int} (hd : d.WF) {a : Arr}
    (h : tryNew u n d s ss = .ok a) : WF a := by
  simp only [tryNew, Res.guard, Res.bind_eq_ok] at h
  obtain ⟨_, h1, _, h2, _, h3, _, h4, h5⟩ := h
  simp only [Res.ok.injEq] at h5; subst h5
  split at h1 <;> simp at h1
  split at h2 <;> simp at h2
  split at h3 <;> simp at h3
  split at h4 <;> simp at h4
  rename_i g1 g2 g3 g4
  simp at g1 g2 g3 g4
  exact ⟨hu, hd, g1, nn_of g2, nn_of g3, g4.1.symm, g4.2.symm⟩

theorem tryNew_ok {u : TimeUnit} {n : Bool} {d s ss : PArr Int} (h1 : n = d.validity.nullable)
    (h2 : s.validity = .nonNullable) (h3 : ss.validity = .nonNullable) (h4 : s.len = d.len) (h5 : ss.len = d.len) :
    tryNew u n d s ss = .ok ⟨u, n, d, s, ss⟩ := by
  simp [tryNew, h1, h2, h3, h4, h5, Validity.nullable, Res.guard]

/-- The validity the array reports selects exactly the rows its `days` child selects. -/
theorem validity_mask {a : Arr} (hw : WF a) : mask a.days.len (validity a) = mask a.days.len a.days.validity ∧
    FitsLen (validity a) a.days.len := by
  unfold validity
  split
  · have h := (C23_to_logical a.days.validity a.days.len hw.days).2
    exact ⟨h.1, by rw [FitsLen, h.1]; exact hw.days⟩
  · rename_i h
    have h := hw.nullable ▸ h
    have := nn_of (by simpa using h)
    rw [this]; exact ⟨rfl, by simp [FitsLen, mask]⟩

/-- The children built by `encode`, in closed form. -/
def encoded (u : TimeUnit) (ts : PArr Int) : Arr :=
  ⟨u, ts.validity.nullable, ts.map (fun t => t.tdiv (86400 * ticks u)),
    ⟨ts.vals.map fun t => (t.tmod (86400 * ticks u)).tdiv (ticks u), .nonNullable⟩,
    ⟨ts.vals.map fun t => (t.tmod (86400 * ticks u)).tmod (ticks u), .nonNullable⟩⟩

theorem encode_eq {u : TimeUnit} (hu : u ≠ .d) (ts : PArr Int) : encode u ts = .ok (encoded u ts) := by
  have hm : Res.mapM (split1 (ticks u)) ts.vals = .ok _ := Res.mapM_ok (fun t _ => split1_eq hu t)
  simp only [encode, splitTemporal, divisor_ok hu, Res.ok_bind, hm]
  simp [tryNew, encoded, PArr.map, PArr.len, Validity.nullable, Res.guard]

theorem encoded_WF {u : TimeUnit} (hu : u ≠ .d) {ts : PArr Int} (hw : ts.WF) : WF (encoded u ts) :=
  ⟨hu, (PArr.WF_map _ _).mpr hw, rfl, rfl, rfl, by simp [encoded, PArr.len, PArr.map], by simp [encoded, PArr.len, PArr.map]⟩

theorem decode_encoded {u : TimeUnit} (hu : u ≠ .d) {ts : PArr Int} (hr : ∀ t ∈ ts.vals, IsI64 t) :
    decode (encoded u ts) = .ok ⟨ts.vals, validity (encoded u ts)⟩ := by
  have hk : 0 < ticks u := by cases u <;> first | exact absurd rfl hu | decide
  have hk2 : ticks u ≤ 10 ^ 9 := by cases u <;> decide
  simp only [decode, encoded, PArr.map, divisor_ok hu, Res.ok_bind]
  rw [zip3_map]
  simp only [Res.ok_bind]
  have : ∀ xs : List Int, (∀ t ∈ xs, IsI64 t) → Res.mapM (fun p : Int × Int × Int => combine (ticks u) p.1 p.2.1 p.2.2)
      (xs.map fun t => (t.tdiv (86400 * ticks u), (t.tmod (86400 * ticks u)).tdiv (ticks u),
    (t.tmod (86400 * ticks u)).tmod (ticks u))) = .ok xs := by
    intro xs hx
    induction xs with
    | nil => rfl
    | cons x xs ih =>
      rw [List.map_cons, Res.mapM_cons, ih (fun t ht => hx t (by simp [ht]))]
      simp only [combine_split _ _ hk hk2 (hx x (by simp))]
      rfl
  rw [this _ hr]
  rfl

theorem rows_validity {a : Arr} (hw : WF a) {xs : List Int} (hl : xs.length = a.days.len) :
    (PArr.mk xs (validity a)).rows = (PArr.mk xs a.days.validity).rows := by
  simp only [PArr.rows, hl, (validity_mask hw).1]

theorem validity_nullable {a : Arr} : (validity a).nullable = a.nullable := by
  simp only [validity]
  split
  · rename_i h
    rw [h]
    cases a.days.validity.toLogical a.days.len <;> rfl
  · rename_i h; simpa [Validity.nullable] using h

/-- **C17, array form.** Encoding a timestamp column of any unit but day succeeds, decoding it succeeds, and the decoded column has the
values (also under nulls), the rows and the nullability of the input. -/
theorem C17_roundtrip (u : TimeUnit) (hu : u ≠ .d) (ts : PArr Int) (hw : ts.WF) (hr : ∀ t ∈ ts.vals, IsI64 t) :
    ∃ a b, encode u ts = .ok a ∧ a.unit = u ∧ decode a = .ok b ∧ b.vals = ts.vals ∧ b.rows = ts.rows ∧
      b.validity.nullable = ts.validity.nullable := by
  refine ⟨_, _, encode_eq hu ts, rfl, decode_encoded hu hr, rfl, ?_, ?_⟩
  · rw [rows_validity (encoded_WF hu hw) (by simp [encoded, PArr.len, PArr.map])]; rfl
  · simp only [validity_nullable]; rfl

/-! ### Operations commute with decoding -/

theorem mapM_slice {f : α → Res β} {xs : List α} {ys : List β} (h : Res.mapM f xs = .ok ys) (s e : Nat) :
    Res.mapM f (Spec.slice xs s e) = .ok (Spec.slice ys s e) := by
  induction xs generalizing ys s e with
  | nil => simp at h; subst h; simp [Spec.slice]
  | cons x xs ih =>
    simp only [Res.mapM_cons, Res.bind_eq_ok, Res.ok.injEq] at h
    obtain ⟨y, hy, ys', hys, rfl⟩ := h
    cases e with
    | zero => simp [Spec.slice]
    | succ e =>
      cases s with
      | zero =>
        have := ih hys 0 e
        simp [Spec.slice] at this ⊢
        simp [this, hy]
      | succ s => simpa [Spec.slice] using ih hys s e

theorem mapM_take {f : α → Res β} {xs : List α} {ys : List β} (h : Res.mapM f xs = .ok ys) {is : List Nat}
    (hi : ∀ i ∈ is, i < xs.length) : Res.mapM f (Spec.take xs is) = .ok (Spec.take ys is) := by
  induction is with
  | nil => rfl
  | cons i is ih =>
    have hx := hi i (by simp)
    have hy : i < ys.length := by rw [Res.mapM_eq_ok_length h]; exact hx
    obtain ⟨b, hb, hf⟩ := Res.mapM_eq_ok_getElem? h (List.getElem?_eq_getElem hx)
    rw [List.getElem?_eq_getElem hy] at hb
    simp only [Option.some.injEq] at hb
    rw [take_cons hx, take_cons hy, Res.mapM_cons, hf, ih (fun j hj => hi j (by simp [hj])), hb]
    rfl

theorem take_zip {xs : List α} {ys : List β} (h : xs.length = ys.length) {is : List Nat} (hi : ∀ i ∈ is, i < xs.length) :
    Spec.take (xs.zip ys) is = (Spec.take xs is).zip (Spec.take ys is) := by
  induction is with
  | nil => rfl
  | cons i is ih =>
    have h1 := hi i (by simp)
    rw [take_cons (xs := xs.zip ys) (by simp [← h, h1]), take_cons h1, take_cons (xs := ys) (by rw [← h]; exact h1), ih (fun j hj => hi j (by simp [hj]))]
    simp

theorem slice_zip (xs : List α) (ys : List β) (s e : Nat) :
    Spec.slice (xs.zip ys) s e = (Spec.slice xs s e).zip (Spec.slice ys s e) := by
  simp [List.zip, slice_zipWith]

theorem decode_eq {a : Arr} (hw : WF a) : decode a =
    (do let vs ← Res.mapM (fun p => combine (ticks a.unit) p.1 p.2.1 p.2.2) (a.days.vals.zip (a.seconds.vals.zip a.subsecond.vals))
        .ok ⟨vs, validity a⟩) := by
  simp only [decode, divisor_ok hw.unit, Res.ok_bind, zip3_ok hw.len1.symm hw.len2.symm]

theorem decode_inv {a : Arr} (hw : WF a) {b : PArr Int} (h : decode a = .ok b) :
    Res.mapM (fun p => combine (ticks a.unit) p.1 p.2.1 p.2.2) (a.days.vals.zip (a.seconds.vals.zip a.subsecond.vals))
      = .ok b.vals ∧ b.validity = validity a ∧ b.vals.length = a.days.len := by
  rw [decode_eq hw, Res.bind_eq_ok] at h
  obtain ⟨vs, h1, h2⟩ := h
  simp only [Res.ok.injEq] at h2; subst h2
  refine ⟨h1, rfl, ?_⟩
  have := Res.mapM_eq_ok_length h1
  have l1 : a.seconds.vals.length = a.days.vals.length := hw.len1
  have l2 : a.subsecond.vals.length = a.days.vals.length := hw.len2
  simp [this, PArr.len, l1, l2]

theorem parr_slice_eq {a : PArr Int} {s e : Nat} (hw : a.WF) (h : InBounds a.len s e) :
    ∃ w, a.slice s e = .ok ⟨Spec.slice a.vals s e, w⟩ ∧ a.validity.slice s e = .ok w ∧ w.nullable = a.validity.nullable ∧
      FitsLen w (e - s) ∧ mask (e - s) w = Spec.slice (mask a.vals.length a.validity) s e := by
  obtain ⟨w, h1, h2, h3, h4⟩ := mask_slice hw h
  refine ⟨w, ?_, h1, h4, h3, h2⟩
  have : InBounds a.vals.length s e := h
  simp [PArr.slice, sliceList_ok this, h1]

theorem parr_take_eq {a : PArr Int} {is : List Nat} (hw : a.WF) (h : ∀ i ∈ is, i < a.len) :
    ∃ w, a.take is = .ok ⟨Spec.take a.vals is, w⟩ ∧ w.nullable = a.validity.nullable ∧
      FitsLen w is.length ∧ mask is.length w = Spec.take (mask a.vals.length a.validity) is := by
  obtain ⟨w, h1, h2, h3, h4⟩ := mask_take hw h
  refine ⟨w, ?_, h4, h3, h2⟩
  have : ∀ i ∈ is, i < a.vals.length := h
  simp [PArr.take, takeList_ok this, h1]

theorem nn_WF {a : PArr Int} (h : a.validity = .nonNullable) : a.WF := by simp [PArr.WF, h, FitsLen, mask]

/-- **C17.** `slice` selects rows `s..e` of what the column decodes to. -/
theorem C17_slice (a : Arr) (hw : WF a) (b : PArr Int) (hb : decode a = .ok b) (s e : Nat) (h : InBounds a.days.len s e) :
    ∃ a' b', slice a s e = .ok a' ∧ WF a' ∧ decode a' = .ok b' ∧ b'.rows = Spec.slice b.rows s e ∧ b'.len = e - s ∧
      b'.validity.nullable = b.validity.nullable := by
  obtain ⟨hv, hval, hl⟩ := decode_inv hw hb
  have l1 := hw.len1
  have l2 := hw.len2
  obtain ⟨w0, h0, _, n0, f0, m0⟩ := parr_slice_eq hw.days h
  obtain ⟨w1, h1, _, n1, f1, m1⟩ := parr_slice_eq (nn_WF hw.sec) (s := s) (e := e) (by rw [l1]; exact h)
  obtain ⟨w2, h2, _, n2, f2, m2⟩ := parr_slice_eq (nn_WF hw.sub) (s := s) (e := e) (by rw [l2]; exact h)
  rw [hw.sec] at n1
  rw [hw.sub] at n2
  have e0 : (Spec.slice a.days.vals s e).length = e - s := slice_length' h
  have e1 : (Spec.slice a.seconds.vals s e).length = e - s := slice_length' (by change InBounds a.seconds.len s e; rw [l1]; exact h)
  have e2 : (Spec.slice a.subsecond.vals s e).length = e - s := slice_length' (by change InBounds a.subsecond.len s e; rw [l2]; exact h)
  have hn : a.nullable = w0.nullable := by rw [n0, hw.nullable]
  have hs : slice a s e = .ok ⟨a.unit, a.nullable, ⟨Spec.slice a.days.vals s e, w0⟩, ⟨Spec.slice a.seconds.vals s e, w1⟩,
      ⟨Spec.slice a.subsecond.vals s e, w2⟩⟩ := by
    simp only [slice, h0, h1, h2, Res.ok_bind]
    exact tryNew_ok hn (nn_of n1) (nn_of n2) (by simp only [PArr.len]; rw [e1, e0]) (by simp only [PArr.len]; rw [e2, e0])
  have hw' : WF ⟨a.unit, a.nullable, ⟨Spec.slice a.days.vals s e, w0⟩, ⟨Spec.slice a.seconds.vals s e, w1⟩,
      ⟨Spec.slice a.subsecond.vals s e, w2⟩⟩ :=
    ⟨hw.unit, by simp only [PArr.WF, e0]; exact f0, hn, nn_of n1, nn_of n2, by simp only [PArr.len]; rw [e1, e0],
      by simp only [PArr.len]; rw [e2, e0]⟩
  have hlen : InBounds b.vals.length s e := by rw [hl]; exact h
  have hbw : b.WF := by rw [PArr.WF, hval, hl]; exact (validity_mask hw).2
  refine ⟨_, ⟨Spec.slice b.vals s e, validity ⟨a.unit, a.nullable, ⟨Spec.slice a.days.vals s e, w0⟩, ⟨Spec.slice a.seconds.vals s e, w1⟩,
      ⟨Spec.slice a.subsecond.vals s e, w2⟩⟩⟩, hs, hw', ?_, ?_, ?_, ?_⟩
  · rw [decode_eq hw']
    simp only [← slice_zip, mapM_slice hv]
    rfl
  · rw [rows_validity hw' (by simp only [PArr.len, e0]; exact slice_length' hlen)]
    have hb' : b.rows = (PArr.mk b.vals a.days.validity).rows := by
      rw [← rows_validity hw (xs := b.vals) hl, ← hval]
    rw [hb']
    simp only [PArr.rows, slice_rows, slice_length' hlen, m0]
    congr 2
    rw [hl]; rfl
  · exact slice_length' hlen
  · simp only [hval, validity_nullable]

/-- **C17.** A slice outside the array is an error. -/
theorem C17_slice_err (a : Arr) (s e : Nat) (h : ¬ InBounds a.days.len s e) : slice a s e = .err := by
  simp [slice, PArr.slice_err h]

/-- **C17.** `take` selects the requested rows of what the column decodes to. -/
theorem C17_take (a : Arr) (hw : WF a) (b : PArr Int) (hb : decode a = .ok b) (is : List Nat) (h : ∀ i ∈ is, i < a.days.len) :
    ∃ a' b', take a is = .ok a' ∧ WF a' ∧ decode a' = .ok b' ∧ b'.rows = Spec.take b.rows is ∧ b'.len = is.length ∧
      b'.validity.nullable = b.validity.nullable := by
  obtain ⟨hv, hval, hl⟩ := decode_inv hw hb
  have l1 := hw.len1
  have l2 := hw.len2
  have g0 : ∀ i ∈ is, i < a.days.vals.length := h
  have g1 : ∀ i ∈ is, i < a.seconds.vals.length := by intro i hi; have := h i hi; rw [← l1] at this; exact this
  have g2 : ∀ i ∈ is, i < a.subsecond.vals.length := by intro i hi; have := h i hi; rw [← l2] at this; exact this
  obtain ⟨w0, h0, n0, f0, m0⟩ := parr_take_eq hw.days h
  obtain ⟨w1, h1, n1, f1, m1⟩ := parr_take_eq (nn_WF hw.sec) g1
  obtain ⟨w2, h2, n2, f2, m2⟩ := parr_take_eq (nn_WF hw.sub) g2
  rw [hw.sec] at n1
  rw [hw.sub] at n2
  have e0 : (Spec.take a.days.vals is).length = is.length := take_length g0
  have e1 : (Spec.take a.seconds.vals is).length = is.length := take_length g1
  have e2 : (Spec.take a.subsecond.vals is).length = is.length := take_length g2
  have hn : a.nullable = w0.nullable := by rw [n0, hw.nullable]
  have hs : take a is = .ok ⟨a.unit, a.nullable, ⟨Spec.take a.days.vals is, w0⟩, ⟨Spec.take a.seconds.vals is, w1⟩,
      ⟨Spec.take a.subsecond.vals is, w2⟩⟩ := by
    simp only [take, h0, h1, h2, Res.ok_bind]
    exact tryNew_ok hn (nn_of n1) (nn_of n2) (by simp only [PArr.len]; rw [e1, e0]) (by simp only [PArr.len]; rw [e2, e0])
  have hw' : WF ⟨a.unit, a.nullable, ⟨Spec.take a.days.vals is, w0⟩, ⟨Spec.take a.seconds.vals is, w1⟩,
      ⟨Spec.take a.subsecond.vals is, w2⟩⟩ :=
    ⟨hw.unit, by simp only [PArr.WF, e0]; exact f0, hn, nn_of n1, nn_of n2, by simp only [PArr.len]; rw [e1, e0],
      by simp only [PArr.len]; rw [e2, e0]⟩
  have hlen : ∀ i ∈ is, i < b.vals.length := by rw [hl]; exact h
  refine ⟨_, ⟨Spec.take b.vals is, validity ⟨a.unit, a.nullable, ⟨Spec.take a.days.vals is, w0⟩, ⟨Spec.take a.seconds.vals is, w1⟩,
      ⟨Spec.take a.subsecond.vals is, w2⟩⟩⟩, hs, hw', ?_, ?_, ?_, ?_⟩
  · rw [decode_eq hw']
    have l1' : a.seconds.vals.length = a.days.vals.length := l1
    have l2' : a.subsecond.vals.length = a.days.vals.length := l2
    have : (Spec.take a.days.vals is).zip ((Spec.take a.seconds.vals is).zip (Spec.take a.subsecond.vals is)) =
        Spec.take (a.days.vals.zip (a.seconds.vals.zip a.subsecond.vals)) is := by
      rw [take_zip (by simp [l1', l2']) g0, take_zip (by rw [l1', l2']) g1]
    simp only [this]
    rw [mapM_take hv (by simpa [l1', l2'] using g0)]
    rfl
  · rw [rows_validity hw' (by simp only [PArr.len, e0]; exact take_length hlen)]
    have hb' : b.rows = (PArr.mk b.vals a.days.validity).rows := by
      rw [← rows_validity hw (xs := b.vals) hl, ← hval]
    rw [hb']
    have hd : (mask b.vals.length a.days.validity).length = b.vals.length := by
      rw [hl]; exact hw.days
    simp only [PArr.rows]
    rw [Vx.take_rows _ _ _ hd.symm hlen, take_length hlen, m0]
    congr 2
    rw [hl]; rfl
  · exact take_length hlen
  · simp only [hval, validity_nullable]

/-- **C17.** `scalar_at` agrees with decoding, row by row; past the end it is an error. -/
theorem C17_scalar_at (a : Arr) (hw : WF a) (b : PArr Int) (hb : decode a = .ok b) (i : Nat) :
    (i < a.days.len → ∃ r, scalarAt a i = .ok r ∧ b.rows[i]? = some r) ∧ (a.days.len ≤ i → scalarAt a i = .err) := by
  refine ⟨fun h => ?_, fun h => by simp [scalarAt, h]⟩
  obtain ⟨hv, hval, hl⟩ := decode_inv hw hb
  obtain ⟨hm, hf⟩ := validity_mask hw
  obtain ⟨v, hv1, hv2⟩ := PArr.isValid_mask hf h
  have hrow := rows_getElem? b.vals (mask b.vals.length b.validity) i
  have hi : i < b.vals.length := by rw [hl]; exact h
  rw [hl, hval, hv2, ← hl, List.getElem?_eq_getElem hi] at hrow
  have hn : ¬ (i ≥ a.days.len) := by omega
  have hrows : b.rows = Spec.rows b.vals (mask b.vals.length b.validity) := rfl
  rw [hrows]
  rw [hl, hval]
  cases v with
  | false => exact ⟨none, by simp [scalarAt, hn, hv1], by rw [hl] at hrow; exact hrow⟩
  | true =>
    refine ⟨some b.vals[i], ?_, by rw [hl] at hrow; exact hrow⟩
    have l1' : a.seconds.vals.length = a.days.vals.length := hw.len1
    have l2' : a.subsecond.vals.length = a.days.vals.length := hw.len2
    have i0 : i < a.days.vals.length := h
    obtain ⟨v0, hv0, hv0'⟩ := PArr.isValid_mask hw.days h
    rw [show a.days.vals.length = a.days.len from rfl, ← hm, hv2] at hv0'
    simp only [Option.some.injEq] at hv0'; subst hv0'
    obtain ⟨r, hr1, hr2⟩ := Res.mapM_eq_ok_getElem? hv (i := i)
      (List.getElem?_eq_getElem (by simp [l1', l2', i0]))
    simp only [List.getElem_zip] at hr2
    rw [List.getElem?_eq_getElem hi] at hr1
    simp only [Option.some.injEq] at hr1; subst hr1
    have n1 : ¬ (i ≥ a.seconds.len) := by rw [hw.len1]; exact hn
    have n2 : ¬ (i ≥ a.subsecond.len) := by rw [hw.len2]; exact hn
    have c0 : a.days.scalarAt i = .ok (some a.days.vals[i]) := by simp [PArr.scalarAt, hn, hv0, idx_lt i0]
    have c1 : a.seconds.scalarAt i = .ok (some (a.seconds.vals[i]'(by omega))) := by
      simp [PArr.scalarAt, n1, hw.sec, Validity.isValid, idx_lt (show i < a.seconds.vals.length by omega)]
    have c2 : a.subsecond.scalarAt i = .ok (some (a.subsecond.vals[i]'(by omega))) := by
      simp [PArr.scalarAt, n2, hw.sub, Validity.isValid, idx_lt (show i < a.subsecond.vals.length by omega)]
    simp [scalarAt, hn, hv1, divisor_ok hw.unit, c0, c1, c2, asI64, hr2]

/-- **C17.** The encoded column behaves like the original under `scalar_at`: the composition users see. -/
theorem C17_encoded_scalar_at (u : TimeUnit) (hu : u ≠ .d) (ts : PArr Int) (hw : ts.WF) (hr : ∀ t ∈ ts.vals, IsI64 t)
    (i : Nat) (hi : i < ts.len) : ∃ a r, encode u ts = .ok a ∧ scalarAt a i = .ok r ∧ ts.rows[i]? = some r := by
  refine ⟨encoded u ts, ?_⟩
  obtain ⟨r, h1, h2⟩ := (C17_scalar_at (encoded u ts) (encoded_WF hu hw) _ (decode_encoded hu hr) i).1
    (by simpa [encoded, PArr.len, PArr.map] using hi)
  refine ⟨r, encode_eq hu ts, h1, ?_⟩
  rw [rows_validity (encoded_WF hu hw) (by simp [encoded, PArr.len, PArr.map])] at h2
  exact h2

/-- **C17.** Slicing and taking from the encoded column read the original rows. -/
theorem C17_encoded_slice_take (u : TimeUnit) (hu : u ≠ .d) (ts : PArr Int) (hw : ts.WF) (hr : ∀ t ∈ ts.vals, IsI64 t) :
    ∃ a, encode u ts = .ok a ∧
      (∀ s e, InBounds ts.len s e → ∃ a' b', slice a s e = .ok a' ∧ decode a' = .ok b' ∧ b'.rows = Spec.slice ts.rows s e) ∧
      (∀ is : List Nat, (∀ i ∈ is, i < ts.len) → ∃ a' b', take a is = .ok a' ∧ decode a' = .ok b' ∧ b'.rows = Spec.take ts.rows is) := by
  have hl : (encoded u ts).days.len = ts.len := by simp [encoded, PArr.len, PArr.map]
  have hrow : (PArr.mk ts.vals (validity (encoded u ts))).rows = ts.rows := by
    rw [rows_validity (encoded_WF hu hw) (by simp [encoded, PArr.len, PArr.map])]; rfl
  refine ⟨_, encode_eq hu ts, fun s e h => ?_, fun is h => ?_⟩
  · obtain ⟨a', b', h1, _, h2, h3, _⟩ := C17_slice _ (encoded_WF hu hw) _ (decode_encoded hu hr) s e (by rw [hl]; exact h)
    exact ⟨a', b', h1, h2, by rw [h3, hrow]⟩
  · obtain ⟨a', b', h1, _, h2, h3, _⟩ := C17_take _ (encoded_WF hu hw) _ (decode_encoded hu hr) is (by rw [hl]; exact h)
    exact ⟨a', b', h1, h2, by rw [h3, hrow]⟩

/-! ### Non-vacuity: extreme and negative timestamps, with a null -/

def sample : PArr Int := ⟨[-9223372036854775808, 9223372036854775807, -1, 86400000000001, 0], .array [true, true, true, true, false]⟩

example : sample.WF := by decide
example : ∀ t ∈ sample.vals, IsI64 t := by decide
example : (encode .ns sample >>= decode) = .ok sample := by decide +kernel
example : split1 1000 (-1) = .ok (0, 0, -1) := by decide
example : (do let a ← encode .us sample; let a ← slice a 1 4; decode a) =
    .ok ⟨[9223372036854775807, -1, 86400000000001], .allValid⟩ := by decide +kernel
example : (do let a ← encode .ms sample; scalarAt a 4) = .ok none := by decide +kernel

end Vx.DateTimeParts
