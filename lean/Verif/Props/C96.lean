import Verif.Spec.PyScalar
import Verif.Props.C03
import Verif.Props.C85
/-! # C96: single values cross to Python and back unchanged -/
namespace Vx.PyScalar
open Vx.PyScalar.Spec Vx.Spec

variable {F : FloatOps} {toF : Int → Option (BitVec 64)}

theorem setItem_new (k : Str) (x : Obj) : ∀ (ks : List Str) (xs : List Obj), ks.length = xs.length → k ∉ ks →
    setItem k x ks xs = (ks ++ [k], xs ++ [x])
  | [], [], _, _ => rfl
  | [], _ :: _, h, _ => by simp at h
  | _ :: _, [], h, _ => by simp at h
  | k' :: ks, y :: xs, h, hk => by
    have ih := setItem_new k x ks xs (by simpa using h) (fun hm => hk (by simp [hm]))
    have hne : ¬ k' = k := fun e => hk (by simp [e])
    simp [setItem, hne, ih]

theorem num_shows (p : PValue) : numIntoPy F p = if p.pt.isFloat then .float (asDouble F p.pt p.bits) else .int p.toInt := by
  obtain ⟨pt, b⟩ := p
  cases pt <;> rfl

mutual
theorem value_shows (d : DType) (v : SV) (ht : HasType d v) (hd : Distinct d) : ∃ x, valueIntoPy F true v d = .ok x ∧ Shows F d v x := by
  match v with
  | .null => exact ⟨_, rfl, by simp [Shows]⟩
  | .bool b => exact ⟨_, rfl, by simp [Shows]⟩
  | .prim p => exact ⟨_, rfl, by simp only [Shows]; exact num_shows p⟩
  | .buffer bs => exact ⟨_, rfl, by simp [Shows]⟩
  | .str bs => exact ⟨_, rfl, by simp [Shows]⟩
  | .list vs =>
    match d with
    | .list e n =>
      simp only [HasType] at ht
      simp only [Distinct] at hd
      obtain ⟨xs, h1, h2⟩ := elems_show e vs ht hd
      exact ⟨.list xs, by simp only [valueIntoPy, if_true, h1, Res.bind], by simp only [Shows]; exact ⟨xs, rfl, h2⟩⟩
    | .struct ns ds n =>
      simp only [HasType] at ht
      simp only [Distinct] at hd
      obtain ⟨xs, h1, h2⟩ := fields_show ds vs ht hd.2.2 ns hd.2.1 [] [] (by simpa using hd.1) rfl
      exact ⟨.dict ns xs, by simp only [valueIntoPy, if_true, h1, Res.bind, List.nil_append], by simp only [Shows]; exact ⟨xs, rfl, h2⟩⟩
    | .null => simp [HasType] at ht
    | .bool _ => simp [HasType] at ht
    | .prim _ _ => simp [HasType] at ht
    | .utf8 _ => simp [HasType] at ht
    | .binary _ => simp [HasType] at ht
    | .ext _ _ _ => simp [HasType] at ht
theorem elems_show (d : DType) (vs : List SV) (ht : AllHaveType d vs) (hd : Distinct d) :
    ∃ xs, elemsIntoPy F true vs d = .ok xs ∧ ShowsAll F d vs xs := by
  match vs with
  | [] => exact ⟨[], rfl, by simp [ShowsAll]⟩
  | v :: vs =>
    simp only [AllHaveType] at ht
    obtain ⟨x, h1, h2⟩ := value_shows d v ht.1 hd
    obtain ⟨xs, h3, h4⟩ := elems_show d vs ht.2 hd
    exact ⟨x :: xs, by simp only [elemsIntoPy, h1, h3, Res.bind], by simp only [ShowsAll]; exact ⟨x, xs, rfl, h2, h4⟩⟩
theorem fields_show (ds : List DType) (vs : List SV) (ht : HaveTypes ds vs) (hd : DistinctAll ds) (ns : List Str) (hn : ns.length = ds.length)
    (ks : List Str) (acc : List Obj) (hk : (ks ++ ns).Nodup) (hl : ks.length = acc.length) :
    ∃ xs, fieldsIntoPy F true (ks, acc) vs ns ds = .ok (ks ++ ns, acc ++ xs) ∧ ShowsFields F ds vs xs := by
  match vs with
  | [] =>
    simp only [HaveTypes] at ht
    subst ht
    have : ns = [] := by simpa using hn
    subst this
    exact ⟨[], by simp [fieldsIntoPy], by simp [ShowsFields]⟩
  | v :: vs =>
    match ds, ns with
    | [], _ => simp [HaveTypes] at ht
    | _ :: _, [] => simp at hn
    | d :: ds, n :: ns =>
      simp only [HaveTypes] at ht
      simp only [DistinctAll] at hd
      obtain ⟨x, h1, h2⟩ := value_shows d v ht.1 hd.1
      have hnot : n ∉ ks := by
        intro hm
        have := (List.nodup_append.mp hk).2.2 n hm n (by simp)
        exact this rfl
      obtain ⟨xs, h3, h4⟩ := fields_show ds vs ht.2 hd.2 ns (by simpa using hn) (ks ++ [n]) (acc ++ [x]) (by simpa using hk) (by simp [hl])
      refine ⟨x :: xs, ?_, ?_⟩
      · simp only [fieldsIntoPy, h1, Res.bind, setItem_new n x ks acc hl hnot, h3]
        simp
      · simp only [ShowsFields]
        exact ⟨d, ds, x, xs, rfl, rfl, h2, h4⟩
end

/-- Copying a value into Python gives exactly the plain Python object for it, at every depth. Types with a repeated field name are left out. -/
theorem C96_copied_partial (d : DType) (v : SV) (ht : HasType d v) (hd : Distinct d) :
    ∃ x, valueIntoPy F true v d = .ok x ∧ Shows F d v x := value_shows d v ht hd

/-! ### views -/

theorem setItem_unwraps (k : Str) {x y : Obj} (hx : Unwraps F x y) : ∀ (ks : List Str) (xs ys : List Obj), UnwrapsAll F xs ys →
    ∃ ks' xs' ys', setItem k x ks xs = (ks', xs') ∧ setItem k y ks ys = (ks', ys') ∧ UnwrapsAll F xs' ys'
  | [], _, _, _ => ⟨[k], [x], [y], by simp [setItem], by simp [setItem], .cons hx .nil⟩
  | _ :: _, _, _, .nil => ⟨[k], [x], [y], by simp [setItem], by simp [setItem], .cons hx .nil⟩
  | k' :: ks, a :: xs, b :: ys, .cons h hs => by
    by_cases he : k' = k
    · exact ⟨k' :: ks, x :: xs, y :: ys, by simp [setItem, he], by simp [setItem, he], .cons hx hs⟩
    · obtain ⟨ks', xs', ys', h1, h2, h3⟩ := setItem_unwraps k hx ks xs ys hs
      exact ⟨k' :: ks', a :: xs', b :: ys', by simp [setItem, he, h1], by simp [setItem, he, h2], .cons h h3⟩

theorem num_unwraps (p : PValue) : Unwraps F (numIntoPy F p) (numIntoPy F p) := by
  obtain ⟨pt, b⟩ := p
  cases pt <;> first | exact .int _ | exact .float _

mutual
theorem view_unwraps (d : DType) (v : SV) (y : Obj) (h : valueIntoPy F true v d = .ok y) :
    ∃ x, valueIntoPy F false v d = .ok x ∧ Unwraps F x y := by
  match v with
  | .null => cases h; exact ⟨_, rfl, .none⟩
  | .bool b => cases h; exact ⟨_, rfl, .bool b⟩
  | .prim p => cases h; exact ⟨_, rfl, num_unwraps p⟩
  | .buffer bs => cases h; exact ⟨_, rfl, .view (x' := .bytes bs) rfl (.bytes bs)⟩
  | .str bs => cases h; exact ⟨_, rfl, .view (x' := .str bs) rfl (.str bs)⟩
  | .list vs =>
    match d with
    | .list e n =>
      simp only [valueIntoPy, if_true] at h
      cases h1 : elemsIntoPy F true vs e with
      | ok ys =>
        simp only [h1, Res.bind, Res.ok.injEq] at h
        subst h
        obtain ⟨xs, h2, h3⟩ := views_unwrap e vs ys h1
        exact ⟨_, rfl, .view (x' := .list xs) (by simp only [intoPython, h2, Res.bind]) (.list h3)⟩
      | err => simp [h1, Res.bind] at h
      | panic => simp [h1, Res.bind] at h
    | .struct ns ds n =>
      simp only [valueIntoPy, if_true] at h
      cases h1 : fieldsIntoPy F true ([], []) vs ns ds with
      | ok r =>
        simp only [h1, Res.bind, Res.ok.injEq] at h
        subst h
        obtain ⟨xs, h2, h3⟩ := fields_unwrap ds vs ns [] [] [] .nil r h1
        exact ⟨_, rfl, .view (x' := .dict r.1 xs) (by simp only [intoPython, h2, Res.bind]) (.dict h3)⟩
      | err => simp [h1, Res.bind] at h
      | panic => simp [h1, Res.bind] at h
    | .null => simp [valueIntoPy] at h
    | .bool _ => simp [valueIntoPy] at h
    | .prim _ _ => simp [valueIntoPy] at h
    | .utf8 _ => simp [valueIntoPy] at h
    | .binary _ => simp [valueIntoPy] at h
    | .ext _ _ _ => simp [valueIntoPy] at h
theorem views_unwrap (d : DType) (vs : List SV) (ys : List Obj) (h : elemsIntoPy F true vs d = .ok ys) :
    ∃ xs, elemsIntoPy F false vs d = .ok xs ∧ UnwrapsAll F xs ys := by
  match vs with
  | [] => cases h; exact ⟨[], rfl, .nil⟩
  | v :: vs =>
    simp only [elemsIntoPy] at h
    cases h1 : valueIntoPy F true v d with
    | ok y =>
      cases h2 : elemsIntoPy F true vs d with
      | ok ys' =>
        simp only [h1, h2, Res.bind, Res.ok.injEq] at h
        subst h
        obtain ⟨x, h3, h4⟩ := view_unwraps d v y h1
        obtain ⟨xs, h5, h6⟩ := views_unwrap d vs ys' h2
        exact ⟨x :: xs, by simp only [elemsIntoPy, h3, h5, Res.bind], .cons h4 h6⟩
      | err => simp [h1, h2, Res.bind] at h
      | panic => simp [h1, h2, Res.bind] at h
    | err => simp [h1, Res.bind] at h
    | panic => simp [h1, Res.bind] at h
theorem fields_unwrap (ds : List DType) (vs : List SV) (ns : List Str) (ks : List Str) (xs ys : List Obj) (ha : UnwrapsAll F xs ys)
    (r : List Str × List Obj) (h : fieldsIntoPy F true (ks, ys) vs ns ds = .ok r) :
    ∃ zs, fieldsIntoPy F false (ks, xs) vs ns ds = .ok (r.1, zs) ∧ UnwrapsAll F zs r.2 := by
  match vs with
  | [] =>
    simp only [fieldsIntoPy, Res.ok.injEq] at h
    subst h
    exact ⟨xs, by simp only [fieldsIntoPy], ha⟩
  | v :: vs =>
    match ns, ds with
    | [], _ =>
      simp only [fieldsIntoPy, Res.ok.injEq] at h
      subst h
      exact ⟨xs, by simp only [fieldsIntoPy], ha⟩
    | _ :: _, [] =>
      simp only [fieldsIntoPy, Res.ok.injEq] at h
      subst h
      exact ⟨xs, by simp only [fieldsIntoPy], ha⟩
    | n :: ns, d :: ds =>
      simp only [fieldsIntoPy] at h
      cases h1 : valueIntoPy F true v d with
      | ok y =>
        simp only [h1, Res.bind] at h
        obtain ⟨x, h2, h3⟩ := view_unwraps d v y h1
        obtain ⟨ks', xs', ys', e1, e2, e3⟩ := setItem_unwraps n h3 ks xs ys ha
        rw [e2] at h
        obtain ⟨zs, h4, h5⟩ := fields_unwrap ds vs ns ks' xs' ys' e3 r h
        exact ⟨zs, by simp only [fieldsIntoPy, h2, Res.bind, e1, h4], h5⟩
      | err => simp [h1, Res.bind] at h
      | panic => simp [h1, Res.bind] at h
end

/-- What `scalar_at` hands out shares the array's memory; unwrapping it layer by layer ends in the very object a full copy gives. -/
theorem C96_views (d : DType) (v : SV) (y : Obj) (h : valueIntoPy F true v d = .ok y) :
    ∃ x, valueIntoPy F false v d = .ok x ∧ Unwraps F x y := view_unwraps d v y h

/-- So does one call of `into_python(recursive=True)`, if the object is a view at all; if not it is already the copy. -/
theorem C96_recursive (d : DType) (v : SV) (x : Obj) (h : valueIntoPy F false v d = .ok x) :
    valueIntoPy F true v d = .ok x ∨ intoPython F true x = valueIntoPy F true v d := by
  match v with
  | .null => left; simpa [valueIntoPy] using h
  | .bool b => left; simpa [valueIntoPy] using h
  | .prim p => left; simpa [valueIntoPy] using h
  | .buffer bs => cases h; right; rfl
  | .str bs => cases h; right; rfl
  | .list vs =>
    match d with
    | .list e n => simp [valueIntoPy] at h; subst h; right; simp [intoPython, valueIntoPy]
    | .struct ns ds n => simp [valueIntoPy] at h; subst h; right; simp [intoPython, valueIntoPy]
    | .null => simp [valueIntoPy] at h
    | .bool _ => simp [valueIntoPy] at h
    | .prim _ _ => simp [valueIntoPy] at h
    | .utf8 _ => simp [valueIntoPy] at h
    | .binary _ => simp [valueIntoPy] at h
    | .ext _ _ _ => simp [valueIntoPy] at h

/-- Rows of arrays of nested encodings: `array.scalar_at(i)` gives row `i`, which unwraps to the plain Python object for it. Negative indices and
indices past the end are errors. -/
theorem C96_scalar_at_partial {L : Type} {env : Tree.Env L} {leafRows : L → List SV} {ok : L → Prop} (hl : Tree.LeafLaws env leafRows ok)
    (a : Tree.Arr L) (hw : Tree.WF env leafRows ok a) (hr : Tree.Regular env leafRows true a)
    (ht : ∀ v ∈ Tree.rows env leafRows a, HasType (Tree.dtype env a) v) (hd : Distinct (Tree.dtype env a))
    (hlen : (Tree.rows env leafRows a).length < 2 ^ 64) (i : Int) :
    match (if 0 ≤ i then (Tree.rows env leafRows a)[i.toNat]? else none) with
    | some v => ∃ x y, scalarAt env F a i = .ok x ∧ Unwraps F x y ∧ Shows F (Tree.dtype env a) v y
    | none => scalarAt env F a i = .err := by
  by_cases h0 : 0 ≤ i
  · simp only [if_pos h0]
    have hs := Tree.C03_scalar_at_partial hl a hw hr i.toNat
    cases hrow : (Tree.rows env leafRows a)[i.toNat]? with
    | some v =>
      simp only [hrow] at hs ⊢
      obtain ⟨hi, hv⟩ := List.getElem?_eq_some_iff.mp hrow
      obtain ⟨y, h1, h2⟩ := C96_copied_partial (F := F) _ v (ht v (hv ▸ List.getElem_mem hi)) hd
      obtain ⟨x, h3, h4⟩ := C96_views _ v y h1
      refine ⟨x, y, ?_, h4, h2⟩
      unfold scalarAt
      rw [if_pos ⟨h0, by omega⟩, hs]
      exact h3
    | none =>
      simp only [hrow] at hs ⊢
      unfold scalarAt
      rw [hs]
      split <;> rfl
  · simp only [if_neg h0]
    unfold scalarAt
    rw [if_neg (fun h => h0 h.1)]

/-! ### literals -/

theorem inRange_toInt {p : PType} {z : Int} (h : p.inRange z = true) : (PValue.mk p (BitVec.ofInt p.bits z)).toInt = z :=
  (PValue.intCast_some (q := p) (v := z) (by simp [intCast, h])).2

/-- A literal has the type it was asked for. -/
theorem C96_literal_typed (d : DType) (x : Obj) (s : Scalar) (h : literal F toF d x = .ok s) : s.dtype = d ∧ HasType d s.value := by
  unfold literal at h
  cases hv : scalarValue F toF d x with
  | err => simp [hv, Res.bind] at h
  | panic => simp [hv, Res.bind] at h
  | ok v =>
    simp only [hv, Res.bind, Res.ok.injEq] at h
    subst h
    refine ⟨rfl, ?_⟩
    simp only
    induction d using DType.rec (motive_2 := fun _ => True) generalizing v with
    | null => cases x <;> simp_all [scalarValue] <;> subst hv <;> simp [HasType, DType.isNullable]
    | bool n => cases x <;> simp_all [scalarValue] <;> subst hv <;> simp [HasType]
    | utf8 n => cases x <;> simp_all [scalarValue] <;> subst hv <;> simp [HasType]
    | binary n => cases x <;> simp_all [scalarValue] <;> subst hv <;> simp [HasType]
    | struct ns ds n => simp [scalarValue] at hv
    | ext i m n => simp [scalarValue] at hv
    | prim p n =>
      simp only [scalarValue] at hv
      cases hn : numOfPy F toF p x with
      | err => simp [hn, Res.bind] at hv
      | panic => simp [hn, Res.bind] at hv
      | ok q =>
        simp only [hn, Res.bind, Res.ok.injEq] at hv
        subst hv
        simp only [HasType]
        have hi : ∀ r, extractInt p x = .ok r → r.pt = p := by
          intro r hr
          cases x <;> simp only [extractInt] at hr
          case int z => split at hr <;> cases hr; rfl
          case bool b => cases hr; rfl
          all_goals cases hr
        cases p <;> simp only [numOfPy] at hn
        all_goals first
          | exact hi q hn
          | (cases he : extractFloat toF x <;> simp only [he, Res.bind] at hn <;> cases hn; rfl)
    | list e n ih =>
      simp only [scalarValue] at hv
      cases x
      case list xs =>
        simp only at hv
        cases hw : scalarValue F toF e (.list xs) with
        | err => simp [hw, Res.bind] at hv
        | panic => simp [hw, Res.bind] at hv
        | ok w =>
          simp only [hw, Res.bind, Res.ok.injEq] at hv
          subst hv
          simp only [HasType, AllHaveType, and_true]
          exact ih w hw
      all_goals
        simp only [Res.ok.injEq] at hv
        subst hv
        simp [HasType, AllHaveType]
    | nil => trivial
    | cons => trivial

theorem num_of_int {p : PType} (hp : p.isFloat = false) (z : Int) : numOfPy F toF p (.int z) = extractInt p (.int z) := by
  cases p <;> first | rfl | cases hp
theorem num_of_f16 (b : BitVec 64) : numOfPy F toF .f16 (.float b) = .ok ⟨.f16, F.f2f .f32 .f16 (F.f2f .f64 .f32 b)⟩ := rfl
theorem num_of_f32 (b : BitVec 64) : numOfPy F toF .f32 (.float b) = .ok ⟨.f32, F.f2f .f64 .f32 b⟩ := rfl
theorem num_of_f64 (b : BitVec 64) : numOfPy F toF .f64 (.float b) = .ok ⟨.f64, b⟩ := rfl

/-- Integers: the literal is the number itself if the type holds it; otherwise there is none. -/
theorem C96_int_literal (p : PType) (n : Bool) (z : Int) (hp : p.isFloat = false) :
    (p.inRange z = true → ∃ q : PValue, literal F toF (.prim p n) (.int z) = .ok ⟨.prim p n, .prim q⟩ ∧ q.pt = p ∧ q.toInt = z) ∧
    (p.inRange z = false → literal F toF (.prim p n) (.int z) = .err) := by
  have hn := num_of_int (F := F) (toF := toF) hp z
  refine ⟨fun h => ⟨⟨p, BitVec.ofInt p.bits z⟩, ?_, rfl, inRange_toInt h⟩, fun h => ?_⟩
  · simp only [literal, scalarValue, hn, extractInt, h, if_true, Res.bind]
  · simp [literal, scalarValue, hn, extractInt, h, Res.bind]

/-- The conversion between `f16` and `f32` loses nothing on the way up. -/
structure ExactHalf (F : FloatOps) : Prop where
  narrow_widen : ∀ b : BitVec 16, PValue.fmt16.isNaN b = false → f32.isNaN (F.f2f .f16 .f32 b) = false ∧ F.f2f .f32 .f16 (F.f2f .f16 .f32 b) = b

/-- Types that are not composed of others. -/
def Flat : DType → Prop
  | .struct _ _ _ | .list _ _ | .ext _ _ _ => False
  | _ => True

/-- A NaN in a type narrower than Python's. -/
def NarrowNaN (p : PValue) : Prop := (∃ b, p = ⟨.f16, b⟩ ∧ PValue.fmt16.isNaN b = true) ∨ ∃ b, p = ⟨.f32, b⟩ ∧ f32.isNaN b = true

/-- Reading a value into Python and making a literal of it at the same type gives the value back. Left out: nulls of other types than `null`
(`C96_none_refused`), composed types, and narrow NaNs. -/
theorem C96_round_trip_partial (hF : ExactFloats F) (hH : ExactHalf F) (d : DType) (v : SV) (x : Obj) (hf : Flat d) (ht : HasType d v)
    (hn : v = .null → d = .null) (hx : ∀ p, v = .prim p → ¬ NarrowNaN p) (h : valueIntoPy F true v d = .ok x) :
    literal F toF d x = .ok ⟨d, v⟩ := by
  match v with
  | .null => obtain rfl := hn rfl; cases h; rfl
  | .bool b => cases d <;> simp [HasType, Flat] at ht hf; cases h; rfl
  | .buffer b => cases d <;> simp [HasType, Flat] at ht hf; cases h; rfl
  | .str b => cases d <;> simp [HasType, Flat] at ht hf; cases h; rfl
  | .list vs => cases d <;> simp [HasType, Flat] at ht hf
  | .prim p =>
    cases d <;> simp [HasType, Flat] at ht hf
    case prim q n =>
      subst ht
      cases h
      have hall : numOfPy F toF p.pt (numIntoPy F p) = .ok p := by
        cases hfl : p.pt.isFloat with
        | false =>
          rw [num_shows, hfl, if_neg (by simp), num_of_int hfl]
          have h2 := PValue.inRange_toInt p
          have h3 := PValue.intCast_self p
          simp only [intCast, h2, if_true, Option.some.injEq] at h3
          simp only [extractInt, h2, if_true, h3]
        | true =>
          obtain ⟨pt, b⟩ := p
          cases pt with
          | f16 =>
            have hb : PValue.fmt16.isNaN b = false := by
              cases hb : PValue.fmt16.isNaN b with
              | false => rfl
              | true => exact absurd (.inl ⟨b, rfl, hb⟩) (hx _ rfl)
            obtain ⟨g1, g2⟩ := hH.narrow_widen b hb
            refine (num_of_f16 (F := F) (toF := toF) (F.f2f .f32 .f64 (F.f2f .f16 .f32 b))).trans ?_
            rw [hF.narrow_widen _ g1, g2]
          | f32 =>
            have hb : f32.isNaN b = false := by
              cases hb : f32.isNaN b with
              | false => rfl
              | true => exact absurd (.inr ⟨b, rfl, hb⟩) (hx _ rfl)
            refine (num_of_f32 (F := F) (toF := toF) (F.f2f .f32 .f64 b)).trans ?_
            rw [hF.narrow_widen _ hb]
          | f64 => exact num_of_f64 b
          | _ => simp [PType.isFloat] at hfl
      simp only [literal, scalarValue, hall, Res.bind]

/-- An operand that is not an expression becomes a literal that says the same — unless it is a boolean. -/
theorem C96_operand_partial (x : Obj) (hb : ∀ b, x ≠ .bool b) (s : Scalar) (h : coerce F toF x = .ok s) : Shows F s.dtype s.value x := by
  cases x with
  | none => cases h; simp [Shows]
  | bool b => exact absurd rfl (hb b)
  | int z =>
    have h1 := C96_int_literal (F := F) (toF := toF) .i64 false z rfl
    change literal F toF (.prim .i64 false) (.int z) = .ok s at h
    cases hz : PType.i64.inRange z with
    | true =>
      obtain ⟨q, h2, h3, h4⟩ := h1.1 hz
      rw [h2] at h
      cases h
      simp only [Shows, h3, PType.isFloat, h4, Bool.false_eq_true, if_false]
    | false => rw [h1.2 hz] at h; cases h
  | float b =>
    have h1 : coerce F toF (.float b) = .ok ⟨.prim .f64 false, .prim ⟨.f64, b⟩⟩ := by
      simp only [coerce, literal, scalarValue, num_of_f64, Res.bind]
    rw [h1] at h
    injection h with h
    rw [← h]
    simp only [Shows]
    exact (num_shows (F := F) ⟨.f64, b⟩)
  | str b => cases h; simp [Shows]
  | bytes b => cases h; simp [Shows]
  | _ => cases h

/-- Every `None`, `float`, `str`, `bytes`, and every `int` of 64 bits is accepted as an operand; other integers and other objects are refused. -/
theorem C96_operand_accepted (x : Obj) : (∃ s, coerce F toF x = .ok s) ↔
    match x with
    | .none | .bool _ | .float _ | .str _ | .bytes _ => True
    | .int z => -2 ^ 63 ≤ z ∧ z < 2 ^ 63
    | _ => False := by
  cases x with
  | none => exact ⟨fun _ => trivial, fun _ => ⟨_, rfl⟩⟩
  | bool b => exact ⟨fun _ => trivial, fun _ => ⟨_, rfl⟩⟩
  | str b => exact ⟨fun _ => trivial, fun _ => ⟨_, rfl⟩⟩
  | bytes b => exact ⟨fun _ => trivial, fun _ => ⟨_, rfl⟩⟩
  | float b =>
    refine ⟨fun _ => trivial, fun _ => ⟨⟨.prim .f64 false, .prim ⟨.f64, b⟩⟩, ?_⟩⟩
    simp only [coerce, literal, scalarValue, num_of_f64, Res.bind]
  | int z =>
    have h1 := C96_int_literal (F := F) (toF := toF) .i64 false z rfl
    have h2 : coerce F toF (.int z) = literal F toF (.prim .i64 false) (.int z) := rfl
    have h3 : PType.i64.inRange z = true ↔ -2 ^ 63 ≤ z ∧ z < 2 ^ 63 := by
      simp only [PType.inRange, PType.isSigned, PType.bits, if_true]
      exact decide_eq_true_iff
    rw [h2]
    show _ ↔ (-2 ^ 63 ≤ z ∧ z < 2 ^ 63)
    rw [← h3]
    cases hz : PType.i64.inRange z with
    | true =>
      obtain ⟨q, h4, _⟩ := h1.1 hz
      exact ⟨fun _ => rfl, fun _ => ⟨_, h4⟩⟩
    | false =>
      rw [h1.2 hz]
      simp
  | _ => simp [coerce]

/-! ### where the code is wrong -/

/-- A boolean operand is not a boolean: `column("b") == True` compares with the number one. -/
theorem C96_bool_operand (b : Bool) : coerce F toF (.bool b) = .ok ⟨.prim .i64 false, .prim ⟨.i64, if b then 1 else 0⟩⟩ := by
  cases b <;> rfl

/-- `None` is refused as a value of a nullable type. -/
theorem C96_none_refused (d : DType) (hf : Flat d) (hd : d ≠ .null) : literal F toF d .none = .err := by
  cases d <;> simp [Flat] at hf hd
  case prim p n => cases p <;> rfl
  all_goals rfl

/-- A literal of a list type made from anything but a list is the empty list. -/
theorem C96_list_literal_empty (e : DType) (n : Bool) (x : Obj) (hx : ∀ xs, x ≠ .list xs) : literal F toF (.list e n) x = .ok ⟨.list e n, .list []⟩ := by
  cases x <;> first | rfl | exact absurd rfl (hx _)

/-- No list can be made a literal, not even the empty one. -/
theorem C96_list_literal_fails (d : DType) (xs : List Obj) (s : Scalar) : literal F toF d (.list xs) ≠ .ok s := by
  intro h
  unfold literal at h
  cases hv : scalarValue F toF d (.list xs) with
  | err => simp [hv, Res.bind] at h
  | panic => simp [hv, Res.bind] at h
  | ok v =>
    clear h
    induction d using DType.rec (motive_2 := fun _ => True) generalizing v with
    | prim p n => cases p <;> simp [scalarValue, numOfPy, extractInt, extractFloat, Res.bind] at hv
    | list e n ih =>
      simp only [scalarValue] at hv
      cases hw : scalarValue F toF e (.list xs) with
      | err => simp [hw, Res.bind] at hv
      | panic => simp [hw, Res.bind] at hv
      | ok w => exact ih w hw
    | nil => trivial
    | cons => trivial
    | _ => simp [scalarValue] at hv

/-- Literals of struct and extension types abort. -/
theorem C96_struct_literal_aborts (ns : List Str) (ds : List DType) (n : Bool) (i : Str) (m : Option (List UInt8)) (x : Obj) :
    literal F toF (.struct ns ds n) x = .panic ∧ literal F toF (.ext i m n) x = .panic := ⟨rfl, rfl⟩

/-- Reading a row of an extension type whose storage is a list or struct aborts. -/
theorem C96_extension_list_aborts (copy : Bool) (i : Str) (m : Option (List UInt8)) (n : Bool) (vs : List SV) :
    valueIntoPy F copy (.list vs) (.ext i m n) = .panic := by simp [valueIntoPy]

/-- Of two fields with the same name only the last is in the dict. -/
theorem C96_repeated_name_lost (k : Str) (n : Bool) (a b : Bool) :
    valueIntoPy F true (.list [.bool a, .bool b]) (.struct [k, k] [.bool n, .bool n] n) = .ok (.dict [k] [.bool b]) := by
  simp [valueIntoPy, fieldsIntoPy, setItem, Res.bind]

/-! ### the hypotheses can be met -/

example : Distinct exStoredType := by simp [exStoredType, Distinct, DistinctAll]
example : ∃ x, valueIntoPy exFloats true exStored exStoredType = .ok (.dict [['a'], ['b'], ['c']] x) := by
  exact ⟨[.list [.float 0x3ff0000000000000#64, .none], .str [104, 105], .int (-200)], by
    simp [exStored, exStoredType, valueIntoPy, fieldsIntoPy, elemsIntoPy, setItem, Res.bind, numIntoPy]⟩
example : PType.i8.inRange (-128) = true ∧ PType.i8.inRange 128 = false := by decide
example : Flat (.prim .i8 true) ∧ HasType (.prim .i8 true) (.prim ⟨.i8, 0x80#8⟩) ∧ ¬ NarrowNaN ⟨.i8, 0x80#8⟩ := by
  refine ⟨trivial, rfl, ?_⟩
  rintro (⟨b, h, _⟩ | ⟨b, h, _⟩) <;> exact absurd (congrArg PValue.pt h) (by simp)

/-- The chunked tree of dictionary, run-end and frame-of-reference columns of `C03`: every row comes out of Python's `scalar_at`. -/
example (F : FloatOps) (i : Int) : match (if 0 ≤ i then (Tree.rows Tree.noLeaves Tree.noRows Tree.exTree)[i.toNat]? else none) with
    | some v => ∃ x y, scalarAt Tree.noLeaves F Tree.exTree i = .ok x ∧ Unwraps F x y ∧ Shows F (Tree.dtype Tree.noLeaves Tree.exTree) v y
    | none => scalarAt Tree.noLeaves F Tree.exTree i = .err := by
  have hd : Tree.dtype Tree.noLeaves Tree.exTree = .struct [['a'], ['b']] [.prim .i32 true, .prim .i32 false] true := rfl
  refine C96_scalar_at_partial Tree.noLeaves_ok Tree.exTree Tree.exTree_WF Tree.exTree_Regular ?_ ?_ ?_ i
  · rw [Tree.exTree_rows, hd]
    simp [HasType, HaveTypes, DType.isNullable, Tree.i32]
  · rw [hd]
    simp [Distinct, DistinctAll]
  · rw [Tree.exTree_rows]
    decide

/-- Conversions that satisfy both assumptions (not the IEEE ones). -/
def exHalf : FloatOps where
  f2f := fun p q => match p, q with
    | .f16, .f32 => fun b => b.setWidth 32
    | .f32, .f16 => fun b => b.setWidth 16
    | p, q => exFloats.f2f p q
  i2f := exFloats.i2f
  trunc := exFloats.trunc

example : ExactFloats exHalf := ⟨exFloats_exact.narrow_widen, exFloats_exact.exact⟩
example : ExactHalf exHalf where
  narrow_widen := fun b _ => by
    refine ⟨?_, ?_⟩
    · show f32.isNaN (b.setWidth 32) = false
      have hb := b.isLt
      have hm : f32.mag (b.setWidth 32) ≤ b.toNat := by
        show (b.setWidth 32).toNat % 2 ^ 31 ≤ b.toNat
        have : (b.setWidth 32).toNat ≤ b.toNat := by
          rw [BitVec.toNat_setWidth]
          exact Nat.mod_le _ _
        exact Nat.le_trans (Nat.mod_le _ _) this
      refine decide_eq_false ?_
      show ¬ (2 ^ 8 - 1) * 2 ^ 23 < f32.mag (b.setWidth 32)
      have hb' : b.toNat < 65536 := hb
      omega
    · show (b.setWidth 32).setWidth 16 = b
      ext i hi
      simp [hi]

end Vx.PyScalar
