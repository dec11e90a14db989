import Verif.Model.ALPCompare
import Verif.Props.C11
import Verif.Props.C24
/-! # C12: comparing ALP arrays

The full claim, "for every ALP array, constant and operator the result is the comparison of the decoded rows", is false of the code;
below are the cases in which it holds and a counterexample for every other one. -/

namespace Vx.ALP
open Spec

variable {F I : Type} {enc1 : F → I} {dec : I → F} {fcmp : F → F → Option Ordering} {icmp : I → I → Option Ordering} {d : F}

/-- What the float comparison must satisfy (IEEE does): `==` is transitive and symmetric, and equal floats encode to the same integer;
the integers are totally ordered. -/
structure Laws (enc1 : F → I) (fcmp : F → F → Option Ordering) (icmp : I → I → Option Ordering) : Prop where
  sym : ∀ a b, fcmp a b = some .eq → fcmp b a = some .eq
  trans : ∀ a b c, fcmp a b = some .eq → fcmp b c = some .eq → fcmp a c = some .eq
  enc : ∀ a b, fcmp a b = some .eq → enc1 a = enc1 b
  int : ∀ a b, icmp a b = some .eq ↔ a = b

/-- The float `!=` that decides what becomes a patch. -/
def neOf (fcmp : F → F → Option Ordering) (a b : F) : Bool := fcmp a b != some .eq

theorem rows_nopatch (a : Arr F I) (hp : a.patches = none) (hw : WF a) : rows dec a = a.encoded.rows.map (fun r => r.map dec) := by
  apply List.ext_getElem?
  intro j
  have hl := PArr.rows_len hw.encoded
  by_cases hj : j < a.encoded.len
  · rw [rows, List.getElem?_zipWith, patchRows, hp, List.getElem?_map, List.getElem?_eq_getElem (show j < a.encoded.rows.length by omega)]
    simp only [List.getElem?_replicate, hj, if_true]
    cases a.encoded.rows[j] <;> rfl
  · rw [List.getElem?_eq_none (by rw [rows_length hw]; omega), List.getElem?_eq_none (by simp; omega)]

theorem cmpRows_map {p : F → F → Bool} {q : I → I → Bool} (rs : List (Option I)) (v : F) (e : I) (n : Nat)
    (h : ∀ x, some x ∈ rs → q x e = p (dec x) v) :
    cmpRows q rs (List.replicate n (some e)) = cmpRows p (rs.map (fun r => r.map dec)) (List.replicate n (some v)) := by
  induction rs generalizing n with
  | nil => simp [cmpRows]
  | cons r rs ih =>
    cases n with
    | zero => simp [cmpRows]
    | succ n =>
      have := ih n (fun x hx => h x (by simp [hx]))
      simp only [cmpRows, List.replicate_succ, List.map_cons, List.zipWith_cons_cons] at this ⊢
      rw [this]
      congr 1
      cases r with
      | none => rfl
      | some x => simp [cmpRow, h x (by simp)]

/-- Every stored integer of an array without patches that `alpEncode` built encodes a float equal to what it decodes to. -/
theorem stored_encodes {size : Nat} (hs : 0 < size) (src : PArr F) (arr : Arr F I)
    (h : alpEncode enc1 dec (neOf fcmp) size src = .ok arr) (hp : arr.patches = none) :
    ∀ e ∈ arr.encoded.vals, ∃ x, e = enc1 x ∧ fcmp (dec e) x = some .eq := by
  obtain ⟨st, h1, h2⟩ := encode_ok (enc1 := enc1) (dec := dec) (ne := neOf fcmp) hs src.vals
  simp only [alpEncode, h1, Res.ok_bind, Res.bind_eq_ok] at h
  obtain ⟨p, hmk, h⟩ := h
  have hpn : p = none := by
    cases p with
    | none => rfl
    | some s =>
      simp only [tryNew, Res.bind_eq_ok] at h
      obtain ⟨_, _, h⟩ := h
      cases h; cases hp
  subst hpn
  simp only [tryNew] at h
  cases h
  have hnil : st.pval = [] := by
    unfold mkPatches at hmk
    split at hmk
    · rename_i he; simpa using he
    · split at hmk <;> cases hmk
  intro e he
  obtain ⟨i, hi⟩ := List.mem_iff_getElem?.mp he
  simp only at hi
  obtain ⟨hlt, _⟩ := List.getElem?_eq_some_iff.mp hi
  have hlt' : i < src.vals.length := by rw [← h2.len]; exact hlt
  have hv : src.vals[i]? = some src.vals[i] := List.getElem?_eq_getElem hlt'
  have hne : neOf fcmp (dec (enc1 src.vals[i])) src.vals[i] = false := by
    cases hn : neOf fcmp (dec (enc1 src.vals[i])) src.vals[i] with
    | false => rfl
    | true =>
      have := mem_chunkPatches.mpr ⟨hv, hn⟩
      have hc : chunkPatches enc1 dec (neOf fcmp) 0 src.vals = [] := by
        have := h2.pval; rw [hnil] at this; exact List.map_eq_nil_iff.mp this.symm
      rw [hc] at this; cases this
  have hg := h2.good i _ hv hne
  rw [hi] at hg
  have he' := Option.some.inj hg
  subst he'
  refine ⟨src.vals[i], rfl, ?_⟩
  simpa [neOf] using hne

theorem mem_rows_vals {a : PArr α} {x : α} (h : some x ∈ a.rows) : x ∈ a.vals := by
  obtain ⟨i, hi⟩ := List.mem_iff_getElem?.mp h
  rw [PArr.rows, Vx.rows_getElem?] at hi
  split at hi
  · rename_i heq _
    simp at hi; subst hi
    exact List.mem_of_getElem? heq
  · cases hi
  · cases hi

/-- **C12 (`=`, `!=`).** An array the encoder built without patches, any constant the encoding can represent: the comparison of the
encoded integers is the comparison of the decoded floats, nulls included. -/
theorem C12_eq_partial (hl : Laws enc1 fcmp icmp) {acmp : F → F → Option Ordering} {size : Nat} (hs : 0 < size) (src : PArr F) (hw : src.WF) (arr : Arr F I)
    (h : alpEncode enc1 dec (neOf fcmp) size src = .ok arr) (hp : arr.patches = none) (v : F) (hv : fcmp (dec (enc1 v)) v = some .eq)
    (op : Op) (hop : op = .eq ∨ op = .notEq) :
    ∃ x, compareConst d enc1 dec fcmp icmp acmp arr (some v) op = .ok x ∧
      x.rows = cmpRows (fun a b => op.holds (fcmp a b)) (rows dec arr) (List.replicate (rows dec arr).length (some v)) := by
  obtain ⟨arr', b, h1, hwf, _⟩ := C11_roundtrip_upto enc1 dec (neOf fcmp) size hs src hw
  rw [h] at h1
  obtain rfl := Res.ok.inj h1
  obtain ⟨x, hx1, _, hx3⟩ := Compare.C24_primitive_const icmp op arr.encoded hwf.encoded (enc1 v)
  refine ⟨x, by simp [compareConst, scalarCompare, encodeSingle, hv, hx1], ?_⟩
  rw [hx3, rows_length hwf, rows_nopatch arr hp hwf]
  apply cmpRows_map
  intro e he
  obtain ⟨y, hy, hey⟩ := stored_encodes hs src arr h hp e (mem_rows_vals he)
  have key : icmp e (enc1 v) = some .eq ↔ fcmp (dec e) v = some .eq := by
    rw [hl.int]
    constructor
    · intro hee; rw [hee]; exact hv
    · intro hd
      rw [hy]
      exact hl.enc _ _ (hl.trans _ _ _ (hl.sym _ _ hey) hd)
  have hb : (icmp e (enc1 v) == some .eq) = (fcmp (dec e) v == some .eq) := by
    rw [Bool.eq_iff_iff]; simpa using key
  rcases hop with rfl | rfl
  · exact hb
  · simp only [Op.holds, bne, hb]

/-- **C12 (`=` with a constant the encoding cannot represent).** Without patches and nulls nothing is equal to it, as the code says. -/
theorem C12_eq_unrepresentable_partial (hl : Laws enc1 fcmp icmp) {acmp : F → F → Option Ordering} {size : Nat} (hs : 0 < size) (src : PArr F) (hw : src.WF)
    (arr : Arr F I) (h : alpEncode enc1 dec (neOf fcmp) size src = .ok arr) (hp : arr.patches = none) (v : F)
    (hv : fcmp (dec (enc1 v)) v ≠ some .eq) (hnn : ∀ r ∈ rows dec arr, r ≠ none) :
    ∃ x, compareConst d enc1 dec fcmp icmp acmp arr (some v) .eq = .ok x ∧
      x.rows = cmpRows (fun a b => Op.eq.holds (fcmp a b)) (rows dec arr) (List.replicate (rows dec arr).length (some v)) := by
  obtain ⟨arr', b, h1, hwf, _⟩ := C11_roundtrip_upto enc1 dec (neOf fcmp) size hs src hw
  rw [h] at h1
  obtain rfl := Res.ok.inj h1
  refine ⟨allFalse arr.encoded.len, by simp [compareConst, scalarCompare, encodeSingle, hv, hp], ?_⟩
  have hr : (allFalse arr.encoded.len).rows = List.replicate arr.encoded.len (some false) := by
    simp [allFalse, PArr.rows, mask, Spec.rows, List.zipWith_replicate]
  rw [hr, rows_length hwf]
  have hlen := rows_length (dec := dec) hwf
  rw [← hlen]
  symm
  rw [List.eq_replicate_iff]
  refine ⟨by simp [cmpRows], ?_⟩
  intro z hz
  obtain ⟨i, hi⟩ := List.mem_iff_getElem?.mp hz
  rw [cmpRows, List.getElem?_zipWith] at hi
  cases hri : (rows dec arr)[i]? with
  | none => rw [hri] at hi; simp at hi
  | some r =>
    have hil := (List.getElem?_eq_some_iff.mp hri).1
    rw [hri, List.getElem?_replicate, if_pos hil] at hi
    simp only [Option.some.injEq] at hi
    have hmem : r ∈ rows dec arr := List.mem_of_getElem? hri
    rw [rows_nopatch arr hp hwf] at hmem
    obtain ⟨q, hq, rfl⟩ := List.mem_map.mp hmem
    cases q with
    | none => exact absurd rfl (hnn _ (List.mem_of_getElem? hri))
    | some e =>
      obtain ⟨y, hy, hey⟩ := stored_encodes hs src arr h hp e (mem_rows_vals hq)
      rw [← hi]
      simp only [Option.map_some, cmpRow, Op.holds]
      congr 1
      rw [beq_eq_false_iff_ne]
      intro hd
      apply hv
      have : enc1 v = e := by
        rw [hy]; exact (hl.enc _ _ (hl.trans _ _ _ (hl.sym _ _ hey) hd)).symm
      rw [this]; exact hd

/-- **C12 (all operators).** If decoding is strictly increasing, comparison with a representable constant is right for every operator,
on every array without patches, however it came about (sliced, taken, filtered, ...). The constant must be exactly what its code decodes to, as a
float: `fcmp` cannot tell them apart. -/
theorem C12_ordered_partial {acmp : F → F → Option Ordering} (hmono : ∀ a b, fcmp (dec a) (dec b) = icmp a b)
    (hcong : ∀ a b c, fcmp a b = some .eq → fcmp c a = fcmp c b) (arr : Arr F I) (hw : WF arr) (hp : arr.patches = none) (v : F)
    (hv : fcmp (dec (enc1 v)) v = some .eq) (op : Op) :
    ∃ x, compareConst d enc1 dec fcmp icmp acmp arr (some v) op = .ok x ∧
      x.rows = cmpRows (fun a b => op.holds (fcmp a b)) (rows dec arr) (List.replicate (rows dec arr).length (some v)) := by
  obtain ⟨x, hx1, _, hx3⟩ := Compare.C24_primitive_const icmp op arr.encoded hw.encoded (enc1 v)
  refine ⟨x, by simp [compareConst, scalarCompare, encodeSingle, hv, hx1], ?_⟩
  rw [hx3, rows_length hw, rows_nopatch arr hp hw]
  apply cmpRows_map
  intro e _
  rw [← hmono, hcong _ _ _ hv]

/-! ### Counterexamples

A decimal-like code over the naturals: `enc1 v = v / 10`, `dec n = n * 10`. -/

abbrev natCmp (a b : Nat) : Option Ordering := some (Ord.compare a b)

/-- The toy code satisfies the laws used above. -/
example : Laws (fun v : Nat => v / 10) natCmp natCmp := by
  have e : ∀ a b : Nat, natCmp a b = some .eq ↔ a = b := by
    intro a b; unfold natCmp; rw [Option.some.injEq]; exact Nat.compare_eq_eq
  exact ⟨fun a b h => by rw [e] at *; exact h.symm, fun a b c h1 h2 => by rw [e] at *; omega, fun a b h => by rw [e] at h; rw [h], e⟩

/-- A patched row is compared through the filler integer stored in its place: in `[10, 13]`, row 1 (13) is reported equal to 10. -/
theorem C12_patched_row_wrong : ∃ arr : Arr Nat Nat, alpEncode (· / 10) (· * 10) (neOf natCmp) 1024 ⟨[10, 13], .nonNullable⟩ = .ok arr ∧
    rows (· * 10) arr = [some 10, some 13] ∧
    compareConst 0 (· / 10) (· * 10) natCmp natCmp natCmp arr (some 10) .eq = .ok ⟨[true, true], .allValid⟩ :=
  ⟨⟨⟨[1, 1], .nonNullable⟩, some ⟨[1], ⟨[13], .allValid⟩, 2, 0, none⟩⟩, by decide +kernel, by decide +kernel, by decide +kernel⟩

/-- With patches and an unrepresentable constant every row that is not patched becomes null: in `[10, 13]`, `10 = 13` is null. -/
theorem C12_unpatched_row_null : ∃ arr : Arr Nat Nat, alpEncode (· / 10) (· * 10) (neOf natCmp) 1024 ⟨[10, 13], .nonNullable⟩ = .ok arr ∧
    ∃ x, compareConst 0 (· / 10) (· * 10) natCmp natCmp natCmp arr (some 13) .eq = .ok x ∧ x.rows = [none, some true] :=
  ⟨⟨⟨[1, 1], .nonNullable⟩, some ⟨[1], ⟨[13], .allValid⟩, 2, 0, none⟩⟩, by decide +kernel, _, rfl, by decide +kernel⟩

/-- Without patches an unrepresentable constant gives false for `!=` and the orderings too: in `[10]`, `10 < 13` is false. -/
theorem C12_unrepresentable_order_wrong (op : Op) : ∃ arr : Arr Nat Nat, alpEncode (· / 10) (· * 10) (neOf natCmp) 1024 ⟨[10], .nonNullable⟩ = .ok arr ∧
    compareConst 0 (· / 10) (· * 10) natCmp natCmp natCmp arr (some 13) op = .ok ⟨[false], .allValid⟩ :=
  ⟨⟨⟨[1], .nonNullable⟩, none⟩, by decide +kernel, by cases op <;> decide +kernel⟩

/-- A null row compared with an unrepresentable constant is reported false, not null. -/
theorem C12_null_row_false : ∃ arr : Arr Nat Nat, rows (· * 10) arr = [none] ∧
    ∃ x, compareConst 0 (· / 10) (· * 10) natCmp natCmp natCmp arr (some 13) .eq = .ok x ∧ x.rows = [some false] :=
  ⟨⟨⟨[1], .allInvalid⟩, none⟩, by decide +kernel, _, rfl, by decide +kernel⟩

/-- A null constant gives false everywhere instead of null, for every array. -/
theorem C12_null_constant_false (acmp : F → F → Option Ordering) (arr : Arr F I) (op : Op) :
    ∃ x, compareConst d enc1 dec fcmp icmp acmp arr none op = .ok x ∧ x.rows = List.replicate arr.encoded.len (some false) :=
  ⟨_, rfl, by simp [allFalse, PArr.rows, mask, Spec.rows, List.zipWith_replicate]⟩

end Vx.ALP
