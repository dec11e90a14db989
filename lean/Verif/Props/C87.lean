import Verif.Model.EncStats
import Verif.Props.C14
import Verif.Props.C15
import Verif.Props.C26
/-! # C87: what encoded arrays claim about themselves is true -/
namespace Vx
open Spec

/-! ### runs -/

theorem runs_cons_triangle [DecidableEq α] (a c : α) (xs : List α) : runs (a :: xs) ≤ (if a = c then 0 else 1) + runs (c :: xs) := by
  cases xs with
  | nil => simp [runs]
  | cons b xs =>
    simp only [runs]
    by_cases h1 : a = b <;> by_cases h2 : a = c <;> by_cases h3 : c = b <;> simp_all <;> omega

theorem runs_cons_sublist [DecidableEq α] {xs ys : List α} (h : xs.Sublist ys) : ∀ a, runs (a :: xs) ≤ runs (a :: ys) := by
  induction h with
  | slnil => intro a; exact Nat.le_refl _
  | @cons xs ys c _ ih =>
    intro a
    have h1 := runs_cons_triangle a c xs
    have h2 := ih c
    simp only [runs]
    omega
  | @cons_cons xs ys c _ ih =>
    intro a
    have h2 := ih c
    simp only [runs]
    omega

theorem runs_le_cons [DecidableEq α] (c : α) (ys : List α) : runs ys ≤ runs (c :: ys) := by
  cases ys with
  | nil => simp [runs]
  | cons b ys => simp only [runs]; omega

/-- Dropping rows never makes more runs. -/
theorem runs_sublist [DecidableEq α] {xs ys : List α} (h : xs.Sublist ys) : runs xs ≤ runs ys := by
  induction h with
  | slnil => exact Nat.le_refl _
  | @cons xs ys c _ ih => exact Nat.le_trans ih (runs_le_cons c ys)
  | @cons_cons xs ys c h _ => exact runs_cons_sublist h c

/-- Neither does replacing equal things by equal things. -/
theorem runs_map_le [DecidableEq α] [DecidableEq β] (f : α → β) (xs : List α) : runs (xs.map f) ≤ runs xs := by
  induction xs with
  | nil => simp [runs]
  | cons a xs ih =>
    cases xs with
    | nil => simp [runs]
    | cons b xs =>
      simp only [List.map_cons, runs] at ih ⊢
      by_cases h : a = b
      · subst h; simp; exact ih
      · simp only [h, if_false]; split <;> omega

theorem runs_filterMap_le [DecidableEq α] [DecidableEq β] (g : α → Option β) (xs : List α) : runs (xs.filterMap g) ≤ runs xs := by
  cases hx : xs.filterMap g with
  | nil => simp [runs]
  | cons d rest =>
    have e : xs.filterMap g = (xs.filter (fun c => (g c).isSome)).map (fun c => (g c).getD d) := by
      clear hx
      induction xs with
      | nil => rfl
      | cons x xs ih =>
        cases h : g x with
        | none => simp [h, ih]
        | some y => simp [h, ih]
    rw [← hx, e]
    exact Nat.le_trans (runs_map_le _ _) (runs_sublist List.filter_sublist)

/-! ### dictionary arrays -/

/-- What a code stands for. -/
def Dict.entry (a : Dict α) (c : Nat) : Option α := (a.values.rows[c]?).getD none

theorem Dict.rows_eq (a : Dict α) (hw : a.WF) : a.rows = a.codes.map a.entry := by
  have : ∀ cs : List Nat, (∀ c ∈ cs, c < a.values.rows.length) → Spec.take a.values.rows cs = cs.map a.entry := by
    intro cs hcs
    induction cs with
    | nil => rfl
    | cons c cs ih =>
      have hc := hcs c (by simp)
      have := ih (fun x hx => hcs x (by simp [hx]))
      simp only [Spec.take, List.filterMap_cons, Dict.entry, List.map_cons, List.getElem?_eq_getElem hc, Option.getD_some] at this ⊢
      rw [this]
  exact this a.codes (fun c hc => by rw [PArr.rows_len hw.values]; exact hw.codes c hc)

theorem Dict.valid_rows (a : Dict α) (hw : a.WF) : valid a.rows = a.codes.filterMap a.entry := by
  rw [Dict.rows_eq a hw, valid, List.filterMap_map]; rfl

theorem Dict.entry_mem (a : Dict α) (hw : a.WF) {v : α} (h : v ∈ valid a.rows) : v ∈ valid a.values.rows := by
  rw [Dict.valid_rows a hw, List.mem_filterMap] at h
  obtain ⟨c, hc, he⟩ := h
  have hlt : c < a.values.rows.length := by rw [PArr.rows_len hw.values]; exact hw.codes c hc
  simp only [Dict.entry, List.getElem?_eq_getElem hlt, Option.getD_some] at he
  exact List.mem_filterMap.mpr ⟨_, List.getElem_mem hlt, he⟩

/-- Codes are compared as numbers. -/
def codeKey (c : Nat) : Int := c

section dict
variable [DecidableEq α] {key : α → Int} {isT : α → Bool} {n k : Nat} {a : Dict α} {cs : StatsSet Nat} {vs : StatsSet α}

/-- **C87, dictionary, bounds**: the minimum and maximum claimed are bounds of the rows. -/
theorem C87_dict_bounds (hw : a.WF) (hv : vs.Sound key isT n a.values.rows) :
    (∀ m, (EncStats.dict cs vs).min = some (some m) → ∀ x ∈ valid a.rows, key m ≤ key x) ∧
    (∀ m, (EncStats.dict cs vs).max = some (some m) → ∀ x ∈ valid a.rows, key x ≤ key m) ∧
    ((EncStats.dict cs vs).min = some none → valid a.rows = []) := by
  refine ⟨fun m hm x hx => (hv.min_some m hm).2 x (Dict.entry_mem a hw hx),
    fun m hm x hx => (hv.max_some m hm).2 x (Dict.entry_mem a hw hx), fun h => ?_⟩
  have := hv.min_null h
  cases hr : valid a.rows with
  | nil => rfl
  | cons x xs =>
    have hx := Dict.entry_mem a hw (v := x) (by rw [hr]; simp)
    rw [this] at hx
    simp at hx

/-- **C87, dictionary, runs**: the run count claimed is an upper bound. -/
theorem C87_dict_run_count (hw : a.WF) (hc : cs.Sound codeKey (fun _ => false) k (a.codes.map some)) :
    ∀ c, (EncStats.dict cs vs).runCount = some c → runs (valid a.rows) ≤ c := by
  intro c h
  have := hc.run_count c h
  have e : valid (a.codes.map some) = a.codes := by
    rw [valid, List.filterMap_map]; simp
  rw [e] at this
  rw [Dict.valid_rows a hw]
  exact Nat.le_trans (runs_filterMap_le _ _) this

/-- **C87, dictionary, constant**: an array claimed to be constant is. -/
theorem C87_dict_constant (hw : a.WF) (hc : cs.Sound codeKey (fun _ => false) k (a.codes.map some)) :
    (EncStats.dict cs vs).isConstant = some true → AllSame a.rows := by
  intro h
  have := hc.constant h
  rw [Dict.rows_eq a hw]
  intro x hx y hy
  obtain ⟨c, hc', rfl⟩ := List.mem_map.mp hx
  obtain ⟨d, hd', rfl⟩ := List.mem_map.mp hy
  have e := this (some c) (List.mem_map.mpr ⟨c, hc', rfl⟩) (some d) (List.mem_map.mpr ⟨d, hd', rfl⟩)
  rw [Option.some.inj e]

omit [DecidableEq α] in
theorem Dict.ordered {R : α → α → Prop} (hw : a.WF) (hv : (valid a.values.rows).Pairwise R) (hc : a.codes.Pairwise (· ≤ ·))
    (hself : ∀ x, (∃ i j : Nat, i < j ∧ ∃ c, a.codes[i]? = some c ∧ a.codes[j]? = some c ∧ a.entry c = some x) → R x x) :
    (valid a.rows).Pairwise R := by
  rw [Dict.valid_rows a hw, List.pairwise_filterMap]
  rw [valid, List.pairwise_filterMap] at hv
  rw [List.pairwise_iff_getElem] at hc hv ⊢
  intro i j hi hj hij x hx y hy
  have hle := hc i j hi hj hij
  have h1 : a.codes[i] < a.values.rows.length := by rw [PArr.rows_len hw.values]; exact hw.codes _ (List.getElem_mem hi)
  have h2 : a.codes[j] < a.values.rows.length := by rw [PArr.rows_len hw.values]; exact hw.codes _ (List.getElem_mem hj)
  by_cases he : a.codes[i] = a.codes[j]
  · rw [he] at hx
    have : x = y := by rw [hx] at hy; exact Option.some.inj hy
    subst this
    exact hself x ⟨i, j, hij, a.codes[j], by rw [List.getElem?_eq_getElem hi, he], List.getElem?_eq_getElem hj, hx⟩
  · simp only [Dict.entry, List.getElem?_eq_getElem h1, List.getElem?_eq_getElem h2, Option.getD_some] at hx hy
    exact hv _ _ h1 h2 (by omega) x hx y hy

omit [DecidableEq α] in
theorem codes_valid (l : List Nat) : valid (l.map some) = l := by
  rw [valid, List.filterMap_map]; simp

/-- **C87, dictionary, sorted**: an array claimed to be sorted is. -/
theorem C87_dict_sorted (hw : a.WF) (hc : cs.Sound codeKey (fun _ => false) k (a.codes.map some)) (hv : vs.Sound key isT n a.values.rows) :
    (EncStats.dict cs vs).isSorted = some true → (valid a.rows).Pairwise (fun x y => key x ≤ key y) := by
  intro h
  simp only [EncStats.dict] at h
  split at h
  · rename_i hs
    have hs' : vs.isSorted = some true := by
      cases hh : vs.isSorted with
      | none => simp [hh] at hs
      | some b => simp [hh] at hs; rw [hs]
    have h1 := hv.sorted hs'
    have h2 := hc.sorted h
    rw [codes_valid] at h2
    refine Dict.ordered hw h1 (h2.imp (fun {x y} hxy => ?_)) (fun _ _ => Int.le_refl _)
    simp only [codeKey] at hxy; omega
  · cases h

/-- **C87, dictionary, strictly sorted**: likewise, when the dictionary holds no two values of the same rank (as the encoder's
dictionaries: C14). -/
theorem C87_dict_strict_partial (hw : a.WF) (hc : cs.Sound codeKey (fun _ => false) k (a.codes.map some)) (hv : vs.Sound key isT n a.values.rows)
    (hd : (valid a.values.rows).Pairwise (fun x y => key x ≠ key y)) :
    (EncStats.dict cs vs).isStrictSorted = some true → (valid a.rows).Pairwise (fun x y => key x < key y) := by
  intro h
  simp only [EncStats.dict] at h
  split at h
  · rename_i hs
    have hs' : vs.isSorted = some true := by
      cases hh : vs.isSorted with
      | none => simp [hh] at hs
      | some b => simp [hh] at hs; rw [hs]
    have h1 := (hv.sorted hs').imp₂ (S := fun x y => key x ≠ key y) (T := fun x y => key x < key y) (fun x y p q => by omega) hd
    have h2 := hc.strict h
    rw [codes_valid] at h2
    refine Dict.ordered hw h1 (h2.imp (fun {x y} hxy => ?_)) ?_
    · simp only [codeKey] at hxy; omega
    · rintro x ⟨i, j, hij, c, hi, hj, _⟩
      obtain ⟨hi', e1⟩ := List.getElem?_eq_some_iff.mp hi
      obtain ⟨hj', e2⟩ := List.getElem?_eq_some_iff.mp hj
      have := (List.pairwise_iff_getElem.mp h2) i j hi' hj' hij
      rw [e1, e2] at this
      exact absurd this (by simp [codeKey])
  · cases h

end dict

/-! ### freshly encoded dictionaries -/

namespace Dict

theorem foldl_seen [DecidableEq α] (b : Nat) (rs : List (Option α)) (st : Enc α) (done : List (Option α)) (hb : b ≤ st.values.length)
    (h : ∀ x ∈ st.values.drop b, some x ∈ done) :
    ∀ x ∈ (rs.foldl step st).values.drop b, some x ∈ done ++ rs := by
  induction rs generalizing st done with
  | nil => simpa using h
  | cons r rs ih =>
    have hstep : b ≤ (step st r).values.length ∧ ∀ x ∈ (step st r).values.drop b, some x ∈ done ++ [r] := by
      cases r with
      | none => exact ⟨hb, fun x hx => List.mem_append_left _ (h x hx)⟩
      | some v =>
        simp only [step]
        split
        · exact ⟨hb, fun x hx => List.mem_append_left _ (h x hx)⟩
        · refine ⟨by simp; omega, fun x hx => ?_⟩
          simp only at hx
          rw [List.drop_append_of_le_length hb] at hx
          rcases List.mem_append.mp hx with hx | hx
          · exact List.mem_append_left _ (h x hx)
          · simp at hx; subst hx; simp
    have := ih (step st r) (done ++ [r]) hstep.1 hstep.2
    intro x hx
    have := this x hx
    simpa using this

/-- Every value of a dictionary built by the encoder occurs in the data. -/
theorem encode_used [DecidableEq α] (zero : α) (nullable : Bool) (rs : List (Option α)) :
    ∀ v ∈ valid (encode zero nullable rs).values.rows, v ∈ valid rs := by
  intro v hv
  obtain ⟨hvw, vs, -, hvr⟩ := encode_values zero nullable rs
  have hseen := foldl_seen (if nullable then 1 else 0) rs
    { lookup := [], codes := [], values := if nullable then [zero] else [] } [] (by cases nullable <;> simp) (by cases nullable <;> simp)
  have hmem : some v ∈ (encode zero nullable rs).values.rows := by
    obtain ⟨o, ho, e⟩ := List.mem_filterMap.mp hv
    simp only [id] at e; subst e; exact ho
  have hidx : ∃ i : Nat, (if nullable then 1 else 0) ≤ i ∧ (encode zero nullable rs).values.rows[i]? = some (some v) := by
    obtain ⟨i, hi, e⟩ := List.getElem_of_mem hmem
    refine ⟨i, ?_, by rw [List.getElem?_eq_getElem hi, e]⟩
    cases nullable with
    | false => simp
    | true =>
      cases i with
      | zero =>
        have : (encode zero true rs).values.rows[0]? = some none := by rw [hvr]; rfl
        rw [List.getElem?_eq_getElem hi, e] at this
        cases this
      | succ i => simp
  obtain ⟨i, hi, e⟩ := hidx
  rw [PArr.rows, Vx.rows_getElem?] at e
  have hval : (encode zero nullable rs).values.vals[i]? = some v := by
    cases h1 : (encode zero nullable rs).values.vals[i]? with
    | none => simp [h1] at e
    | some x =>
      cases h2 : (mask (encode zero nullable rs).values.vals.length (encode zero nullable rs).values.validity)[i]? with
      | none => simp [h1, h2] at e
      | some m => cases m <;> simp [h1, h2] at e; rw [e]
  have := hseen v (by
    refine List.mem_iff_getElem?.mpr ⟨i - (if nullable then 1 else 0), ?_⟩
    rw [List.getElem?_drop, Nat.add_sub_cancel' hi]
    exact hval)
  exact List.mem_filterMap.mpr ⟨some v, by simpa using this, rfl⟩

end Dict

section fresh
variable [DecidableEq α] {key : α → Int} {isT : α → Bool} {n k : Nat} {cs : StatsSet Nat} {vs : StatsSet α}

/-- **C87, dictionary, fresh bounds**: on an array just encoded, with or without nulls, the minimum and maximum are those of the rows. -/
theorem C87_dict_fresh_bounds (zero : α) (nullable : Bool) (rs : List (Option α)) (hnn : nullable = false → none ∉ rs)
    (hv : vs.Sound key isT n (Dict.encode zero nullable rs).values.rows) :
    (∀ m, (EncStats.dict cs vs).min = some (some m) → IsMin key m (valid rs)) ∧
    (∀ m, (EncStats.dict cs vs).max = some (some m) → IsMax key m (valid rs)) := by
  obtain ⟨hw, -, hr⟩ := Dict.C14_encode zero nullable rs hnn
  have hb := C87_dict_bounds (cs := cs) hw hv
  rw [hr] at hb
  exact ⟨fun m hm => ⟨Dict.encode_used zero nullable rs m (hv.min_some m hm).1, hb.1 m hm⟩,
    fun m hm => ⟨Dict.encode_used zero nullable rs m (hv.max_some m hm).1, hb.2.1 m hm⟩⟩

/-- **C87, dictionary, fresh**: on a non-nullable array just encoded every claim is true. -/
theorem C87_dict_fresh_partial (hkey : ∀ x y, key x = key y → x = y) (zero : α) (rs : List (Option α)) (hnn : none ∉ rs)
    (hc : cs.Sound codeKey (fun _ => false) k ((Dict.encode zero false rs).codes.map some))
    (hv : vs.Sound key isT n (Dict.encode zero false rs).values.rows) : (EncStats.dict cs vs).Sound key isT n rs := by
  obtain ⟨hw, -, hr⟩ := Dict.C14_encode zero false rs (fun _ => hnn)
  have hd : (valid (Dict.encode zero false rs).values.rows).Pairwise (fun x y => key x ≠ key y) :=
    (Dict.C14_dictionary zero false rs (fun _ => hnn)).1.imp (fun hxy h => hxy (hkey _ _ h))
  have h1 := C87_dict_fresh_bounds (cs := cs) zero false rs (fun _ => hnn) hv
  have h2 := C87_dict_bounds (cs := cs) hw hv
  have h3 := C87_dict_run_count (vs := vs) hw hc
  have h4 := C87_dict_constant (vs := vs) hw hc
  have h5 := C87_dict_sorted hw hc hv
  have h6 := C87_dict_strict_partial hw hc hv hd
  rw [hr] at h2 h3 h4 h5 h6
  refine ⟨h1.1, h2.2.2, h1.2, ?_, h4, h5, h6, h3, ?_, ?_, ?_, ?_⟩
  · intro h
    have := hv.max_null h
    obtain ⟨_, ws, -, he⟩ := Dict.encode_values zero false rs
    rw [he] at this
    simp at this
  · intro c h; cases h
  · intro c h
    have := hc.null_count c h
    rw [this, List.count_eq_zero_of_not_mem (by simp), List.count_eq_zero_of_not_mem hnn]
  · intro c h; cases h
  · intro c h; cases h

end fresh

/-- The code does not count nulls: a dictionary array with a null row answers zero. -/
theorem C87_dict_null_count_wrong :
    let a := Dict.encode (0 : BitVec 8) true [some 7, none]
    let s := EncStats.dict (primStats (intElem false 8) ⟨a.codes.map (BitVec.ofNat 8), .nonNullable⟩) (primStats (intElem false 8) a.values)
    a.rows = [some 7, none] ∧ s.nullCount = some 0 := by decide +kernel

/-- After slicing, the minimum claimed need not occur. -/
theorem C87_dict_slice_min_wrong :
    let a := Dict.encode (0 : BitVec 8) false [some 3, some 7]
    ∃ b, a.slice 1 2 = .ok b ∧ b.rows = [some 7] ∧
      (EncStats.dict (primStats (intElem false 8) ⟨b.codes.map (BitVec.ofNat 8), .nonNullable⟩) (primStats (intElem false 8) b.values)).min
        = some (some 3) := ⟨⟨[1], ⟨[3, 7], .nonNullable⟩⟩, by decide +kernel⟩

/-- A dictionary with a repeated value: claimed strictly sorted, is not. -/
theorem C87_dict_strict_wrong :
    let a : Dict (BitVec 8) := ⟨[0, 1], ⟨[5, 5], .nonNullable⟩⟩
    let s := EncStats.dict (primStats (intElem false 8) ⟨a.codes.map (BitVec.ofNat 8), .nonNullable⟩) (primStats (intElem false 8) a.values)
    a.rows = [some 5, some 5] ∧ s.isStrictSorted = some true := by decide +kernel

/-! ### run-end encoding -/

theorem RunEnd.encodeLoop_mem [DecidableEq α] (xs : List α) (last : α) (stop : Nat) :
    ∀ v, v ∈ (RunEnd.encodeLoop (fun a b => decide (a ≠ b)) xs last stop).2 ↔ v ∈ last :: xs := by
  induction xs generalizing last stop with
  | nil => intro v; simp [RunEnd.encodeLoop]
  | cons x xs ih =>
    intro v
    simp only [RunEnd.encodeLoop, decide_eq_true_eq]
    split
    · simp only [List.mem_cons, ih x (stop + 1) v]
    · rename_i h
      have : x = last := Classical.not_not.mp h
      subst this
      rw [ih x (stop + 1) v]; simp

theorem RunEnd.encodeLoop_sublist [DecidableEq α] (xs : List α) (last : α) (stop : Nat) :
    (RunEnd.encodeLoop (fun a b => decide (a ≠ b)) xs last stop).2.Sublist (last :: xs) := by
  induction xs generalizing last stop with
  | nil => simp [RunEnd.encodeLoop]
  | cons x xs ih =>
    simp only [RunEnd.encodeLoop, decide_eq_true_eq]
    split
    · exact (ih x (stop + 1)).cons₂ last
    · exact (ih x (stop + 1)).cons last

/-- **C87, run ends**: the statistics set on the ends of an encoded array are true of the ends. -/
theorem C87_run_ends (ne : α → α → Bool) (xs : List α) :
    let r := RunEnd.encodePrimitive ne xs
    (EncStats.runEndEnds r.1 xs.length).Sound codeKey (fun _ => false) n (r.1.map some) := by
  intro r
  obtain ⟨-, h1, h2, h3⟩ := RunEnd.C15_runs ne xs
  have hv := codes_valid r.1
  have hsorted : r.1.Pairwise (· < ·) := h1
  constructor
  · intro m hm
    rw [hv]
    simp only [EncStats.runEndEnds] at hm
    cases he : r.1 with
    | nil => rw [he] at hm; simp at hm
    | cons e es =>
      rw [he] at hm hsorted; simp at hm; subst hm
      refine ⟨by simp, fun x hx => ?_⟩
      rcases List.mem_cons.mp hx with rfl | hx
      · exact Int.le_refl _
      · have := (List.pairwise_cons.mp hsorted).1 x hx
        simp only [codeKey]; omega
  · intro hm
    simp only [EncStats.runEndEnds] at hm
    cases he : r.1 <;> rw [he] at hm <;> simp at hm
  · intro m hm
    rw [hv]
    simp only [EncStats.runEndEnds] at hm
    split at hm
    · cases hm
    · rename_i hne
      simp only [Option.some.injEq] at hm
      have hne' : r.1 ≠ [] := by simpa using hne
      have hl : r.1.getLast hne' = xs.length := by
        have := h3
        rw [List.getLast?_eq_some_getLast hne'] at this
        simpa using this
      rw [← hm, ← hl]
      refine ⟨List.getLast_mem hne', fun x hx => ?_⟩
      obtain ⟨i, hi, rfl⟩ := List.getElem_of_mem hx
      rw [List.getLast_eq_getElem]
      simp only [codeKey]
      by_cases hh : i = r.1.length - 1
      · subst hh; omega
      · have := (List.pairwise_iff_getElem.mp hsorted) i (r.1.length - 1) hi (by omega) (by omega)
        omega
  · intro hm
    simp only [EncStats.runEndEnds] at hm
    split at hm <;> simp at hm
  · intro h
    simp only [EncStats.runEndEnds, Option.some.injEq, beq_iff_eq] at h
    obtain ⟨e, he⟩ := List.length_eq_one_iff.mp h
    rw [he]
    intro x hx y hy
    simp at hx hy; rw [hx, hy]
  · intro _
    rw [hv]
    exact hsorted.imp (fun h => by simp only [codeKey]; omega)
  · intro _
    rw [hv]
    exact hsorted.imp (fun h => by simp only [codeKey]; omega)
  · intro c h; cases h
  · intro c h; cases h
  · intro c h; cases h
  · intro c h; cases h
  · intro c h; cases h

/-- **C87, run values**: the statistics set on the values are true of them when the encoded array has no nulls. -/
theorem C87_run_values_partial [DecidableEq α] {key : α → Int} {isT : α → Bool} (xs : List α) (s : StatsSet α)
    (hs : s.Sound key isT n (xs.map some)) :
    let r := RunEnd.encodePrimitive (fun a b => decide (a ≠ b)) xs
    (EncStats.runEndValues s r.2.length).Sound key isT n (r.2.map some) := by
  intro r
  have hval : ∀ l : List α, valid (l.map some) = l := by
    intro l; rw [valid, List.filterMap_map]; simp
  have hmem : ∀ v, v ∈ r.2 ↔ v ∈ xs := by
    intro v
    cases hx : xs with
    | nil => show v ∈ (RunEnd.encodePrimitive _ xs).2 ↔ _; rw [hx]; simp [RunEnd.encodePrimitive]
    | cons x ys =>
      show v ∈ (RunEnd.encodePrimitive _ xs).2 ↔ _
      rw [hx]; exact RunEnd.encodeLoop_mem ys x 1 v
  have hsub : r.2.Sublist xs := by
    show (RunEnd.encodePrimitive _ xs).2.Sublist xs
    cases xs with
    | nil => simp [RunEnd.encodePrimitive]
    | cons x ys => exact RunEnd.encodeLoop_sublist ys x 1
  constructor
  · intro m hm
    have := hs.min_some m hm
    rw [hval] at this ⊢
    exact ⟨(hmem m).mpr this.1, fun x hx => this.2 x ((hmem x).mp hx)⟩
  · intro hm
    have := hs.min_null hm
    rw [hval] at this ⊢
    rw [this] at hsub
    exact List.sublist_nil.mp hsub
  · intro m hm
    have := hs.max_some m hm
    rw [hval] at this ⊢
    exact ⟨(hmem m).mpr this.1, fun x hx => this.2 x ((hmem x).mp hx)⟩
  · intro hm
    have := hs.max_null hm
    simp at this
  · intro h
    simp only [EncStats.runEndValues, Option.some.injEq, beq_iff_eq] at h
    obtain ⟨e, he⟩ := List.length_eq_one_iff.mp h
    rw [he]
    intro x hx y hy
    simp at hx hy; rw [hx, hy]
  · intro h
    have := hs.sorted h
    rw [hval] at this ⊢
    exact this.sublist hsub
  · intro h
    have := hs.strict h
    rw [hval] at this ⊢
    exact this.sublist hsub
  · intro c h
    simp only [EncStats.runEndValues, Option.some.injEq] at h
    rw [hval, ← h]
    have e := (RunEnd.C15_run_count xs).1
    rw [show r.2.length = runs xs from e]
    exact runs_sublist hsub
  · intro c h; cases h
  · intro c h; cases h
  · intro c h; cases h
  · intro c h; cases h

/-- With nulls they need not be: what lies under a null becomes a run value, but was not counted in the array's minimum. -/
theorem C87_run_values_wrong :
    let a : PArr (BitVec 8) := ⟨[9, 3], .array [true, false]⟩
    let r := RunEnd.encodePrimitive (fun a b => decide (a ≠ b)) a.vals
    r.2 = [9, 3] ∧ (EncStats.runEndValues (primStats (intElem false 8) a) r.2.length).min = some (some 9) ∧
      (EncStats.runEndValues (primStats (intElem false 8) a) r.2.length).isSorted = some true := by decide +kernel

/-! ### constant, null and roaring arrays -/

/-- **C87, constant**: what a constant array of at least one row claims is true. -/
theorem C87_constant [DecidableEq α] {key : α → Int} {isT : α → Bool} (v : Option α) (len : Nat) (hl : 0 < len) :
    (EncStats.constantNew v).Sound key isT n (List.replicate len v) := by
  have hrep : List.replicate len v ≠ [] := by simp; omega
  have hval : ∀ x, v = some x → valid (List.replicate len v) = List.replicate len x := by
    rintro x rfl
    rw [valid]; simp
  have hnone : v = none → valid (List.replicate len v) = [] := by
    rintro rfl
    simp [valid]
  have hruns : ∀ (x : α) (m : Nat), runs (List.replicate m x) ≤ 1 := by
    intro x m
    induction m with
    | zero => simp [runs]
    | succ m ih =>
      cases m with
      | zero => simp [runs]
      | succ m => simp only [List.replicate_succ, runs, if_true] at ih ⊢; omega
  constructor
  · intro m hm
    simp only [EncStats.constantNew, Option.some.injEq] at hm
    rw [hval m hm]
    exact ⟨by simp; omega, fun x hx => by rw [List.eq_of_mem_replicate hx]; exact Int.le_refl _⟩
  · intro hm
    simp only [EncStats.constantNew, Option.some.injEq] at hm
    exact hnone hm
  · intro m hm
    simp only [EncStats.constantNew, Option.some.injEq] at hm
    rw [hval m hm]
    exact ⟨by simp; omega, fun x hx => by rw [List.eq_of_mem_replicate hx]; exact Int.le_refl _⟩
  · intro hm
    simp only [EncStats.constantNew, Option.some.injEq] at hm
    subst hm; simp; omega
  · intro _ x hx y hy
    rw [List.eq_of_mem_replicate hx, List.eq_of_mem_replicate hy]
  · intro _
    cases v with
    | none => rw [hnone rfl]; exact .nil
    | some x => rw [hval x rfl]; exact List.pairwise_replicate.mpr (.inr (Int.le_refl _))
  · intro h; cases h
  · intro c h
    simp only [EncStats.constantNew, Option.some.injEq] at h
    subst h
    cases v with
    | none => rw [hnone rfl]; simp [runs]
    | some x => rw [hval x rfl]; exact hruns x len
  · intro c h; cases h
  · intro c h; cases h
  · intro c h; cases h
  · intro c h; cases h

/-- An empty one claims a minimum that no row has. -/
theorem C87_constant_empty_wrong (v : α) :
    (EncStats.constantNew (some v)).min = some (some v) ∧ valid (List.replicate 0 (some v)) = [] := ⟨rfl, rfl⟩

/-- **C87, null arrays**: what a null array of at least one row claims is true. -/
theorem C87_null_array [DecidableEq α] {key : α → Int} {isT : α → Bool} (len : Nat) (hl : 0 < len) :
    (EncStats.nullArray len : StatsSet α).Sound key isT n (List.replicate len none) := by
  have hnone : valid (List.replicate len (none : Option α)) = [] := by simp [valid]
  constructor
  · intro m h; cases h
  · intro _; exact hnone
  · intro m h; cases h
  · intro _; simp; omega
  · intro _ x hx y hy
    rw [List.eq_of_mem_replicate hx, List.eq_of_mem_replicate hy]
  · intro _; rw [hnone]; exact .nil
  · intro _; rw [hnone]; exact .nil
  · intro c _; rw [hnone]; simp [runs]
  · intro c h; cases h
  · intro c h
    simp only [EncStats.nullArray, StatsSet.nullsOther, Option.some.injEq] at h
    rw [← h]; simp
  · intro c h; cases h
  · intro c h; cases h

/-- **C87, roaring integers**: the run count is exact, being the number of values; the histograms have 33 buckets whatever the type. -/
theorem C87_roaring_int (values : List (BitVec 32)) (hne : values ≠ []) :
    StatsTrue (intElem false 32) (intKey false) (EncStats.roaringInt values) (values.map some) := by
  have hr : (⟨values, .nonNullable⟩ : PArr (BitVec 32)).rows = values.map some := by
    simp only [PArr.rows, mask]
    clear hne
    induction values with
    | nil => rfl
    | cons x xs ih => simpa [Spec.rows, List.replicate_succ] using ih
  have := (C25_integer false 32 ⟨values, .nonNullable⟩ (by simp [PArr.WF, FitsLen, mask]) (by rw [hr, valid, List.filterMap_map]; simpa using hne)).1
  rw [hr] at this
  exact this

/-- So the statistics of a chunked `u8` column of which one chunk is roaring-encoded and another is not cannot be merged: it panics. -/
theorem C87_roaring_int_merge_panics :
    let a := EncStats.roaringInt [1, 2]
    let b := primStats (intElem false 8) (⟨[3], .nonNullable⟩ : PArr (BitVec 8))
    StatsSet.mergeFreq a.bitWidthFreq b.bitWidthFreq = .panic := by decide +kernel

/-! ### the hypotheses are met: codes and values that are plain primitive arrays claim true statistics -/

/-- A statistics set over `w`-bit codes, its values read as numbers. -/
def StatsSet.asCodes (s : StatsSet (BitVec w)) : StatsSet Nat :=
  { min := s.min.map (Option.map BitVec.toNat), max := s.max.map (Option.map BitVec.toNat), isConstant := s.isConstant,
    isSorted := s.isSorted, isStrictSorted := s.isStrictSorted, runCount := s.runCount, trueCount := s.trueCount,
    nullCount := s.nullCount, bitWidthFreq := s.bitWidthFreq, tzFreq := s.tzFreq }

theorem StatsSet.asCodes_sound {s : StatsSet (BitVec w)} {codes : List (BitVec w)} {n : Nat}
    (h : s.Sound (intKey false) (fun _ => false) n (codes.map some)) :
    s.asCodes.Sound codeKey (fun _ => false) n ((codes.map BitVec.toNat).map some) := by
  have hval : ∀ {β : Type} (l : List β), valid (l.map some) = l := by
    intro β l; rw [valid, List.filterMap_map]; simp
  have hk : ∀ x : BitVec w, intKey false x = codeKey x.toNat := fun x => rfl
  have hb : (s.min = some none → s.asCodes.min = some none) ∧ (s.asCodes.min = some none → s.min = some none) := by
    simp only [StatsSet.asCodes]
    rcases s.min with _ | _ | m <;> simp
  constructor
  · intro m hm
    simp only [StatsSet.asCodes, Option.map_eq_some_iff] at hm
    obtain ⟨_, h1, m', h2, rfl⟩ := hm
    subst h2
    have := h.min_some m' h1
    rw [hval] at this ⊢
    refine ⟨List.mem_map_of_mem this.1, ?_⟩
    intro x hx
    obtain ⟨y, hy, rfl⟩ := List.mem_map.mp hx
    simpa [hk] using this.2 y hy
  · intro hm
    have := h.min_null (hb.2 hm)
    rw [hval] at this ⊢
    simp [this]
  · intro m hm
    simp only [StatsSet.asCodes, Option.map_eq_some_iff] at hm
    obtain ⟨_, h1, m', h2, rfl⟩ := hm
    subst h2
    have := h.max_some m' h1
    rw [hval] at this ⊢
    refine ⟨List.mem_map_of_mem this.1, ?_⟩
    intro x hx
    obtain ⟨y, hy, rfl⟩ := List.mem_map.mp hx
    simpa [hk] using this.2 y hy
  · intro hm
    have : s.max = some none := by
      simp only [StatsSet.asCodes] at hm
      rcases hh : s.max with _ | _ | m <;> rw [hh] at hm <;> simp at hm
    have := h.max_null this
    simp at this
  · intro hm
    have := h.constant hm
    intro x hx y hy
    simp only [List.map_map, List.mem_map] at hx hy
    obtain ⟨a, ha, rfl⟩ := hx
    obtain ⟨b, hb, rfl⟩ := hy
    have := this (some a) (List.mem_map_of_mem ha) (some b) (List.mem_map_of_mem hb)
    simp at this
    rw [this]
  · intro hm
    have := h.sorted hm
    rw [hval] at this ⊢
    rw [List.pairwise_map]
    exact this
  · intro hm
    have := h.strict hm
    rw [hval] at this ⊢
    rw [List.pairwise_map]
    exact this
  · intro c hc
    have := h.run_count c hc
    rw [hval] at this ⊢
    exact Nat.le_trans (runs_map_le _ _) this
  · intro c hc
    have := h.true_count c hc
    simpa [List.countP_eq_zero] using this
  · intro c hc
    rw [h.null_count c hc]
    have h0 : ∀ {β : Type} [DecidableEq β] (l : List β), (l.map some).count none = 0 := by
      intro β _ l; exact List.count_eq_zero_of_not_mem (by simp)
    rw [h0, h0]
  · exact h.bw_len
  · exact h.tz_len

/-- **C87, dictionary of plain parts**: whatever is in the dictionary's plain unsigned codes and plain integer values, the bounds, the run
count, the constancy and the order that are claimed are those of the rows. -/
theorem C87_dict_plain (codes : List (BitVec wc)) (signed : Bool) (vals : PArr (BitVec w)) (hw : vals.WF)
    (hai : vals.validity = .allInvalid → vals.vals ≠ []) (hc : ∀ c ∈ codes, c.toNat < vals.vals.length) :
    let d : Dict (BitVec w) := ⟨codes.map BitVec.toNat, vals⟩
    let s := EncStats.dict (primStats (intElem false wc) ⟨codes, .nonNullable⟩).asCodes (primStats (intElem signed w) vals)
    (∀ m, s.min = some (some m) → ∀ v ∈ valid d.rows, intKey signed m ≤ intKey signed v) ∧
    (∀ m, s.max = some (some m) → ∀ v ∈ valid d.rows, intKey signed v ≤ intKey signed m) ∧
    (∀ c, s.runCount = some c → runs (valid d.rows) ≤ c) ∧
    (s.isConstant = some true → AllSame d.rows) ∧
    (s.isSorted = some true → (valid d.rows).Pairwise (fun x y => intKey signed x ≤ intKey signed y)) := by
  intro d s
  have hd : d.WF := ⟨hw, by
    intro c hx
    obtain ⟨x, hx', rfl⟩ := List.mem_map.mp hx
    exact hc x hx'⟩
  have h1 := (primStats_sound false wc (⟨codes, .nonNullable⟩ : PArr (BitVec wc)) (by simp [PArr.WF, FitsLen, mask]) (fun _ => false) (by simp)).1
  have hr : (⟨codes, .nonNullable⟩ : PArr (BitVec wc)).rows = codes.map some := by
    apply List.ext_getElem <;> simp [PArr.rows, rows, mask]
  rw [hr] at h1
  have h1 := StatsSet.asCodes_sound h1
  have h2 := (primStats_sound signed w vals hw (fun _ => false) hai).1
  exact ⟨(C87_dict_bounds hd h2).1, (C87_dict_bounds hd h2).2.1, C87_dict_run_count hd h1, C87_dict_constant hd h1, C87_dict_sorted hd h1 h2⟩

/-- The hypotheses hold of a dictionary with a repeated code and a null value, and all the answers are there. -/
example :
    let vals : PArr (BitVec 8) := ⟨[3, 7, 0], .array [true, true, false]⟩
    let s := EncStats.dict (primStats (intElem false 16) ⟨[0, 1, 0], .nonNullable⟩).asCodes (primStats (intElem false 8) vals)
    vals.WF ∧ s.min = some (some 3) ∧ s.runCount = some 3 ∧ s.isConstant = some false ∧ s.isSorted = some false := by
  decide +kernel

end Vx
