import Verif.Model.RunEndBool
import Verif.Props.C15
/-! # C16: run-end encoding of booleans -/

namespace Vx
open Spec
namespace RunEndBool

/-- What every boolean run-end array built by the library satisfies. -/
structure WF (a : RunEndBool) : Prop where
  strict : a.ends.Pairwise (· < ·)
  nonempty : a.ends ≠ []
  first : ∀ e ∈ a.ends, a.offset ≤ e
  last : a.offset + a.length ≤ a.ends.getLast?.getD 0
  fits : FitsLen a.validity a.length

/-- The bits of the window: runs alternate, beginning with `start`. -/
def window (a : RunEndBool) : List Bool :=
  Spec.slice (expand a.ends (alternating a.start a.ends.length)) a.offset (a.offset + a.length)

def rows (a : RunEndBool) : List (Option Bool) := Spec.rows a.window (mask a.length a.validity)

theorem alternating_length (b : Bool) (n : Nat) : (alternating b n).length = n := by
  induction n generalizing b with
  | zero => rfl
  | succ n ih => simp [alternating, ih]

theorem alternating_getElem? (b : Bool) (n i : Nat) (h : i < n) : (alternating b n)[i]? = some (valueAt i b) := by
  induction n generalizing b i with
  | zero => omega
  | succ n ih =>
    cases i with
    | zero => simp [alternating, valueAt]
    | succ i =>
      simp only [alternating, List.getElem?_cons_succ]
      rw [ih (!b) i (by omega)]
      simp only [valueAt]
      rcases Nat.mod_two_eq_zero_or_one i with h | h
      · rw [if_pos h, if_neg (by omega)]
      · rw [if_neg (by omega), if_pos (by omega), Bool.not_not]

/-! ### encoding -/

/-- The ends of the maximal runs of `bs`, the first run holding `cur` and `pos` being the position of the first bit. -/
def runEnds (cur : Bool) (pos : Nat) : List Bool → List Nat
  | [] => [pos]
  | b :: bs => if b = cur then runEnds cur (pos + 1) bs else pos :: runEnds b (pos + 1) bs

/-- Append the total length unless it is already the last end. -/
def close (n : Nat) (l : List Nat) : List Nat := if l.getLast? = some n then l else l ++ [n]

theorem close_cons₂ {n s p : Nat} {l : List Nat} (h : p ≠ n) : close n (s :: p :: l) = s :: p :: close n l := by
  unfold close
  cases l with
  | nil => simp [h]
  | cons x l =>
    rw [show (s :: p :: x :: l).getLast? = (x :: l).getLast? from by simp [List.getLast?_cons]]
    split <;> simp

theorem setSlices_ends (bs : List Bool) (pos : Nat) :
    (∀ s, close (pos + bs.length) ((setSlices pos (some s) bs).flatMap (fun p => [p.1, p.2])) = s :: runEnds true pos bs) ∧
    close (pos + bs.length) ((setSlices pos none bs).flatMap (fun p => [p.1, p.2])) = runEnds false pos bs := by
  induction bs generalizing pos with
  | nil =>
    refine ⟨fun s => ?_, ?_⟩
    · simp [setSlices, runEnds, close]
    · simp [setSlices, runEnds, close]
  | cons b bs ih =>
    obtain ⟨h1, h2⟩ := ih (pos + 1)
    have hn : pos + (b :: bs).length = pos + 1 + bs.length := by simp; omega
    rw [hn]
    cases b with
    | true =>
      refine ⟨fun s => ?_, ?_⟩
      · simp only [setSlices, Option.getD_some, h1, runEnds, if_true]
      · simp only [setSlices, Option.getD_none, h1, runEnds, Bool.true_eq_false, if_false]
    | false =>
      refine ⟨fun s => ?_, ?_⟩
      · simp only [setSlices, List.flatMap_cons, List.cons_append, List.nil_append, runEnds, Bool.false_eq_true, if_false]
        rw [close_cons₂ (by omega), h2]
      · simp only [setSlices, h2, runEnds, if_true]

theorem setSlices_head (bs : List Bool) (pos : Nat) (run : Option Nat) (s e : Nat) (rest : List (Nat × Nat))
    (h : setSlices pos run bs = (s, e) :: rest) :
    (∀ r, run = some r → s = r) ∧ (run = none → (s = pos ↔ bs.head? = some true) ∧ pos ≤ s) := by
  induction bs generalizing pos run with
  | nil => cases run <;> simp_all [setSlices]
  | cons b bs ih =>
    cases b with
    | true =>
      rw [setSlices] at h
      have := (ih _ _ h).1 _ rfl
      refine ⟨?_, ?_⟩
      · rintro r rfl; simpa using this
      · rintro rfl; simp at this; simp [this]
    | false =>
      cases run with
      | some r => simp only [setSlices, List.cons.injEq, Prod.mk.injEq] at h; simp [h.1.1]
      | none =>
        simp only [setSlices] at h
        have := (ih _ _ h).2 rfl
        simp; omega

/-- The same encoding computed run by run. -/
def encodeRef : List Bool → List Nat × Bool
  | true :: rest => (runEnds true 1 rest, true)
  | bs => (runEnds false 0 bs, false)

theorem encodeSlice_eq (bs : List Bool) : encodeSlice bs = encodeRef bs := by
  have h := setSlices_ends bs 0
  unfold encodeSlice
  cases hs : setSlices 0 none bs with
  | nil =>
    have h2 := h.2
    rw [hs] at h2
    simp [close] at h2
    cases bs with
    | nil => simp [← h2, encodeRef]
    | cons b bs =>
      cases b with
      | false => simp [← h2, encodeRef]
      | true =>
        exfalso
        rw [setSlices] at hs
        have := (setSlices_ends bs 1).1 0
        simp only [Option.getD_none] at hs
        rw [hs] at this
        have hlen := congrArg List.length this
        simp [close] at hlen
        cases bs <;> simp [runEnds] at hlen
        rename_i b bs
        split at hlen
        · cases bs <;> simp [runEnds] at hlen
          rename_i b' bs'
          have : ∀ c p (l : List Bool), (runEnds c p l) ≠ [] := by
            intro c p l
            induction l generalizing c p with
            | nil => simp [runEnds]
            | cons x l ih => rw [runEnds]; split <;> simp [ih]
          split at hlen
          · exact this _ _ _ hlen
          · simp at hlen
        · simp at hlen
  | cons p rest =>
    obtain ⟨s, e⟩ := p
    have hh := (setSlices_head bs 0 none s e rest hs).2 rfl
    have h2 := h.2
    rw [hs] at h2
    simp only [List.flatMap_cons, List.cons_append, List.nil_append, Nat.zero_add] at h2
    by_cases h0 : s = 0
    · have hb := hh.1.mp h0
      cases bs with
      | nil => simp at hb
      | cons b bs =>
        simp at hb; subst hb
        simp only [h0, if_true, List.nil_append, decide_true]
        simp only [runEnds, Bool.true_eq_false, if_false, h0] at h2
        have : (close (true :: bs).length (e :: rest.flatMap (fun p => [p.1, p.2]))) = runEnds true 1 bs := by
          have : close (true :: bs).length (0 :: e :: rest.flatMap (fun p => [p.1, p.2])) =
              0 :: close (true :: bs).length (e :: rest.flatMap (fun p => [p.1, p.2])) := by
            unfold close
            rw [List.getLast?_cons_cons]
            split <;> simp
          rw [this] at h2
          simpa using h2
        rw [encodeRef, ← this]; rfl
    · have hb : bs.head? ≠ some true := fun hc => h0 (hh.1.mpr hc)
      have hm : encodeRef bs = (runEnds false 0 bs, false) := by
        cases bs with
        | nil => rfl
        | cons b bs =>
          cases b with
          | true => simp at hb
          | false => rfl
      rw [hm, ← h2]
      simp only [h0, if_false, decide_false, List.cons_append, List.nil_append]
      rfl

theorem runEnds_spec (bs : List Bool) (cur : Bool) (pos : Nat) :
    (runEnds cur pos bs).Pairwise (· < ·) ∧ (∀ e ∈ runEnds cur pos bs, pos ≤ e) ∧
    (runEnds cur pos bs).getLast? = some (pos + bs.length) ∧
    (∀ start, start ≤ pos → expandFrom start (runEnds cur pos bs) (alternating cur (runEnds cur pos bs).length) =
      List.replicate (pos - start) cur ++ bs) := by
  induction bs generalizing cur pos with
  | nil => simp [runEnds, alternating, expandFrom]
  | cons b bs ih =>
    rw [runEnds]
    split
    · rename_i h
      subst h
      obtain ⟨h1, h2, h3, h4⟩ := ih b (pos + 1)
      refine ⟨h1, fun e he => by have := h2 e he; omega, by rw [h3]; simp; omega, fun start hs => ?_⟩
      rw [h4 start (by omega), show pos + 1 - start = (pos - start) + 1 by omega, List.replicate_succ']
      simp
    · rename_i h
      obtain ⟨h1, h2, h3, h4⟩ := ih b (pos + 1)
      refine ⟨List.pairwise_cons.mpr ⟨fun e he => by have := h2 e he; omega, h1⟩, ?_, ?_, ?_⟩
      · intro e he
        rcases List.mem_cons.mp he with rfl | he
        · exact Nat.le_refl _
        · have := h2 e he; omega
      · rw [List.getLast?_cons, h3]; simp; omega
      · intro start hs
        have hb : b = !cur := by cases b <;> cases cur <;> simp_all
        simp only [List.length_cons, alternating, expandFrom]
        rw [← hb, h4 pos (by omega)]
        simp

/-- **C16, run structure.** The ends are strictly increasing and finish at the length, and expanding alternating runs gives the
input back. -/
theorem C16_runs (bs : List Bool) :
    let r := encodeSlice bs
    r.1.Pairwise (· < ·) ∧ r.1 ≠ [] ∧ r.1.getLast? = some bs.length ∧ expand r.1 (alternating r.2 r.1.length) = bs := by
  have key : ∀ cur pos l, (runEnds cur pos l) ≠ [] := by
    intro cur pos l hc
    have := (runEnds_spec l cur pos).2.2.1
    rw [hc] at this; simp at this
  simp only [encodeSlice_eq]
  have hf : ∀ l : List Bool, (runEnds false 0 l).Pairwise (· < ·) ∧ runEnds false 0 l ≠ [] ∧ (runEnds false 0 l).getLast? = some l.length ∧
      expand (runEnds false 0 l) (alternating false (runEnds false 0 l).length) = l := by
    intro l
    obtain ⟨h1, h2, h3, h4⟩ := runEnds_spec l false 0
    exact ⟨h1, key _ _ _, by simpa using h3, by simpa [expand] using h4 0 (Nat.le_refl _)⟩
  cases bs with
  | nil => exact hf []
  | cons b bs =>
    cases b with
    | false => exact hf (false :: bs)
    | true =>
      obtain ⟨h1, h2, h3, h4⟩ := runEnds_spec bs true 1
      exact ⟨h1, key _ _ _, by simp only [encodeRef, h3, List.length_cons]; congr 1; omega, by simpa [expand, encodeRef] using h4 0 (by omega)⟩

/-! ### decoding -/

theorem decodeLoop_eq (start : Bool) (i : Nat) (acc : List Bool) (ends : List Nat) :
    decodeLoop start i acc ends = RunEnd.decodeLoop acc (ends.zip (alternating (valueAt i start) ends.length)) := by
  induction ends generalizing i acc with
  | nil => rfl
  | cons e es ih =>
    simp only [decodeLoop, List.length_cons, alternating, List.zip_cons_cons, RunEnd.decodeLoop]
    have : (!valueAt i start) = valueAt (i + 1) start := by
      simp only [valueAt]
      rcases Nat.mod_two_eq_zero_or_one i with h | h
      · rw [if_pos h, if_neg (by omega)]
      · rw [if_neg (by omega), if_pos (by omega), Bool.not_not]
    rw [this]
    congr 1
    funext n
    exact ih _ _

theorem window_length {a : RunEndBool} (hw : a.WF) : a.window.length = a.length := by
  rw [window, slice_length, expand_length hw.strict (alternating_length _ _).symm]
  have := hw.last; omega

/-- **C16, decoding.** The canonical form has exactly the rows the runs stand for. -/
theorem C16_canonical (a : RunEndBool) (hw : a.WF) : a.canonical = .ok ⟨a.window, a.validity⟩ ∧
    (⟨a.window, a.validity⟩ : PArr Bool).WF ∧ (⟨a.window, a.validity⟩ : PArr Bool).rows = a.rows := by
  have hwl := window_length hw
  have h1 : decodeSlice a.ends a.start a.offset a.length = .ok a.window := by
    unfold decodeSlice
    rw [Res.mapM_ok (g := fun e => min (e - a.offset) a.length) (fun e he => by rw [Res.sub_of_le (hw.first e he)]; rfl)]
    have := RunEnd.decodeLoop_spec a.offset a.length a.ends (alternating a.start a.ends.length) [] hw.strict
      (fun e he => ⟨Nat.zero_le _, hw.first e he⟩) (alternating_length _ _).symm
    simp only [List.drop_nil, List.take_nil, List.nil_append, List.length_nil] at this
    rw [Res.ok_bind, decodeLoop_eq]
    simp only [List.length_map, valueAt, Nat.zero_mod, if_true]
    rw [this, window, slice_eq_drop_take, Nat.add_sub_cancel_left, expand]
  have h2 : a.validity.checkLen a.window.length = .ok () := by
    rw [hwl]
    cases hv : a.validity with
    | array b =>
      have := hw.fits
      rw [hv] at this
      have : b.length = a.length := by simpa [FitsLen, mask] using this
      simp [Validity.checkLen, this]
    | _ => rfl
  refine ⟨by simp [canonical, h1, h2], ?_, ?_⟩
  · simp only [PArr.WF, hwl]; exact hw.fits
  · simp only [PArr.rows, hwl, rows]

/-- **C16, round trip.** Encoding any boolean array and canonicalising gives back the same bits and validity. -/
theorem C16_roundtrip (a : PArr Bool) (hw : a.WF) :
    ∃ r, encode a = .ok r ∧ r.WF ∧ r.length = a.len ∧ r.rows = a.rows ∧ r.canonical = .ok a := by
  obtain ⟨h1, h2, h3, h4⟩ := C16_runs a.vals
  have hlen : 0 < (encodeSlice a.vals).1.length := List.length_pos_iff.mpr h2
  have hidx : idx (encodeSlice a.vals).1 ((encodeSlice a.vals).1.length - 1) = .ok a.vals.length := by
    rw [idx, ← List.getLast?_eq_getElem?, h3]; rfl
  have hck : a.validity.checkLen a.vals.length = .ok () := by
    cases hv : a.validity with
    | array b =>
      have : b.length = a.vals.length := by have := hw; unfold PArr.WF at this; rw [hv] at this; simpa [FitsLen, mask] using this
      simp [Validity.checkLen, this]
    | _ => rfl
  have he : encode a = .ok ⟨(encodeSlice a.vals).1, (encodeSlice a.vals).2, a.validity, a.len, 0⟩ := by
    have hne : (encodeSlice a.vals).1.isEmpty = false := by simpa using h2
    simp [encode, tryNew, Res.sub_of_le (show 1 ≤ (encodeSlice a.vals).1.length from hlen), hidx, withOffsetAndSize,
      RunEnd.strictSorted_iff.mpr h1, hne, Res.guard, hck, PArr.len]
  have hWF : (⟨(encodeSlice a.vals).1, (encodeSlice a.vals).2, a.validity, a.len, 0⟩ : RunEndBool).WF :=
    ⟨h1, h2, by simp, by simp [h3, PArr.len], hw⟩
  have hwin : (⟨(encodeSlice a.vals).1, (encodeSlice a.vals).2, a.validity, a.len, 0⟩ : RunEndBool).window = a.vals := by
    simp only [window, h4, Spec.slice, Nat.zero_add, List.drop_zero, PArr.len, List.take_length]
  refine ⟨_, he, hWF, rfl, ?_, ?_⟩
  · simp only [rows, hwin, PArr.rows]; rfl
  · rw [(C16_canonical _ hWF).1, hwin]

/-! ### element access, take, slice -/

theorem runOf_lt {a : RunEndBool} (hw : a.WF) {v : Nat} (hv : v < a.ends.getLast?.getD 0) :
    a.ends.countP (fun e => decide (e ≤ v)) < a.ends.length := by
  have hn : 0 < a.ends.length := List.length_pos_iff.mpr hw.nonempty
  rw [List.getLast?_eq_getElem?, List.getElem?_eq_getElem (by omega), Option.getD_some] at hv
  have hle : a.ends.countP (fun e => decide (e ≤ v)) ≤ a.ends.length := List.countP_le_length
  have := (countP_le_split hw.strict v (a.ends.length - 1) (by omega))
  omega

theorem physical_ok {a : RunEndBool} (hw : a.WF) (i : Nat) :
    a.findPhysicalIndex i = .ok (if a.ends.countP (fun e => decide (e ≤ i + a.offset)) = a.ends.length then a.ends.length - 1
      else a.ends.countP (fun e => decide (e ≤ i + a.offset))) := by
  have hn : 0 < a.ends.length := List.length_pos_iff.mpr hw.nonempty
  obtain ⟨r, h1, h2⟩ := search_right_index a.ends hw.strict (i + a.offset)
  simp only [findPhysicalIndex, h1, Res.ok_bind, SearchResult.toEndsIndex, h2]
  split
  · rename_i h; rw [h, Res.sub_of_le (by omega)]
  · rfl

theorem physical_value {a : RunEndBool} (hw : a.WF) {i : Nat} (hi : i < a.length) :
    ∃ p, a.findPhysicalIndex i = .ok p ∧ a.window[i]? = some (valueAt p a.start) := by
  have hlt := runOf_lt hw (v := i + a.offset) (by have := hw.last; omega)
  refine ⟨_, physical_ok hw i, ?_⟩
  rw [if_neg (by omega), window, slice_getElem?, if_pos (by omega), expand_getElem? hw.strict (alternating_length _ _).symm,
    Nat.add_comm a.offset i, alternating_getElem? _ _ _ hlt]

/-- **C16, scalar_at** is the row; out of bounds is an error. -/
theorem C16_scalar_at (a : RunEndBool) (hw : a.WF) (i : Nat) :
    (a.length ≤ i → a.scalarAt i = .err) ∧ (i < a.length → ∃ r, a.scalarAt i = .ok r ∧ a.rows[i]? = some r) := by
  refine ⟨fun h => by simp [scalarAt, h], fun hi => ?_⟩
  obtain ⟨b, hb, hm⟩ := PArr.isValid_mask hw.fits hi
  obtain ⟨p, hp, hv⟩ := physical_value hw hi
  have hr : a.rows[i]? = some (if b then some (valueAt p a.start) else none) := by
    rw [rows, rows_getElem?, hm, hv]
    cases b <;> rfl
  cases b with
  | false => exact ⟨none, by simp [scalarAt, Nat.not_le.mpr hi, hb], by simpa using hr⟩
  | true => exact ⟨some (valueAt p a.start), by simp [scalarAt, Nat.not_le.mpr hi, hb, hp], by simpa using hr⟩

/-- **C16, take.** For arrays without nulls, taking returns exactly the requested rows. Partial: the code drops the validity
(`C16_take_drops_nulls`). -/
theorem C16_take_partial (a : RunEndBool) (hw : a.WF) (hv : mask a.length a.validity = List.replicate a.length true)
    (is : List Nat) (h : ∀ i ∈ is, i < a.length) :
    ∃ t, a.take is = .ok t ∧ t.WF ∧ t.rows = Spec.take a.rows is := by
  have hwl := window_length hw
  have hv2 : ∀ i ∈ is, a.findPhysicalIndex i = .ok ((match a.findPhysicalIndex i with | .ok p => p | _ => 0)) := by
    intro i hi
    obtain ⟨p, hp, _⟩ := physical_value hw (h i hi)
    rw [hp]
  have hm : Res.mapM (fun i => if i ≥ a.length then Res.err else a.findPhysicalIndex i) is =
      .ok (is.map (fun i => match a.findPhysicalIndex i with | .ok p => p | _ => 0)) := by
    apply Res.mapM_ok
    intro i hi
    rw [if_neg (by have := h i hi; omega)]
    exact hv2 i hi
  have hvals : (is.map (fun i => match a.findPhysicalIndex i with | .ok p => p | _ => 0)).map (fun p => valueAt p a.start) =
      Spec.take a.window is := by
    apply List.ext_getElem?
    intro k
    rw [Spec.take_getElem? (by intro i hi; rw [hwl]; exact h i hi)]
    simp only [List.getElem?_map]
    cases hk : is[k]? with
    | none => rfl
    | some i =>
      obtain ⟨p, hp, hpv⟩ := physical_value hw (h i (List.mem_iff_getElem?.mpr ⟨k, hk⟩))
      simp [hp, hpv]
  refine ⟨⟨Spec.take a.window is, .nonNullable⟩, by simp only [take, hm, Res.ok_bind, hvals], by simp [PArr.WF, FitsLen, mask], ?_⟩
  rw [rows, hv]
  have hl : (Spec.take a.window is).length = is.length := Spec.take_length (by intro i hi; rw [hwl]; exact h i hi)
  rw [Vx.take_rows _ _ _ (by simp [hwl]) (by intro i hi; rw [hwl]; exact h i hi)]
  simp only [PArr.rows, mask]
  congr 1
  rw [hl]
  apply List.ext_getElem?
  intro k
  rw [Spec.take_getElem? (by intro i hi; simpa using h i hi)]
  cases hk : is[k]? with
  | none => simp [List.getElem?_eq_none_iff] at hk ⊢; omega
  | some i =>
    have hi := h i (List.mem_iff_getElem?.mpr ⟨k, hk⟩)
    have hkl := (List.getElem?_eq_some_iff.mp hk).1
    simp [hi, hkl]

/-- The part of an expansion that lies in the runs `b..=t` can be read from those runs alone. -/
theorem expand_slice {α : Type} {ends : List Nat} {vals : List α} (hs : ends.Pairwise (· < ·)) (hl : ends.length = vals.length) {b t lo hi : Nat}
    (hbt : b ≤ t) (ht : t < ends.length) (hlo : ∀ k (h : k < ends.length), k < b → ends[k] ≤ lo) (hhi : hi ≤ ends[t])
    {v : Nat} (h1 : lo ≤ v) (h2 : v < hi) :
    (expand (Spec.slice ends b (t + 1)) (Spec.slice vals b (t + 1)))[v]? = (expand ends vals)[v]? := by
  have hel : (Spec.slice ends b (t + 1)).length = t + 1 - b := slice_length' ⟨by omega, by omega⟩
  have hvl : (Spec.slice vals b (t + 1)).length = t + 1 - b := slice_length' ⟨by omega, by omega⟩
  have hget : ∀ k (hk : k < (Spec.slice ends b (t + 1)).length), ∃ h' : b + k < ends.length,
      (Spec.slice ends b (t + 1))[k] = ends[b + k] := by
    intro k hk
    have h1 := slice_getElem? ends b (t + 1) k
    rw [List.getElem?_eq_getElem hk, if_pos (by omega), List.getElem?_eq_getElem (by omega)] at h1
    exact ⟨by omega, by simpa using h1⟩
  have hst : (Spec.slice ends b (t + 1)).Pairwise (· < ·) := by
    rw [List.pairwise_iff_getElem]
    intro i j hi hj hij
    obtain ⟨g1, g2⟩ := hget i hi
    obtain ⟨g3, g4⟩ := hget j hj
    rw [g2, g4]
    exact strict_getElem_lt hs g1 g3 (by omega)
  have hsp := countP_le_split hs v
  have hbp : b ≤ ends.countP (fun x => decide (x ≤ v)) := by
    rcases Nat.eq_zero_or_pos b with h0 | h0
    · omega
    · have := (hsp (b - 1) (by omega)).mpr (by have := hlo (b - 1) (by omega) (by omega); omega)
      omega
  have hpt : ends.countP (fun x => decide (x ≤ v)) ≤ t := by
    rcases Nat.lt_or_ge t (ends.countP (fun x => decide (x ≤ v))) with h | h
    · have := (hsp t ht).mp h; omega
    · exact h
  rw [expand_getElem? hst (by omega), expand_getElem? hs hl]
  have hcount : (Spec.slice ends b (t + 1)).countP (fun x => decide (x ≤ v)) = ends.countP (fun x => decide (x ≤ v)) - b := by
    apply countP_eq_of_split _ _ _ (by omega)
    · intro k hk hk2
      obtain ⟨g1, g2⟩ := hget k hk
      have := (hsp (b + k) g1).mp (by omega)
      simp only [g2, decide_eq_true_eq]; omega
    · intro k hk hk2
      obtain ⟨g1, g2⟩ := hget k hk
      have := (not_congr (hsp (b + k) g1)).mp (by omega)
      simp only [g2, decide_eq_false_iff_not]; omega
  rw [hcount, slice_getElem?, if_pos (by omega)]
  congr 1; omega

theorem alternating_slice (s : Bool) (n b t : Nat) (hbt : b ≤ t) (ht : t < n) :
    Spec.slice (alternating s n) b (t + 1) = alternating (valueAt b s) (t + 1 - b) := by
  apply List.ext_getElem?
  intro k
  rw [slice_getElem?]
  by_cases hk : k < t + 1 - b
  · rw [if_pos (by omega), alternating_getElem? _ _ _ (by omega), alternating_getElem? _ _ _ hk]
    simp only [valueAt, Option.some.injEq]
    rcases Nat.mod_two_eq_zero_or_one b with hb | hb <;> rcases Nat.mod_two_eq_zero_or_one k with hk | hk
    · simp [hb, hk, show (b + k) % 2 = 0 by omega]
    · simp [hb, hk, show (b + k) % 2 = 1 by omega]
    · simp [hb, hk, show (b + k) % 2 = 1 by omega]
    · simp [hb, hk, show (b + k) % 2 = 0 by omega]
  · rw [if_neg (by omega), List.getElem?_eq_none (by rw [alternating_length]; omega)]

/-- **C16, slice.** Slicing an array that is not itself a slice and whose validity is not a bitmap gives exactly those rows.
Partial: the code is wrong for slices of slices (`C16_slice_of_slice_wrong`) and for bitmap validities
(`C16_slice_validity_wrong`). -/
theorem C16_slice_partial (a : RunEndBool) (hw : a.WF) (h0 : a.offset = 0) (hv : ∀ bits, a.validity ≠ .array bits) (s e : Nat)
    (h : InBounds a.length s e) :
    ∃ b, a.slice s e = .ok b ∧ b.WF ∧ b.length = e - s ∧ b.rows = Spec.slice a.rows s e := by
  have hn : 0 < a.ends.length := List.length_pos_iff.mpr hw.nonempty
  have hsp := countP_le_split hw.strict
  have hcl : ∀ v, a.ends.countP (fun e => decide (e ≤ v)) ≤ a.ends.length := fun v => List.countP_le_length
  have hmono : a.ends.countP (fun x => decide (x ≤ s)) ≤ a.ends.countP (fun x => decide (x ≤ e)) :=
    List.countP_mono_left (fun x _ hx => by simp at hx ⊢; have := h.1; omega)
  have hb := physical_ok hw s
  have ht := physical_ok hw e
  rw [h0, Nat.add_zero] at hb ht
  have hlastE : a.length ≤ a.ends[a.ends.length - 1] := by
    have := hw.last
    rw [h0, List.getLast?_eq_getElem?, List.getElem?_eq_getElem (by omega), Option.getD_some] at this
    omega
  have hBT : ∃ b t, a.findPhysicalIndex s = .ok b ∧ a.findPhysicalIndex e = .ok t ∧ b ≤ t ∧ t < a.ends.length ∧
      (∀ k (h : k < a.ends.length), k < b → a.ends[k] ≤ s) ∧ (∀ h : t < a.ends.length, e ≤ a.ends[t]) ∧
      (∀ h : b < a.ends.length, s ≤ a.ends[b]) := by
    refine ⟨_, _, hb, ht, ?_, ?_, ?_, ?_, ?_⟩
    · have := hcl s; have := hcl e
      split <;> split <;> omega
    · have := hcl e
      split <;> omega
    · intro k hk hkb
      apply (hsp s k hk).mp
      split at hkb <;> omega
    · intro h'
      split
      · rename_i hh
        have : e ≤ a.length := h.2
        omega
      · rename_i hh
        have := hsp e (a.ends.countP (fun x => decide (x ≤ e))) (by have := hcl e; omega)
        omega
    · intro h'
      split
      · have : s ≤ a.length := by have := h.1; have := h.2; omega
        omega
      · rename_i hh
        have := hsp s (a.ends.countP (fun x => decide (x ≤ s))) (by have := hcl s; omega)
        omega
  obtain ⟨b, t, g1, g2, hbt, htl, hlo, hhi, hbs⟩ := hBT
  have hib : InBounds a.ends.length b (t + 1) := ⟨by omega, by omega⟩
  have hel : (Spec.slice a.ends b (t + 1)).length = t + 1 - b := slice_length' hib
  have hget : ∀ k (hk : k < (Spec.slice a.ends b (t + 1)).length), ∃ h' : b + k < a.ends.length,
      (Spec.slice a.ends b (t + 1))[k] = a.ends[b + k] := by
    intro k hk
    have h1 := slice_getElem? a.ends b (t + 1) k
    rw [List.getElem?_eq_getElem hk, if_pos (by omega), List.getElem?_eq_getElem (by omega)] at h1
    exact ⟨by omega, by simpa using h1⟩
  have hst : (Spec.slice a.ends b (t + 1)).Pairwise (· < ·) := by
    rw [List.pairwise_iff_getElem]
    intro i j hi hj hij
    obtain ⟨g1, g2⟩ := hget i hi
    obtain ⟨g3, g4⟩ := hget j hj
    rw [g2, g4]
    exact strict_getElem_lt hw.strict g1 g3 (by omega)
  have hne : Spec.slice a.ends b (t + 1) ≠ [] := by
    intro hc; rw [hc] at hel; simp at hel; omega
  have hval : a.validity.slice b (t + 1) = .ok a.validity := by
    cases hvv : a.validity with
    | array bits => exact absurd hvv (hv bits)
    | _ => rfl
  have hfit : ∀ n, FitsLen a.validity n := by
    intro n
    cases hvv : a.validity with
    | array bits => exact absurd hvv (hv bits)
    | _ => simp [FitsLen, mask]
  have hck : ∀ n, a.validity.checkLen n = .ok () := by
    intro n
    cases hvv : a.validity with
    | array bits => exact absurd hvv (hv bits)
    | _ => rfl
  have hmask : mask (e - s) a.validity = Spec.slice (mask a.length a.validity) s e := by
    have h1 := h.1
    have h2 := h.2
    cases hvv : a.validity with
    | array bits => exact absurd hvv (hv bits)
    | _ => simp only [mask, slice_replicate]; congr 1; omega
  have hlst : (Spec.slice a.ends b (t + 1)).getLast?.getD 0 = a.ends[t] := by
    rw [List.getLast?_eq_getElem?, List.getElem?_eq_getElem (by omega), Option.getD_some]
    obtain ⟨g1, g2⟩ := hget ((Spec.slice a.ends b (t + 1)).length - 1) (by omega)
    rw [g2]; congr 1; omega
  have hWF : (⟨Spec.slice a.ends b (t + 1), valueAt b a.start, a.validity, e - s, s⟩ : RunEndBool).WF := by
    refine ⟨hst, hne, ?_, ?_, hfit _⟩
    · intro x hx
      obtain ⟨k, hk, rfl⟩ := List.getElem_of_mem hx
      obtain ⟨g1, g2⟩ := hget k hk
      have hx' : s ≤ a.ends[b] := hbs (by omega)
      show s ≤ (Spec.slice a.ends b (t + 1))[k]
      rw [g2]
      rcases Nat.eq_zero_or_pos k with rfl | hk0
      · simpa using hx'
      · have := strict_getElem_lt hw.strict (i := b) (j := b + k) (by omega) g1 (by omega)
        omega
    · simp only [hlst]
      have := hhi htl
      have := h.1
      omega
  refine ⟨_, ?_, hWF, rfl, ?_⟩
  · have h1 := h.1
    have h2 := h.2
    have hne' : (Spec.slice a.ends b (t + 1)).isEmpty = false := by simpa using hne
    simp only [slice, if_neg (show ¬ s > a.length by omega), if_neg (show ¬ e > a.length by omega), if_neg (show ¬ s > e by omega),
      g1, g2, sliceList_ok hib, hval, Res.ok_bind, withOffsetAndSize, RunEnd.strictSorted_iff.mpr hst, hne', hck, Res.guard, Bool.not_false,
      if_true]
  · have hwin : (⟨Spec.slice a.ends b (t + 1), valueAt b a.start, a.validity, e - s, s⟩ : RunEndBool).window =
        Spec.slice a.window s e := by
      apply List.ext_getElem?
      intro i
      have h2 := h.2
      simp only [window, hel]
      rw [slice_getElem?, slice_getElem?]
      by_cases hi : i < e - s
      · rw [if_pos (by omega), if_pos (by omega), ← alternating_slice a.start a.ends.length b t hbt htl,
          expand_slice hw.strict (alternating_length _ _).symm hbt htl hlo (hhi htl) (by omega) (by omega),
          slice_getElem?, if_pos (by omega), h0, Nat.zero_add]
      · rw [if_neg (by omega), if_neg (by omega)]
    simp only [rows, hwin, hmask, slice_rows]

/-- Nulls disappear from `take`. -/
theorem C16_take_drops_nulls :
    let a : RunEndBool := ⟨[2, 3], true, .array [true, false, true], 3, 0⟩
    a.WF ∧ a.rows = [some true, none, some false] ∧ a.take [1] = .ok ⟨[true], .nonNullable⟩ :=
  ⟨⟨by decide, by decide, by decide, by decide, by decide⟩, by decide, by decide +kernel⟩

/-- Slicing a slice reads from the wrong position. -/
theorem C16_slice_of_slice_wrong :
    let a : RunEndBool := ⟨[2, 5, 6], true, .nonNullable, 6, 0⟩
    a.WF ∧ ∃ b c, a.slice 1 6 = .ok b ∧ b.rows = [some true, some false, some false, some false, some true] ∧
      b.slice 3 5 = .ok c ∧ c.canonical = .ok ⟨[false, false], .nonNullable⟩ ∧
      Spec.slice b.rows 3 5 = [some false, some true] := by
  refine ⟨⟨by decide, by decide, by decide, by decide, by decide⟩, ⟨[2, 5, 6], true, .nonNullable, 5, 1⟩, ⟨[5, 6], false, .nonNullable, 2, 3⟩,
    by decide +kernel, by decide +kernel, by decide +kernel, ?_, by decide +kernel⟩
  decide +kernel

/-- Slicing an array with a bitmap validity slices the bitmap with run numbers: here the nulls end up
in the wrong rows. -/
theorem C16_slice_validity_wrong :
    let a : RunEndBool := ⟨[2, 3], true, .array [true, false, true], 3, 0⟩
    a.WF ∧ InBounds a.length 1 3 ∧ a.slice 1 3 = .ok ⟨[2, 3], true, .array [true, false], 2, 1⟩ ∧
      Spec.slice a.rows 1 3 = [none, some false] :=
  ⟨⟨by decide, by decide, by decide, by decide, by decide⟩, by decide, by decide +kernel, by decide +kernel⟩

/-- Non-vacuity. -/
example :
    let a : RunEndBool := ⟨[2, 5, 6], true, .allValid, 6, 0⟩
    a.WF ∧ (∀ bits, a.validity ≠ .array bits) ∧ InBounds a.length 1 4 ∧ mask a.length a.validity = List.replicate a.length true ∧
    (do let b ← a.slice 1 4; b.canonical) = .ok ⟨[true, false, false], .allValid⟩ :=
  ⟨⟨by decide, by decide, by decide, by decide, by decide⟩, (fun b h => nomatch h), by decide, rfl, by decide +kernel⟩

end RunEndBool
end Vx
