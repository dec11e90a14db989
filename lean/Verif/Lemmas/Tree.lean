import Verif.Spec.Tree
import Verif.Props.C22
import Verif.Props.C18
import Verif.Props.C15
/-! # Basic facts about trees of arrays -/
namespace Vx.Tree
open Vx.Spec (InBounds)

variable {L : Type} {env : Env L} {leafRows : L → List SV} {ok : L → Prop} {st : Bool}

theorem rowsEach_eq (cs : List (Arr L)) : rowsEach env leafRows cs = cs.map (rows env leafRows) := by
  induction cs with
  | nil => simp [rowsEach]
  | cons c cs ih => simp [rowsEach, ih]

theorem dtypes_eq (cs : List (Arr L)) : dtypes env cs = cs.map (dtype env) := by
  induction cs with
  | nil => simp [dtypes]
  | cons c cs ih => simp [dtypes, ih]

theorem WFs_iff (cs : List (Arr L)) : WFs env leafRows ok cs ↔ ∀ c ∈ cs, WF env leafRows ok c := by
  induction cs with
  | nil => simp [WFs]
  | cons c cs ih => simp [WFs, ih]

theorem Regulars_iff (cs : List (Arr L)) : Regulars env leafRows st cs ↔ ∀ c ∈ cs, Regular env leafRows st c := by
  induction cs with
  | nil => simp [Regulars]
  | cons c cs ih => simp [Regulars, ih]

theorem runFrees_iff (cs : List (Arr L)) : runFrees cs = true ↔ ∀ c ∈ cs, runFree c = true := by
  induction cs with
  | nil => simp [runFrees]
  | cons c cs ih => simp [runFrees, ih]

theorem lens_sum (cs : List (Arr L)) : lens env cs = (cs.map (len env)).sum := by
  induction cs with
  | nil => simp [lens]
  | cons c cs ih => simp [lens, ih]

theorem depths_le (cs : List (Arr L)) (d : Nat) : depths cs ≤ d ↔ ∀ c ∈ cs, depth c ≤ d := by
  induction cs with
  | nil => simp [depths]
  | cons c cs ih => simp [depths, ih, Nat.max_le]

theorem depth_pos (a : Arr L) : 1 ≤ depth a := by
  cases a <;> simp only [depth] <;> omega

@[simp] theorem masked_length (vals : List SV) (m : List Bool) : (masked vals m).length = min vals.length m.length := by
  simp [masked]

theorem maskOf_length {v : TVal (Arr L)} {n : Nat} (h : WFV env leafRows ok v n) : (maskOf env leafRows v n).length = n := by
  cases v with
  | array a => simp only [WFV] at h; simp [maskOf, h.2.2.1]
  | _ => simp [maskOf]

theorem masked_getElem? (vals : List SV) (m : List Bool) (i : Nat) (x : SV) (b : Bool) (hx : vals[i]? = some x) (hb : m[i]? = some b) :
    (masked vals m)[i]? = some (if b then x else .null) := by
  simp [masked, List.getElem?_zipWith, hx, hb]

theorem masked_slice (vals : List SV) (m : List Bool) (s e : Nat) :
    Spec.slice (masked vals m) s e = masked (Spec.slice vals s e) (Spec.slice m s e) := by
  simp [masked, Spec.slice_zipWith]

@[simp] theorem structRows_length (n : Nat) (cols : List (List SV)) (m : List Bool) : (structRows n cols m).length = n := by
  simp [structRows]

theorem structRows_getElem? (n : Nat) (cols : List (List SV)) (m : List Bool) (i : Nat) (hi : i < n) :
    (structRows n cols m)[i]? = some (if m[i]?.getD false then structRow cols i else .null) := by
  simp [structRows, hi]

mutual
/-- The recorded length is the number of rows. -/
theorem len_of (hl : ∀ l, ok l → env.len l = (leafRows l).length) : ∀ (a : Arr L), WF env leafRows ok a → len env a = (rows env leafRows a).length
  | .leaf l, h => by simp only [WF] at h; simpa [len, rows] using hl l h
  | .flat k vals v, h => by
    simp only [WF] at h
    simp [len, rows, maskOf_length h.2]
  | .null n, _ => by simp [len, rows]
  | .const dt x n, _ => by simp [len, rows]
  | .chunked dt cs, h => by
    simp only [WF] at h
    simp only [len, rows]
    exact lens_of hl cs h.1
  | .struct names fs n v, _ => by simp [len, rows]
  | .ext id m s, h => by
    simp only [WF] at h
    simpa [len, rows] using len_of hl s h
  | .sparse is values n off fill, _ => by simp [len, rows, Spec.patched]
  | .dict codes values, h => by
    simp only [WF] at h
    simpa [len, rows] using len_of hl codes h.1
  | .runEnd ends values v off n, h => by
    simp only [WF] at h
    obtain ⟨h1, h2, h3, h4, h5, h6, h7, h8⟩ := h
    simp [len, rows, maskOf_length h2, Spec.slice_length, expand_length h4 h5]
    omega
  | .mapped c enc, h => by
    simp only [WF] at h
    simpa [len, rows] using len_of hl enc h.1
  | .alpP e f enc patches, h => by
    simp only [WF] at h
    simp [len, rows, h.2.2.1, len_of hl enc h.1]
theorem lens_of (hl : ∀ l, ok l → env.len l = (leafRows l).length) : ∀ (cs : List (Arr L)), WFs env leafRows ok cs →
    lens env cs = (rowsEach env leafRows cs).flatten.length
  | [], _ => by simp [lens, rowsEach]
  | c :: cs, h => by
    simp only [WFs] at h
    simp [lens, rowsEach, len_of hl c h.1, lens_of hl cs h.2]
end

theorem len_eq (hl : LeafLaws env leafRows ok) (a : Arr L) (h : WF env leafRows ok a) : len env a = (rows env leafRows a).length := len_of hl.len a h

theorem lens_eq (hl : LeafLaws env leafRows ok) (cs : List (Arr L)) (h : WFs env leafRows ok cs) :
    lens env cs = (rowsEach env leafRows cs).flatten.length := lens_of hl.len cs h

/-! ### What the children's entry points are assumed to do -/

variable (env leafRows ok)

/-- The relation between an array and a slice of it that is not about rows. -/
structure Le (b a : Arr L) : Prop where
  depth : depth b ≤ depth a
  dtype : dtype env b = dtype env a
  runFree : runFree a = true → runFree b = true

/-- The entry points are right on all regular well-formed arrays of at most `d` levels. -/
structure Laws (o : Ops L) (d : Nat) : Prop where
  isValid : ∀ a i r, WF env leafRows ok a → Regular env leafRows true a → depth a ≤ d → (rows env leafRows a)[i]? = some r →
    o.isValid a i = .ok (!r.isNull)
  scalarAt : ∀ a i r, WF env leafRows ok a → Regular env leafRows true a → depth a ≤ d → (rows env leafRows a)[i]? = some r →
    o.scalarAt a i = .ok r
  scalarAtU : ∀ a i r, WF env leafRows ok a → Regular env leafRows true a → depth a ≤ d → (rows env leafRows a)[i]? = some r →
    atomic r = true → o.scalarAtU a i = .ok r
  slice : ∀ st a s e, WF env leafRows ok a → Regular env leafRows st a → depth a ≤ d → InBounds (rows env leafRows a).length s e →
    (s < (rows env leafRows a).length ∨ runFree a = true) →
    ∃ b, o.slice a s e = .ok b ∧ WF env leafRows ok b ∧ Regular env leafRows st b ∧ Le env b a ∧
      rows env leafRows b = Spec.slice (rows env leafRows a) s e

variable {env leafRows ok}

theorem atomic_of {r : SV} (h : r = .null ∨ atomic r = true) (hn : r.isNull = false) : atomic r = true := by
  rcases h with rfl | h
  · simp [SV.isNull] at hn
  · exact h

theorem nonnull_of_atomic {r : SV} (h : atomic r = true) : r.isNull = false := by
  cases r <;> simp_all [atomic, SV.isNull]

/-! ### Validity children -/

theorem isValidV_ok {o : Ops L} {d : Nat} (H : Laws env leafRows ok o d) {v : TVal (Arr L)} {n i : Nat} (hw : WFV env leafRows ok v n)
    (hr : RegularV env leafRows true v) (hd : depthV v ≤ d) (hi : i < n) :
    ∃ b, isValidV o v i = .ok b ∧ (maskOf env leafRows v n)[i]? = some b := by
  cases v with
  | nonNullable => exact ⟨true, rfl, by simp [maskOf, hi]⟩
  | allValid => exact ⟨true, rfl, by simp [maskOf, hi]⟩
  | allInvalid => exact ⟨false, rfl, by simp [maskOf, hi]⟩
  | array a =>
    simp only [WFV] at hw
    obtain ⟨h1, h2, h3, h4⟩ := hw
    have hi' : i < (rows env leafRows a).length := by omega
    obtain ⟨b, hb⟩ := h4 _ (List.getElem_mem hi')
    have hg : (rows env leafRows a)[i]? = some (.bool b) := by rw [List.getElem?_eq_getElem hi', hb]
    refine ⟨b, ?_, by simp [maskOf, hg]⟩
    simp [isValidV, H.scalarAtU a i _ h1 hr hd hg rfl]

theorem sliceV_ok {o : Ops L} {d : Nat} (H : Laws env leafRows ok o d) {v : TVal (Arr L)} {n s e : Nat} (hw : WFV env leafRows ok v n)
    (hr : RegularV env leafRows st v) (hd : depthV v ≤ d) (hb : InBounds n s e) (hs : s < n ∨ runFreeV v = true) :
    ∃ w, sliceV o v s e = .ok w ∧ WFV env leafRows ok w (e - s) ∧ RegularV env leafRows st w ∧ depthV w ≤ depthV v ∧
      w.nullable = v.nullable ∧ (runFreeV v = true → runFreeV w = true) ∧
      maskOf env leafRows w (e - s) = Spec.slice (maskOf env leafRows v n) s e := by
  cases v with
  | nonNullable => exact ⟨.nonNullable, rfl, trivial, trivial, Nat.le_refl _, rfl, fun h => h, by
      simp [maskOf, Spec.slice_replicate, Nat.min_eq_left hb.2]⟩
  | allValid => exact ⟨.allValid, rfl, trivial, trivial, Nat.le_refl _, rfl, fun h => h, by
      simp [maskOf, Spec.slice_replicate, Nat.min_eq_left hb.2]⟩
  | allInvalid => exact ⟨.allInvalid, rfl, trivial, trivial, Nat.le_refl _, rfl, fun h => h, by
      simp [maskOf, Spec.slice_replicate, Nat.min_eq_left hb.2]⟩
  | array a =>
    simp only [WFV] at hw
    obtain ⟨h1, h2, h3, h4⟩ := hw
    obtain ⟨b, hb1, hb2, hb3, hb4, hb5⟩ := H.slice st a s e h1 hr hd (by rw [h3]; exact hb) (by rw [h3]; exact hs)
    refine ⟨.array b, by simp [sliceV, hb1], ?_, hb3, hb4.depth, rfl, hb4.runFree, ?_⟩
    · refine ⟨hb2, by rw [hb4.dtype, h2], by rw [hb5, Spec.slice_length, h3]; have := hb.2; omega, ?_⟩
      intro r hr'
      rw [hb5] at hr'
      exact h4 r (List.mem_of_mem_take (List.mem_of_mem_drop hr'))
    · simp [maskOf, hb5, Spec.slice_map]

theorem checkV_ok (hl : LeafLaws env leafRows ok) {v : TVal (Arr L)} {n : Nat} (h : WFV env leafRows ok v n) : checkV env v n = .ok () := by
  cases v with
  | array a =>
    simp only [WFV] at h
    simp [checkV, len_eq hl a h.1, h.2.2.1]
  | _ => rfl

theorem mem_slice {xs : List α} {s e : Nat} {x : α} (h : x ∈ Spec.slice xs s e) : x ∈ xs :=
  List.mem_of_mem_take (List.mem_of_mem_drop h)

end Vx.Tree
