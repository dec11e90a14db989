import Verif.Spec.TreeStruct
import Verif.Lemmas.Tree
import Verif.Lemmas.Rows
import Mathlib.Data.List.Forall2
/-! # Lemmas for struct projection on trees -/
namespace Vx.Tree
open RowExpr (Field)
open Vx.Spec (take_cons take_length)

theorem findName_picks {names : List Str} {n : Str} {i : Nat} (h : Picks names (.name n) i) : DType.findName names n = some i := by
  obtain ⟨h1, h2⟩ := h
  obtain ⟨hlt, he⟩ := List.getElem?_eq_some_iff.mp h1
  have : names.findIdx (· == n) = i := by
    rw [List.findIdx_eq hlt]
    refine ⟨by simp [he], fun j hj => ?_⟩
    have := h2 j hj
    rw [List.getElem?_eq_getElem (by omega)] at this
    simpa using this
  simp [DType.findName, this, hlt]

theorem picks_lt {names : List Str} {f : Field} {i : Nat} (h : Picks names f i) : i < names.length := by
  cases f with
  | name n => exact (List.getElem?_eq_some_iff.mp h.1).1
  | index k => simp only [Picks] at h; omega

theorem fieldPos_picks {names : List Str} {f : Field} {i : Nat} (h : Picks names f i) : fieldPos names f = .ok i := by
  cases f with
  | name n => simp [fieldPos, findName_picks h, Res.ofOption]
  | index k => simp only [Picks] at h; simp [fieldPos, h.1]

theorem picks_all {names : List Str} {proj : List Field} {is : List Nat} (h : List.Forall₂ (Picks names) proj is) :
    ∀ i ∈ is, i < names.length := by
  induction h with
  | nil => simp
  | cons h1 _ ih =>
    intro i hi
    rcases List.mem_cons.mp hi with rfl | hi
    · exact picks_lt h1
    · exact ih i hi

theorem mapM_picks {names : List Str} {proj : List Field} {is : List Nat} (h : List.Forall₂ (Picks names) proj is) {f : Field → Res β}
    {xs : List β} (hlen : names.length = xs.length) (hf : ∀ p i x, Picks names p i → xs[i]? = some x → f p = .ok x) :
    Res.mapM f proj = .ok (Spec.take xs is) := by
  induction h with
  | nil => rfl
  | @cons p i ps is h1 h2 ih =>
    have hi : i < xs.length := hlen ▸ picks_lt h1
    rw [Res.mapM_cons, hf p i _ h1 (List.getElem?_eq_getElem hi), ih, take_cons hi]
    rfl

theorem take_zip (xs : List α) (ys : List β) (is : List Nat) (h : xs.length = ys.length) :
    Spec.take (xs.zip ys) is = (Spec.take xs is).zip (Spec.take ys is) := by
  induction is with
  | nil => rfl
  | cons i is ih =>
    by_cases hi : i < xs.length
    · rw [take_cons (by simp [← h, hi]), take_cons hi, take_cons (h ▸ hi), ih]; simp
    · have e1 : xs[i]? = none := by simp; omega
      have e2 : ys[i]? = none := by simp; omega
      have e3 : (xs.zip ys)[i]? = none := by simp [List.length_zip]; omega
      simp only [Spec.take, List.filterMap_cons, e1, e2, e3] at ih ⊢
      exact ih

theorem mapM_pickField {names : List Str} {fs : List (Arr L)} {proj : List Field} {is : List Nat} (h : List.Forall₂ (Picks names) proj is)
    (hlen : names.length = fs.length) : Res.mapM (pickField names fs) proj = .ok ((Spec.take names is).zip (Spec.take fs is)) := by
  rw [← take_zip _ _ _ hlen]
  refine mapM_picks h (by simp [List.length_zip, hlen]) (fun p i x hp hx => ?_)
  obtain ⟨h1, h2⟩ := List.getElem?_zip_eq_some.mp hx
  simp [pickField, fieldPos_picks hp, h1, h2, Res.unwrap, Res.ofOption]

theorem dtype_project {names : List Str} {ds : List DType} {proj : List Field} {is : List Nat} (h : List.Forall₂ (Picks names) proj is)
    (hlen : names.length = ds.length) : DType.project names ds proj = .ok (Spec.take names is, Spec.take ds is) := by
  have hall := picks_all h
  have hall' : ∀ i ∈ is, i < ds.length := fun i hi => hlen ▸ hall i hi
  have : Res.mapM (DType.fieldInfo names ds) proj = .ok ((Spec.take names is).zip (Spec.take ds is)) := by
    rw [← take_zip _ _ _ hlen]
    refine mapM_picks h (by simp [List.length_zip, hlen]) (fun p i x hp hx => ?_)
    obtain ⟨h1, h2⟩ := List.getElem?_zip_eq_some.mp hx
    have hi := picks_lt hp
    cases p with
    | name n => simp [DType.fieldInfo, findName_picks hp, Res.ofOption, h1, h2, Res.unwrap]; omega
    | index k =>
      have : i = k := hp.1
      subst this
      simp [DType.fieldInfo, h1, h2, Res.unwrap]; omega
  have e1 : (Spec.take names is).length = (Spec.take ds is).length := by rw [take_length hall, take_length hall']
  simp only [DType.project, this, Res.ok_bind]
  rw [List.map_fst_zip (by omega), List.map_snd_zip (by omega)]

theorem mapM_pickValue {names : List Str} {xs : List SV} {proj : List Field} {is : List Nat} (h : List.Forall₂ (Picks names) proj is)
    (hlen : names.length = xs.length) : Res.mapM (pickValue names xs) proj = .ok (Spec.take xs is) := by
  refine mapM_picks h hlen (fun p i x hp hx => ?_)
  cases p with
  | name n => simp [pickValue, findName_picks hp, hx, Res.unwrap]
  | index k =>
    have : i = k := hp.1
    subst this
    simp [pickValue, hx, Res.unwrap]

theorem pickRow_list {xs : List SV} {is : List Nat} (h : ∀ i ∈ is, i < xs.length) : pickRow is (.list xs) = .list (Spec.take xs is) := by
  simp only [pickRow]
  congr 1
  induction is with
  | nil => rfl
  | cons i is ih =>
    have hi := h i (by simp)
    rw [take_cons hi, List.map_cons, ih (fun j hj => h j (by simp [hj]))]
    simp [List.getElem?_eq_getElem hi]

theorem projectScalar_ok {names : List Str} {ds : List DType} {nl : Bool} {x : SV} {proj : List Field} {is : List Nat}
    (h : List.Forall₂ (Picks names) proj is) (hlen : names.length = ds.length) (hx : StructValue ds x) :
    projectScalar (.struct names ds nl) x proj = .ok (.struct (Spec.take names is) (Spec.take ds is) nl, pickRow is x) ∧
      StructValue (Spec.take ds is) (pickRow is x) := by
  have hall := picks_all h
  rcases hx with rfl | ⟨xs, rfl, hx⟩
  · exact ⟨by simp [projectScalar, asStruct, Res.ofOption, asList, dtype_project h hlen, pickRow], .inl rfl⟩
  · have hall' : ∀ i ∈ is, i < xs.length := fun i hi => by have := hall i hi; omega
    refine ⟨by simp [projectScalar, asStruct, Res.ofOption, asList, dtype_project h hlen, mapM_pickValue h (hlen.trans hx.symm), pickRow_list hall'],
      .inr ⟨_, pickRow_list hall', ?_⟩⟩
    rw [take_length hall', take_length (fun i hi => by have := hall i hi; omega)]

theorem instEach_iff (xs : List SV) (ds : List DType) (h : xs.length = ds.length) :
    instEach xs ds = true ↔ ∀ (i : Nat) x d, xs[i]? = some x → ds[i]? = some d → inst x d = true := by
  induction xs generalizing ds with
  | nil => simp [instEach]
  | cons x xs ih =>
    cases ds with
    | nil => simp at h
    | cons d ds =>
      simp only [List.length_cons, Nat.add_right_cancel_iff] at h
      simp only [instEach, Bool.and_eq_true, ih ds h]
      constructor
      · rintro ⟨h1, h2⟩ i y e hy he
        cases i with
        | zero => simp at hy he; subst hy he; exact h1
        | succ i => simp at hy he; exact h2 i y e hy he
      · intro hh
        exact ⟨hh 0 x d (by simp) (by simp), fun i y e hy he => hh (i + 1) y e (by simpa using hy) (by simpa using he)⟩

theorem inst_pick {names : List Str} {ds : List DType} {nl : Bool} {x : SV} {ns : List Str} {is : List Nat} (hall : ∀ i ∈ is, i < ds.length)
    (hx : StructValue ds x) (hi : inst x (.struct names ds nl) = true) : inst (pickRow is x) (.struct ns (Spec.take ds is) nl) = true := by
  rcases hx with rfl | ⟨xs, rfl, hx⟩
  · simpa [inst, pickRow, DType.isNullable] using hi
  · have hall' : ∀ i ∈ is, i < xs.length := fun i hi => by have := hall i hi; omega
    rw [pickRow_list hall']
    simp only [inst] at hi ⊢
    rw [instEach_iff _ _ hx] at hi
    rw [instEach_iff _ _ (by rw [take_length hall, take_length hall'])]
    intro i y e hy he
    rw [Spec.take_getElem? hall'] at hy
    rw [Spec.take_getElem? hall] at he
    cases hk : is[i]? with
    | none => simp [hk] at hy
    | some k =>
      simp only [hk, Option.bind_some, Option.bind_eq_bind] at hy he
      exact hi k y e hy he

theorem structRows_pick {cols : List (List SV)} {is : List Nat} (h : ∀ i ∈ is, i < cols.length) (n : Nat) (m : List Bool) :
    structRows n (Spec.take cols is) m = (structRows n cols m).map (pickRow is) := by
  simp only [structRows, List.map_map]
  refine List.map_congr_left (fun k _ => ?_)
  simp only [Function.comp]
  split
  · rw [structRow, structRow, pickRow_list (by simpa using h), Spec.take_map]
  · rfl

theorem patched_map (g : α → β) (n off : Nat) (fill : α) (is : List Nat) (vs : List α) :
    Spec.patched n off (g fill) (is.zip (vs.map g)) = (Spec.patched n off fill (is.zip vs)).map g := by
  simp only [Spec.patched, List.map_map]
  refine List.map_congr_left (fun k _ => ?_)
  simp only [Function.comp, Spec.patchOr]
  have : is.zip (vs.map g) = (is.zip vs).map (fun p => (p.1, g p.2)) := by
    rw [List.zip_map_right]; rfl
  rw [this, List.find?_map]
  have e : ((fun p : Nat × β => p.1 == off + k) ∘ fun p : Nat × α => (p.1, g p.2)) = (fun p => p.1 == off + k) := rfl
  rw [e]
  cases (is.zip vs).find? (fun p => p.1 == off + k) <;> rfl

variable {L : Type} {env : Env L} {leafRows : L → List SV} {ok : L → Prop}

theorem StructShapeds_iff (cs : List (Arr L)) : StructShapeds env cs ↔ ∀ c ∈ cs, StructShaped env c := by
  induction cs with
  | nil => simp [StructShapeds]
  | cons c cs ih => simp [StructShapeds, ih]

theorem checkLast_wf {is : List Nat} {n off : Nat} (h : ∀ i ∈ is, off ≤ i ∧ i < off + n) : checkLast is n off = .ok () := by
  unfold checkLast
  cases hg : is.getLast? with
  | none => rfl
  | some l =>
    have := h l (List.mem_of_getLast? hg)
    simp only [Res.sub]
    rw [if_pos (by omega)]
    simp only [Res.ok_bind]
    rw [if_neg (by omega)]

/-- A struct-shaped array has a struct type with as many names as types. -/
theorem shaped_dtype : ∀ (a : Arr L), WF env leafRows ok a → StructShaped env a →
    ∃ names ds nl, dtype env a = .struct names ds nl ∧ names.length = ds.length
  | .struct names fs n v, hw, _ => ⟨names, dtypes env fs, v.nullable, rfl, by rw [dtypes_eq]; simpa using hw.1⟩
  | .chunked dt cs, _, ⟨h, _⟩ => h
  | .const dt x n, _, ⟨names, ds, nl, h1, h2, _⟩ => ⟨names, ds, nl, h1, h2⟩
  | .sparse is values n off fill, hw, hs => shaped_dtype values hw.1 hs.1

/-- What a projected array satisfies. -/
structure Projected (env : Env L) (leafRows : L → List SV) (ok : L → Prop) (names : List Str) (ds : List DType) (nl : Bool) (is : List Nat)
    (a b : Arr L) : Prop where
  wf : WF env leafRows ok b
  shaped : StructShaped env b
  dtype : dtype env b = .struct (Spec.take names is) (Spec.take ds is) nl
  rows : rows env leafRows b = (rows env leafRows a).map (pickRow is)

mutual
theorem project_ok (hl : LeafLaws env leafRows ok) {names : List Str} {ds : List DType} {nl : Bool} {proj : List Field} {is : List Nat}
    (hp : List.Forall₂ (Picks names) proj is) : ∀ (a : Arr L), WF env leafRows ok a → StructShaped env a → dtype env a = .struct names ds nl →
    ∃ b, project env proj a = .ok b ∧ Projected env leafRows ok names ds nl is a b
  | .struct names' fs n v, hw, _, hd => by
    simp only [dtype, DType.struct.injEq] at hd
    obtain ⟨rfl, rfl, rfl⟩ := hd
    obtain ⟨w1, w2, w3, w4⟩ := hw
    have hall := picks_all hp
    have hall' : ∀ i ∈ is, i < fs.length := fun i hi => w1 ▸ hall i hi
    have elen : (Spec.take names' is).length = (Spec.take fs is).length := by rw [take_length hall, take_length hall']
    have hmem : ∀ c ∈ Spec.take fs is, c ∈ fs := fun c hc => by
      simp only [Spec.take, List.mem_filterMap] at hc
      obtain ⟨i, _, hi⟩ := hc
      exact List.mem_of_getElem? hi
    rw [WFs_iff] at w2
    rw [rowsEach_eq] at w3
    have hlens : ((Spec.take fs is).all fun f => len env f == n) = true := by
      rw [List.all_eq_true]
      intro c hc
      rw [len_eq hl c (w2 c (hmem c hc)), w3 _ (List.mem_map_of_mem (hmem c hc))]
      simp
    refine ⟨.struct (Spec.take names' is) (Spec.take fs is) n v, ?_, ⟨elen, ?_, ?_, w4⟩, trivial, ?_, ?_⟩
    · simp only [project, mapM_pickField hp w1, Res.ok_bind]
      rw [List.map_fst_zip (by omega), List.map_snd_zip (by omega)]
      simp only [mkStruct, Res.guard, elen, beq_self_eq_true, if_true, Res.ok_bind, hlens, checkV_ok hl w4]
    · rw [WFs_iff]; exact fun c hc => w2 c (hmem c hc)
    · rw [rowsEach_eq]
      intro c hc
      obtain ⟨d, hd, rfl⟩ := List.mem_map.mp hc
      exact w3 _ (List.mem_map_of_mem (hmem d hd))
    · simp only [dtype, dtypes_eq, Spec.take_map]
    · simp only [rows, rowsEach_eq]
      rw [← structRows_pick (by simpa using hall'), Spec.take_map]
  | .chunked dt cs, hw, ⟨⟨names', ds', nl', h1, h2⟩, hs⟩, hd => by
    simp only [dtype] at hd
    subst hd
    simp only [DType.struct.injEq] at h1
    obtain ⟨rfl, rfl, rfl⟩ := h1
    obtain ⟨w1, w2⟩ := hw
    rw [dtypes_eq] at w2
    obtain ⟨cs', c1, c2, c3, c4, c5⟩ := projects_ok hl hp cs w1 hs (fun c hc => w2 _ (List.mem_map_of_mem hc))
    refine ⟨.chunked (.struct (Spec.take names is) (Spec.take ds is) nl) cs', ?_, ⟨c2, ?_⟩, ⟨⟨_, _, _, rfl, ?_⟩, c3⟩, rfl, ?_⟩
    · simp only [project, asStruct, Option.isSome, Res.guard, if_true, Res.ok_bind, c1, projectChunked, Res.ofOption, dtype_project hp h2]
      have : (cs'.all fun c => decide (dtype env c = .struct (Spec.take names is) (Spec.take ds is) nl)) = true := by
        rw [List.all_eq_true]; intro c hc; simpa using c4 c hc
      simp only [mkChunked, this, Res.guard, if_true, Res.ok_bind]
    · rw [dtypes_eq]
      intro d hd
      obtain ⟨c, hc, rfl⟩ := List.mem_map.mp hd
      exact c4 c hc
    · have hall := picks_all hp
      rw [take_length hall, take_length (fun i hi => h2 ▸ hall i hi)]
    · simp only [rows, c5, List.map_flatten]
  | .const dt x n, hw, ⟨names', ds', nl', h1, h2, h3⟩, hd => by
    simp only [dtype] at hd
    subst hd
    simp only [DType.struct.injEq] at h1
    obtain ⟨rfl, rfl, rfl⟩ := h1
    obtain ⟨p1, p2⟩ := projectScalar_ok (nl := nl) hp h2 h3
    have hall := picks_all hp
    refine ⟨.const (.struct (Spec.take names is) (Spec.take ds is) nl) (pickRow is x) n, ?_, ?_, ⟨_, _, _, rfl, ?_, p2⟩, rfl, ?_⟩
    · simp only [project, asStruct, Option.isSome, Res.guard, if_true, Res.ok_bind, projectConst, p1]
    · exact inst_pick (fun i hi => h2 ▸ hall i hi) h3 hw
    · rw [take_length hall, take_length (fun i hi => h2 ▸ hall i hi)]
    · simp [rows]
  | .sparse ix values n off fill, hw, ⟨hs1, names', ds', nl', h1, h3⟩, hd => by
    obtain ⟨w1, w2, w3, w4, w5⟩ := hw
    simp only [dtype] at hd
    rw [hd] at h1
    simp only [DType.struct.injEq] at h1
    obtain ⟨rfl, rfl, rfl⟩ := h1
    obtain ⟨b, b1, b2⟩ := project_ok hl hp values w1 hs1 hd
    obtain ⟨_, _, _, e1, h2⟩ := shaped_dtype values w1 hs1
    rw [hd] at e1
    simp only [DType.struct.injEq] at e1
    obtain ⟨rfl, rfl, rfl⟩ := e1
    obtain ⟨p1, p2⟩ := projectScalar_ok (nl := nl) hp h2 h3
    have hall := picks_all hp
    have hin : inst (pickRow is fill) (dtype env b) = true := by
      rw [b2.dtype]
      rw [hd] at w2
      exact inst_pick (fun i hi => h2 ▸ hall i hi) h3 w2
    have hlen : ix.length = (rows env leafRows b).length := by rw [b2.rows, List.length_map, w3]
    refine ⟨.sparse ix b n off (pickRow is fill), ?_, ⟨b2.wf, hin, hlen, w4, w5⟩, ⟨b2.shaped, _, _, _, b2.dtype, p2⟩, b2.dtype, ?_⟩
    · simp only [project, hd, asStruct, Option.isSome, Res.guard, if_true, Res.ok_bind, b1, projectSparse, p1, mkSparse, hin, len_eq hl b b2.wf,
        hlen, beq_self_eq_true, checkLast_wf w5]
    · simp only [rows, b2.rows, patched_map]
theorem projects_ok (hl : LeafLaws env leafRows ok) {names : List Str} {ds : List DType} {nl : Bool} {proj : List Field} {is : List Nat}
    (hp : List.Forall₂ (Picks names) proj is) : ∀ (cs : List (Arr L)), WFs env leafRows ok cs → StructShapeds env cs →
    (∀ c ∈ cs, dtype env c = .struct names ds nl) →
    ∃ cs', projects env proj cs = .ok cs' ∧ WFs env leafRows ok cs' ∧ StructShapeds env cs' ∧
      (∀ c ∈ cs', dtype env c = .struct (Spec.take names is) (Spec.take ds is) nl) ∧
      rowsEach env leafRows cs' = (rowsEach env leafRows cs).map (List.map (pickRow is))
  | [], _, _, _ => ⟨[], rfl, trivial, trivial, by simp, rfl⟩
  | c :: cs, hw, hs, hd => by
    obtain ⟨b, b1, b2⟩ := project_ok hl hp c hw.1 hs.1 (hd c (by simp))
    obtain ⟨bs, c1, c2, c3, c4, c5⟩ := projects_ok hl hp cs hw.2 hs.2 (fun x hx => hd x (by simp [hx]))
    refine ⟨b :: bs, by simp only [projects, b1, c1, Res.ok_bind], ⟨b2.wf, c2⟩, ⟨b2.shaped, c3⟩, ?_, by simp [rowsEach, b2.rows, c5]⟩
    intro x hx
    rcases List.mem_cons.mp hx with rfl | hx
    · exact b2.dtype
    · exact c4 x hx
end

end Vx.Tree
