import Verif.Spec.PyArrow
import Verif.Props.C49
import Mathlib.Data.List.Forall2
/-!
# C99: Arrow data brought to Vortex in Python and back

Model: `Model/PyArrow.lean`. Specification: `Spec/PyArrow.lean` and `Spec/ArrowArray.lean`.
-/
namespace Vx.Arrow
open Temporal Vx.Spec Vx.Spec.Arrow

theorem someNull_nonnull {a : AArr} (hb : SomeNull a.nulls) (hn : ∀ m, a.nulls = some m → false ∉ m) : a.nulls = none := by
  cases h : a.nulls with
  | none => rfl
  | some m => exact absurd (hb m h) (hn m h)

theorem handed_nulls {a : AArr} (h : Handed a) : SomeNull a.nulls := by
  cases a <;> simp only [Handed, AArr.nulls] at h ⊢
  all_goals first | exact h | exact h.1 | (intro m hm; cases hm)

mutual
theorem importOk_of : ∀ (a : AArr) (nullable : Bool), Handed a → Importable a → (nullable = false → NoNull a) → ImportOk a nullable
  | .null n, nullable, _, _, hn => by
    simp only [ImportOk]
    cases nullable with
    | true => rfl
    | false => exact absurd rfl ((hn rfl).2 n)
  | .other _ _, _, _, hi, _ => by simp [Importable] at hi
  | .bool _ b, nullable, _, _, hn => by
    simp only [ImportOk]
    cases nullable with
    | true => exact .inl rfl
    | false => exact .inr (hn rfl).1
  | .fixed t _ b, nullable, _, hi, hn => by
    simp only [ImportOk]
    refine ⟨?_, hi⟩
    cases nullable with
    | true => exact .inl rfl
    | false => exact .inr (hn rfl).1
  | .bytes t _ b, nullable, _, hi, hn => by
    simp only [ImportOk]
    refine ⟨?_, hi⟩
    cases nullable with
    | true => exact .inl rfl
    | false => exact .inr (hn rfl).1
  | .struct cols _ b, nullable, hh, hi, hn => by
    simp only [ImportOk]
    simp only [Handed] at hh
    refine ⟨?_, importOk_of_cols cols hh.2 hi⟩
    cases nullable with
    | true => exact .inl rfl
    | false => exact .inr (hn rfl).1
theorem importOk_of_cols : ∀ (cols : ACols), HandedCols cols → ImportableCols cols → ImportOkCols cols
  | .nil, _, _ => trivial
  | .cons name nullable a rest, hh, hi => by
    simp only [HandedCols] at hh
    simp only [ImportableCols] at hi
    simp only [ImportOkCols]
    refine ⟨importOk_of a nullable hh.1 hi.1 ?_, importOk_of_cols rest hh.2.2 hi.2.2⟩
    intro hn
    refine ⟨someNull_nonnull (handed_nulls hh.1) (hh.2.1 hn), fun n hnull => ?_⟩
    rw [hi.2.1 n hnull] at hn
    cases hn
end

theorem noNull_of_isNullable {a : AArr} (hh : Handed a) (h : a.isNullable = false) (hz : a ≠ .null 0) : NoNull a := by
  refine ⟨?_, ?_⟩
  · refine someNull_nonnull (handed_nulls hh) ?_
    intro m hm hf
    have hc : 0 < m.count false := List.count_pos_iff.mpr hf
    unfold AArr.isNullable at h
    split at h
    · simp [AArr.nulls] at hm
    · rw [hm] at h
      simp only [decide_eq_false_iff_not, ne_eq, not_not] at h
      omega
  · intro n hn
    subst hn
    simp only [AArr.isNullable, decide_eq_false_iff_not, ne_eq, not_not] at h
    exact hz (by rw [h])

/-- **C99 (one array).** An Arrow array of a type that can be imported becomes a Vortex array whose Arrow form has the same rows and the
same type, up to the view layout of strings and lost time zones. (`_partial`: an empty array of type null, byte arrays with offsets and
structs without columns are excluded, see below and C49; zones are lost.) -/
theorem C99_array_partial (c : Ctx) (hl : LossyOk c.lossy) (a : AArr) (hw : AWF a) (hh : Handed a) (hi : Importable a) (hc : ACanExport a)
    (hz : a ≠ .null 0) :
    ∃ v o, encode (.array a) = .ok v ∧ toArrowArray c v = .ok o ∧ pyRows o = pyRows (.array a) ∧ pyType o = viewed (noZone a.type) := by
  have hok : ImportOk a a.isNullable := importOk_of a _ hh hi (fun h => noNull_of_isNullable hh h hz)
  obtain ⟨v, a', h1, h2, h3, h4⟩ := C49_round_trip_partial c hl a a.isNullable hw hok hc
  refine ⟨.flat v, .array a', ?_, ?_, h3, h4⟩
  · simp only [encode, h1, Res.ok_bind]
  · simp only [toArrowArray, h2, Res.ok_bind]

theorem nullMask_false {len : Nat} {b : Option (List Bool)} (hb : NullsFit len b) :
    (∃ i, i < len ∧ (nullMask len b)[i]? ≠ some true) ↔ ∃ m, b = some m ∧ m.count false ≠ 0 := by
  cases b with
  | none =>
    constructor
    · rintro ⟨i, hi, h⟩
      exact absurd (by simp [nullMask, hi]) h
    · rintro ⟨m, hm, _⟩; cases hm
  | some m =>
    simp only [NullsFit] at hb
    subst hb
    constructor
    · rintro ⟨i, hi, h⟩
      refine ⟨m, rfl, fun hc => ?_⟩
      have hm := List.count_eq_zero.mp hc
      rw [nullMask, List.getElem?_eq_getElem hi] at h
      cases hx : m[i] with
      | true => rw [hx] at h; exact h rfl
      | false => exact hm (hx ▸ List.getElem_mem hi)
    · rintro ⟨m', hm', hc⟩
      cases hm'
      have : false ∈ m := by
        by_contra hn
        exact hc (List.count_eq_zero.mpr hn)
      obtain ⟨i, hi, hx⟩ := List.mem_iff_getElem.mp this
      exact ⟨i, hi, by rw [nullMask, List.getElem?_eq_getElem hi, hx]; simp⟩

theorem cell_null {f : α → Val} (hf : ∀ x, f x ≠ .null) {vals : List α} {m : List Bool} :
    (∃ i, i < vals.length ∧ cell f vals m i = .null) ↔ ∃ i, i < vals.length ∧ m[i]? ≠ some true := by
  refine exists_congr (fun i => and_congr_right (fun hi => ?_))
  unfold cell
  rw [List.getElem?_eq_getElem hi]
  split
  · rename_i h1 h2; exact ⟨fun h => absurd h (hf _), fun h => absurd h2 h⟩
  · rename_i h1; exact ⟨fun _ h => h1 _ rfl h, fun _ => rfl⟩

/-- `is_nullable` says whether some row is null. -/
theorem isNullable_iff {a : AArr} (hw : AWF a) (ho : ∀ n l, a ≠ .other n l) : a.isNullable = true ↔ Val.null ∈ arows a := by
  have hmem : Val.null ∈ arows a ↔ ∃ i, i < a.len ∧ arow a i = .null := by
    simp only [arows, List.mem_map, List.mem_range]
  rw [hmem]
  have hval : ∀ b, (match (b : Option (List Bool)) with | some m => decide (m.count false ≠ 0) | none => false) = true ↔
      ∃ m, b = some m ∧ m.count false ≠ 0 := by
    intro b
    cases b with
    | none =>
      constructor
      · intro h; cases h
      · rintro ⟨m, h, _⟩; cases h
    | some m => exact ⟨fun h => ⟨m, rfl, of_decide_eq_true h⟩, fun ⟨m', h, hc⟩ => by cases h; exact decide_eq_true hc⟩
  cases a with
  | null n =>
    simp only [AArr.isNullable, arow, AArr.len, decide_eq_true_eq, and_true]
    constructor
    · intro h; exact ⟨0, by omega⟩
    · rintro ⟨i, hi⟩; omega
  | other n l => exact absurd rfl (ho n l)
  | bool vals b =>
    simp only [AWF] at hw
    simp only [AArr.len, arow]
    exact (hval b).trans ((nullMask_false hw).symm.trans (cell_null (by simp)).symm)
  | fixed t vals b =>
    simp only [AWF] at hw
    simp only [AArr.len, arow]
    exact (hval b).trans ((nullMask_false hw).symm.trans (cell_null (by simp)).symm)
  | bytes t vals b =>
    simp only [AWF] at hw
    simp only [AArr.len, arow]
    exact (hval b).trans ((nullMask_false hw).symm.trans (cell_null (by simp)).symm)
  | struct cols len b =>
    simp only [AWF] at hw
    simp only [AArr.len, arow]
    refine (hval b).trans ((nullMask_false hw.1).symm.trans (exists_congr (fun i => and_congr_right (fun _ => ?_))))
    split <;> simp_all

theorem fromArrow_nullable {t : AType} {n : Bool} {d : DType} (h : fromArrow t n = .ok d) (ht : t ≠ .null) : d.isNullable = n := by
  cases t <;> simp only [fromArrow, extOf, Res.bind_eq_ok, Res.ok.injEq] at h
  case null => exact absurd rfl ht
  case other => cases h
  all_goals first
    | (subst h; rfl)
    | (obtain ⟨_, _, rfl⟩ := h; rfl)

/-- **C99 (nullability).** The Vortex array made from one Arrow array is nullable exactly if the Arrow array has a null. -/
theorem C99_array_nullable (a : AArr) (hw : AWF a) (ho : ∀ n l, a ≠ .other n l) (x : PyVx) (h : encode (.array a) = .ok x) :
    ∃ v, x = .flat v ∧ (v.dtype.isNullable = true ↔ Val.null ∈ arows a) := by
  simp only [encode] at h
  obtain ⟨v, hv, h⟩ := Res.bind_eq_ok.mp h
  cases h
  refine ⟨v, rfl, ?_⟩
  rw [← isNullable_iff hw ho]
  obtain ⟨_, _, hd⟩ := C49_import_rows a a.isNullable v hw hv
  by_cases hn : noZone a.type = .null
  · rw [hn] at hd
    simp only [fromArrow, Res.ok.injEq] at hd
    rw [← hd]
    have : ∃ n, a = .null n := by
      cases a with
      | null n => exact ⟨n, rfl⟩
      | fixed t vals b =>
        simp only [AArr.type] at hn
        cases t <;> simp [noZone] at hn
        simp [fromArr, fromFixed, Res.bind_eq_ok] at hv
      | bytes t vals b =>
        simp only [AArr.type] at hn
        cases t <;> simp [noZone] at hn
        simp [fromArr, fromBytes, Res.bind_eq_ok] at hv
      | bool _ _ => simp [AArr.type, noZone] at hn
      | struct _ _ _ => simp [AArr.type, noZone] at hn
      | other n l => exact absurd rfl (ho n l)
    obtain ⟨n, rfl⟩ := this
    simp only [fromArr] at hv
    split at hv
    · rename_i hb; simp [hb, DType.isNullable]
    · cases hv
  · rw [fromArrow_nullable hd hn]

theorem mapM_ok_of {f : α → Res β} : ∀ {l : List α}, (∀ x ∈ l, ∃ y, f x = .ok y) → ∃ ys, Res.mapM f l = .ok ys ∧ List.Forall₂ (fun x y => f x = .ok y) l ys
  | [], _ => ⟨[], rfl, .nil⟩
  | x :: l, h => by
    obtain ⟨y, hy⟩ := h x (by simp)
    obtain ⟨ys, h1, h2⟩ := mapM_ok_of (l := l) (fun z hz => h z (by simp [hz]))
    exact ⟨y :: ys, by simp [Res.mapM, hy, h1], .cons hy h2⟩

theorem flatMap_forall₂ {R : α → β → Prop} {f : α → List γ} {g : β → List γ} {l : List α} {k : List β} (h : List.Forall₂ R l k)
    (hfg : ∀ a b, R a b → g b = f a) : k.flatMap g = l.flatMap f := by
  induction h with
  | nil => rfl
  | cons h1 _ ih => simp only [List.flatMap_cons, hfg _ _ h1, ih]

theorem flatMap_congr' {f g : α → List γ} {l : List α} (h : ∀ a ∈ l, f a = g a) : l.flatMap f = l.flatMap g := by
  induction l with
  | nil => rfl
  | cons a l ih => simp only [List.flatMap_cons, h a (by simp), ih (fun b hb => h b (by simp [hb]))]

theorem map_forall₂ {R : α → β → Prop} {f : α → γ} {g : β → γ} {l : List α} {k : List β} (h : List.Forall₂ R l k)
    (hfg : ∀ a b, R a b → g b = f a) : k.map g = l.map f := by
  induction h with
  | nil => rfl
  | cons h1 _ ih => simp only [List.map_cons, hfg _ _ h1, ih]

/-- The part of the argument shared by chunked arrays and tables. -/
theorem chunks_round_trip (c : Ctx) (hl : LossyOk c.lossy) {ty : AType} {d : DType} (hd : fromArrow ty false = .ok d) (hzone : noZone ty = ty)
    (as : List AArr) (hne : as ≠ []) (h : ∀ a ∈ as, a.type = ty ∧ AWF a ∧ ImportOk a false ∧ ACanExport a) :
    ∃ cs as', Res.mapM (fun a => fromArr a false) as = .ok cs ∧ chunkedNew cs d = .ok (.chunked d cs) ∧
      toArrowArray c (.chunked d cs) = .ok (.chunked (viewed ty) as') ∧ as'.flatMap arows = as.flatMap arows ∧
      as'.map AArr.len = as.map AArr.len := by
  obtain ⟨cs, h1, h2⟩ := mapM_ok_of (f := fun a => fromArr a false) (l := as) (fun a ha => by
    obtain ⟨_, hw, hi, hc⟩ := h a ha
    obtain ⟨v, _, g1, _⟩ := C49_round_trip_partial c hl a false hw hi hc
    exact ⟨v, g1⟩)
  have hdt : ∀ v ∈ cs, v.dtype = d := by
    intro v hv
    obtain ⟨k, hk, rfl⟩ := List.mem_iff_getElem.mp hv
    have hk' : k < as.length := by rw [h2.length_eq]; exact hk
    have hg := (List.forall₂_iff_get.mp h2).2 k hk' hk
    obtain ⟨ht, hw, _, _⟩ := h as[k] (List.getElem_mem hk')
    obtain ⟨_, _, g3⟩ := C49_import_rows _ _ _ hw hg
    rw [ht, hzone, hd] at g3
    exact (Res.ok.inj g3).symm
  have hexp : ∀ v ∈ cs, ∃ a', intoArr c v = .ok a' := by
    intro v hv
    obtain ⟨k, hk, rfl⟩ := List.mem_iff_getElem.mp hv
    have hk' : k < as.length := by rw [h2.length_eq]; exact hk
    have hg := (List.forall₂_iff_get.mp h2).2 k hk' hk
    obtain ⟨_, hw, hi, hc⟩ := h as[k] (List.getElem_mem hk')
    obtain ⟨v', a', g1, g2, _⟩ := C49_round_trip_partial c hl as[k] false hw hi hc
    have : v' = cs[k] := Res.ok.inj (g1.symm.trans hg)
    exact ⟨a', this ▸ g2⟩
  obtain ⟨as', h3, h4⟩ := mapM_ok_of hexp
  have hrel : List.Forall₂ (fun a a' => arows a' = arows a ∧ a'.type = viewed ty ∧ a'.len = a.len) as as' := by
    rw [List.forall₂_iff_get]
    refine ⟨by rw [h2.length_eq, h4.length_eq], fun k hk hk' => ?_⟩
    have hkc : k < cs.length := by rw [← h2.length_eq]; exact hk
    have e1 := (List.forall₂_iff_get.mp h2).2 k hk hkc
    have e2 := (List.forall₂_iff_get.mp h4).2 k hkc hk'
    obtain ⟨ht, hw, hi, hc⟩ := h _ (List.get_mem as ⟨k, hk⟩)
    obtain ⟨v', a', g1, g2, g3, g4⟩ := C49_round_trip_partial c hl _ false hw hi hc
    have hv : v' = cs.get ⟨k, hkc⟩ := Res.ok.inj (g1.symm.trans e1)
    subst hv
    have ha : a' = as'.get ⟨k, hk'⟩ := Res.ok.inj (g2.symm.trans e2)
    subst ha
    refine ⟨g3, by rw [g4, ht, hzone], ?_⟩
    have := congrArg List.length g3
    simpa [arows] using this
  refine ⟨cs, as', h1, ?_, ?_, ?_, ?_⟩
  · have : cs.all (fun v => decide (v.dtype = d)) = true := by
      rw [List.all_eq_true]; intro v hv; exact decide_eq_true (hdt v hv)
    simp only [chunkedNew, this, if_true]
  · simp only [toArrowArray, h3, Res.ok_bind]
    cases as' with
    | nil =>
      cases as with
      | nil => exact absurd rfl hne
      | cons _ _ => cases hrel
    | cons a0 rest =>
      have hall : ∀ x ∈ a0 :: rest, x.type = viewed ty := by
        intro x hx
        obtain ⟨k, hk, rfl⟩ := List.mem_iff_getElem.mp hx
        have hk' : k < as.length := by rw [hrel.length_eq]; exact hk
        exact ((List.forall₂_iff_get.mp hrel).2 k hk' hk).2.1
      have h0 := hall a0 (by simp)
      simp only [pyChunked]
      rw [if_pos (fun x hx => by rw [hall x hx, h0]), h0]
  · exact flatMap_forall₂ hrel (fun a b hab => hab.1)
  · exact map_forall₂ hrel (fun a b hab => hab.2.2)

/-- **C99 (chunked arrays).** A PyArrow chunked array with at least one chunk and no nulls, of a type without time zones, becomes a chunked
Vortex array whose Arrow form has the same rows in chunks of the same lengths and the same type, up to the view layout of strings.
(`_partial`: chunks with nulls, time zones and no chunks at all fail, see below.) -/
theorem C99_chunked_partial (c : Ctx) (hl : LossyOk c.lossy) (ty : AType) (d : DType) (hd : fromArrow ty false = .ok d) (hzone : noZone ty = ty)
    (as : List AArr) (hne : as ≠ [])
    (h : ∀ a ∈ as, a.type = ty ∧ AWF a ∧ Handed a ∧ Importable a ∧ NoNull a ∧ ACanExport a) :
    ∃ v o as', encode (.chunked ty as) = .ok v ∧ toArrowArray c v = .ok o ∧ o = .chunked (viewed ty) as' ∧
      pyRows o = pyRows (.chunked ty as) ∧ as'.map AArr.len = as.map AArr.len := by
  obtain ⟨cs, as', h1, h2, h3, h4, h5⟩ := chunks_round_trip c hl hd hzone as hne (fun a ha => by
    obtain ⟨g1, g2, g3, g4, g5, g6⟩ := h a ha
    exact ⟨g1, g2, importOk_of a false g3 g4 (fun _ => g5), g6⟩)
  refine ⟨.chunked d cs, _, as', ?_, h3, rfl, h4, h5⟩
  simp only [encode, h1, hd, Res.ok_bind, h2]

/-- A record batch as a struct array. -/
def batchArr (b : Batch) : AArr := .struct b.cols b.rows none

theorem fromBatch_eq {b : Batch} {v : VArr} (h : fromArr (batchArr b) false = .ok v) : fromBatch b = .ok v := by
  simp only [batchArr, fromArr] at h
  obtain ⟨cs, h1, h2⟩ := Res.bind_eq_ok.mp h
  obtain ⟨w, h3, h4⟩ := Res.bind_eq_ok.mp h2
  have hw : w = .nonNullable := by
    simp only [nulls, Bool.false_eq_true, if_false] at h3; exact (Res.ok.inj h3).symm
  subst hw
  simp only [fromBatch, h1, Res.ok_bind]
  cases hs : structNew cs b.rows .nonNullable with
  | ok x => rw [hs] at h4; exact h4
  | err => rw [hs] at h4; cases h4
  | panic => rw [hs] at h4; cases h4

theorem mapM_congr_ok {f : α → Res β} {g : γ → Res β} {e : α → γ} : ∀ {l : List α} {ys : List β}, (∀ x y, g (e x) = .ok y → f x = .ok y) →
    Res.mapM g (l.map e) = .ok ys → Res.mapM f l = .ok ys
  | [], ys, _, h => h
  | x :: l, ys, he, h => by
    simp only [List.map_cons, Res.mapM] at h ⊢
    cases hx : g (e x) with
    | err => simp [hx] at h
    | panic => simp [hx] at h
    | ok y =>
      rw [he x y hx]
      simp only [hx, Res.ok_bind] at h ⊢
      cases hr : Res.mapM g (l.map e) with
      | err => simp [hr] at h
      | panic => simp [hr] at h
      | ok zs =>
        rw [mapM_congr_ok he hr]
        rw [hr] at h
        exact h

/-- **C99 (tables).** A PyArrow table with at least one record batch and no time zone in its schema becomes a chunked Vortex array of
structs; its Arrow form is a chunked array of structs with the rows of the table, one chunk per batch. -/
theorem C99_table_partial (c : Ctx) (hl : LossyOk c.lossy) (fs : AFields) (d : DType) (hd : fromArrow (.struct fs) false = .ok d)
    (hzone : noZoneFields fs = fs) (bs : List Batch) (hne : bs ≠ [])
    (h : ∀ b ∈ bs, b.cols.fields = fs ∧ AWFCols b.rows b.cols ∧ HandedCols b.cols ∧ ImportableCols b.cols ∧
      (b.cols = .nil → b.rows = 0) ∧ ACanExportAll b.cols) :
    ∃ v o as', encode (.table fs bs) = .ok v ∧ toArrowArray c v = .ok o ∧ o = .chunked (viewed (.struct fs)) as' ∧
      pyRows o = pyRows (.table fs bs) ∧ as'.map AArr.len = bs.map (·.rows) := by
  obtain ⟨cs, as', h1, h2, h3, h4, h5⟩ := chunks_round_trip c hl (ty := .struct fs) hd (by simp [noZone, hzone]) (bs.map batchArr) (by simpa using hne)
    (fun a ha => by
      obtain ⟨b, hb, rfl⟩ := List.mem_map.mp ha
      obtain ⟨g1, g2, g3, g4, g5, g6⟩ := h b hb
      refine ⟨by simp [batchArr, AArr.type, g1], ?_, ?_, ?_⟩
      · simp only [batchArr, AWF, NullsFit]; exact ⟨trivial, g2⟩
      · simp only [batchArr, ImportOk]; exact ⟨.inr rfl, importOk_of_cols _ g3 g4⟩
      · simp only [batchArr, ACanExport]; exact ⟨g5, g6⟩)
  refine ⟨.chunked d cs, _, as', ?_, h3, rfl, ?_, ?_⟩
  · have hs : fromSchema fs = .ok d := by
      simpa [fromArrow, fromSchema] using hd
    have hm : Res.mapM fromBatch bs = .ok cs := mapM_congr_ok (e := batchArr) (fun b y hy => fromBatch_eq hy) h1
    simp only [encode, hs, hm, Res.ok_bind, h2]
  · simp only [pyRows, h4]
    rw [List.flatMap_map]
    refine flatMap_congr' ?_
    intro b hb
    simp only [arows, batchArr, AArr.len]
    apply List.map_congr_left
    intro i hi
    simp only [List.mem_range] at hi
    simp [arow, nullMask, hi]
  · rw [h5, List.map_map]; rfl

/-! ### Where it fails -/

theorem mapM_panic {f : α → Res β} : ∀ {l : List α}, (∀ x ∈ l, f x = .panic ∨ ∃ y, f x = .ok y) → (∃ x ∈ l, f x = .panic) → Res.mapM f l = .panic
  | [], _, h => by obtain ⟨x, hx, _⟩ := h; cases hx
  | x :: l, ha, h => by
    rcases ha x (by simp) with hp | ⟨y, hy⟩
    · simp only [Res.mapM, hp]; rfl
    · have : Res.mapM f l = .panic := mapM_panic (fun z hz => ha z (by simp [hz])) (by
        obtain ⟨z, hz, hp⟩ := h
        rcases List.mem_cons.mp hz with rfl | hz
        · rw [hy] at hp; cases hp
        · exact ⟨z, hz, hp⟩)
      simp only [Res.mapM, hy, this, Res.ok_bind]; rfl

/-- A PyArrow chunked array with a null in it is never imported: the conversion crashes, because every chunk is read as non-nullable. -/
theorem C99_chunked_nulls_panic (ty : AType) (as : List AArr) (hw : ∀ a ∈ as, AWF a) (h : ∃ a ∈ as, a.nulls ≠ none) :
    encode (.chunked ty as) = .panic := by
  have hpan : ∀ a, AWF a → a.nulls ≠ none → fromArr a false = .panic := by
    intro a ha hn
    refine (C49_import_defined a false ha).2.mp (fun hi => hn ?_)
    cases a <;> simp only [ImportOk, NullsOk, Bool.false_eq_true, false_or, AArr.nulls] at hi ⊢
    all_goals first | exact hi | exact hi.1
  have : Res.mapM (fun a => fromArr a false) as = .panic := by
    refine mapM_panic ?_ ?_
    · intro a ha
      by_cases hi : ImportOk a false
      · exact .inr ((C49_import_defined a false (hw a ha)).1.mp hi)
      · exact .inl ((C49_import_defined a false (hw a ha)).2.mp hi)
    · obtain ⟨a, ha, hn⟩ := h
      exact ⟨a, ha, hpan a (hw a ha) hn⟩
  simp only [encode, this]; rfl

/-- …and so is one of type null, and an empty array of type null. -/
theorem C99_null_type_panics (n : Nat) : encode (.chunked .null [.null n]) = .panic ∧ encode (.array (.null 0)) = .panic := ⟨rfl, rfl⟩

/-- A chunked array or table without chunks is imported, but has no Arrow form. -/
theorem C99_no_chunks (c : Ctx) : encode (.chunked .boolean []) = .ok (.chunked (.bool false) []) ∧
    toArrowArray c (.chunked (.bool false) []) = .err := by
  refine ⟨by simp [encode, Res.mapM, fromArrow, chunkedNew], ?_⟩
  simp only [toArrowArray, Res.mapM, Res.ok_bind]

/-- A chunked array of timestamps with a time zone is refused: the chunks lose the zone and no longer fit the type. -/
theorem C99_zone_refused (vals : List Nat) :
    encode (.chunked (.timestamp .milli (some "UTC")) [.fixed (.timestamp .milli (some "UTC")) vals none]) = .err := by
  have h1 : fromArr (.fixed (.timestamp .milli (some "UTC")) vals none) false = .ok (.ext timestampId (some [2, 0, 0]) (.prim .i64 vals .nonNullable)) := by
    simp only [fromArr, fromFixed]; rfl
  obtain ⟨d, hd, hne⟩ : ∃ d, fromArrow (.timestamp .milli (some "UTC")) false = .ok d ∧ d ≠ .ext timestampId (some [2, 0, 0]) false := by
    simp only [fromArrow]; exact ⟨_, rfl, by decide⟩
  have hv : (VArr.ext timestampId (some [2, 0, 0]) (.prim .i64 vals .nonNullable)).dtype = .ext timestampId (some [2, 0, 0]) false := by
    simp only [VArr.dtype]; rfl
  simp only [encode, Res.mapM, h1, hd, Res.ok_bind, chunkedNew, List.all_cons, List.all_nil, hv, Bool.and_true]
  rw [if_neg]
  simpa using fun h => hne h.symm

/-! ### Instances -/

theorem exArr_handed : Handed exArr ∧ Importable exArr := by
  simp [exArr, exCols, Handed, HandedCols, Importable, ImportableCols, SomeNull, FixedOk, BytesOk, AArr.nulls]

/-- The theorem for arrays on a struct array with nulls at two levels. -/
example : ∃ v o, encode (.array exArr) = .ok v ∧ toArrowArray exCtx v = .ok o ∧
    pyRows o = [.tuple [.bits 19000, .bytes [104, 105]], .tuple [.null, .bytes []], .null] ∧ pyType o = viewed (noZone exArr.type) := by
  obtain ⟨v, o, h1, h2, h3, h4⟩ := C99_array_partial exCtx lossy_ok exArr (by simp [exArr, exCols, AWF, AWFCols, NullsFit, AArr.len])
    exArr_handed.1 exArr_handed.2 (by simp [exArr, exCols, ACanExport, ACanExportAll]) (by simp [exArr])
  exact ⟨v, o, h1, h2, h3, h4⟩

/-- The theorem for tables on two batches, the second empty. -/
example : ∃ v o as', encode (.table exCols.fields [⟨exCols, 3⟩, ⟨.cons "d".toList true (.fixed .date32 [] none)
      (.cons "s".toList false (.bytes .largeUtf8 [] none) .nil), 0⟩]) = .ok v ∧ toArrowArray exCtx v = .ok o ∧
    o = .chunked (viewed (.struct exCols.fields)) as' ∧
    pyRows o = [.tuple [.bits 19000, .bytes [104, 105]], .tuple [.null, .bytes []], .tuple [.bits 19002, .bytes [33]]] ∧
    as'.map AArr.len = [3, 0] := by
  obtain ⟨d, hd⟩ : ∃ d, fromArrow (.struct exCols.fields) false = .ok d := ⟨_, rfl⟩
  obtain ⟨v, o, as', h1, h2, h3, h4, h5⟩ := C99_table_partial exCtx lossy_ok exCols.fields d hd rfl
    [⟨exCols, 3⟩, ⟨.cons "d".toList true (.fixed .date32 [] none) (.cons "s".toList false (.bytes .largeUtf8 [] none) .nil), 0⟩] (by simp) (by
      intro b hb
      simp only [List.mem_cons, List.not_mem_nil, or_false] at hb
      rcases hb with rfl | rfl <;>
        simp [exCols, ACols.fields, AArr.type, AWFCols, AWF, NullsFit, AArr.len, HandedCols, Handed, SomeNull, ImportableCols, Importable, FixedOk, BytesOk,
          ACanExportAll, ACanExport, AArr.nulls])
  exact ⟨v, o, as', h1, h2, h3, h4, h5⟩

/-- The theorem for chunked arrays on two chunks of text. -/
example : ∃ v o as', encode (.chunked .utf8 [.bytes .utf8 [[104], [105]] none, .bytes .utf8 [[33]] none]) = .ok v ∧
    toArrowArray exCtx v = .ok o ∧ o = .chunked .utf8View as' ∧ pyRows o = [.bytes [104], .bytes [105], .bytes [33]] ∧ as'.map AArr.len = [2, 1] := by
  obtain ⟨v, o, as', h1, h2, h3, h4, h5⟩ := C99_chunked_partial exCtx lossy_ok .utf8 (.utf8 false) rfl rfl
    [.bytes .utf8 [[104], [105]] none, .bytes .utf8 [[33]] none] (by simp) (by
      intro a ha
      simp only [List.mem_cons, List.not_mem_nil, or_false] at ha
      rcases ha with rfl | rfl <;>
        simp [AArr.type, AWF, NullsFit, Handed, SomeNull, Importable, BytesOk, NoNull, AArr.nulls, ACanExport])
  exact ⟨v, o, as', h1, h2, h3, h4, h5⟩

example : encode (.chunked .boolean [.bool [true] none, .bool [true, false] (some [true, false])]) = .panic :=
  C99_chunked_nulls_panic .boolean _ (by simp [AWF, NullsFit]) ⟨_, .tail _ (.head _), by simp [AArr.nulls]⟩

end Vx.Arrow
