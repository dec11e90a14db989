import Verif.Lemmas.TreeStruct
import Verif.Props.C03
import Mathlib.Order.Nat
import Mathlib.Data.Nat.Find
/-!
# C42: struct projection

Selecting columns of a struct array - struct-encoded, chunked, constant or sparse, nested in any way - by name or index.
-/
namespace Vx.Tree
open RowExpr (Field)
open Vx.Spec (take_length)

variable {L : Type} {env : Env L} {leafRows : L → List SV} {ok : L → Prop}

/-- **C42 (include).** If every reference of the projection names a column (`Picks`: the first one of that name, or the one at that index),
the projection succeeds; the result has the requested columns in the requested order - repetitions included -, the same number of rows,
and every row is the old row restricted to those columns, null where it was null. It is again a struct array, so projections compose. -/
theorem C42_project (hl : LeafLaws env leafRows ok) (a : Arr L) (hw : WF env leafRows ok a) (hs : StructShaped env a) (names : List Str)
    (ds : List DType) (nl : Bool) (hd : dtype env a = .struct names ds nl) (proj : List Field) (is : List Nat)
    (hp : List.Forall₂ (Picks names) proj is) :
    ∃ b, evalSelect env (.incl proj) a = .ok b ∧ project env proj a = .ok b ∧ len env b = len env a ∧
      dtype env b = .struct (Spec.take names is) (Spec.take ds is) nl ∧
      rows env leafRows b = (rows env leafRows a).map (pickRow is) ∧ WF env leafRows ok b ∧ StructShaped env b := by
  obtain ⟨b, h1, h2⟩ := project_ok hl hp a hw hs hd
  have hstr : isStructArray env a = true := by
    cases a with
    | struct => rfl
    | chunked dt cs => obtain ⟨⟨_, _, _, rfl, _⟩, _⟩ := hs; rfl
    | const dt x n => obtain ⟨_, _, _, rfl, _⟩ := hs; rfl
    | sparse is values n off fill =>
      have : dtype env values = .struct names ds nl := hd
      simp [isStructArray, this, asStruct]
    | _ => exact hs.elim
  refine ⟨b, ?_, h1, ?_, h2.dtype, h2.rows, h2.wf, h2.shaped⟩
  · simp only [evalSelect, hstr, Res.guard, if_true, Res.ok_bind, hd, asStruct, Res.ofOption, h1]
  · rw [len_eq hl b h2.wf, len_eq hl a hw, h2.rows, List.length_map]

/-- Row by row: a null row stays null; any other row keeps the values of the selected columns. -/
theorem C42_row (is : List Nat) (xs : List SV) (h : ∀ i ∈ is, i < xs.length) :
    pickRow is .null = .null ∧ ∃ ys, pickRow is (.list xs) = .list ys ∧ ys.length = is.length ∧
      ∀ k : Nat, ys[k]? = is[k]? >>= fun i => xs[i]? :=
  ⟨rfl, Spec.take xs is, pickRow_list h, take_length h, Spec.take_getElem? h⟩

theorem findName_none {names : List Str} {n : Str} (h : n ∉ names) : DType.findName names n = none := by
  have : names.findIdx (· == n) = names.length := by
    rw [List.findIdx_eq_length]
    intro x hx
    simp only [beq_eq_false_iff_ne, ne_eq]
    rintro rfl
    exact h hx
  simp [DType.findName, this]

theorem findName_lt {names : List Str} {n : Str} {i : Nat} (h : DType.findName names n = some i) : i < names.length := by
  simp only [DType.findName] at h
  split at h
  · cases h; assumption
  · simp at h

theorem mapM_err {f : α → Res β} {as : List α} (h1 : ∀ a ∈ as, f a = .err ∨ ∃ b, f a = .ok b) (h2 : ∃ a ∈ as, f a = .err) :
    Res.mapM f as = .err := by
  induction as with
  | nil => simp at h2
  | cons a as ih =>
    rw [Res.mapM_cons]
    rcases h1 a (by simp) with h | ⟨b, h⟩
    · rw [h]; rfl
    · obtain ⟨x, hx, hx'⟩ := h2
      have : x ∈ as := by
        rcases List.mem_cons.mp hx with rfl | hx
        · rw [h] at hx'; cases hx'
        · exact hx
      rw [h, Res.ok_bind, ih (fun y hy => h1 y (by simp [hy])) ⟨x, this, hx'⟩]; rfl

/-- Indices of the projection in range, and a name that is no column. -/
def UnknownName (names : List Str) (proj : List Field) : Prop :=
  (∀ i, Field.index i ∈ proj → i < names.length) ∧ ∃ n, Field.name n ∈ proj ∧ n ∉ names

theorem dtype_project_unknown {names : List Str} {ds : List DType} {proj : List Field} (hlen : names.length = ds.length)
    (h : UnknownName names proj) : DType.project names ds proj = .err := by
  have : Res.mapM (DType.fieldInfo names ds) proj = .err := by
    refine mapM_err (fun f hf => ?_) ?_
    · cases f with
      | name n =>
        cases he : DType.findName names n with
        | none => left; simp [DType.fieldInfo, he, Res.ofOption]
        | some i =>
          have hi := findName_lt he
          right
          exact ⟨(names[i], ds[i]), by simp [DType.fieldInfo, he, Res.ofOption, List.getElem?_eq_getElem hi,
            List.getElem?_eq_getElem (hlen ▸ hi : i < ds.length), Res.unwrap]; omega⟩
      | index i =>
        have hi := h.1 i hf
        right
        exact ⟨(names[i], ds[i]), by simp [DType.fieldInfo, List.getElem?_eq_getElem hi,
          List.getElem?_eq_getElem (hlen ▸ hi : i < ds.length), Res.unwrap]; omega⟩
    · obtain ⟨n, h1, h2⟩ := h.2
      exact ⟨_, h1, by simp [DType.fieldInfo, findName_none h2, Res.ofOption]⟩
  simp only [DType.project, this]; rfl

mutual
theorem project_unknown {names : List Str} {ds : List DType} {nl : Bool} {proj : List Field} (hu : UnknownName names proj) :
    ∀ (a : Arr L), WF env leafRows ok a → StructShaped env a → dtype env a = .struct names ds nl → project env proj a = .err
  | .struct names' fs n v, hw, _, hd => by
    simp only [dtype, DType.struct.injEq] at hd
    obtain ⟨rfl, rfl, rfl⟩ := hd
    have hlen : names'.length = fs.length := hw.1
    have : Res.mapM (pickField names' fs) proj = .err := by
      refine mapM_err (fun f hf => ?_) ?_
      · cases f with
        | name n =>
          cases he : DType.findName names' n with
          | none => left; simp [pickField, fieldPos, he, Res.ofOption]
          | some i =>
            have hi := findName_lt he
            right
            exact ⟨(names'[i], fs[i]), by simp [pickField, fieldPos, he, Res.ofOption, List.getElem?_eq_getElem hi,
              List.getElem?_eq_getElem (hlen ▸ hi : i < fs.length), Res.unwrap]⟩
        | index i =>
          have hi := hu.1 i hf
          right
          exact ⟨(names'[i], fs[i]), by simp [pickField, fieldPos, Res.ofOption, List.getElem?_eq_getElem hi,
            List.getElem?_eq_getElem (hlen ▸ hi : i < fs.length), Res.unwrap]⟩
      · obtain ⟨n, h1, h2⟩ := hu.2
        exact ⟨_, h1, by simp [pickField, fieldPos, findName_none h2, Res.ofOption]⟩
    simp only [project, this]; rfl
  | .chunked dt cs, hw, ⟨⟨names', ds', nl', h1, h2⟩, hs⟩, hd => by
    simp only [dtype] at hd
    subst hd
    simp only [DType.struct.injEq] at h1
    obtain ⟨rfl, rfl, rfl⟩ := h1
    obtain ⟨w1, w2⟩ := hw
    rw [dtypes_eq] at w2
    simp only [project, asStruct, Option.isSome, Res.guard, if_true, Res.ok_bind]
    rcases projects_unknown hu cs w1 hs (fun c hc => w2 _ (List.mem_map_of_mem hc)) with h | rfl
    · rw [h]; rfl
    · simp only [projects, Res.ok_bind, projectChunked, asStruct, Res.ofOption, dtype_project_unknown h2 hu]; rfl
  | .const dt x n, hw, ⟨names', ds', nl', h1, h2, h3⟩, hd => by
    simp only [dtype] at hd
    subst hd
    simp only [DType.struct.injEq] at h1
    obtain ⟨rfl, rfl, rfl⟩ := h1
    have hx : ∃ y, asList x = .ok y := by
      rcases h3 with rfl | ⟨xs, rfl, _⟩
      · exact ⟨_, rfl⟩
      · exact ⟨_, rfl⟩
    obtain ⟨y, hy⟩ := hx
    simp only [project, asStruct, Option.isSome, Res.guard, if_true, Res.ok_bind, projectConst, projectScalar, Res.ofOption, hy,
      dtype_project_unknown h2 hu]
    rfl
  | .sparse ix values n off fill, hw, ⟨hs1, names', ds', nl', h1, h3⟩, hd => by
    simp only [dtype] at hd
    simp only [project, hd, asStruct, Option.isSome, Res.guard, if_true, Res.ok_bind, project_unknown hu values hw.1 hs1 hd]
    rfl
theorem projects_unknown {names : List Str} {ds : List DType} {nl : Bool} {proj : List Field} (hu : UnknownName names proj) :
    ∀ (cs : List (Arr L)), WFs env leafRows ok cs → StructShapeds env cs → (∀ c ∈ cs, dtype env c = .struct names ds nl) →
    projects env proj cs = .err ∨ cs = []
  | [], _, _, _ => .inr rfl
  | c :: cs, hw, hs, hd => by
    left
    simp only [projects, project_unknown hu c hw.1 hs.1 (hd c (by simp))]
    rfl
end

/-- **C42 (unknown columns).** A projection with a name that is no column is an error, if its indices are in range.
Missing from the full statement: an unknown *index* (`C42_unknown_index`). -/
theorem C42_unknown_name_partial (a : Arr L) (hw : WF env leafRows ok a) (hs : StructShaped env a) (names : List Str)
    (ds : List DType) (nl : Bool) (hd : dtype env a = .struct names ds nl) (proj : List Field) (hu : UnknownName names proj) :
    project env proj a = .err :=
  project_unknown hu a hw hs hd

/-! ### Exclusion -/

/-- Is column `i` excluded, by its name or its index? -/
def excluded (names : List Str) (e : List Field) (i : Nat) : Bool :=
  e.any (fun f => match f with
    | .name n => decide (names[i]? = some n)
    | .index k => k == i)

theorem excludedNames_ok (names : List Str) (e : List Field) (h : ∀ i, Field.index i ∈ e → i < names.length) :
    ∃ ex, excludedNames names e = .ok ex ∧ ∀ n, n ∈ ex ↔ ∃ f ∈ e, f = .name n ∨ ∃ i : Nat, f = .index i ∧ names[i]? = some n := by
  induction e with
  | nil => exact ⟨[], rfl, by simp⟩
  | cons f e ih =>
    obtain ⟨ex, h1, h2⟩ := ih (fun i hi => h i (by simp [hi]))
    unfold excludedNames at h1 ⊢
    cases f with
    | name n =>
      refine ⟨n :: ex, by simp only [Res.mapM_cons, h1, Res.ok_bind], fun m => ?_⟩
      simp only [List.mem_cons, h2]
      constructor
      · rintro (rfl | ⟨f, hf, hh⟩)
        · exact ⟨_, .inl rfl, .inl rfl⟩
        · exact ⟨f, .inr hf, hh⟩
      · rintro ⟨f, rfl | hf, hh⟩
        · rcases hh with hh | ⟨i, hh, _⟩
          · cases hh; exact .inl rfl
          · cases hh
        · exact .inr ⟨f, hf, hh⟩
    | index i =>
      have hi := h i (by simp)
      refine ⟨names[i] :: ex, by rw [Res.mapM_cons, h1]; simp only [List.getElem?_eq_getElem hi, Res.ofOption, Res.ok_bind], fun m => ?_⟩
      simp only [List.mem_cons, h2]
      constructor
      · rintro (rfl | ⟨f, hf, hh⟩)
        · exact ⟨_, .inl rfl, .inr ⟨i, rfl, by simp [hi]⟩⟩
        · exact ⟨f, .inr hf, hh⟩
      · rintro ⟨f, rfl | hf, hh⟩
        · rcases hh with hh | ⟨j, hh, hj⟩
          · cases hh
          · cases hh; left; rw [List.getElem?_eq_getElem hi] at hj; exact (Option.some.inj hj).symm
        · exact .inr ⟨f, hf, hh⟩

theorem nodup_inj {xs : List α} (h : xs.Nodup) {i j : Nat} (hi : i < xs.length) (hj : j < xs.length) (he : xs[i] = xs[j]) : i = j := by
  rw [List.nodup_iff_pairwise_ne, List.pairwise_iff_getElem] at h
  rcases Nat.lt_trichotomy i j with hlt | rfl | hlt
  · exact absurd he (h i j hi hj hlt)
  · rfl
  · exact absurd he.symm (h j i hj hi hlt)

theorem filter_picks (all : List Str) (hnd : all.Nodup) (p : Str → Bool) (q : Nat → Bool) : ∀ (names : List Str) (k : Nat),
    all.drop k = names → (∀ (i : Nat) n, all[i]? = some n → p n = q i) →
    List.Forall₂ (Picks all) ((names.filter p).map Field.name) ((List.range' k names.length).filter q)
  | [], _, _, _ => by simp
  | n :: names, k, hdrop, hpq => by
    have hk : all[k]? = some n := by
      have := congrArg (fun l => l[0]?) hdrop
      simpa using this
    have ih := filter_picks all hnd p q names (k + 1) (by rw [← List.tail_drop, hdrop]; rfl) hpq
    simp only [List.length_cons, List.range'_succ, List.filter_cons, hpq k n hk]
    cases q k
    · simpa using ih
    · simp only [if_true, List.map_cons]
      refine .cons ⟨hk, fun j hj he => ?_⟩ ih
      obtain ⟨hj1, hj2⟩ := List.getElem?_eq_some_iff.mp he
      obtain ⟨hk1, hk2⟩ := List.getElem?_eq_some_iff.mp hk
      have := nodup_inj hnd hj1 hk1 (hj2.trans hk2.symm)
      omega

/-- **C42 (exclude).** When no two columns share a name, excluding columns keeps exactly the others, in order, with the same rows.
Missing from the full statement: repeated column names (`C42_exclude_repeated_names`) and unknown names, which are ignored
(`C42_exclude_unknown_name`). -/
theorem C42_exclude_partial (hl : LeafLaws env leafRows ok) (a : Arr L) (hw : WF env leafRows ok a) (hs : StructShaped env a)
    (names : List Str) (ds : List DType) (nl : Bool) (hd : dtype env a = .struct names ds nl) (hnd : names.Nodup) (e : List Field)
    (he : ∀ i, Field.index i ∈ e → i < names.length) :
    let kept := (List.range names.length).filter (fun i => !excluded names e i)
    ∃ b, evalSelect env (.excl e) a = .ok b ∧ len env b = len env a ∧ dtype env b = .struct (Spec.take names kept) (Spec.take ds kept) nl ∧
      rows env leafRows b = (rows env leafRows a).map (pickRow kept) := by
  intro kept
  obtain ⟨ex, h1, h2⟩ := excludedNames_ok names e he
  have hp : List.Forall₂ (Picks names) ((names.filter (fun n => !ex.contains n)).map Field.name) kept := by
    have := filter_picks names hnd (fun n => !ex.contains n) (fun i => !excluded names e i) names 0 rfl (fun i n hin => by
      congr 1
      rw [Bool.eq_iff_iff, List.contains_iff_mem, h2]
      simp only [excluded, List.any_eq_true]
      constructor
      · rintro ⟨f, hf, rfl | ⟨j, rfl, hj⟩⟩
        · exact ⟨_, hf, by simp [hin]⟩
        · refine ⟨_, hf, ?_⟩
          obtain ⟨hj1, hj2⟩ := List.getElem?_eq_some_iff.mp hj
          obtain ⟨hi1, hi2⟩ := List.getElem?_eq_some_iff.mp hin
          simpa using nodup_inj hnd hj1 hi1 (hj2.trans hi2.symm)
      · rintro ⟨f, hf, hh⟩
        cases f with
        | name m =>
          simp only [hin, Option.some.injEq, decide_eq_true_eq] at hh
          subst hh
          exact ⟨_, hf, .inl rfl⟩
        | index j =>
          simp only [beq_iff_eq] at hh
          subst hh
          exact ⟨_, hf, .inr ⟨j, rfl, hin⟩⟩)
    rw [← List.range_eq_range'] at this
    exact this
  obtain ⟨b, b1, b2, b3, b4, b5, _⟩ := C42_project hl a hw hs names ds nl hd _ _ hp
  refine ⟨b, ?_, b3, b4, b5⟩
  simp only [evalSelect, hd, asStruct, Res.ofOption, Res.ok_bind] at b1 ⊢
  cases hst : isStructArray env a
  · simp [hst, Res.guard] at b1
  · simp only [Res.guard, if_true, Res.ok_bind, h1, b2]

/-! ### Single columns -/

/-- **C42 (one column).** `Column` on a struct-encoded batch returns the named column: same length, its type, and for every row that is
not null the value of that field. Missing: batches of another encoding (`C42_column_chunked`). -/
theorem C42_column_partial (names : List Str) (fs : List (Arr L)) (n : Nat) (v : TVal (Arr L))
    (hw : WF env leafRows ok (.struct names fs n v)) (f : Field) (i : Nat) (hf : Picks names f i) :
    ∃ b, evalColumn f (.struct names fs n v) = .ok b ∧ (dtypes env fs)[i]? = some (dtype env b) ∧ (rows env leafRows b).length = n ∧
      ∀ (k : Nat) xs, (rows env leafRows (.struct names fs n v))[k]? = some (.list xs) → (rows env leafRows b)[k]? = xs[i]? := by
  obtain ⟨w1, w2, w3, w4⟩ := hw
  have hi : i < fs.length := w1 ▸ picks_lt hf
  have hlen : (rows env leafRows fs[i]).length = n := w3 _ (by rw [rowsEach_eq]; exact List.mem_map_of_mem (List.getElem_mem hi))
  refine ⟨fs[i], ?_, by rw [dtypes_eq]; simp [hi], hlen, fun k xs hk => ?_⟩
  · cases f with
    | name n => simp [evalColumn, findName_picks hf, List.getElem?_eq_getElem hi, Res.ofOption]
    | index j =>
      have : i = j := hf.1
      subst this
      simp [evalColumn, List.getElem?_eq_getElem hi, Res.ofOption]
  · have hk1 : k < n := by
      have := (List.getElem?_eq_some_iff.mp hk).1
      simpa [rows] using this
    simp only [rows] at hk
    rw [structRows_getElem? n _ _ k hk1] at hk
    split at hk
    · simp only [structRow, Option.some.injEq, SV.list.injEq] at hk
      rw [← hk, rowsEach_eq]
      simp [hi, hlen, hk1]
    · simp at hk

/-- **C42 (unknown column).** `Column` with a reference to no column is an error, never a panic. -/
theorem C42_column_unknown (a : Arr L) (f : Field) (names : List Str) (fs : List (Arr L)) (n : Nat) (v : TVal (Arr L))
    (ha : a = .struct names fs n v) (hlen : names.length = fs.length) (hf : ∀ i, ¬ Picks names f i) : evalColumn f a = .err := by
  subst ha
  cases f with
  | name m =>
    have : m ∉ names := by
      intro hm
      have hex : ∃ i : Nat, names[i]? = some m := List.mem_iff_getElem?.mp hm
      classical
      exact hf (Nat.find hex) ⟨Nat.find_spec hex, fun j hj => Nat.find_min hex hj⟩
    simp [evalColumn, findName_none this, Res.ofOption]
  | index i =>
    have : ¬ i < names.length := fun h => hf i ⟨rfl, h⟩
    simp [evalColumn, List.getElem?_eq_none (by omega : fs.length ≤ i), Res.ofOption]

/-! ### A concrete array -/

def sa : Str := ['a']
def sb : Str := ['b']
def sc : Str := ['c']

/-- Columns `a : i32`, `b : i32?`. -/
def exDt : DType := .struct [sa, sb] [.prim .i32 false, .prim .i32 true] true

/-- Two struct rows (the second null), a constant chunk, and a sparse chunk with one patch. -/
def exStructs : Arr Empty := .chunked exDt
  [.struct [sa, sb] [.flat (.prim .i32) [i32 1, i32 2] .nonNullable, .flat (.prim .i32) [i32 3, i32 4] .allValid] 2
      (.array (.flat .bool [.bool true, .bool false] .nonNullable)),
   .const exDt (.list [i32 5, .null]) 1,
   .sparse [1] (.struct [sa, sb] [.flat (.prim .i32) [i32 6] .nonNullable, .flat (.prim .i32) [i32 7] .allValid] 1 .allValid) 2 0 .null]

theorem exStructs_rows : rows noLeaves noRows exStructs =
    [.list [i32 1, i32 3], .null, .list [i32 5, .null], .null, .list [i32 6, i32 7]] := by rfl

theorem exStructs_WF : WF noLeaves noRows (fun _ => True) exStructs := by
  refine ⟨⟨⟨rfl, ⟨⟨by decide, trivial⟩, ⟨by decide, trivial⟩, trivial⟩, ?_, ⟨by decide, trivial⟩, rfl, rfl, ?_⟩, rfl, ⟨?_, rfl, rfl, by simp, by simp⟩,
    trivial⟩, ?_⟩
  · simp [rowsEach, rows, maskOf, masked]
  · intro r hr
    simp only [rows, maskOf, masked] at hr
    simp at hr
    rcases hr with rfl | rfl <;> exact ⟨_, rfl⟩
  · exact ⟨rfl, ⟨⟨by decide, trivial⟩, ⟨by decide, trivial⟩, trivial⟩, by simp [rowsEach, rows, maskOf, masked], trivial⟩
  · simp [dtypes, dtype, exDt, Kind.dtype, TVal.nullable]

theorem exStructs_shaped : StructShaped noLeaves exStructs :=
  ⟨⟨_, _, _, rfl, rfl⟩, trivial, ⟨_, _, _, rfl, rfl, .inr ⟨_, rfl, rfl⟩⟩, ⟨trivial, _, _, _, rfl, .inl rfl⟩, trivial⟩

/-- `b, a, b` by name and index. -/
example : ∃ b, evalSelect noLeaves (.incl [.name sb, .index 0, .index 1]) exStructs = .ok b ∧
    rows noLeaves noRows b = [.list [i32 3, i32 1, i32 3], .null, .list [.null, i32 5, .null], .null, .list [i32 7, i32 6, i32 7]] ∧
    dtype noLeaves b = .struct [sb, sa, sb] [.prim .i32 true, .prim .i32 false, .prim .i32 true] true := by
  obtain ⟨b, h1, _, _, h2, h3, _⟩ := C42_project noLeaves_ok exStructs exStructs_WF exStructs_shaped [sa, sb] _ true rfl
    [.name sb, .index 0, .index 1] [1, 0, 1]
    (.cons ⟨rfl, fun j hj => by have : j = 0 := by omega
                                subst this; decide⟩ (.cons ⟨rfl, by decide⟩ (.cons ⟨rfl, by decide⟩ .nil)))
  exact ⟨b, h1, by rw [h3, exStructs_rows]; rfl, h2⟩

example : ∃ b, evalSelect noLeaves (.excl [.index 0]) exStructs = .ok b ∧
    rows noLeaves noRows b = [.list [i32 3], .null, .list [.null], .null, .list [i32 7]] := by
  obtain ⟨b, h1, _, _, h3⟩ := C42_exclude_partial noLeaves_ok exStructs exStructs_WF exStructs_shaped [sa, sb] _ true rfl (by decide)
    [.index 0] (by simp)
  exact ⟨b, h1, by rw [h3, exStructs_rows]; rfl⟩

example : project noLeaves [.index 1, .name sc] exStructs = .err :=
  C42_unknown_name_partial exStructs exStructs_WF exStructs_shaped [sa, sb] _ true rfl _ ⟨by simp, sc, by simp, by decide⟩

/-! ### Where the code differs from the full statement -/

/-- One `i32` column per name, one row. -/
def exNamed (names : List Str) : Arr Empty :=
  .struct names ((List.range names.length).map (fun i => .flat (.prim .i32) [i32 (BitVec.ofNat 32 i).toInt] .nonNullable)) 1 .nonNullable

/-- An index out of range is a crash, not an error - also in a schema (`index = number of columns`). -/
theorem C42_unknown_index : project noLeaves [.index 2] (exNamed [sa, sb]) = .panic ∧
    project noLeaves [.index 2] (.chunked exDt [] : Arr Empty) = .panic := by
  exact ⟨rfl, rfl⟩

/-- Excluding `b` from columns `a, b, a` returns the first `a` twice. -/
theorem C42_exclude_repeated_names :
    ∃ b, evalSelect noLeaves (.excl [.name sb]) (exNamed [sa, sb, sa]) = .ok b ∧ rows noLeaves noRows (exNamed [sa, sb, sa]) = [.list [i32 0, i32 1, i32 2]] ∧
      rows noLeaves noRows b = [.list [i32 0, i32 0]] := by
  exact ⟨_, rfl, rfl, rfl⟩

/-- Excluding an unknown name is no error. -/
theorem C42_exclude_unknown_name : ∃ b, evalSelect noLeaves (.excl [.name sc]) (exNamed [sa, sb]) = .ok b ∧
    rows noLeaves noRows b = rows noLeaves noRows (exNamed [sa, sb]) := by
  exact ⟨_, rfl, rfl⟩

/-- `Column` fails on a chunked array of structs, although `Select` works. -/
theorem C42_column_chunked : evalColumn (.name sa) exStructs = .err := by rfl

/-- `Column` forgets the nulls of the struct: the second row of the batch is null, its column `a` is not. -/
theorem C42_column_of_null_row :
    let a : Arr Empty := .struct [sa] [.flat (.prim .i32) [i32 1, i32 2] .nonNullable] 2
      (.array (.flat .bool [.bool true, .bool false] .nonNullable))
    rows noLeaves noRows a = [.list [i32 1], .null] ∧ ∃ b, evalColumn (.name sa) a = .ok b ∧ rows noLeaves noRows b = [i32 1, i32 2] := by
  exact ⟨rfl, _, rfl, rfl⟩

/-- A constant null struct has no columns, and neither have chunked arrays with such a chunk. -/
theorem C42_field_of_null_constant : field noLeaves 0 (.const exDt .null 3 : Arr Empty) = .ok none ∧
    field noLeaves 0 (.chunked exDt [.const exDt .null 3] : Arr Empty) = .ok none := by
  exact ⟨rfl, rfl⟩

end Vx.Tree
