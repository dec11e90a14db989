import Verif.Lemmas.TreeViews
import Verif.Props.C42
import Verif.Props.C105
/-!
# C107: the views of an encoded array by its logical type

`invert` and `true_count` of boolean arrays, `field` of struct arrays, `storage_array` of extension arrays, whatever the encoding.
-/
namespace Vx.Tree

section
variable {L : Type} {env : CEnv L} {leafRows : L → List SV} {ok : L → Prop} {cached : Arr L → Option Nat}

/-- **C107 (invert).** A boolean array of any encoding that decodes can be inverted: every true row becomes false, every false row true, null stays null. The
type stays, except that a constant that is not null loses its nullability. -/
theorem C107_invert_partial (hl : LeafLaws env.toEnv leafRows ok) (lb : LeafBulk env.toBEnv leafRows ok) {a : Arr L} (hw : WF env.toEnv leafRows ok a)
    (hn : Nice env.toEnv leafRows a) {nl : Bool} (hd : dtype env.toEnv a = .bool nl) :
    ∃ b, a.invert env.toBEnv = .ok b ∧ rows env.toEnv leafRows b = (rows env.toEnv leafRows a).map notRow ∧ WF env.toEnv leafRows ok b ∧
      (dtype env.toEnv b = .bool nl ∨ ∃ dt x n, a = .const dt (.bool x) n ∧ dtype env.toEnv b = .bool false) :=
  invert_ok hl lb hw hn hd

/-- Inverting twice gives the rows back. -/
theorem C107_invert_twice (hl : LeafLaws env.toEnv leafRows ok) (lb : LeafBulk env.toBEnv leafRows ok) {a b c : Arr L} (hw : WF env.toEnv leafRows ok a)
    (hn : Nice env.toEnv leafRows a) (hn' : Nice env.toEnv leafRows b) {nl : Bool} (hd : dtype env.toEnv a = .bool nl) (h : a.invert env.toBEnv = .ok b)
    (h' : b.invert env.toBEnv = .ok c) : rows env.toEnv leafRows c = rows env.toEnv leafRows a := by
  obtain ⟨b', b1, b2, b3, b4⟩ := invert_ok hl lb hw hn hd
  rw [h] at b1
  injection b1 with b1
  subst b1
  obtain ⟨nl', hd'⟩ : ∃ nl', dtype env.toEnv b = .bool nl' := by
    rcases b4 with h | ⟨_, _, _, _, h⟩ <;> exact ⟨_, h⟩
  obtain ⟨c', c1, c2, _, _⟩ := invert_ok hl lb b3 hn' hd'
  rw [h'] at c1
  injection c1 with c1
  subst c1
  rw [c2, b2, List.map_map]
  have hb := rows_bool hl lb hw hn (by rw [hd]; rfl)
  conv_rhs => rw [← List.map_id (rows env.toEnv leafRows a)]
  apply List.map_congr_left
  intro r hr
  rcases hb r hr with rfl | ⟨x, rfl⟩ <;> simp [notRow]

/-- **C107 (true count).** A count that is returned for an array that is not sparse is the number of rows that are true. -/
theorem C107_true_count_partial (hl : LeafLaws env.toEnv leafRows ok) (lb : LeafBulk env.toBEnv leafRows ok) (hh : HonestCounts env leafRows cached)
    {a : Arr L} (hw : WF env.toEnv leafRows ok a) (hn : Nice env.toEnv leafRows a) (hs : ∀ is vs n off x, a ≠ .sparse is vs n off x)
    {n : Nat} (h : a.trueCount env cached = .ok n) : n = (rows env.toEnv leafRows a).countP isTrue := by
  unfold Arr.trueCount at h
  cases ht : tcount env cached a with
  | some k =>
    rw [ht] at h
    injection h with h
    subst h
    exact tcount_true hl lb hh a _ hw hn ht
  | none =>
    rw [ht] at h
    have all : plainMask a = true → ∀ r ∈ rows env.toEnv leafRows a, isTrue r = false := by
      intro hp
      rcases plain_countable (cached := cached) hl lb hw hn hp with h | h
      · rw [ht] at h; cases h
      · exact h
    have zero : plainMask a = true → (rows env.toEnv leafRows a).countP isTrue = 0 := by
      intro hp
      rw [List.countP_eq_zero]
      intro r hr
      rw [all hp r hr]
      simp
    cases a with
    | flat k vals v =>
      cases k with
      | bool =>
        rw [zero rfl]
        simp only [indexCount, Res.ok.injEq] at h
        unfold tcount at ht
        split at ht
        · cases ht
        simp only at ht
        rw [plainCount_eq hl lb hw (by simpa only [Nice] using hn)] at ht
        split at ht
        · rename_i h0
          rw [List.length_eq_zero_iff.mp h0] at h
          simpa using h.symm
        · cases ht
      | _ => cases h
    | const dt x m =>
      rw [zero rfl]
      cases x with
      | bool b =>
        unfold tcount at ht
        split at ht <;> cases ht
      | null => injection h with h; exact h.symm
      | _ => cases h
    | sparse is vs n off x => exact absurd rfl (hs is vs n off x)
    | _ => cases h

/-- Plain and constant boolean arrays always have a count. -/
theorem C107_true_count_succeeds_partial (hl : LeafLaws env.toEnv leafRows ok) (lb : LeafBulk env.toBEnv leafRows ok)
    (hh : HonestCounts env leafRows cached) {a : Arr L} (hw : WF env.toEnv leafRows ok a) (hn : Nice env.toEnv leafRows a)
    (hp : (∃ vals v, a = .flat .bool vals v) ∨ ∃ nl x n, a = .const (.bool nl) x n) :
    a.trueCount env cached = .ok ((rows env.toEnv leafRows a).countP isTrue) := by
  have : ∃ n, a.trueCount env cached = .ok n := by
    unfold Arr.trueCount
    cases tcount env cached a with
    | some k => exact ⟨k, rfl⟩
    | none =>
      rcases hp with ⟨vals, v, rfl⟩ | ⟨nl, x, n, rfl⟩
      · exact ⟨_, rfl⟩
      · simp only [WF] at hw
        cases x with
        | null => exact ⟨_, rfl⟩
        | bool b => exact ⟨_, rfl⟩
        | _ => simp [inst] at hw
  obtain ⟨n, h⟩ := this
  have hs : ∀ is vs n off x, a ≠ .sparse is vs n off x := by
    intro is vs m off x e
    rcases hp with ⟨vals, v, rfl⟩ | ⟨nl, y, k, rfl⟩ <;> cases e
  rw [h, C107_true_count_partial hl lb hh hw hn hs h]

end

section
variable {L : Type} {env : Env L} {leafRows : L → List SV} {ok : L → Prop}

/-- **C107 (fields).** A struct array - struct-encoded, chunked, constant or sparse, nested in any way: the array returned for field `i` has the type of
the field, as many rows, and in every row that is not null the value of the field. It is returned unless there is a null constant or a null
fill value on the way. -/
theorem C107_field_partial (hl : LeafLaws env leafRows ok) (a : Arr L) (hw : WF env leafRows ok a) (hs : StructShaped env a) (names : List Str)
    (ds : List DType) (nl : Bool) (hd : dtype env a = .struct names ds nl) (i : Nat) (d : DType) (hi : ds[i]? = some d) :
    ∃ r, field env i a = .ok r ∧ (noNullStruct a = true → r ≠ none) ∧
      ∀ b, r = some b → WF env leafRows ok b ∧ dtype env b = d ∧ (rows env leafRows b).length = (rows env leafRows a).length ∧
        ∀ (k : Nat) xs, (rows env leafRows a)[k]? = some (.list xs) → (rows env leafRows b)[k]? = xs[i]? ∧ i < xs.length := by
  obtain ⟨r, r1, r2, r3⟩ := field_ok hl hi a hw hs hd
  refine ⟨r, r1, r3, ?_⟩
  intro b hb
  have h := r2 b hb
  have hr := h.rows
  unfold FieldRows at hr
  refine ⟨h.wf, h.dtype, hr.length_eq.symm, ?_⟩
  intro k xs hk
  obtain ⟨h1, h2⟩ := List.getElem?_eq_some_iff.mp hk
  have hk' : k < (rows env leafRows b).length := by rw [← hr.length_eq]; exact h1
  have := (List.forall₂_iff_get.mp hr).2 k h1 hk' xs (by simpa using h2)
  rw [List.getElem?_eq_getElem hk', this]
  exact ⟨rfl, (List.getElem?_eq_some_iff.mp this).1⟩

/-- By name: the first field of that name; no field of a name the type does not have. -/
theorem C107_field_by_name (a : Arr L) (names : List Str) (ds : List DType) (nl : Bool) (hd : dtype env a = .struct names ds nl) (name : Str) :
    (∀ i, names[i]? = some name → (∀ j : Nat, j < i → names[j]? ≠ some name) → fieldByName env name a = field env i a) ∧
      (name ∉ names → fieldByName env name a = .ok none) := by
  constructor
  · intro i h1 h2
    have : DType.findName names name = some i := findName_picks ⟨h1, h2⟩
    simp [fieldByName, hd, this]
  · intro h
    simp [fieldByName, hd, findName_none h]

/-- **C107 (storage).** An extension array - plain, constant, sparse or chunked, nested in any way - whose parts are all stored as one type: the
storage array has that type and the same rows. -/
theorem C107_storage_partial (hl : LeafLaws env leafRows ok) (ls : L → Res (Arr L)) (sd : DType) (a : Arr L) (h : StoredAs env leafRows ok sd a) :
    ∃ b, storageArray env ls a = .ok b ∧ dtype env b = sd ∧ rows env leafRows b = rows env leafRows a ∧ WF env leafRows ok b := by
  obtain ⟨b, b1, b2⟩ := storage_ok hl ls a h
  exact ⟨b, b1, b2.dtype, b2.rows, b2.wf⟩

end

/-! ## Where the code is wrong -/

/-- Inverting a nullable constant changes its type. -/
theorem C107_invert_nullability : (Arr.const (.bool true) (.bool true) 2 : Arr Empty).invert noLeavesB = .ok (.const (.bool false) (.bool false) 2) ∧
    dtype noLeaves (.const (.bool true) (.bool true) 2 : Arr Empty) = .bool true := ⟨rfl, rfl⟩

/-- A sparse array of one listed row that is false, filled with false: one true row is counted. -/
theorem C107_sparse_count : ∃ a : Arr Empty, WF cmpEnv.toEnv noRows (fun _ => True) a ∧ rows cmpEnv.toEnv noRows a = [.bool false, .bool false] ∧
    a.trueCount cmpEnv (fun _ => none) = .ok 1 := by
  refine ⟨.sparse [0] (.flat .bool [.bool false] .nonNullable) 2 0 (.bool false), ⟨⟨?_, trivial⟩, rfl, rfl, by simp, by simp⟩, rfl, rfl⟩
  intro x hx; simp at hx; subst hx; rfl

/-- Counting the true rows of a chunked array with an empty chunk stops the process. -/
theorem C107_empty_chunk_count_panics :
    (Arr.chunked (.bool false) [.flat .bool [.bool true] .nonNullable, .flat .bool [] .nonNullable] : Arr Empty).trueCount cmpEnv (fun _ => none) = .panic := rfl

def extId : Str := ['e']

/-- The storage of a constant: a null has lost its type, a boolean gets the type of byte strings, a list stops the process. -/
theorem C107_constant_storage (ls : Empty → Res (Arr Empty)) (n : Nat) (xs : List SV) (b : Bool) :
    storageArray noLeaves ls (.const (.ext extId none true) .null n) = .ok (.const .null .null n) ∧
      storageArray noLeaves ls (.const (.ext extId none false) (.bool b) n) = .ok (.const (.binary false) (.bool b) n) ∧
      storageArray noLeaves ls (.const (.ext extId none false) (.list xs) n) = .panic := ⟨rfl, rfl, rfl⟩

/-- So a chunked column one chunk of which is a null constant has no storage array: the process stops; likewise without chunks. -/
theorem C107_chunked_storage_panics (ls : Empty → Res (Arr Empty)) :
    storageArray noLeaves ls (.chunked (.ext extId none true) [.ext extId none (.flat (.prim .i64) [.prim ⟨.i64, 5#64⟩] .allValid),
        .const (.ext extId none true) .null 1]) = .panic ∧
      storageArray noLeaves ls (.chunked (.ext extId none true) []) = .panic := ⟨rfl, rfl⟩

/-! ## Cases that meet the hypotheses -/

example : ∃ b, boolNulls.invert cmpEnv.toBEnv = .ok b ∧ rows cmpEnv.toEnv noRows b = [.bool false, .null] := by
  obtain ⟨b, b1, b2, _⟩ := C107_invert_partial (env := cmpEnv) noLeavesB_laws noLeavesB_ok boolNulls_wf (by simp [boolNulls, Nice, NiceV]) rfl
  exact ⟨b, b1, by rw [b2]; rfl⟩

example : ∃ b, boolChunks.invert cmpEnv.toBEnv = .ok b ∧ rows cmpEnv.toEnv noRows b = [.bool false, .bool true] := by
  obtain ⟨b, b1, b2, _⟩ := C107_invert_partial (env := cmpEnv) noLeavesB_laws noLeavesB_ok boolChunks_wf boolChunks_nice rfl
  exact ⟨b, b1, by rw [b2]; rfl⟩

example : boolNulls.trueCount cmpEnv (fun _ => none) = .ok 1 :=
  C107_true_count_succeeds_partial (env := cmpEnv) noLeavesB_laws noLeavesB_ok (fun _ _ h => by cases h) boolNulls_wf (by simp [boolNulls, Nice, NiceV])
    (.inl ⟨_, _, rfl⟩)

/-- Chunks: struct rows (one null), a constant. -/
def fieldStructs : Arr Empty := .chunked exDt
  [.struct [sa, sb] [.flat (.prim .i32) [i32 1, i32 2] .nonNullable, .flat (.prim .i32) [i32 3, i32 4] .allValid] 2
      (.array (.flat .bool [.bool true, .bool false] .nonNullable)),
   .const exDt (.list [i32 5, .null]) 1]

example : ∃ b, field noLeaves 1 fieldStructs = .ok (some b) ∧ (rows noLeaves noRows b)[0]? = some (i32 3) ∧ (rows noLeaves noRows b)[2]? = some .null := by
  have hw : WF noLeaves noRows (fun _ => True) fieldStructs := by
    obtain ⟨⟨h1, h2, _, _⟩, h3⟩ := exStructs_WF
    exact ⟨⟨h1, h2, trivial⟩, fun d hd => h3 d (by
      have hd : d ∈ [exDt, exDt] := hd
      have : d = exDt := by simpa using hd
      subst this
      exact List.mem_cons_self)⟩
  have hs : StructShaped noLeaves fieldStructs := by
    obtain ⟨h0, h1, h2, _, _⟩ := exStructs_shaped
    exact ⟨h0, h1, h2, trivial⟩
  obtain ⟨r, r1, r2, r3⟩ := C107_field_partial noLeaves_ok fieldStructs hw hs _ _ _ rfl 1 (.prim .i32 true) rfl
  cases r with
  | none => exact absurd rfl (r2 rfl)
  | some b =>
    obtain ⟨_, _, _, h⟩ := r3 b rfl
    exact ⟨b, r1, (h 0 [i32 1, i32 3] rfl).1, (h 2 [i32 5, .null] rfl).1⟩

/-- An extension array, a constant and a sparse array of nullable 64-bit numbers in three chunks. -/
def extChunks : Arr Empty := .chunked (.ext extId none true)
  [.ext extId none (.flat (.prim .i64) [.prim ⟨.i64, 5#64⟩] .allValid), .const (.ext extId none true) (.prim ⟨.i64, 7#64⟩) 2,
   .sparse [1] (.ext extId none (.flat (.prim .i64) [.prim ⟨.i64, 9#64⟩] .allValid)) 2 0 .null]

example (ls : Empty → Res (Arr Empty)) : ∃ b, storageArray noLeaves ls extChunks = .ok b ∧ dtype noLeaves b = .prim .i64 true ∧
    rows noLeaves noRows b = [.prim ⟨.i64, 5#64⟩, .prim ⟨.i64, 7#64⟩, .prim ⟨.i64, 7#64⟩, .null, .prim ⟨.i64, 9#64⟩] := by
  obtain ⟨b, b1, b2, b3, _⟩ := C107_storage_partial noLeaves_ok ls (.prim .i64 true) extChunks (ok := fun _ => True) (by
    refine ⟨by simp, ⟨⟨?_, trivial⟩, rfl⟩, rfl, ⟨⟨⟨?_, trivial⟩, rfl⟩, rfl, rfl, by simp, by simp⟩, trivial⟩
    · intro x hx; simp at hx; subst hx; rfl
    · intro x hx; simp at hx; subst hx; rfl)
  exact ⟨b, b1, b2, by rw [b3]; rfl⟩

end Vx.Tree
