import Verif.Spec.TreeViews
import Verif.Lemmas.TreeExprTotal
import Verif.Lemmas.TreeStruct
/-! # Views by logical type: proofs -/
namespace Vx.Tree
open RowExpr (Field)

section
variable {L : Type} {env : Env L} {leafRows : L → List SV} {ok : L → Prop}

/-! ### Fields -/

theorem patchOr_rel {R : α → β → Prop} {x : α} {y : β} (hf : R x y) : ∀ (is : List Nat) {vs : List α} {ws : List β},
    List.Forall₂ R vs ws → ∀ j, R (Spec.patchOr x (is.zip vs) j) (Spec.patchOr y (is.zip ws) j)
  | [], _, _, _, j => by simpa [Spec.patchOr] using hf
  | _ :: _, [], [], .nil, j => by simpa [Spec.patchOr] using hf
  | i :: is, v :: vs, w :: ws, .cons h hs, j => by
    have ih := patchOr_rel hf is hs j
    simp only [Spec.patchOr, List.zip_cons_cons, List.find?_cons] at ih ⊢
    by_cases e : (i == j) = true
    · simpa [e] using h
    · simp only [Bool.not_eq_true] at e
      simpa [e] using ih

theorem patched_rel {R : α → β → Prop} {x : α} {y : β} (hf : R x y) {is : List Nat} {vs : List α} {ws : List β} (h : List.Forall₂ R vs ws) (n off : Nat) :
    List.Forall₂ R (Spec.patched n off x (is.zip vs)) (Spec.patched n off y (is.zip ws)) := by
  unfold Spec.patched
  rw [List.forall₂_map_left_iff, List.forall₂_map_right_iff, List.forall₂_same]
  exact fun j _ => patchOr_rel hf is h _

theorem replicate_rel {R : α → β → Prop} {x : α} {y : β} (h : R x y) : ∀ n, List.Forall₂ R (List.replicate n x) (List.replicate n y)
  | 0 => .nil
  | n + 1 => .cons h (replicate_rel h n)

theorem scalarField_list {names : List Str} {ds : List DType} {nl : Bool} {xs : List SV} (hx : xs.length = ds.length) {i : Nat} {d : DType}
    (hd : ds[i]? = some d) : ∃ y, xs[i]? = some y ∧ scalarField (.struct names ds nl) (.list xs) i = .ok (some (d, y)) := by
  have hi : i < xs.length := by rw [hx]; exact (List.getElem?_eq_some_iff.mp hd).1
  refine ⟨xs[i], List.getElem?_eq_getElem hi, ?_⟩
  simp [scalarField, asStruct, asList, List.getElem?_eq_getElem hi, hd, Res.unwrap]

/-- What a field must be. -/
structure FieldOf (env : Env L) (leafRows : L → List SV) (ok : L → Prop) (i : Nat) (d : DType) (a b : Arr L) : Prop where
  wf : WF env leafRows ok b
  dtype : dtype env b = d
  rows : FieldRows i (rows env leafRows a) (rows env leafRows b)

theorem struct_field {fs : List (Arr L)} {n : Nat} {m : List Bool} {i : Nat} {f : Arr L} (hf : fs[i]? = some f)
    (hlen : (rows env leafRows f).length = n) :
    FieldRows i (structRows n (fs.map (rows env leafRows)) m) (rows env leafRows f) := by
  unfold FieldRows
  rw [List.forall₂_iff_get]
  refine ⟨by simp [structRows, hlen], ?_⟩
  intro k h1 h2 xs hx
  have hk : k < n := by rw [← hlen]; exact h2
  simp only [structRows, List.get_eq_getElem, List.getElem_map, List.getElem_range] at hx
  split at hx
  · simp only [structRow, SV.list.injEq] at hx
    subst hx
    simp [hf, List.getElem?_eq_getElem h2]
  · cases hx

mutual
theorem field_ok (hl : LeafLaws env leafRows ok) {names : List Str} {ds : List DType} {nl : Bool} {i : Nat} {d : DType} (hi : ds[i]? = some d) :
    ∀ (a : Arr L), WF env leafRows ok a → StructShaped env a → dtype env a = .struct names ds nl →
    ∃ r, field env i a = .ok r ∧ (∀ b, r = some b → FieldOf env leafRows ok i d a b) ∧ (noNullStruct a = true → r ≠ none)
  | .struct names' fs n v, hw, _, hd => by
    simp only [dtype, DType.struct.injEq] at hd
    obtain ⟨rfl, rfl, rfl⟩ := hd
    obtain ⟨_, w2, w3, _⟩ := hw
    rw [dtypes_eq, List.getElem?_map] at hi
    cases hf : fs[i]? with
    | none => rw [hf] at hi; cases hi
    | some f =>
      rw [hf] at hi
      simp only [Option.map_some, Option.some.injEq] at hi
      have hm := List.mem_of_getElem? hf
      refine ⟨some f, by simp [field, hf], ?_, fun _ => by simp⟩
      intro b hb
      injection hb with hb
      subst hb
      refine ⟨(WFs_iff fs).mp w2 f hm, hi, ?_⟩
      rw [rowsEach_eq] at w3
      simp only [rows, rowsEach_eq]
      exact struct_field hf (w3 _ (List.mem_map_of_mem hm))
  | .chunked dt cs, hw, ⟨_, hs⟩, hd => by
    simp only [dtype] at hd
    subst hd
    obtain ⟨w1, w2⟩ := hw
    rw [dtypes_eq] at w2
    obtain ⟨r, r1, r2, r3⟩ := fields_ok hl hi cs w1 hs (fun c hc => w2 _ (List.mem_map_of_mem hc))
    cases r with
    | none => exact ⟨none, by simp [field, r1], by simp, fun h => absurd rfl (r3 (by simpa [noNullStruct] using h))⟩
    | some bs =>
      obtain ⟨b1, b2, b3⟩ := r2 bs rfl
      have hall : (bs.all fun c => decide (dtype env c = d)) = true := by
        rw [List.all_eq_true]; intro c hc; simpa using b2 c hc
      refine ⟨some (.chunked d bs), ?_, ?_, fun _ => by simp⟩
      · simp only [field, r1, Res.ok_bind, fieldChunked, asStruct, hi, mkChunked, Res.guard, hall, if_true]
      · intro b hb
        injection hb with hb
        subst hb
        refine ⟨⟨b1, ?_⟩, rfl, ?_⟩
        · rw [dtypes_eq]
          intro d' hd'
          obtain ⟨c, hc, rfl⟩ := List.mem_map.mp hd'
          exact b2 c hc
        · simp only [rows]
          exact b3
  | .const dt x n, hw, ⟨names', ds', nl', h1, _, h3⟩, hd => by
    simp only [dtype] at hd
    subst hd
    simp only [DType.struct.injEq] at h1
    obtain ⟨rfl, rfl, rfl⟩ := h1
    rcases h3 with rfl | ⟨xs, rfl, hx⟩
    · exact ⟨none, by simp [field, scalarField, asStruct, asList], by simp, by simp [noNullStruct, SV.isNull]⟩
    · obtain ⟨y, y1, y2⟩ := scalarField_list (names := names) (nl := nl) hx hi
      refine ⟨some (.const d y n), by simp [field, y2], ?_, fun _ => by simp⟩
      intro b hb
      injection hb with hb
      subst hb
      refine ⟨?_, rfl, ?_⟩
      · simp only [WF, inst] at hw ⊢
        exact (instEach_iff _ _ hx).mp hw i y d y1 hi
      · simp only [rows]
        refine replicate_rel ?_ n
        intro zs hz
        injection hz with hz
        subst hz
        exact y1
  | .sparse ix values n off fill, hw, ⟨hs1, names', ds', nl', h1, h3⟩, hd => by
    obtain ⟨w1, w2, w3, w4, w5⟩ := hw
    simp only [dtype] at hd
    rw [hd] at h1
    simp only [DType.struct.injEq] at h1
    obtain ⟨rfl, rfl, rfl⟩ := h1
    obtain ⟨r, r1, r2, r3⟩ := field_ok hl hi values w1 hs1 hd
    cases r with
    | none =>
      refine ⟨none, by simp [field, r1], by simp, ?_⟩
      intro h
      simp only [noNullStruct, Bool.and_eq_true] at h
      exact absurd rfl (r3 h.1)
    | some v =>
      have hv := r2 v rfl
      rcases h3 with rfl | ⟨xs, rfl, hx⟩
      · refine ⟨none, by simp [field, r1, fieldSparse, hd, scalarField, asStruct, asList], by simp, ?_⟩
        intro h
        simp [noNullStruct, SV.isNull] at h
      · obtain ⟨y, y1, y2⟩ := scalarField_list (names := names) (nl := nl) hx hi
        have hin : inst y (dtype env v) = true := by
          rw [hv.dtype]
          rw [hd] at w2
          simp only [inst] at w2
          exact (instEach_iff _ _ hx).mp w2 i y d y1 hi
        have hlen : ix.length = (rows env leafRows v).length := by rw [w3]; exact List.Forall₂.length_eq hv.rows
        refine ⟨some (.sparse ix v n off y), ?_, ?_, fun _ => by simp⟩
        · simp only [field, r1, Res.ok_bind, fieldSparse, hd, y2, mkSparse, Res.guard, hin, if_true, len_eq hl v hv.wf, hlen, beq_self_eq_true,
            checkLast_wf w5]
        · intro b hb
          injection hb with hb
          subst hb
          refine ⟨⟨hv.wf, hin, hlen, w4, w5⟩, hv.dtype, ?_⟩
          simp only [rows]
          refine patched_rel ?_ hv.rows n off
          intro zs hz
          injection hz with hz
          subst hz
          exact y1
theorem fields_ok (hl : LeafLaws env leafRows ok) {names : List Str} {ds : List DType} {nl : Bool} {i : Nat} {d : DType} (hi : ds[i]? = some d) :
    ∀ (cs : List (Arr L)), WFs env leafRows ok cs → StructShapeds env cs → (∀ c ∈ cs, dtype env c = .struct names ds nl) →
    ∃ r, fieldsOf env i cs = .ok r ∧ (∀ bs, r = some bs → WFs env leafRows ok bs ∧ (∀ b ∈ bs, dtype env b = d) ∧
      FieldRows i (rowsEach env leafRows cs).flatten (rowsEach env leafRows bs).flatten) ∧ (noNullStructs cs = true → r ≠ none)
  | [], _, _, _ => ⟨some [], rfl, by intro bs h; injection h with h; subst h; exact ⟨trivial, by simp, .nil⟩, fun _ => by simp⟩
  | c :: cs, hw, hs, hd => by
    obtain ⟨r, r1, r2, r3⟩ := field_ok hl hi c hw.1 hs.1 (hd c (by simp))
    obtain ⟨q, q1, q2, q3⟩ := fields_ok hl hi cs hw.2 hs.2 (fun x hx => hd x (by simp [hx]))
    cases r with
    | none =>
      refine ⟨none, by simp [fieldsOf, r1], by simp, ?_⟩
      intro h
      simp only [noNullStructs, Bool.and_eq_true] at h
      exact absurd rfl (r3 h.1)
    | some b =>
      have hb := r2 b rfl
      refine ⟨q.map (b :: ·), by simp [fieldsOf, r1, q1], ?_, ?_⟩
      · intro bs h
        cases q with
        | none => cases h
        | some bs' =>
          simp only [Option.map_some, Option.some.injEq] at h
          subst h
          obtain ⟨k1, k2, k3⟩ := q2 bs' rfl
          refine ⟨⟨hb.wf, k1⟩, ?_, ?_⟩
          · intro x hx
            rcases List.mem_cons.mp hx with rfl | hx
            · exact hb.dtype
            · exact k2 x hx
          · simp only [rowsEach, List.flatten_cons]
            exact List.rel_append hb.rows k3
      · intro h
        simp only [noNullStructs, Bool.and_eq_true] at h
        cases q with
        | none => exact absurd rfl (q3 h.2)
        | some _ => simp
end

/-! ### Storage -/

/-- What a storage array must be. -/
structure Storage (env : Env L) (leafRows : L → List SV) (ok : L → Prop) (sd : DType) (a b : Arr L) : Prop where
  wf : WF env leafRows ok b
  dtype : dtype env b = sd
  rows : rows env leafRows b = rows env leafRows a

mutual
theorem storage_ok (hl : LeafLaws env leafRows ok) (ls : L → Res (Arr L)) {sd : DType} : ∀ (a : Arr L), StoredAs env leafRows ok sd a →
    ∃ b, storageArray env ls a = .ok b ∧ Storage env leafRows ok sd a b
  | .ext _ _ s, h => ⟨s, rfl, h.1, h.2, rfl⟩
  | .const (.ext _ _ nl) x n, h => by
    simp only [StoredAs] at h
    cases x <;> simp only [plainType, Option.some.injEq, reduceCtorEq] at h
    all_goals subst h
    all_goals exact ⟨_, rfl, by simp [WF, inst], rfl, rfl⟩
  | .sparse ix values n off fill, h => by
    obtain ⟨h1, h2, h3, h4, h5⟩ := h
    obtain ⟨v, v1, v2⟩ := storage_ok hl ls values h1
    have hin : inst fill (dtype env v) = true := by rw [v2.dtype]; exact h2
    have hlen : ix.length = (rows env leafRows v).length := by rw [v2.rows, h3]
    refine ⟨.sparse ix v n off fill, ?_, ⟨v2.wf, hin, hlen, h4, h5⟩, v2.dtype, by simp only [rows, v2.rows]⟩
    simp only [storageArray, v1, Res.ok_bind, mkSparse, Res.guard, hin, if_true, len_eq hl v v2.wf, hlen, beq_self_eq_true, checkLast_wf h5, expectOk]
  | .chunked _ cs, h => by
    obtain ⟨h1, h2⟩ := h
    obtain ⟨bs, b1, b2, b3, b4, b5⟩ := storages_ok hl ls cs h2
    cases bs with
    | nil => exact absurd (List.length_eq_zero_iff.mp b5.symm) h1
    | cons b bs =>
      have hd : dtype env b = sd := b3 b (by simp)
      have hall : ((b :: bs).all fun c => decide (dtype env c = sd)) = true := by
        rw [List.all_eq_true]; intro c hc; simpa using b3 c hc
      refine ⟨.chunked sd (b :: bs), ?_, ⟨b2, ?_⟩, rfl, ?_⟩
      · simp only [storageArray, b1, Res.ok_bind, chunkedFromIter, hd, mkChunked, hall, Res.guard, if_true, expectOk]
      · rw [dtypes_eq]
        intro d' hd'
        obtain ⟨c, hc, rfl⟩ := List.mem_map.mp hd'
        exact b3 c hc
      · simp only [rows, b4]
theorem storages_ok (hl : LeafLaws env leafRows ok) (ls : L → Res (Arr L)) {sd : DType} : ∀ (cs : List (Arr L)), StoredAlls env leafRows ok sd cs →
    ∃ bs, storageArrays env ls cs = .ok bs ∧ WFs env leafRows ok bs ∧ (∀ b ∈ bs, dtype env b = sd) ∧
      rowsEach env leafRows bs = rowsEach env leafRows cs ∧ bs.length = cs.length
  | [], _ => ⟨[], rfl, trivial, by simp, rfl, rfl⟩
  | c :: cs, h => by
    obtain ⟨b, b1, b2⟩ := storage_ok hl ls c h.1
    obtain ⟨bs, c1, c2, c3, c4, c5⟩ := storages_ok hl ls cs h.2
    refine ⟨b :: bs, by simp only [storageArrays, b1, c1, Res.ok_bind], ⟨b2.wf, c2⟩, ?_, by simp only [rowsEach, b2.rows, c4], by simp [c5]⟩
    intro x hx
    rcases List.mem_cons.mp hx with rfl | hx
    · exact b2.dtype
    · exact c3 x hx
end
end

/-! ### Booleans -/

section
variable {L : Type} {env : CEnv L} {leafRows : L → List SV} {ok : L → Prop}

theorem masked_flip : ∀ (vals : List SV) (m : List Bool), (∀ x ∈ vals, Kind.bool.has x = true) → masked (vals.map flipBit) m = (masked vals m).map notRow
  | [], _, _ => by simp [masked]
  | _ :: _, [], _ => by simp [masked]
  | x :: xs, b :: bs, h => by
    obtain ⟨c, rfl⟩ := has_boolean (h x List.mem_cons_self)
    have := masked_flip xs bs (fun y hy => h y (List.mem_cons_of_mem _ hy))
    simp only [masked, List.map_cons, List.zipWith_cons_cons] at this ⊢
    rw [this]
    cases b <;> simp [notRow, flipBit]

theorem invert_ok (hl : LeafLaws env.toEnv leafRows ok) (lb : LeafBulk env.toBEnv leafRows ok) {a : Arr L} (hw : WF env.toEnv leafRows ok a)
    (hn : Nice env.toEnv leafRows a) {nl : Bool} (hd : dtype env.toEnv a = .bool nl) :
    ∃ b, a.invert env.toBEnv = .ok b ∧ rows env.toEnv leafRows b = (rows env.toEnv leafRows a).map notRow ∧ WF env.toEnv leafRows ok b ∧
      (dtype env.toEnv b = .bool nl ∨ ∃ dt x n, a = .const dt (.bool x) n ∧ dtype env.toEnv b = .bool false) := by
  have gen : isConstArr a = false → ∃ b, (do let c ← (bulks env.toBEnv (depth a)).canon a; flipFlat c) = .ok b ∧
      rows env.toEnv leafRows b = (rows env.toEnv leafRows a).map notRow ∧ WF env.toEnv leafRows ok b ∧ dtype env.toEnv b = .bool nl := by
    intro _
    obtain ⟨k, vals, v, h1, h2, h3, h4⟩ := (blaws hl lb (depth a)).canon a hw hn (Nat.le_refl _)
    have hk := h3.dtype
    simp only [dtype, hd] at hk
    have : k = .bool := by
      have := (kind_of_dtype hk).1
      simp only [kindOf, Option.some.injEq] at this
      exact this.symm
    subst this
    refine ⟨.flat .bool (vals.map flipBit) v, by simp only [h1, Res.ok_bind, flipFlat], ?_, ?_, ?_⟩
    · rw [← h4]
      simp only [WF] at h2
      simp only [rows, List.length_map]
      exact masked_flip _ _ h2.1
    · simp only [WF, List.length_map] at h2 ⊢
      refine ⟨?_, h2.2⟩
      intro x hx
      obtain ⟨y, hy, rfl⟩ := List.mem_map.mp hx
      obtain ⟨c, rfl⟩ := has_boolean (h2.1 y hy)
      rfl
    · simpa only [dtype] using hk
  cases a with
  | const dt x n =>
    simp only [dtype] at hd
    subst hd
    simp only [WF] at hw
    cases x with
    | null => exact ⟨.const (.bool nl) .null n, rfl, by simp [rows, notRow], by simpa only [WF] using hw, .inl rfl⟩
    | bool c => exact ⟨.const (.bool false) (.bool (!c)) n, rfl, by simp [rows, notRow], by simp [WF, inst], .inr ⟨_, _, _, rfl, rfl⟩⟩
    | _ => simp [inst] at hw
  | _ =>
    obtain ⟨b, b1, b2, b3, b4⟩ := gen rfl
    exact ⟨b, b1, b2, b3, .inl b4⟩

end
end Vx.Tree
