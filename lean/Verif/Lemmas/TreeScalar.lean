import Verif.Lemmas.Tree
import Verif.Props.C22Filter
/-! # One level of a tree: `is_valid`, `scalar_at`, `scalar_at_unchecked` -/
namespace Vx.Tree
open Vx.Spec (InBounds)

variable {L : Type} {env : Env L} {leafRows : L → List SV} {ok : L → Prop} {st : Bool}

/-! ### Locating a row -/

theorem lt_of_row {xs : List α} {i : Nat} {r : α} (h : xs[i]? = some r) : i < xs.length := (List.getElem?_eq_some_iff.mp h).1

theorem chunk_at (hl : LeafLaws env leafRows ok) {cs : List (Arr L)} (hw : WFs env leafRows ok cs) {i : Nat} {r : SV}
    (h : (rowsEach env leafRows cs).flatten[i]? = some r) :
    ∃ k j c, Chunked.findChunkIdx (cs.map (len env)) i = .ok (k, j) ∧ cs[k]? = some c ∧ c ∈ cs ∧ (rows env leafRows c)[j]? = some r := by
  have hg := (WFs_iff cs).mp hw
  have hlen : Chunked.LenLaw (WF env leafRows ok) (rows env leafRows) (len env) := fun c hc => len_eq hl c hc
  have hr : (rowsEach env leafRows cs).flatten = Chunked.rows (rows env leafRows) cs := by
    rw [rowsEach_eq, Chunked.rows_eq_flatten]
  rw [hr] at h
  have hi : i < (cs.map (len env)).sum := by rw [Chunked.sum_eq hlen hg]; exact lt_of_row h
  obtain ⟨k, j, h1, h2⟩ := Chunked.findChunkIdx_ok _ i hi
  obtain ⟨hk, hj, hrow⟩ := Chunked.chunk_row hlen hg h2
  exact ⟨k, j, cs[k], h1, List.getElem?_eq_getElem hk, List.getElem_mem hk, by rw [← hrow, h]⟩

theorem sparse_at {is : List Nat} {vs : List SV} {n off i : Nat} {fill r : SV} (hs : is.Pairwise (· < ·)) (hlen : is.length = vs.length)
    (h : (Spec.patched n off fill (is.zip vs))[i]? = some r) :
    (sparseFind is off i = .ok none ∧ r = fill) ∨ ∃ k, sparseFind is off i = .ok (some k) ∧ vs[k]? = some r := by
  have hi : i < n := by have := lt_of_row h; simpa [Spec.patched] using this
  have hr : r = Spec.patchOr fill (is.zip vs) (off + i) := by
    simp [Spec.patched, hi] at h; exact h.symm
  by_cases hm : off + i ∈ is
  · obtain ⟨k, hk, hke⟩ := List.mem_iff_getElem.mp hm
    have hk' : is[k]? = some (off + i) := by rw [List.getElem?_eq_getElem hk, hke]
    have hv : vs[k]? = some vs[k] := List.getElem?_eq_getElem (by omega)
    refine .inr ⟨k, by simp [sparseFind, search_left_found hs hk', SearchResult.toFound], ?_⟩
    rw [hv, hr, patchOr_found hs fill hk' hv]
  · exact .inl ⟨by simp [sparseFind, search_left is hs, hm, SearchResult.toFound], by rw [hr, patchOr_none fill hm]⟩

theorem run_at {ends : List Nat} {vs : List SV} {off n i : Nat} (hs : ends.Pairwise (· < ·)) (hlen : ends.length = vs.length)
    (hlast : off + n ≤ ends.getLast?.getD 0) (hfirst : off = 0 ∨ ∀ e ∈ ends.head?, off < e) (hi : i < n) :
    ∃ k x, physical ends (i + off) = .ok k ∧ vs[k]? = some x ∧ (Spec.slice (Spec.expand ends vs) off (off + n))[i]? = some x := by
  let a : RunEnd SV := ⟨ends, ⟨vs, .nonNullable⟩, .nonNullable, off, n⟩
  have hw : a.WF := ⟨hs, hlen, rfl, hfirst, hlast, by simp [a, Spec.FitsLen, Spec.mask]⟩
  have h1 : physical ends (i + off) = .ok (a.runOf (i + off)) := RunEnd.physical_lt hw (by show _ < ends.getLast?.getD 0; omega)
  obtain ⟨h2, h3⟩ := RunEnd.scalar_row hw hi
  exact ⟨_, _, h1, List.getElem?_eq_getElem h2, by rw [← List.getElem?_eq_getElem h2]; exact h3⟩

theorem decRow_isNull {c : Codec} {r : SV} (h : r = .null ∨ ∃ p, r = .prim p) : (decRow env c r).isNull = r.isNull := by
  rcases h with rfl | ⟨p, rfl⟩ <;> rfl

theorem patchRow_isNull {e f : Nat} {x p : SV} (h : x = .null ∨ ∃ q, x = .prim q) : (patchRow env e f x p).isNull = x.isNull := by
  rcases h with rfl | ⟨q, rfl⟩
  · rfl
  · cases p <;> simp [patchRow, SV.isNull, decRow]

theorem zipWith_row {f : SV → SV → SV} {xs ys : List SV} {i : Nat} {r : SV} (h : (List.zipWith f xs ys)[i]? = some r) :
    ∃ x y, xs[i]? = some x ∧ ys[i]? = some y ∧ r = f x y := by
  rw [List.getElem?_zipWith] at h
  cases hx : xs[i]? <;> cases hy : ys[i]? <;> simp [hx, hy] at h
  exact ⟨_, _, rfl, rfl, h.symm⟩

theorem masked_row {vals : List SV} {m : List Bool} {i : Nat} {r : SV} (h : (masked vals m)[i]? = some r) :
    ∃ x b, vals[i]? = some x ∧ m[i]? = some b ∧ r = if b then x else .null := by
  rw [masked, List.getElem?_zipWith] at h
  cases hx : vals[i]? <;> cases hy : m[i]? <;> simp [hx, hy] at h
  exact ⟨_, _, rfl, rfl, h.symm⟩

theorem has_nonnull {k : Kind} {x : SV} (h : k.has x = true) : x.isNull = false := by
  cases k <;> cases x <;> simp_all [Kind.has, SV.isNull]

/-! ### is_valid -/

theorem isValid_step (hl : LeafLaws env leafRows ok) {o : Ops L} {d : Nat} (H : Laws env leafRows ok o d) (a : Arr L) (i : Nat) (r : SV)
    (hw : WF env leafRows ok a) (hr : Regular env leafRows true a) (hd : depth a ≤ d + 1) (h : (rows env leafRows a)[i]? = some r) :
    isValid env o a i = .ok (!r.isNull) := by
  have hi := lt_of_row h
  cases a with
  | leaf l =>
    simp only [WF, rows] at hw h
    exact hl.isValid l i r hw h
  | flat k vals v =>
    simp only [WF, rows, Regular, depth] at hw h hr hd
    obtain ⟨x, b, hx, hb, rfl⟩ := masked_row h
    obtain ⟨b', hb1, hb2⟩ := isValidV_ok H hw.2 hr (by omega) (lt_of_row hx)
    rw [hb2] at hb; cases hb
    have := has_nonnull (hw.1 x (List.mem_of_getElem? hx))
    cases b <;> simp [isValid, hb1, show SV.null.isNull = true from rfl, this]
  | null n =>
    simp only [rows] at h hi
    simp at hi
    simp [hi] at h; subst h
    rfl
  | const dt x n =>
    simp only [rows] at h hi
    simp at hi
    simp [hi] at h; subst h
    rfl
  | chunked dt cs =>
    simp only [WF, rows, Regular, depth] at hw h hr hd
    obtain ⟨k, j, c, h1, h2, h3, h4⟩ := chunk_at hl hw.1 h
    simp only [isValid, h1, Res.ok_bind, h2, Res.unwrap_some]
    exact H.isValid c j r ((WFs_iff cs).mp hw.1 c h3) ((Regulars_iff cs).mp hr.2 c h3) ((depths_le cs d).mp (by omega) c h3) h4
  | struct names fs n v =>
    simp only [WF, rows, Regular, depth] at hw h hr hd hi
    rw [structRows_length] at hi
    obtain ⟨b, hb1, hb2⟩ := isValidV_ok H hw.2.2.2 hr.2 (by omega) hi
    rw [structRows_getElem? _ _ _ _ hi, hb2] at h
    cases b <;> simp at h <;> subst h <;> simp [isValid, hb1, SV.isNull, structRow]
  | ext id m s =>
    simp only [WF, rows, Regular, depth] at hw h hr hd
    exact H.isValid s i r hw hr (by omega) h
  | sparse is values n off fill =>
    simp only [WF, rows, Regular, depth] at hw h hr hd
    obtain ⟨h1, h2, h3, h4, h5⟩ := hw
    rcases sparse_at h4 h3 h with ⟨hf, rfl⟩ | ⟨k, hf, hk⟩
    · simp [isValid, hf]
    · simp only [isValid, hf, Res.ok_bind]
      exact H.isValid values k r h1 hr.1 (by omega) hk
  | dict codes values =>
    simp only [WF, rows, Regular, depth] at hw h hr hd
    obtain ⟨h1, h2, h3, h4⟩ := hw
    rw [List.getElem?_map] at h
    cases hc : (rows env leafRows codes)[i]? with
    | none => simp [hc] at h
    | some c =>
      obtain ⟨k, hk1, hk2⟩ := h4 c (List.mem_of_getElem? hc)
      simp [hc, deref, hk1, List.getElem?_eq_getElem hk2] at h
      simp only [isValid, H.scalarAt codes i c h1 hr.1 (by omega) hc, Res.ok_bind, hk1, Res.unwrap_some]
      exact H.isValid values k r h2 hr.2.1 (by omega) (by rw [List.getElem?_eq_getElem hk2, h])
  | runEnd ends values v off n =>
    simp only [WF, rows, Regular, depth] at hw h hr hd
    obtain ⟨h1, h2, h3, h4, h5, h6, h7, h8⟩ := hw
    obtain ⟨x, b, hx, hb, rfl⟩ := masked_row h
    have hin : i < n := by have := lt_of_row hb; rwa [maskOf_length h2] at this
    obtain ⟨b', hb1, hb2⟩ := isValidV_ok H h2 hr.2 (by omega) hin
    rw [hb2] at hb; cases hb
    obtain ⟨k, y, hk, hy, hwd⟩ := run_at h4 h5 h7 h6 hin
    rw [hwd] at hx; cases hx
    have := h8 x (List.mem_of_getElem? hy)
    cases b <;> simp [isValid, hb1, show SV.null.isNull = true from rfl, this]
  | mapped c enc =>
    simp only [WF, rows, Regular, depth] at hw h hr hd
    rw [List.getElem?_map] at h
    cases hc : (rows env leafRows enc)[i]? with
    | none => simp [hc] at h
    | some x =>
      simp [hc] at h; subst h
      rw [decRow_isNull (hw.2.2 x (List.mem_of_getElem? hc))]
      exact H.isValid enc i x hw.1 hr (by omega) hc
  | alpP e f enc patches =>
    simp only [WF, rows, Regular, depth] at hw h hr hd
    obtain ⟨h1, h2, h3, h4, h5, h6, h7⟩ := hw
    obtain ⟨x, y, hx, hy, rfl⟩ := zipWith_row h
    rw [patchRow_isNull (h6 x (List.mem_of_getElem? hx))]
    exact H.isValid enc i x h1 hr.1 (by omega) hx

/-! ### scalar_at -/

theorem scalarFn_step (hl : LeafLaws env leafRows ok) {o : Ops L} {d : Nat} (H : Laws env leafRows ok o d) (a : Arr L) (i : Nat) (r : SV)
    (hw : WF env leafRows ok a) (hr : Regular env leafRows true a) (hd : depth a ≤ d + 1) (h : (rows env leafRows a)[i]? = some r)
    (hn : r.isNull = false) : scalarFn env o a i = .ok r := by
  have hi := lt_of_row h
  cases a with
  | leaf l =>
    simp only [WF, rows] at hw h
    exact hl.scalar l i r hw h hn
  | flat k vals v =>
    simp only [WF, rows, Regular, depth] at hw h hr hd
    obtain ⟨x, b, hx, hb, rfl⟩ := masked_row h
    cases b with
    | false => simp [SV.isNull] at hn
    | true => simp [scalarFn, idx, hx]
  | null n =>
    simp only [rows] at h hi
    simp at hi
    simp [hi] at h; subst h
    rfl
  | const dt x n =>
    simp only [rows] at h hi
    simp at hi
    simp [hi] at h; subst h
    rfl
  | chunked dt cs =>
    simp only [WF, rows, Regular, depth] at hw h hr hd
    obtain ⟨k, j, c, h1, h2, h3, h4⟩ := chunk_at hl hw.1 h
    simp only [scalarFn, h1, Res.ok_bind, Chunked.chunk, h2, Res.ofOption_some]
    exact H.scalarAt c j r ((WFs_iff cs).mp hw.1 c h3) ((Regulars_iff cs).mp hr.2 c h3) ((depths_le cs d).mp (by omega) c h3) h4
  | struct names fs n v =>
    simp only [WF, rows, Regular, depth] at hw h hr hd hi
    rw [structRows_length] at hi
    obtain ⟨b, hb1, hb2⟩ := isValidV_ok H hw.2.2.2 hr.2 (by omega) hi
    rw [structRows_getElem? _ _ _ _ hi, hb2] at h
    cases b with
    | false => simp at h; subst h; simp [SV.isNull] at hn
    | true =>
      simp at h; subst h
      have : Res.mapM (fun f => o.scalarAt f i) fs = .ok (fs.map (fun f => (rows env leafRows f)[i]?.getD .null)) := by
        apply Res.mapM_ok
        intro f hf
        have hlen := hw.2.2.1 (rows env leafRows f) (by rw [rowsEach_eq]; exact List.mem_map_of_mem hf)
        have hg : (rows env leafRows f)[i]? = some (rows env leafRows f)[i] := List.getElem?_eq_getElem (by omega)
        rw [hg]
        exact H.scalarAt f i _ ((WFs_iff fs).mp hw.2.1 f hf) ((Regulars_iff fs).mp hr.1 f hf) ((depths_le fs d).mp (by omega) f hf) hg
      simp [scalarFn, this, structRow, rowsEach_eq]
  | ext id m s =>
    simp only [WF, rows, Regular, depth] at hw h hr hd
    exact H.scalarAt s i r hw hr (by omega) h
  | sparse is values n off fill =>
    simp only [WF, rows, Regular, depth] at hw h hr hd
    obtain ⟨h1, h2, h3, h4, h5⟩ := hw
    rcases sparse_at h4 h3 h with ⟨hf, rfl⟩ | ⟨k, hf, hk⟩
    · simp [scalarFn, hf]
    · simp only [scalarFn, hf, Res.ok_bind]
      exact H.scalarAtU values k r h1 hr.1 (by omega) hk (atomic_of (hr.2.2 trivial r (List.mem_of_getElem? hk)) hn)
  | dict codes values =>
    simp only [WF, rows, Regular, depth] at hw h hr hd
    obtain ⟨h1, h2, h3, h4⟩ := hw
    rw [List.getElem?_map] at h
    cases hc : (rows env leafRows codes)[i]? with
    | none => simp [hc] at h
    | some c =>
      obtain ⟨k, hk1, hk2⟩ := h4 c (List.mem_of_getElem? hc)
      simp [hc, deref, hk1, List.getElem?_eq_getElem hk2] at h
      have hk3 : (rows env leafRows values)[k]? = some r := by rw [List.getElem?_eq_getElem hk2, h]
      simp only [scalarFn, H.scalarAt codes i c h1 hr.1 (by omega) hc, Res.ok_bind, hk1, Res.ofOption_some]
      exact H.scalarAtU values k r h2 hr.2.1 (by omega) hk3 (atomic_of (hr.2.2 trivial r (List.mem_of_getElem? hk3)) hn)
  | runEnd ends values v off n =>
    simp only [WF, rows, Regular, depth] at hw h hr hd
    obtain ⟨h1, h2, h3, h4, h5, h6, h7, h8⟩ := hw
    obtain ⟨x, b, hx, hb, rfl⟩ := masked_row h
    have hin : i < n := by have := lt_of_row hb; rwa [maskOf_length h2] at this
    obtain ⟨k, y, hk, hy, hwd⟩ := run_at h4 h5 h7 h6 hin
    rw [hwd] at hx; cases hx
    cases b with
    | false => simp [SV.isNull] at hn
    | true =>
      simp only [scalarFn, hk, Res.ok_bind, if_true]
      exact H.scalarAt values k x h1 hr.1 (by omega) hy
  | mapped c enc =>
    simp only [WF, rows, Regular, depth] at hw h hr hd
    rw [List.getElem?_map] at h
    cases hc : (rows env leafRows enc)[i]? with
    | none => simp [hc] at h
    | some x =>
      simp [hc] at h; subst h
      have hx := hw.2.2 x (List.mem_of_getElem? hc)
      rw [decRow_isNull hx] at hn
      rcases hx with rfl | ⟨p, rfl⟩
      · simp [SV.isNull] at hn
      · simp [scalarFn, H.scalarAtU enc i _ hw.1 hr (by omega) hc rfl, Codec.read, decRow]
  | alpP e f enc patches =>
    simp only [WF, rows, Regular, depth] at hw h hr hd
    obtain ⟨h1, h2, h3, h4, h5, h6, h7⟩ := hw
    obtain ⟨x, y, hx, hy, rfl⟩ := zipWith_row h
    have hxn := h6 x (List.mem_of_getElem? hx)
    rw [patchRow_isNull hxn] at hn
    simp only [scalarFn, H.isValid patches i y h2 hr.2 (by omega) hy, Res.ok_bind]
    rcases hxn with rfl | ⟨p, rfl⟩
    · simp [SV.isNull] at hn
    · rcases h7 y (List.mem_of_getElem? hy) with rfl | ⟨q, rfl⟩
      · simp [SV.isNull, H.scalarAtU enc i _ h1 hr.1 (by omega) hx rfl, Codec.read, patchRow, decRow]
      · simp [SV.isNull, H.scalarAtU patches i _ h2 hr.2 (by omega) hy rfl, patchRow]

theorem scalarFnU_step (hl : LeafLaws env leafRows ok) {o : Ops L} {d : Nat} (H : Laws env leafRows ok o d) (a : Arr L) (i : Nat) (r : SV)
    (hw : WF env leafRows ok a) (hr : Regular env leafRows true a) (hd : depth a ≤ d + 1) (h : (rows env leafRows a)[i]? = some r)
    (ha : atomic r = true) : scalarFnU env o a i = .ok r := by
  have hn := nonnull_of_atomic ha
  cases a with
  | leaf l =>
    simp only [WF, rows] at hw h
    exact hl.scalarU l i r hw h hn
  | flat k vals v => exact scalarFn_step hl H (.flat k vals v) i r hw hr hd h hn
  | null n => exact scalarFn_step hl H (.null n) i r hw hr hd h hn
  | const dt x n => exact scalarFn_step hl H (.const dt x n) i r hw hr hd h hn
  | chunked dt cs =>
    simp only [WF, rows, Regular, depth] at hw h hr hd
    obtain ⟨k, j, c, h1, h2, h3, h4⟩ := chunk_at hl hw.1 h
    simp only [scalarFnU, h1, Res.ok_bind, h2, Res.unwrap_some]
    exact H.scalarAtU c j r ((WFs_iff cs).mp hw.1 c h3) ((Regulars_iff cs).mp hr.2 c h3) ((depths_le cs d).mp (by omega) c h3) h4 ha
  | struct names fs n v =>
    exfalso
    simp only [rows] at h
    have hi := lt_of_row h
    rw [structRows_length] at hi
    rw [structRows_getElem? _ _ _ _ hi] at h
    split at h <;> simp at h <;> subst h <;> simp [atomic, structRow] at ha
  | ext id m s =>
    simp only [WF, rows, Regular, depth] at hw h hr hd
    exact H.scalarAtU s i r hw hr (by omega) h ha
  | sparse is values n off fill => exact scalarFn_step hl H (.sparse is values n off fill) i r hw hr hd h hn
  | dict codes values =>
    simp only [WF, rows, Regular, depth] at hw h hr hd
    obtain ⟨h1, h2, h3, h4⟩ := hw
    rw [List.getElem?_map] at h
    cases hc : (rows env leafRows codes)[i]? with
    | none => simp [hc] at h
    | some c =>
      obtain ⟨k, hk1, hk2⟩ := h4 c (List.mem_of_getElem? hc)
      simp [hc, deref, hk1, List.getElem?_eq_getElem hk2] at h
      have hk3 : (rows env leafRows values)[k]? = some r := by rw [List.getElem?_eq_getElem hk2, h]
      have hca : atomic c = true := by cases c <;> simp_all [asIdx, atomic]
      simp only [scalarFnU, H.scalarAtU codes i c h1 hr.1 (by omega) hc hca, Res.ok_bind, hk1, Res.unwrap_some]
      exact H.scalarAtU values k r h2 hr.2.1 (by omega) hk3 ha
  | runEnd ends values v off n =>
    simp only [WF, rows, Regular, depth] at hw h hr hd
    obtain ⟨h1, h2, h3, h4, h5, h6, h7, h8⟩ := hw
    obtain ⟨x, b, hx, hb, rfl⟩ := masked_row h
    have hin : i < n := by have := lt_of_row hb; rwa [maskOf_length h2] at this
    obtain ⟨k, y, hk, hy, hwd⟩ := run_at h4 h5 h7 h6 hin
    rw [hwd] at hx; cases hx
    cases b with
    | false => simp [SV.isNull] at hn
    | true =>
      simp only [scalarFnU, hk, Res.ok_bind, if_true] at ha ⊢
      exact H.scalarAtU values k x h1 hr.1 (by omega) hy ha
  | mapped c enc => exact scalarFn_step hl H (.mapped c enc) i r hw hr hd h hn
  | alpP e f enc patches => exact scalarFn_step hl H (.alpP e f enc patches) i r hw hr hd h hn

theorem scalarAt_step (hl : LeafLaws env leafRows ok) {o : Ops L} {d : Nat} (H : Laws env leafRows ok o d) (a : Arr L) (i : Nat) (r : SV)
    (hw : WF env leafRows ok a) (hr : Regular env leafRows true a) (hd : depth a ≤ d + 1) (h : (rows env leafRows a)[i]? = some r) :
    scalarAt env o a i = .ok r := by
  have hi := lt_of_row h
  unfold scalarAt
  rw [if_neg (by rw [len_eq hl a hw]; omega), isValid_step hl H a i r hw hr hd h]
  cases hn : r.isNull with
  | true => cases r <;> simp_all [SV.isNull]
  | false => simpa using scalarFn_step hl H a i r hw hr hd h hn

end Vx.Tree
