import Verif.Lemmas.FilterByAll
import Verif.Props.C06
import Verif.Props.C21
import Verif.Props.C03Leaves
/-!
# C103: filtering by a predicate of any encoding

`filter(array, predicate)` where the predicate is itself an encoded boolean array.
-/
namespace Vx.Tree
open Pred (Known Honest Answers)

variable {L : Type} {env : BEnv L} {leafRows : L → List SV} {ok : L → Prop} {known : Known}

/-- **C103 (plain and constant predicates).** A plain predicate that does not start inside a byte, or a constant one, whatever statistics it carries: the
filter succeeds on every tree of arrays and keeps exactly the rows on which the predicate is true, in order, with their type. -/
theorem C103_plain_or_constant (hl : LeafLaws env.toEnv leafRows ok) (lb : LeafBulk env leafRows ok) {lf : L → Pred → Res (Arr L)}
    (hk : Honest known) (p : Pred) (hp : (∃ q : BoolPred, p = .plain q ∧ q.WF ∧ q.off = 0) ∨ ∃ b n, p = .const b n)
    (hlf : ∀ l b, p.len = env.len l → env.filter l p.rows = .ok b → lf l p = .ok b)
    (a : Arr L) (hw : WF env.toEnv leafRows ok a) (hb : Bulk env.toEnv leafRows env.temporal true a)
    (hm : p.rows.length = (rows env.toEnv leafRows a).length) :
    ∃ b, a.filterBy env known lf p = .ok b ∧ len env.toEnv b = p.rows.count true ∧ dtype env.toEnv b = dtype env.toEnv a ∧
      rows env.toEnv leafRows b = Spec.filter (rows env.toEnv leafRows a) p.rows ∧ WF env.toEnv leafRows ok b := by
  obtain ⟨b, h1, h2, h3, h4, h5, _⟩ := C06_filter_partial hl lb a hw hb p.rows hm
  refine ⟨b, ?_, h2, h3, h4, h5⟩
  rcases hp with ⟨q, rfl, hq, h0⟩ | ⟨c, n, rfl⟩
  · exact filterBys_complete hk (p := .plain q) hq (BoolPred.iterBits_eq h0) (Pred.answers_plain known q) hlf _ a b (.inr (counted_plain hk hq)) h1
  · exact filterBys_complete hk (p := .const c n) trivial trivial (Pred.answers_const known c n) hlf _ a b (.inr (counted_const hk c n)) h1

/-- **C103.** A predicate of any encoding - plain, constant, sparse, run-end, byte, roaring, chunked to any depth - with any true statistics: whatever a
filter by it returns has exactly the rows on which the predicate is true.

Missing from the full statement: that it returns (`C103_stuck`: chunked arrays and strings cannot be filtered by chunked, run-end, byte or roaring
predicates), plain predicates that start inside a byte (`C103_bit_offset`), sparse predicates that list a false row or fill with true
(`C103_sparse_false`, `C103_sparse_true`) and structs without columns under a predicate without statistics (`C103_no_columns`). -/
theorem C103_filter_partial (hl : LeafLaws env.toEnv leafRows ok) (lb : LeafBulk env leafRows ok) {lf : L → Pred → Res (Arr L)}
    (hk : Honest known) (p : Pred) (hp : p.WF) (he : p.Exact)
    (hlf : ∀ l b, p.len = env.len l → lf l p = .ok b → env.filter l p.rows = .ok b)
    (a : Arr L) (hw : WF env.toEnv leafRows ok a) (hb : Bulk env.toEnv leafRows env.temporal true a)
    (hc : columned a = true ∨ p.stat known ≠ none) (b : Arr L) (h : a.filterBy env known lf p = .ok b) :
    p.rows.length = (rows env.toEnv leafRows a).length ∧ len env.toEnv b = p.rows.count true ∧ dtype env.toEnv b = dtype env.toEnv a ∧
      rows env.toEnv leafRows b = Spec.filter (rows env.toEnv leafRows a) p.rows ∧ WF env.toEnv leafRows ok b := by
  have hm : p.rows.length = (rows env.toEnv leafRows a).length := by
    obtain ⟨d, hd⟩ : ∃ d, depth a = d + 1 := ⟨depth a - 1, by have := depth_pos a; omega⟩
    unfold Arr.filterBy at h
    rw [hd] at h
    unfold filterBys at h
    split at h
    · cases h
    rename_i hne
    rw [← Pred.len_rows p hp, Decidable.not_not.mp hne, len_eq hl a hw]
  have hcol : columned a = true ∨ (p.stat known).getD 0 = p.rows.count true := by
    rcases hc with hc | hc
    · exact .inl hc
    · right
      cases hs : p.stat known with
      | none => exact absurd hs hc
      | some n => exact Pred.stat_eq hk p n hp hs
  have h' := filterBys_sound hk hp he hlf (depth a) a b hcol h
  obtain ⟨b', h1, h2, h3, h4, h5, _⟩ := C06_filter_partial hl lb a hw hb p.rows hm
  have : b' = b := by
    have h1 : (bulks env (depth a)).filter a p.rows = .ok b' := h1
    rw [h'] at h1; injection h1 with h1; exact h1.symm
  subst this
  exact ⟨hm, h2, h3, h4, h5⟩

/-- **C103 (the leaf encodings).** The same with bit-packed, delta, ALP-RD, FSST, roaring and date-time leaves. -/
theorem C103_real_leaves_partial (x : Outside) (hx : x.Lawful) (hk : Honest known) (p : Pred) (hp : p.WF) (he : p.Exact)
    (a : Arr RLeaf) (hw : WF (leafEnv x).toEnv (Tree.leafRows x) (leafOk true) a)
    (hb : Bulk (leafEnv x).toEnv (Tree.leafRows x) (leafEnv x).temporal true a)
    (hc : columned a = true ∨ p.stat known ≠ none) (b : Arr RLeaf) (h : a.filterBy (leafEnv x) known (leafFilterBy x known) p = .ok b) :
    dtype (leafEnv x).toEnv b = dtype (leafEnv x).toEnv a ∧
      rows (leafEnv x).toEnv (Tree.leafRows x) b = Spec.filter (rows (leafEnv x).toEnv (Tree.leafRows x) a) p.rows := by
  obtain ⟨_, _, h3, h4, _⟩ := C103_filter_partial (C03_leaf_laws x hx true) (C05_leaf_bulk x hx) hk p hp he
    (fun l b _ h => leafBy_sound x hk hp he l b h) a hw hb hc b h
  exact ⟨h3, h4⟩

/-- **C103 (byte strings).** A column of byte strings held with offsets: whatever a filter by any predicate returns has exactly the rows on which the
predicate is true. -/
theorem C103_strings_partial {maxO : Nat} (hk : Honest known) (p : Pred) (hp : p.WF) (he : p.Exact) (a b : VarBin.Arr)
    (hw : VarBin.WF a) (ho : ∀ o ∈ a.offsets, o ≤ maxO) (h : VarBin.filterBy maxO known a p = .ok b) :
    VarBin.WF b ∧ VarBin.rows b = Spec.filter (VarBin.rows a) p.rows ∧ b.nullable = a.nullable := by
  have h' := varbin_sound hk hp he h
  have hl : p.rows.length = a.len := by
    unfold VarBin.filterBy at h
    split at h
    · cases h
    rename_i hne
    rw [← Pred.len_rows p hp]; exact Decidable.not_not.mp hne
  obtain ⟨b', h1, h2, h3, h4, _⟩ := VarBin.C21_filter maxO a hw ho ⟨p.rows, 0, p.rows.length⟩ (by simp [BoolPred.WF]) rfl hl
  rw [h'] at h1
  injection h1 with h1
  subst h1
  exact ⟨h2, by rw [h3]; simp [BoolPred.bits], h4⟩

/-! ## Where the code is wrong or stuck -/

/-- The encodings whose iterators are not written. -/
def Unwritten : Pred → Prop
  | .runEnd _ | .byte _ | .roaring _ | .chunked _ => True
  | _ => False

/-- **C103 is false of the code.** No chunked array, and no string column, can be filtered by a run-end, byte, roaring or chunked predicate that keeps some
rows and drops some: the process stops (chunked) - and a constant column cannot be filtered by one without a statistic. -/
theorem C103_stuck (hk : Honest known) (p : Pred) (hp : p.WF) (hu : Unwritten p) (dt : DType) (cs : List (Arr L)) {lf : L → Pred → Res (Arr L)}
    (hlen : p.rows.length = lens env.toEnv cs) (h0 : 0 < p.rows.count true) (h1 : p.rows.count true < p.rows.length) :
    (Arr.chunked dt cs).filterBy env known lf p = .panic := by
  have hi : p.indices = .panic := by cases p <;> first | rfl | cases hu
  have hs : p.slices = .panic := by cases p <;> first | rfl | cases hu
  have hd : depth (Arr.chunked dt cs) = depths cs + 1 := by simp only [depth]; omega
  unfold Arr.filterBy
  rw [hd]
  unfold filterBys
  rw [if_neg (by rw [Pred.len_rows p hp, hlen]; simp [len])]
  simp only [filterByFn, filterChunksBy, Pred.trueCount]
  cases hst : p.stat known with
  | none => simp only [hi]; rfl
  | some n =>
    have := Pred.stat_eq hk p n hp hst
    rw [lens_sum] at hlen
    simp only [Res.ok_bind]
    rw [if_neg (by omega), if_neg (by omega)]
    split
    · rw [hs]; rfl
    · rw [hi]; rfl

/-- Statistics that nothing carries. -/
def noStats : Known := fun _ => none

theorem noStats_honest : Honest noStats := fun _ _ _ h => by cases h

/-- **C103 is false of the code.** A sparse predicate that lists a row as false: a constant column keeps that row. -/
theorem C103_sparse_false :
    ∃ p : Pred, p.WF ∧ p.rows = [false, false, false] ∧
      ((Arr.const (.prim .i32 false) (i32 7) 3).filterBy noLeavesB noStats (fun _ _ => .panic) p) = .ok (.const (.prim .i32 false) (i32 7) 1) :=
  ⟨.sparse ⟨[1], ⟨[false], .nonNullable⟩, 3, 0, some false⟩, ⟨⟨by decide, by decide, by decide, by decide, by decide, by decide⟩, rfl, rfl⟩, by decide +kernel,
    rfl⟩

/-- **C103 is false of the code.** A sparse predicate that is true everywhere because it fills with true keeps nothing: not of a constant column and not of a
plain one. -/
theorem C103_sparse_true :
    ∃ p : Pred, p.WF ∧ p.rows = [true, true, true] ∧
      ((Arr.const (.prim .i32 false) (i32 7) 3).filterBy noLeavesB noStats (fun _ _ => .panic) p) = .ok (.const (.prim .i32 false) (i32 7) 0) ∧
      ((Arr.flat (.prim .i32) [i32 1, i32 2, i32 3] .nonNullable).filterBy noLeavesB noStats (fun _ _ => .panic) p) = .ok (.flat (.prim .i32) [] .nonNullable) :=
  ⟨.sparse ⟨[], ⟨[], .nonNullable⟩, 3, 0, some true⟩, ⟨⟨by decide, by decide, by decide, by decide, by decide, by decide⟩, rfl, rfl⟩, by decide +kernel,
    rfl, rfl⟩

/-- Three rows in two chunks. -/
def twoChunks : Arr Empty := .chunked (.prim .i32 false) [.flat (.prim .i32) [i32 1, i32 2] .nonNullable, .flat (.prim .i32) [i32 3] .nonNullable]

theorem twoChunks_WF : WF noLeaves noRows (fun _ => True) twoChunks := by
  refine ⟨⟨⟨?_, trivial⟩, ⟨?_, trivial⟩, trivial⟩, ?_⟩
  · intro x hx; simp at hx; rcases hx with rfl | rfl <;> rfl
  · intro x hx; simp at hx; subst hx; rfl
  · intro d hd
    have : dtypes noLeaves [.flat (.prim .i32) [i32 1, i32 2] .nonNullable, .flat (.prim .i32) [i32 3] .nonNullable] =
        [.prim .i32 false, .prim .i32 false] := by rfl
    rw [this] at hd
    simpa using hd

/-- **C103 is false of the code.** A plain predicate that starts inside a byte (any slice of one): a chunked column keeps the wrong row. -/
theorem C103_bit_offset :
    ∃ (p : Pred) (b : Arr Empty), p.WF ∧ p.rows = [true, false, false] ∧ twoChunks.filterBy noLeavesB noStats (fun _ _ => .panic) p = .ok b ∧
      rows noLeaves noRows twoChunks = [i32 1, i32 2, i32 3] ∧ rows noLeaves noRows b = [i32 2] := by
  have hsame : twoChunks.filterBy noLeavesB noStats (fun _ _ => .panic) (.plain ⟨[false, true, false, false], 1, 3⟩) =
      twoChunks.filterBy noLeavesB noStats (fun _ _ => .panic) (.plain ⟨[false, true, false], 0, 3⟩) := rfl
  obtain ⟨b, h1, _, _, h4, _⟩ := C103_plain_or_constant noLeavesB_laws noLeavesB_ok noStats_honest (lf := fun _ _ => .panic) (.plain ⟨[false, true, false], 0, 3⟩)
    (.inl ⟨_, rfl, by decide, rfl⟩) nofun twoChunks twoChunks_WF ⟨trivial, trivial, trivial⟩ rfl
  exact ⟨.plain ⟨[false, true, false, false], 1, 3⟩, b, by show (1 + 3 ≤ 4); decide, by decide, hsame.trans h1, rfl, h4⟩

/-- **C103 is false of the code.** A struct without columns filtered by a run-end predicate is empty whatever the predicate says. -/
theorem C103_no_columns :
    ∃ p : Pred, p.WF ∧ p.rows = [true, true, false] ∧
      ((Arr.struct [] [] 3 .nonNullable).filterBy noLeavesB noStats (fun _ _ => .panic) p) = .ok (.struct [] [] 0 .nonNullable) :=
  ⟨.runEnd ⟨[2, 3], true, .nonNullable, 3, 0⟩, ⟨⟨by decide, by decide, by decide, by decide, by decide⟩, rfl⟩, by decide +kernel, rfl⟩

/-! ## Cases that meet the hypotheses -/

/-- The chunked tree of structs, dictionaries and run-end columns, by a plain predicate: the rows kept are those at the true bits. -/
example : ∃ b, exTree.filterBy noLeavesB noStats (fun _ _ => .panic) (.plain ⟨[true, false, true, false, true], 0, 5⟩) = .ok b ∧
    rows noLeaves noRows b = Spec.filter (rows noLeaves noRows exTree) [true, false, true, false, true] := by
  obtain ⟨b, h1, _, _, h4, _⟩ := C103_plain_or_constant noLeavesB_laws noLeavesB_ok noStats_honest (lf := fun _ _ => .panic)
    (.plain ⟨[true, false, true, false, true], 0, 5⟩) (.inl ⟨_, rfl, by decide, rfl⟩) nofun exTree exTree_WF (exTree_Bulk true)
    (by show 5 = (rows noLeaves noRows exTree).length; rw [exTree_rows]; rfl)
  exact ⟨b, h1, h4⟩

/-- The same by a constant. -/
example : ∃ b, exTree.filterBy noLeavesB noStats (fun _ _ => .panic) (.const false 5) = .ok b ∧ len noLeaves b = 0 := by
  obtain ⟨b, h1, h2, _⟩ := C103_plain_or_constant noLeavesB_laws noLeavesB_ok noStats_honest (lf := fun _ _ => .panic)
    (.const false 5) (.inr ⟨_, _, rfl⟩) nofun exTree exTree_WF (exTree_Bulk true)
    (by show 5 = (rows noLeaves noRows exTree).length; rw [exTree_rows]; rfl)
  exact ⟨b, h1, h2⟩

/-- A plain column by a run-end predicate: false, true, true. -/
example : ∃ (p : Pred) (b : Arr Empty), p.WF ∧ p.Exact ∧ p.rows = [false, true, true] ∧
    (Arr.flat (.prim .i32) [i32 1, i32 2, i32 3] .nonNullable).filterBy noLeavesB noStats (fun _ _ => .panic) p = .ok b ∧
      rows noLeaves noRows b = [i32 2, i32 3] :=
  ⟨.runEnd ⟨[1, 3], false, .nonNullable, 3, 0⟩, .flat (.prim .i32) [i32 2, i32 3] .nonNullable, ⟨⟨by decide, by decide, by decide, by decide, by decide⟩, rfl⟩,
    trivial, by decide +kernel, rfl, rfl⟩

/-- A plain column by a sparse predicate that lists its true row. -/
example : ∃ (p : Pred) (b : Arr Empty), p.WF ∧ p.Exact ∧ p.rows = [false, false, true] ∧
    (Arr.flat (.prim .i32) [i32 1, i32 2, i32 3] .nonNullable).filterBy noLeavesB noStats (fun _ _ => .panic) p = .ok b ∧
      rows noLeaves noRows b = [i32 3] :=
  ⟨.sparse ⟨[2], ⟨[true], .nonNullable⟩, 3, 0, some false⟩, .flat (.prim .i32) [i32 3] .nonNullable,
    ⟨⟨by decide, by decide, by decide, by decide, by decide, by decide⟩, rfl, rfl⟩, ⟨rfl, by decide⟩, by decide +kernel, rfl, rfl⟩

/-- A chunked predicate of bytes stops a filter of two chunks. -/
example : twoChunks.filterBy noLeavesB noStats (fun _ _ => .panic) (.chunked [.byte ⟨[1, 0], .nonNullable⟩, .const true 1]) = .panic := rfl

end Vx.Tree
