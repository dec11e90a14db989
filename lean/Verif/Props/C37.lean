import Verif.Props.C36
/-!
# C37: filtered reads

The stream reads the columns of the filter batch by batch, evaluates the filter to a mask, reads the next data batch and applies the mask.
When a mask selects nothing the code drops the data batch but forgets to go back to the filter (stream.rs:142-144): the next data batch is returned
*unfiltered* and the masks are one batch late from then on. `emitted` is the exact behaviour; it is what the property asks for when every batch
but the last has a matching row.
-/
namespace Vx.Layout
open Ipc (Bytes)

variable {α : Type}

/-- The rows of `rows` whose companion in `keys` satisfies the filter. -/
def Spec.matching (P : Row α → Bool) (keys rows : Rows α) : Rows α := ((rows.zip keys).filter fun p => P p.2).map (·.1)

theorem filterRows_matching {P : Row α → Bool} {keys rows : Rows α} (h : keys.length = rows.length) :
    filterRows rows (keys.map P) = .ok (Spec.matching P keys rows) := by
  unfold filterRows
  rw [if_pos (by simpa using h)]
  congr 1
  have : ∀ (rows keys : Rows α), (((rows.zip (keys.map P)).filter (·.2)).map (·.1)) = Spec.matching P keys rows := by
    intro rows
    induction rows with
    | nil => intro keys; simp [Spec.matching]
    | cons r rows ih =>
      intro keys
      cases keys with
      | nil => simp [Spec.matching]
      | cons k keys =>
        have h := ih keys
        unfold Spec.matching at h
        cases hp : P k <;> simp [Spec.matching, hp, List.filter_cons, h]
  exact this rows keys

theorem matching_take_drop (P : Row α → Bool) (keys rows : Rows α) (n : Nat) :
    Spec.matching P (keys.take n) (rows.take n) ++ Spec.matching P (keys.drop n) (rows.drop n) = Spec.matching P keys rows := by
  unfold Spec.matching
  rw [← List.map_append, ← List.filter_append]
  have h1 : (rows.take n).zip (keys.take n) = (rows.zip keys).take n := by rw [List.zip, List.take_zipWith, ← List.zip]
  have h2 : (rows.drop n).zip (keys.drop n) = (rows.zip keys).drop n := by rw [List.zip, List.drop_zipWith, ← List.zip]
  rw [h1, h2, List.take_append_drop]

theorem matching_none {P : Row α → Bool} {keys rows : Rows α} (h : ∀ k ∈ keys, P k = false) : Spec.matching P keys rows = [] := by
  unfold Spec.matching
  rw [List.filter_eq_nil_iff.mpr]
  · rfl
  · intro p hp
    have := h p.2 (List.of_mem_zip (show (p.1, p.2) ∈ _ from hp)).2
    simp [this]

theorem count_map_eq_zero {P : Row α → Bool} {g : Rows α} : (g.map P).count true = 0 ↔ ∀ k ∈ g, P k = false := by
  rw [List.count_eq_zero]
  simp only [List.mem_map, not_exists, not_and, Bool.not_eq_true]

theorem emitted_ok {P : Row α → Bool} {eval : Rows α → Res (List Bool)} (hev : ∀ g, eval g = .ok (g.map P)) {n : Nat} (hn : 0 < n) :
    ∀ (keys rows : Rows α), keys.length = rows.length → (∀ g ∈ (Spec.batches n keys).dropLast, ∃ k ∈ g, P k = true) →
      ∃ bs, emitted eval (Spec.batches n rows) false (Spec.batches n keys) = .ok bs ∧ bs.flatten = Spec.matching P keys rows ∧
        (∀ b ∈ bs, b ≠ []) := by
  intro keys
  induction hlen : keys.length using Nat.strongRecOn generalizing keys with
  | _ k ih =>
    subst hlen
    intro rows hl hm
    by_cases hk : keys = []
    · subst hk
      have : rows = [] := List.eq_nil_of_length_eq_zero (by simpa using hl.symm)
      subst this
      exact ⟨[], by simp [batches_nil, emitted], by simp [Spec.matching], by simp⟩
    · have hpos := List.length_pos_iff.mpr hk
      have hr : rows ≠ [] := List.length_pos_iff.mp (by omega)
      rw [batches_cons hn hk] at hm
      rw [batches_cons hn hk, batches_cons hn hr]
      simp only [emitted, hev, Res.bind]
      have htl : (keys.take n).length = (rows.take n).length := by simp [hl]
      by_cases hz : ((keys.take n).map P).count true = 0
      · rw [if_pos hz]
        have hnone := count_map_eq_zero.mp hz
        have hlast : Spec.batches n (keys.drop n) = [] := by
          apply Classical.byContradiction
          intro hne
          rw [List.dropLast_cons_of_ne_nil hne] at hm
          obtain ⟨x, hx, hxp⟩ := hm _ (List.mem_cons_self)
          rw [hnone x hx] at hxp; simp at hxp
        have hd : keys.drop n = [] := by
          apply Classical.byContradiction
          intro hne
          rw [batches_cons hn hne] at hlast; simp at hlast
        have hd' : rows.drop n = [] := List.eq_nil_of_length_eq_zero (by
          have := congrArg List.length hd; simp only [List.length_drop, List.length_nil] at this ⊢; omega)
        refine ⟨[], by simp [hlast, hd', batches_nil, emitted], ?_, by simp⟩
        have h1 := matching_take_drop P keys rows n
        rw [matching_none hnone, hd, hd'] at h1
        rw [← h1]; simp [Spec.matching]
      · rw [if_neg hz, filterRows_matching htl]
        obtain ⟨bs, h1, h2, h3⟩ := ih (keys.drop n).length (by simp; omega) (keys.drop n) rfl (rows.drop n) (by simp [hl]) (by
          intro g hg
          apply hm
          by_cases hne : Spec.batches n (keys.drop n) = []
          · rw [hne] at hg; simp at hg
          · rw [List.dropLast_cons_of_ne_nil hne]; exact List.mem_cons_of_mem _ hg)
        refine ⟨Spec.matching P (keys.take n) (rows.take n) :: bs, by simp [h1], by simp [h2, matching_take_drop], ?_⟩
        intro b hb
        simp only [List.mem_cons] at hb
        rcases hb with rfl | hb
        · intro hnil
          apply hz
          rw [count_map_eq_zero]
          intro x hx
          obtain ⟨i, hi, rfl⟩ := List.getElem_of_mem hx
          cases hp : P (keys.take n)[i] with
          | false => rfl
          | true =>
            exfalso
            have : (rows.take n)[i]'(by omega) ∈ Spec.matching P (keys.take n) (rows.take n) := by
              unfold Spec.matching
              simp only [List.mem_map, List.mem_filter]
              exact ⟨((rows.take n)[i]'(by omega), (keys.take n)[i]), ⟨List.mem_iff_getElem.mpr ⟨i, by simp at hi ⊢; omega, by simp⟩, hp⟩, rfl⟩
            rw [hnil] at this
            simp at this
        · exact h3 b hb

/-- From the readers' remaining batches to what a filtered read returns. -/
theorem readFiltered_of_rep {env : Env α} {file : Bytes} {root : FbLayout} {schema : FbDType} {proj : Projection} {batch : Nat} {D F : List (Rows α)}
    {r fr : St α root.depth} {refs : List RowExpr.Field} {eval : Rows α → Res (List Bool)}
    (hr : readLayout env root.depth root ⟨proj, batch⟩ ⟨[], .serialized schema .all⟩ = .ok r)
    (hfr : readLayout env root.depth root ⟨.flat refs, batch⟩ ⟨[], .serialized schema .all⟩ = .ok fr)
    (hrep : RepSt (Spec.rangeAt root) file env root.depth r D) (hfrep : RepSt (Spec.rangeAt root) file env root.depth fr F)
    {order : List Message → List Message} (hord : ∀ l, (order l).Perm l) :
    ∃ N, ∀ fuel, N ≤ fuel → readFiltered env file root schema proj batch refs eval order fuel = emitted eval D false F := by
  obtain ⟨U, hU⟩ := rangeAt_finite _ root (Nat.le_refl _)
  obtain ⟨N, K, h⟩ := collect_filtered (st_law (Spec.rangeAt root) file env root.depth) hU hord eval F.length D F (fun _ => none) r fr (Nat.le_refl _)
    (by intro p b h; simp at h) hrep hfrep
  refine ⟨max N K, fun fuel hf => ?_⟩
  simp only [readFiltered, hr, hfr, Res.ok_bind]
  have := h fuel (fuel - K) (by omega)
  rw [show fuel - K + K = fuel by omega] at this
  exact this

/-- A table stored column by column, the data columns asked for, and the columns the filter reads. -/
structure Table (env : Env α) (file : Bytes) (root : FbLayout) (names : List Str) (dtypes : List DType) (fields refs : List RowExpr.Field)
    (rows keys : Rows α) : Prop where
  regular : root.Regular = true
  columns : ∃ bufs cs m, root = .mk COLUMN bufs (some cs) m ∧ Spec.table env file cs names dtypes fields = some rows ∧
    Spec.table env file cs names dtypes refs = some keys
  registered : env.registered COLUMN = true
  sameLength : keys.length = rows.length

/-- The exact behaviour, for every table, filter, batch size and completion order: masks come from the batches of the filter columns, and `emitted`
says what becomes of them. -/
theorem C37_exact (env : Env α) (file : Bytes) (root : FbLayout) (names : List Str) (dtypes : List DType) (nl : Bool) (fields refs : List RowExpr.Field)
    (rows keys : Rows α) (h : Table env file root names dtypes fields refs rows keys) (eval : Rows α → Res (List Bool)) (batch : Nat) (hb : 0 < batch)
    (order : List Message → List Message) (hord : ∀ l, (order l).Perm l) (hne : rows ≠ []) :
    ∃ N, ∀ fuel, N ≤ fuel →
      readFiltered env file root (DType.struct names dtypes nl).toFb (.flat fields) batch refs eval order fuel =
        emitted eval (Spec.batches batch rows) false (Spec.batches batch keys) := by
  obtain ⟨bufs, cs, m, hroot, hrows, hkeys⟩ := h.columns
  obtain ⟨r, h1, h2⟩ := table_build (file := file) (nl := nl) hroot h.regular h.registered hrows hb
  obtain ⟨fr, h3, h4⟩ := table_build (file := file) (nl := nl) hroot h.regular h.registered hkeys hb
  have hk : keys ≠ [] := List.length_pos_iff.mp (by have := List.length_pos_iff.mpr hne; have := h.sameLength; omega)
  rw [cut_of_ne hne] at h2
  rw [cut_of_ne hk] at h4
  exact readFiltered_of_rep h1 h3 h2 h4 hord

/-- Filtered reads return exactly the rows satisfying the filter, in file order, without empty batches — provided every batch but the last has a
matching row. Missing: batches without any matching row (see the counterexample below). -/
theorem C37_filtered_partial (env : Env α) (file : Bytes) (root : FbLayout) (names : List Str) (dtypes : List DType) (nl : Bool)
    (fields refs : List RowExpr.Field) (rows keys : Rows α) (h : Table env file root names dtypes fields refs rows keys) (P : Row α → Bool)
    (eval : Rows α → Res (List Bool)) (hev : ∀ g, eval g = .ok (g.map P)) (batch : Nat) (hb : 0 < batch)
    (order : List Message → List Message) (hord : ∀ l, (order l).Perm l) (hne : rows ≠ [])
    (hm : ∀ g ∈ (Spec.batches batch keys).dropLast, ∃ k ∈ g, P k = true) :
    ∃ bs N, (∀ fuel, N ≤ fuel →
        readFiltered env file root (DType.struct names dtypes nl).toFb (.flat fields) batch refs eval order fuel = .ok bs) ∧
      bs.flatten = Spec.matching P keys rows ∧ ∀ b ∈ bs, b ≠ [] := by
  obtain ⟨N, hN⟩ := C37_exact env file root names dtypes nl fields refs rows keys h eval batch hb order hord hne
  obtain ⟨bs, h1, h2, h3⟩ := emitted_ok hev hb keys rows h.sameLength hm
  exact ⟨bs, N, fun fuel hf => by rw [hN fuel hf, h1], h2, h3⟩

/-- In particular: a batch size of at least the number of rows makes every filter right. -/
theorem C37_one_batch (env : Env α) (file : Bytes) (root : FbLayout) (names : List Str) (dtypes : List DType) (nl : Bool)
    (fields refs : List RowExpr.Field) (rows keys : Rows α) (h : Table env file root names dtypes fields refs rows keys) (P : Row α → Bool)
    (eval : Rows α → Res (List Bool)) (hev : ∀ g, eval g = .ok (g.map P)) (batch : Nat) (hb : 0 < batch) (hsize : rows.length ≤ batch)
    (order : List Message → List Message) (hord : ∀ l, (order l).Perm l) (hne : rows ≠ []) :
    ∃ bs N, (∀ fuel, N ≤ fuel →
        readFiltered env file root (DType.struct names dtypes nl).toFb (.flat fields) batch refs eval order fuel = .ok bs) ∧
      bs.flatten = Spec.matching P keys rows := by
  have hk : keys ≠ [] := List.length_pos_iff.mp (by have := List.length_pos_iff.mpr hne; have := h.sameLength; omega)
  obtain ⟨bs, N, h1, h2, _⟩ := C37_filtered_partial env file root names dtypes nl fields refs rows keys h P eval hev batch hb order hord hne (by
    rw [batches_cons hb hk, List.drop_eq_nil_of_le (by have := h.sameLength; omega), batches_nil]
    simp)
  exact ⟨bs, N, h1, h2⟩

/-! ## Counterexample -/

namespace Demo

def isTwelve : Row UInt8 → Bool
  | .struct [(_, .leaf 12)] => true
  | _ => false

theorem table : Table env file root ["a".toList, "b".toList] [u8, u8] [.index 0, .index 1] [.index 0] [row 10 20, row 11 21, row 12 22]
    [.struct [("a".toList, .leaf 10)], .struct [("a".toList, .leaf 11)], .struct [("a".toList, .leaf 12)]] :=
  ⟨by decide +kernel, ⟨_, _, _, rfl, by rfl, by rfl⟩, by rfl, by rfl⟩

/-- With a batch size covering the table the filter `a = 12` finds its row … -/
example : readFiltered env file root schema.toFb (.flat [.index 0, .index 1]) 3 [.index 0] (fun g => .ok (g.map isTwelve)) id 60 =
    .ok [[row 12 22]] := by rfl

/-- … with batch size 1 the read returns the row with `a = 11` and not the one with `a = 12`. -/
theorem _root_.Vx.Layout.C37_wrong_rows :
    readFiltered env file root schema.toFb (.flat [.index 0, .index 1]) 1 [.index 0] (fun g => .ok (g.map isTwelve)) id 60 = .ok [[row 11 21]] := by rfl

end Demo

end Vx.Layout
