import Verif.Lemmas.FileScanSql
import Verif.Props.C43
/-!
# C94: querying a table of Vortex files
-/
namespace Vx.FileScan
open Vx.Layout
open Vx.DF (DExpr SqlV Ty Typed)
open Ipc (Bytes)

variable {V : Type}

/-- What the theorems assume of a reader: the codec is lawful, decoding yields typed rows, the masks' statistics are right, the hash set of references is
walked in some order, and I/O completes in some order. -/
structure ReaderOk (R : Reader V) (ctx : Nat → Bool) (meaning : DType → Nat → Ipc.Node → Rows (RowExpr.Val V)) [LinearOrder V] : Prop where
  codec : R.codec.Lawful
  env : EnvOk R.env R.codec ctx meaning
  typed : Spec.TypedMeaning R.kind meaning
  masks : RowExpr.Truthful R.renv
  walk : ∀ l f, f ∈ R.walk l ↔ f ∈ l
  order : ∀ l, (R.order l).Perm l

/-- A file of the table: `data` written with the table's schema, within the limits of the format. -/
structure FileOk (R : Reader V) (metaNode : List Nat → Ipc.Node) (ctx : Nat → Bool) (names : List Str) (dtypes : List DType) (nl : Bool)
    (data : List StructBatch) (file : Bytes) : Prop where
  written : Spec.IsFileOf R.codec metaNode (.struct names dtypes nl) data file
  table : TableOk R.codec ctx names dtypes data
  size : file.length < 2 ^ 64
  tail : ∀ bytes ls, file = fileOf R.codec bytes (.struct names dtypes nl) (.columnL ls) (Spec.rowCount data) →
    tailLength R.codec (.struct names dtypes nl) (.columnL ls) (Spec.rowCount data) ≤ R.init

theorem name_of_idx {names : List Str} {n : Str} {j : Nat} (hj : names.findIdx? (· == n) = some j) : names.getD j [] = n := by
  obtain ⟨h1, h2, _⟩ := List.findIdx?_eq_some_iff_getElem.mp hj
  rw [List.getD_eq_getElem?_getD, List.getElem?_eq_getElem h1]
  simpa using h2

theorem positions {Γ : Str → Option Ty} {kind : DType → Option Ty} {names : List Str} {dtypes : List DType} (hl : names.length = dtypes.length)
    (hΓ : Γ = Spec.tableTypes kind names dtypes) : ∀ (refs : List RowExpr.Field), (∀ f ∈ refs, ∃ n τ, f = .name n ∧ Γ n = some τ) →
    ∃ sel : List Nat, refs.map (Layout.Spec.position names) = sel.map some ∧ (∀ i ∈ sel, i < dtypes.length) ∧
      (∀ i ∈ sel, ∃ τ, kind (dtypes.getD i .null) = some τ) ∧
      (∀ n j, names.findIdx? (· == n) = some j → .name n ∈ refs → j ∈ sel) ∧ ∀ i ∈ sel, names.findIdx? (· == names.getD i []) = some i
  | [], _ => ⟨[], rfl, by simp, by simp, by simp, by simp⟩
  | f :: refs, h => by
    obtain ⟨sel, h1, h2, h3, h4, h5⟩ := positions hl hΓ refs (fun f hf => h f (by simp [hf]))
    obtain ⟨n, τ, rfl, hn⟩ := h f (by simp)
    rw [hΓ, Spec.tableTypes, Option.bind_eq_some_iff] at hn
    obtain ⟨j, hj, hn⟩ := hn
    rw [Option.bind_eq_some_iff] at hn
    obtain ⟨d, hd, hk⟩ := hn
    refine ⟨j :: sel, by simp [Layout.Spec.position, hj, h1], ?_, ?_, ?_, ?_⟩
    · intro i hi
      simp only [List.mem_cons] at hi
      rcases hi with rfl | hi
      · exact (List.getElem?_eq_some_iff.mp hd).1
      · exact h2 i hi
    · intro i hi
      simp only [List.mem_cons] at hi
      rcases hi with rfl | hi
      · exact ⟨τ, by rw [List.getD_eq_getElem?_getD, hd]; exact hk⟩
      · exact h3 i hi
    · intro m j' hm hmem
      simp only [List.mem_cons, RowExpr.Field.name.injEq] at hmem ⊢
      rcases hmem with rfl | hmem
      · rw [hj, Option.some.injEq] at hm; exact Or.inl hm.symm
      · exact Or.inr (h4 m j' hm hmem)
    · intro i hi
      simp only [List.mem_cons] at hi
      rcases hi with rfl | hi
      · rw [name_of_idx hj]; exact hj
      · exact h5 i hi

section
variable [LinearOrder V] {R : Reader V} {ctx : Nat → Bool} {meaning : DType → Nat → Ipc.Node → Rows (RowExpr.Val V)} {metaNode : List Nat → Ipc.Node}
  {names : List Str} {dtypes : List DType} {nl : Bool} {data : List StructBatch} {file : Bytes}

/-- The value in column `i`, row `k`. -/
theorem cell (hR : ReaderOk R ctx meaning) (ht : TableOk R.codec ctx names dtypes data) {i k : Nat} (hi : i < dtypes.length) {τ : Ty}
    (hτ : R.kind (dtypes.getD i .null) = some τ) (hk : k < Spec.rowCount data) :
    ∃ x, (Layout.Spec.columnRows meaning data i (dtypes.getD i .null))[k]? = some (.leaf x) ∧ Spec.HasTy τ x := by
  have hl := columnRows_length hR.env ht i hi (dtypes.getD i .null)
  have hk' : k < (Layout.Spec.columnRows meaning data i (dtypes.getD i .null)).length := by rw [hl]; exact hk
  have hm := List.getElem_mem hk'
  simp only [Layout.Spec.columnRows, List.mem_flatMap] at hm
  obtain ⟨c, _, hc⟩ := hm
  obtain ⟨x, hx, hxt⟩ := hR.typed _ τ hτ _ _ _ hc
  refine ⟨x, ?_, hxt⟩
  rw [List.getElem?_eq_getElem hk']
  exact congrArg some hx

/-- A row of the filter's columns: every field is there. -/
theorem outRow_fields (hR : ReaderOk R ctx meaning) (ht : TableOk R.codec ctx names dtypes data) {k : Nat} (hk : k < Spec.rowCount data) :
    ∀ (sel : List Nat), (∀ i ∈ sel, i < dtypes.length) →
    Spec.outRow meaning names dtypes sel data k = .struct (sel.map fun i => (names.getD i [],
      ((Layout.Spec.columnRows meaning data i (dtypes.getD i .null))[k]?).getD (.struct []))) := by
  intro sel hin
  unfold Spec.outRow structRow
  congr 1
  induction sel with
  | nil => rfl
  | cons i sel ih =>
    have hl := columnRows_length hR.env ht i (hin i (by simp)) (dtypes.getD i .null)
    have hk' : k < (Layout.Spec.columnRows meaning data i (dtypes.getD i .null)).length := by rw [hl]; exact hk
    rw [List.map_cons, List.map_cons, List.filterMap_cons]
    simp only [Layout.Spec.projected, List.getElem?_eq_getElem hk', Option.map_some, Option.getD_some]
    rw [ih (fun i hi => hin i (by simp [hi]))]

/-- The filter reader's row has the table's values. -/
theorem sameCells (hR : ReaderOk R ctx meaning) (ht : TableOk R.codec ctx names dtypes data) {k : Nat} (hk : k < Spec.rowCount data) {sel : List Nat}
    (hin : ∀ i ∈ sel, i < dtypes.length) (hty : ∀ i ∈ sel, ∃ τ, R.kind (dtypes.getD i .null) = some τ) {cols : List Str}
    (hfirst : ∀ i ∈ sel, names.findIdx? (· == names.getD i []) = some i) (hsel : ∀ n ∈ cols, ∀ j, names.findIdx? (· == n) = some j → j ∈ sel) :
    SameCells (Spec.tableTypes R.kind names dtypes) cols (valuesOf (Spec.outRow meaning names dtypes sel data k)) (Spec.sqlRow meaning names dtypes data k) := by
  intro n hn τ hτ
  rw [Spec.tableTypes, Option.bind_eq_some_iff] at hτ
  obtain ⟨j, hj, hτ⟩ := hτ
  rw [Option.bind_eq_some_iff] at hτ
  obtain ⟨d, hd, hk'⟩ := hτ
  have hjs := hsel n hn j hj
  have hdj : dtypes.getD j .null = d := by rw [List.getD_eq_getElem?_getD, hd]; rfl
  obtain ⟨x, hx, hxt⟩ := cell hR ht (hin j hjs) (by rw [hdj]; exact hk') hk
  refine ⟨x, ?_, hxt, ?_⟩
  · rw [outRow_fields hR ht hk sel hin]
    have hjl : j < names.length := by rw [ht.names]; exact hin j hjs
    have hname : names.getD j [] = n := name_of_idx hj
    simp only [valuesOf, Vx.Spec.rowField]
    clear hsel
    induction sel with
    | nil => simp at hjs
    | cons i sel ih =>
      obtain ⟨τ', hτ'⟩ := hty i (by simp)
      obtain ⟨y, hy, _⟩ := cell hR ht (hin i (by simp)) hτ' hk
      rw [List.map_cons, List.filterMap_cons]
      simp only [hy, Option.getD_some]
      rw [List.find?_cons]
      by_cases hnm : names.getD i [] = n
      · simp only [hnm, decide_true, Option.map_some]
        have := hfirst i (by simp)
        rw [hnm, hj, Option.some.injEq] at this
        subst this
        rw [hx, Option.some.injEq] at hy
        simp only [Layout.Row.leaf.injEq] at hy
        rw [hy]
      · simp only [hnm, decide_false]
        refine ih (fun i hi => hin i (by simp [hi])) (fun i hi => hty i (by simp [hi])) (fun i hi => hfirst i (by simp [hi])) ?_
        simp only [List.mem_cons] at hjs
        rcases hjs with rfl | hjs
        · exact absurd hname hnm
        · exact hjs
  · simp only [Spec.sqlRow, hj, Option.bind_some, hx]

theorem refs_names (v : DF.VExpr V) : ∀ f, f ∈ RowExpr.rowFilterRefs (toExpr v) ↔ ∃ n ∈ v.refs, f = .name n := by
  intro f
  rw [RowExpr.C28_references]
  induction v with
  | col n => simp [toExpr, RowExpr.Expr.refs, DF.VExpr.refs]
  | lit x => simp [toExpr, RowExpr.Expr.refs, DF.VExpr.refs]
  | bin l op r ihl ihr => simp [toExpr, RowExpr.Expr.refs, DF.VExpr.refs, ihl, ihr, or_and_right, exists_or]

theorem zip_filter_map {β γ δ : Type} (P : γ → Bool) (a : β → δ) (b : β → γ) (l : List β) :
    (((l.map a).zip (l.map b)).filter fun p => P p.2).map (·.1) = (l.filter fun k => P (b k)).map a := by
  induction l with
  | nil => rfl
  | cons x l ih =>
    simp only [List.map_cons, List.zip_cons_cons, List.filter_cons]
    cases P (b x) <;> simp [ih]

theorem zeroBatch_columnL {C : Ipc.Codec} {metaNode : List Nat → Ipc.Node} {out : Bytes} {ls : List FbLayout} {css : List (List Chunk)} {rs : List (Nat × Nat)}
    (h : Finished C metaNode out ls css rs) : (FbLayout.columnL ls).zeroBatch = false := by
  cases h with
  | nil => simp [FbLayout.columnL, FbLayout.zeroBatch, FbLayout.zeroBatches, COLUMN, FLAT, CHUNKED]
  | cons => simp [FbLayout.columnL, FbLayout.zeroBatch, FbLayout.zeroBatches, colLayout, FbLayout.chunkedL, COLUMN, FLAT, CHUNKED]

theorem typed_cols {Γ : Str → Option Ty} {e : DExpr V} {τ : Ty} (h : Typed Γ e τ) : ∀ n ∈ e.cols, ∃ τ, Γ n = some τ := by
  induction h with
  | col n τ hn => intro m hm; simp only [DExpr.cols, List.mem_singleton] at hm; subst hm; exact ⟨τ, hn⟩
  | litPrim => intro m hm; simp [DExpr.cols] at hm
  | litBool => intro m hm; simp [DExpr.cols] at hm
  | cmp _ _ _ _ _ _ _ ih1 ih2 =>
    intro m hm
    simp only [DExpr.cols, List.mem_append] at hm
    rcases hm with hm | hm
    · exact ih1 m hm
    · exact ih2 m hm
  | logic _ _ _ _ _ _ ih1 ih2 =>
    intro m hm
    simp only [DExpr.cols, List.mem_append] at hm
    rcases hm with hm | hm
    · exact ih1 m hm
    · exact ih2 m hm

theorem batches_dropLast {β : Type} {n : Nat} (hn : 0 < n) (xs : List β) : ∀ g ∈ (Layout.Spec.batches n xs).dropLast,
    ∃ j, (j + 1) * n < xs.length ∧ g = (xs.drop (j * n)).take n := by
  induction hlen : xs.length using Nat.strongRecOn generalizing xs with
  | _ k ih =>
    subst hlen
    intro g hg
    by_cases hx : xs = []
    · subst hx; rw [batches_nil] at hg; simp at hg
    · have hpos := List.length_pos_iff.mpr hx
      rw [batches_cons hn hx] at hg
      by_cases hd : xs.drop n = []
      · rw [hd, batches_nil] at hg; simp at hg
      · have hdl := List.length_pos_iff.mpr hd
        simp only [List.length_drop] at hdl
        have hbd : Layout.Spec.batches n (xs.drop n) ≠ [] := by rw [batches_cons hn hd]; simp
        rw [List.dropLast_cons_of_ne_nil hbd, List.mem_cons] at hg
        rcases hg with rfl | hg
        · exact ⟨0, by omega, by simp⟩
        · obtain ⟨j, h1, h2⟩ := ih (xs.drop n).length (by simp; omega) (xs.drop n) rfl g hg
          refine ⟨j + 1, ?_, ?_⟩
          · simp only [List.length_drop] at h1
            rw [Nat.add_mul (j + 1) 1 n]; omega
          · rw [h2, List.drop_drop, Nat.add_mul, Nat.one_mul, Nat.add_comm n]

/-- Opening a file with a filter: the rows on which the row filter holds, provided every full batch but the last has one. -/
theorem file_filtered (hR : ReaderOk R ctx meaning) (hf : FileOk R metaNode ctx names dtypes nl data file) {proj : Projection} {out : List Nat}
    (ho : Selects names proj out) (hp : out ≠ []) {batch : Nat} (hb : 0 < batch)
    {e : DExpr V} {v : DF.VExpr V} (he : Typed (Spec.tableTypes R.kind names dtypes) e .bool) (hv : e.convert = .ok v) (hcols : e.cols ≠ [])
    (hgap : ∀ sel, (∀ k, k < Spec.rowCount data →
        SameCells (Spec.tableTypes R.kind names dtypes) e.cols (valuesOf (Spec.outRow meaning names dtypes sel data k)) (Spec.sqlRow meaning names dtypes data k)) →
      ∀ j, (j + 1) * batch < Spec.rowCount data →
        ∃ k, j * batch ≤ k ∧ k < (j + 1) * batch ∧ keeps (toExpr v) (Spec.outRow meaning names dtypes sel data k) = true) :
    ∃ bs N sel, (∀ fuel, N ≤ fuel → buildAndRead R proj batch (some (toExpr v)) fuel file =
        .ok (.struct (out.map fun i => names.getD i []) (out.map fun i => dtypes.getD i .null) nl, bs)) ∧
      bs.flatten = ((List.range (Spec.rowCount data)).filter fun k => keeps (toExpr v) (Spec.outRow meaning names dtypes sel data k)).map
        (Spec.outRow meaning names dtypes out data) ∧
      ∀ k, k < Spec.rowCount data →
        SameCells (Spec.tableTypes R.kind names dtypes) e.cols (valuesOf (Spec.outRow meaning names dtypes sel data k)) (Spec.sqlRow meaning names dtypes data k) := by
  obtain ⟨d, ls, rs, o1, o2, o3, hfin⟩ := opened hR.codec hf.table hf.written hf.size hf.tail
  obtain ⟨p1, r, p2, p3⟩ := data_reader hR.env hR.codec hf.table hfin ho hp (nl := nl) hb
  obtain ⟨r1, _, r3⟩ := written_regular hf.table hfin
  -- the filter's columns
  have hrefs : ∀ f ∈ R.walk (RowExpr.rowFilterRefs (toExpr v)), ∃ n τ, f = .name n ∧ Spec.tableTypes R.kind names dtypes n = some τ := by
    intro f hf'
    rw [hR.walk, refs_names] at hf'
    obtain ⟨n, hn, rfl⟩ := hf'
    rw [DF.convert_refs e v hv] at hn
    obtain ⟨τ, hτ⟩ := typed_cols he n hn
    exact ⟨n, τ, rfl, hτ⟩
  obtain ⟨sel, s1, s2, s3, s4, s5⟩ := positions hf.table.names rfl _ hrefs
  have hsel : ∀ n ∈ e.cols, ∀ j, names.findIdx? (· == n) = some j → j ∈ sel := by
    intro n hn j hj
    refine s4 n j hj ?_
    rw [hR.walk, refs_names]
    exact ⟨n, by rw [DF.convert_refs e v hv]; exact hn, rfl⟩
  have hne : sel ≠ [] := by
    obtain ⟨n, hn⟩ := List.exists_mem_of_ne_nil _ hcols
    obtain ⟨τ, hτ⟩ := typed_cols he n hn
    rw [Spec.tableTypes, Option.bind_eq_some_iff] at hτ
    obtain ⟨j, hj, _⟩ := hτ
    exact List.ne_nil_of_mem (hsel n hn j hj)
  obtain ⟨c1, c2, c3⟩ := columns_of_written hR.env hR.codec hf.table hfin _ _ s1
  have htab : Layout.Spec.table R.env file ls names dtypes (R.walk (RowExpr.rowFilterRefs (toExpr v))) = some (selRows meaning names dtypes data sel) := by
    rw [Layout.Spec.table, c1, Option.bind_some]
    exact structOf_sel hR.env hf.table hne s2
  obtain ⟨fr, q1, q2⟩ := table_build (root := .columnL ls) (nl := nl) rfl r1 hR.env.column htab hb
  have hfd : projectedDType (DType.struct names dtypes nl).toFb (.flat (R.walk (RowExpr.rowFilterRefs (toExpr v)))) =
      .ok (.struct (sel.map fun i => names.getD i []) (sel.map fun i => dtypes.getD i .null) nl) := by
    simp only [projectedDType, deserializeAndProject, DType.toFb, c3, Res.ok_bind, List.map_map]; rfl
  -- the exact behaviour of the stream
  obtain ⟨N, hN⟩ := readFiltered_of_rep (refs := R.walk (RowExpr.rowFilterRefs (toExpr v)))
    (eval := evalBatch R.kind R.renv (DType.struct names dtypes nl).toFb (R.walk (RowExpr.rowFilterRefs (toExpr v))) (toExpr v)) p2 q1 p3 q2 hR.order
  rw [zeroBatch_columnL hfin] at hN
  have hev : ∀ g ∈ cut false batch (selRows meaning names dtypes data sel),
      evalBatch R.kind R.renv (DType.struct names dtypes nl).toFb (R.walk (RowExpr.rowFilterRefs (toExpr v))) (toExpr v) g = .ok (g.map (keeps (toExpr v))) := by
    intro g hg
    have hsub : ∀ r ∈ g, ∃ k, k < Spec.rowCount data ∧ r = Spec.outRow meaning names dtypes sel data k := by
      intro r hr
      have : r ∈ (cut false batch (selRows meaning names dtypes data sel)).flatten := List.mem_flatten.mpr ⟨g, hg, hr⟩
      rw [cut_flatten hb] at this
      simp only [selRows, List.mem_map, List.mem_range] at this
      obtain ⟨k, hk, rfl⟩ := this
      exact ⟨k, hk, rfl⟩
    refine evalBatch_eq hR.masks hfd ⟨by simp, ?_, ?_⟩ he hv ?_
    · intro r hr
      obtain ⟨k, hk, rfl⟩ := hsub r hr
      rw [outRow_fields hR hf.table hk sel s2]
      exact ⟨_, rfl, by simp⟩
    · intro j n d' hn hd
      rw [List.getElem?_map, Option.map_eq_some_iff] at hn hd
      obtain ⟨i, hi, rfl⟩ := hn
      obtain ⟨i', hi', rfl⟩ := hd
      rw [hi, Option.some.injEq] at hi'; subst hi'
      have him := List.mem_of_getElem? hi
      obtain ⟨τ, hτ⟩ := s3 i him
      refine ⟨τ, hτ, fun r hr => ?_⟩
      obtain ⟨k, hk, rfl⟩ := hsub r hr
      obtain ⟨x, hx, hxt⟩ := cell hR hf.table (s2 i him) hτ hk
      refine ⟨_, x, outRow_fields hR hf.table hk sel s2, ?_, hxt⟩
      rw [List.getElem?_map, hi, Option.map_some, hx, Option.getD_some]
    · intro n hn τ hτ
      rw [Spec.tableTypes, Option.bind_eq_some_iff] at hτ
      obtain ⟨j, hj, hτ⟩ := hτ
      rw [Option.bind_eq_some_iff] at hτ
      obtain ⟨d', hd', hk'⟩ := hτ
      have hjs := hsel n hn j hj
      have hex : ∃ p : Nat, (sel.map fun i => names.getD i []).findIdx? (· == n) = some p := by
        rw [← Option.isSome_iff_exists, List.findIdx?_isSome, List.any_eq_true]
        exact ⟨names.getD j [], List.mem_map.mpr ⟨j, hjs, rfl⟩, by rw [name_of_idx hj]; simp⟩
      obtain ⟨p, hp'⟩ := hex
      obtain ⟨l1, l2, _⟩ := List.findIdx?_eq_some_iff_getElem.mp hp'
      simp only [List.getElem_map, beq_iff_eq] at l2
      have l1' : p < sel.length := by simpa using l1
      have hpj : sel[p] = j := by
        have := s5 sel[p] (List.getElem_mem l1')
        rw [l2, hj, Option.some.injEq] at this
        exact this.symm
      refine ⟨p, d', hp', ?_, hk'⟩
      rw [List.getElem?_map, List.getElem?_eq_getElem l1', Option.map_some, hpj, List.getD_eq_getElem?_getD, hd']; rfl
  rw [emitted_congr _ _ _ (fun g hg => hev g hg)] at hN
  have hlen : ∀ s, (selRows meaning names dtypes data s).length = Spec.rowCount data := by intro s; simp [selRows]
  have hmatch : ∃ bs, emitted (fun g => .ok (g.map (keeps (toExpr v)))) (cut false batch (selRows meaning names dtypes data out)) false
      (cut false batch (selRows meaning names dtypes data sel)) = .ok bs ∧
      bs.flatten = Layout.Spec.matching (keeps (toExpr v)) (selRows meaning names dtypes data sel) (selRows meaning names dtypes data out) := by
    by_cases h0 : Spec.rowCount data = 0
    · have e0 : ∀ s, selRows meaning names dtypes data s = [] := fun s => List.eq_nil_of_length_eq_zero (by rw [hlen, h0])
      rw [e0, e0]
      exact ⟨[], rfl, rfl⟩
    · have hk : selRows meaning names dtypes data sel ≠ [] := by intro h; have := hlen sel; rw [h] at this; exact h0 this.symm
      have hk' : selRows meaning names dtypes data out ≠ [] := by
        intro h; have := hlen out; rw [h] at this; exact h0 this.symm
      rw [cut_of_ne hk, cut_of_ne hk']
      obtain ⟨bs, b1, b2, _⟩ := emitted_ok (P := keeps (toExpr v)) (fun g => rfl) hb (selRows meaning names dtypes data sel)
        (selRows meaning names dtypes data out) (by rw [hlen, hlen]) (by
          intro g hg
          obtain ⟨j, g1, rfl⟩ := batches_dropLast hb _ g hg
          rw [hlen] at g1
          obtain ⟨k, k1, k2, k3⟩ := hgap sel (fun k hk => sameCells hR hf.table hk s2 s3 s5 hsel) j g1
          refine ⟨_, ?_, k3⟩
          rw [List.mem_iff_getElem?]
          refine ⟨k - j * batch, ?_⟩
          have hlt : k - j * batch < batch := by rw [Nat.add_mul, Nat.one_mul] at k2; omega
          rw [List.getElem?_take_of_lt hlt, List.getElem?_drop, show j * batch + (k - j * batch) = k by omega]
          simp [selRows, show k < Spec.rowCount data by omega])
      exact ⟨bs, b1, b2⟩
  obtain ⟨bs, b1, b2⟩ := hmatch
  refine ⟨bs, N, sel, fun fuel hfu => ?_, ?_, fun k hk => sameCells hR hf.table hk s2 s3 s5 hsel⟩
  · have := hN fuel hfu
    rw [b1] at this
    simp only [buildAndRead, Res.ok_bind, readFileFiltered, o1, o2, o3, p1]
    simp only [FbLayout.columnL] at this ⊢
    simp only [this, Res.ok_bind]
  · rw [b2]
    exact zip_filter_map _ _ _ _

/-- Opening a file without a filter: all its rows. -/
theorem file_unfiltered (hR : ReaderOk R ctx meaning) (hf : FileOk R metaNode ctx names dtypes nl data file) {proj : Projection} {out : List Nat}
    (ho : Selects names proj out) (hp : out ≠ []) {batch : Nat} (hb : 0 < batch) :
    ∃ bs N, (∀ fuel, N ≤ fuel → buildAndRead R proj batch none fuel file =
        .ok (.struct (out.map fun i => names.getD i []) (out.map fun i => dtypes.getD i .null) nl, bs)) ∧
      bs.flatten = (List.range (Spec.rowCount data)).map (Spec.outRow meaning names dtypes out data) := by
  obtain ⟨d, ls, rs, o1, o2, o3, hfin⟩ := opened hR.codec hf.table hf.written hf.size hf.tail
  obtain ⟨p1, r, p2, p3⟩ := data_reader hR.env hR.codec hf.table hfin ho hp (nl := nl) hb
  obtain ⟨N, hN⟩ := readAll_of_rep p2 p3 hR.order
  refine ⟨cut (FbLayout.columnL ls).zeroBatch batch (selRows meaning names dtypes data out), N, fun fuel hfu => ?_, cut_flatten hb _⟩
  have := hN fuel hfu
  simp only [buildAndRead, readFile, o1, o2, o3, Res.ok_bind, p1]
  simp only [FbLayout.columnL] at this ⊢
  simp only [this, Res.ok_bind]

/-! ## The property -/

/-- The files of a table with what was written to them. -/
def Files (R : Reader V) (metaNode : List Nat → Ipc.Node) (ctx : Nat → Bool) (names : List Str) (dtypes : List DType) (nl : Bool)
    (tables : List (List StructBatch)) (files : List Bytes) : Prop :=
  List.Forall₂ (fun data file => FileOk R metaNode ctx names dtypes nl data file) tables files

/-- In each row of each file, each conjunct of each filter is free of `AND` and `OR` or mentions no column that is null in this row. -/
def Spec.TwoValued (meaning : DType → Nat → Ipc.Node → Rows (RowExpr.Val V)) (names : List Str) (dtypes : List DType) (filters : List (DExpr V))
    (tables : List (List StructBatch)) : Prop :=
  ∀ f ∈ filters, ∀ c ∈ Spec.conjuncts f, Spec.noLogic c = true ∨
    ∀ data ∈ tables, ∀ k < Spec.rowCount data, ∀ n ∈ c.cols, ∃ y, Spec.sqlRow meaning names dtypes data k n = some y ∧ Spec.notNull y = true

omit [LinearOrder V] in
theorem foldl_convert (fs : List (DExpr V)) : ∀ (f : DExpr V), (∃ v, f.convert = .ok v) → (∀ g ∈ fs, ∃ v, g.convert = .ok v) →
    ∃ v, (fs.foldl (fun a b => DExpr.bin a .and b) f).convert = .ok v := by
  induction fs with
  | nil => intro f h _; exact h
  | cons g fs ih =>
    intro f ⟨v, hv⟩ h
    obtain ⟨w, hw⟩ := h g (by simp)
    exact ih _ ⟨.bin v .and w, by simp only [DExpr.convert, hv, hw, Res.ok_bind, DF.DOp.convert]⟩ (fun x hx => h x (by simp [hx]))

omit [LinearOrder V] in
theorem typed_convert {Γ : Str → Option Ty} {e : DExpr V} {τ : Ty} (h : Typed Γ e τ) : ∃ v, e.convert = .ok v := by
  induction h with
  | col n τ hn => exact ⟨_, rfl⟩
  | litPrim t x => exact ⟨_, rfl⟩
  | litBool b => exact ⟨_, rfl⟩
  | cmp l op r τ hop _ _ ih1 ih2 =>
    obtain ⟨v, hv⟩ := ih1
    obtain ⟨w, hw⟩ := ih2
    obtain ⟨o, ho⟩ : ∃ o, op.convert = .ok o := by cases op <;> simp_all [DF.isCmp, DF.DOp.convert]
    exact ⟨.bin v o w, by simp only [DExpr.convert, hv, hw, ho, Res.ok_bind]⟩
  | logic l op r hop _ _ ih1 ih2 =>
    obtain ⟨v, hv⟩ := ih1
    obtain ⟨w, hw⟩ := ih2
    obtain ⟨o, ho⟩ : ∃ o, op.convert = .ok o := by rcases hop with rfl | rfl <;> exact ⟨_, rfl⟩
    exact ⟨.bin v o w, by simp only [DExpr.convert, hv, hw, ho, Res.ok_bind]⟩

/-- One file of a query, with any projection, batch size and filter in the row filter's language. -/
theorem file_answer (hR : ReaderOk R ctx meaning) (hf : FileOk R metaNode ctx names dtypes nl data file) {proj : Projection} {out : List Nat}
    (ho : Selects names proj out) (hp : out ≠ []) {batch : Nat} (hb : 0 < batch) (filters : List (DExpr V))
    (hty : ∀ f ∈ filters, Typed (Spec.tableTypes R.kind names dtypes) f .bool) (hcols : filters ≠ [] → ∃ f ∈ filters, f.cols ≠ [])
    (htwo : ∀ f ∈ filters, ∀ c ∈ Spec.conjuncts f, Spec.noLogic c = true ∨
      ∀ k < Spec.rowCount data, ∀ n ∈ c.cols, ∃ y, Spec.sqlRow meaning names dtypes data k n = some y ∧ Spec.notNull y = true)
    (hgap : filters ≠ [] → ∀ j, (j + 1) * batch < Spec.rowCount data → ∃ k, j * batch ≤ k ∧ k < (j + 1) * batch ∧
      ∀ f ∈ filters, DF.sql (Spec.sqlRow meaning names dtypes data k) f = some (.bool (some true))) :
    ∃ fl, filterOf (DF.conjunction filters) = .ok fl ∧ ∃ bs N, (∀ fuel, N ≤ fuel → buildAndRead R proj batch fl fuel file =
        .ok (.struct (out.map fun i => names.getD i []) (out.map fun i => dtypes.getD i .null) nl, bs)) ∧
      bs.flatten = Spec.answer meaning names dtypes out filters data := by
  cases filters with
  | nil =>
    obtain ⟨bs, N, h1, h2⟩ := file_unfiltered hR hf ho hp hb
    refine ⟨none, rfl, bs, N, h1, ?_⟩
    rw [h2]
    simp [Spec.answer]
  | cons f fs =>
    have htf := hty f (by simp)
    have htfs := fun g hg => hty g (List.mem_cons_of_mem _ hg)
    obtain ⟨v, hv⟩ := foldl_convert fs f (typed_convert htf) (fun g hg => typed_convert (htfs g hg))
    have hc : (fs.foldl (fun a b => DExpr.bin a .and b) f).cols ≠ [] := by
      rw [DF.foldl_cols]
      obtain ⟨g, hg, hgc⟩ := hcols (by simp)
      obtain ⟨n, hn⟩ := List.exists_mem_of_ne_nil _ hgc
      exact List.ne_nil_of_mem (List.mem_flatMap.mpr ⟨g, hg, hn⟩)
    have hiff : ∀ k < Spec.rowCount data, ∀ sel, SameCells (Spec.tableTypes R.kind names dtypes) (fs.foldl (fun a b => DExpr.bin a .and b) f).cols
        (valuesOf (Spec.outRow meaning names dtypes sel data k)) (Spec.sqlRow meaning names dtypes data k) →
        (keeps (toExpr v) (Spec.outRow meaning names dtypes sel data k) = true ↔
          ∀ g ∈ f :: fs, DF.sql (Spec.sqlRow meaning names dtypes data k) g = some (.bool (some true))) := by
      intro k hk sel hs
      rw [keeps_iff, holds_iff_true _ (conjunction_typed fs f htf htfs) hv hs (by
        intro c hcc
        rw [conjunction_conjuncts, List.mem_flatMap] at hcc
        obtain ⟨g, hg, hcc⟩ := hcc
        rcases htwo g hg c hcc with h | h
        · exact Or.inl h
        · exact Or.inr (h k hk)),
        conjunction_true fs f htf htfs (by rw [DF.foldl_cols] at hs; exact hs)]
    obtain ⟨bs, N, sel, h1, h2, h3⟩ := file_filtered hR hf ho hp hb (conjunction_typed fs f htf htfs) hv hc (by
      intro sel hs j hj
      obtain ⟨k, k1, k2, k3⟩ := hgap (by simp) j hj
      exact ⟨k, k1, k2, (hiff k (by omega) sel (hs k (by omega))).mpr k3⟩)
    refine ⟨some (toExpr v), by simp only [DF.conjunction, filterOf, hv, Res.ok_bind], bs, N, h1, ?_⟩
    rw [h2]
    unfold Spec.answer
    congr 1
    apply List.filter_congr
    intro k hk
    rw [List.mem_range] at hk
    rw [Bool.eq_iff_iff, hiff k hk sel (h3 k hk), List.all_eq_true]
    simp only [Spec.isTrue, decide_eq_true_eq]

/-- Every stretch of 65536 rows that a file is read in, except the last, has a row on which every filter is true. -/
def Spec.NoGap (meaning : DType → Nat → Ipc.Node → Rows (RowExpr.Val V)) (names : List Str) (dtypes : List DType) (filters : List (DExpr V))
    (data : List StructBatch) : Prop :=
  ∀ j, (j + 1) * 65536 < Spec.rowCount data → ∃ k, j * 65536 ≤ k ∧ k < (j + 1) * 65536 ∧
    ∀ f ∈ filters, DF.sql (Spec.sqlRow meaning names dtypes data k) f = some (.bool (some true))

/-- **C94.** A query over any number of Vortex files of one schema: with any well-typed filters (each conjunct without nulls or without nested `AND`/`OR`)
and any non-empty projection, the rows returned are, in the order of the files and of the rows in them, the projected columns of exactly the rows on
which every filter is true in SQL; whatever the order of I/O and of the hash set of references. Missing, because the code is wrong there: files with a
stretch of 65536 rows without a match that is not the last (C37), nulls under `OR` (C43), no output columns or filters without columns (below). -/
theorem C94_query_partial (hR : ReaderOk R ctx meaning) (tables : List (List StructBatch)) (files : List Bytes)
    (hf : Files R metaNode ctx names dtypes nl tables files) (projection : Option (List Nat))
    (hp : selOf dtypes.length projection ≠ []) (hin : ∀ i ∈ selOf dtypes.length projection, i < dtypes.length) (filters : List (DExpr V))
    (hty : ∀ f ∈ filters, Typed (Spec.tableTypes R.kind names dtypes) f .bool) (hcols : filters ≠ [] → ∃ f ∈ filters, f.cols ≠ [])
    (htwo : Spec.TwoValued meaning names dtypes filters tables)
    (hgap : filters ≠ [] → ∀ data ∈ tables, Spec.NoGap meaning names dtypes filters data) :
    ∃ out N, (∀ fuel, N ≤ fuel → scan R projection filters files fuel = .ok out) ∧
      out.flatten = tables.flatMap (Spec.answer meaning names dtypes (selOf dtypes.length projection) filters) := by
  have key : ∃ outs N, (∀ fuel, N ≤ fuel → Res.mapM (openFile R projection (DF.conjunction filters) fuel) files = .ok outs) ∧
      outs.flatten.flatten = tables.flatMap (Spec.answer meaning names dtypes (selOf dtypes.length projection) filters) := by
    induction hf with
    | nil => exact ⟨[], 0, fun _ _ => rfl, rfl⟩
    | @cons data file tables files h1 _ ih =>
      obtain ⟨outs, N, i1, i2⟩ := ih (fun f hf c hc => (htwo f hf c hc).imp id (fun h d hd => h d (by simp [hd]))) (fun h d hd => hgap h d (by simp [hd]))
      have hnl := h1.table.names
      obtain ⟨fl, j0, bs, M, j1, j2⟩ := file_answer hR h1 (selects_of names projection (by rw [hnl]; exact hin)) (by rw [hnl]; exact hp)
        (batch := DEFAULT_BATCH_SIZE) (by unfold DEFAULT_BATCH_SIZE; omega) filters hty hcols
        (fun f hf c hc => (htwo f hf c hc).imp id (fun h => h data (by simp))) (fun h => hgap h data (by simp))
      rw [hnl] at j1 j2
      refine ⟨bs :: outs, max N M, fun fuel hfu => ?_, ?_⟩
      · have hopen : openFile R projection (DF.conjunction filters) fuel file = .ok bs := by
          simp only [openFile, j0, Res.ok_bind, j1 fuel (by omega)]
        simp only [Res.mapM_cons, hopen, i1 fuel (by omega), Res.ok_bind]
      · simp [i2, j2]
  obtain ⟨outs, N, k1, k2⟩ := key
  cases files with
  | nil =>
    cases hf
    exact ⟨[], 0, fun _ _ => rfl, rfl⟩
  | cons file files =>
    refine ⟨outs.flatten, N, fun fuel hfu => ?_, k2⟩
    unfold scan
    rw [if_neg (by simp)]
    simp only [k1 fuel hfu, Res.ok_bind]

/-- Files of at most 65536 rows: there is no such stretch. -/
theorem C94_small_files (hR : ReaderOk R ctx meaning) (tables : List (List StructBatch)) (files : List Bytes)
    (hf : Files R metaNode ctx names dtypes nl tables files) (hs : ∀ data ∈ tables, Spec.rowCount data ≤ 65536) (projection : Option (List Nat))
    (hp : selOf dtypes.length projection ≠ []) (hin : ∀ i ∈ selOf dtypes.length projection, i < dtypes.length) (filters : List (DExpr V))
    (hty : ∀ f ∈ filters, Typed (Spec.tableTypes R.kind names dtypes) f .bool) (hcols : filters ≠ [] → ∃ f ∈ filters, f.cols ≠ [])
    (htwo : Spec.TwoValued meaning names dtypes filters tables) :
    ∃ out N, (∀ fuel, N ≤ fuel → scan R projection filters files fuel = .ok out) ∧
      out.flatten = tables.flatMap (Spec.answer meaning names dtypes (selOf dtypes.length projection) filters) := by
  refine C94_query_partial hR tables files hf projection hp hin filters hty hcols htwo (fun _ data hd j hj => ?_)
  have := hs data hd
  omega

/-! ## What fails -/

/-- A reader of no columns fails at its first batch. -/
theorem next_noColumns {α : Type} (env : Layout.Env α) (hc : env.registered COLUMN = true) (ls : List FbLayout) (names : List Str) (dtypes : List DType) (nl : Bool) (batch fuel : Nat) (c : Cache) :
    ∃ r, readLayout env (FbLayout.columnL ls).depth (.columnL ls) ⟨.flat [], batch⟩ ⟨[], .serialized (DType.struct names dtypes nl).toFb .all⟩ = .ok r ∧
      readNext env fuel c (FbLayout.columnL ls).depth r = .err := by
  have hd : (FbLayout.columnL ls).depth = FbLayout.depths ls + 1 := by simp [FbLayout.columnL, FbLayout.depth, Nat.add_comm]
  rw [hd]
  refine ⟨.column (.columnL ls) ⟨.flat [], batch⟩ ⟨[], .serialized (DType.struct names dtypes nl).toFb .all⟩, ?_, ?_⟩
  · have : env.registered (FbLayout.columnL ls).encoding = true := hc
    simp only [readLayout, Node.ofFb, this]
    rfl
  · simp only [readNext, Node.next, expandColumn, columnDType, LazyDType.project, LazyDType.dtype, DType.toFb, deserializeAndProject]
    rfl

/-- A query that needs no column of the table (`SELECT count(*)`) fails on every table with a file. -/
theorem C94_no_columns_fails (hR : ReaderOk R ctx meaning) (hf : FileOk R metaNode ctx names dtypes nl data file) (files : List Bytes) (fuel : Nat) :
    scan R (some []) [] (file :: files) (fuel + 1) = .err := by
  obtain ⟨d, ls, rs, o1, o2, o3, hfin⟩ := opened hR.codec hf.table hf.written hf.size hf.tail
  obtain ⟨r, h1, h2⟩ := next_noColumns R.env hR.env.column ls names dtypes nl DEFAULT_BATCH_SIZE (fuel + 1) (fun _ => none)
  have hp : projectedDType (DType.struct names dtypes nl).toFb (.flat []) = .ok (.struct [] [] nl) := rfl
  have : openFile R (some []) none (fuel + 1) file = .err := by
    simp only [openFile, filterOf, buildAndRead, readFile, o1, o2, o3, Res.ok_bind, projectionOf, List.map_nil, hp, readAll, h1, Stream.collect, Stream.turn, Stream.new,
      Option.isSome_none, Bool.false_eq_true, if_false, h2, Res.bind]
    rfl
  simp only [scan, List.isEmpty_cons, Bool.false_eq_true, if_false, DF.conjunction, Res.mapM_cons, this]
  rfl

/-- A filter that mentions no column (`WHERE 1 < 2`) fails on every table with a file. -/
theorem C94_constant_filter_fails (hR : ReaderOk R ctx meaning) (hf : FileOk R metaNode ctx names dtypes nl data file) (files : List Bytes)
    (projection : Option (List Nat)) (hp : selOf dtypes.length projection ≠ []) (hin : ∀ i ∈ selOf dtypes.length projection, i < dtypes.length)
    (f : DExpr V) (hty : Typed (Spec.tableTypes R.kind names dtypes) f .bool) (hcols : f.cols = []) (fuel : Nat) :
    scan R projection [f] (file :: files) (fuel + 1) = .err := by
  obtain ⟨d, ls, rs, o1, o2, o3, hfin⟩ := opened hR.codec hf.table hf.written hf.size hf.tail
  obtain ⟨v, hv⟩ := typed_convert hty
  have hb : 0 < DEFAULT_BATCH_SIZE := by unfold DEFAULT_BATCH_SIZE; omega
  have hnl := hf.table.names
  obtain ⟨p1, dr, p2, p3⟩ := data_reader hR.env hR.codec hf.table hfin (selects_of names projection (by rw [hnl]; exact hin)) (by rw [hnl]; exact hp)
    (nl := nl) hb
  have hrefs : R.walk (RowExpr.rowFilterRefs (toExpr v)) = [] := by
    rw [List.eq_nil_iff_forall_not_mem]
    intro x hx
    rw [hR.walk, refs_names] at hx
    obtain ⟨n, hn, _⟩ := hx
    rw [DF.convert_refs f v hv, hcols] at hn
    simp at hn
  obtain ⟨r, h1, h2⟩ := next_noColumns R.env hR.env.column ls names dtypes nl DEFAULT_BATCH_SIZE (fuel + 1) (fun _ => none)
  have : openFile R projection (some f) (fuel + 1) file = .err := by
    simp only [openFile, filterOf, buildAndRead, readFileFiltered, hv, o1, o2, o3, Res.ok_bind, p1, hrefs, readFiltered, p2, h1, Stream.collect, Stream.turn, Stream.new,
      Option.isSome_some, if_true, h2, Res.bind]
    rfl
  simp only [scan, List.isEmpty_cons, Bool.false_eq_true, if_false, DF.conjunction, List.foldl_nil, Res.mapM_cons, this]
  rfl

end
end Vx.FileScan
