import Verif.Props.C35
/-!
# C36: columns stay aligned, projections are honoured

A table is stored column by column, each column chunked in its own way. Reading it with a projection gives struct rows whose `k`-th row combines
the `k`-th rows of the projected columns, in the order of the projection, for any chunking, any batch size and any completion order.
-/
namespace Vx.Layout
open Ipc (Bytes)

variable {α : Type}

theorem C36_projection (env : Env α) (file : Bytes) (bufs : Option (List ByteRange)) (cs : List FbLayout) (m : Option Bytes)
    (hreg : FbLayout.Regular (.mk COLUMN bufs (some cs) m) = true) (hcol : env.registered COLUMN = true) (names : List Str) (dtypes : List DType) (nl : Bool)
    (fields : List RowExpr.Field) (rows : Rows α) (hrows : Spec.table env file cs names dtypes fields = some rows) (batch : Nat) (hb : 0 < batch)
    (order : List Message → List Message) (hord : ∀ l, (order l).Perm l) :
    ∃ bs N, (∀ fuel, N ≤ fuel →
        readAll env file (.mk COLUMN bufs (some cs) m) (DType.struct names dtypes nl).toFb (.flat fields) batch order fuel = .ok bs) ∧
      bs.flatten = rows ∧ (∀ b ∈ bs.dropLast, b.length = batch) ∧ (rows ≠ [] → ∀ b ∈ bs, 0 < b.length ∧ b.length ≤ batch) := by
  obtain ⟨r, h1, h2⟩ := table_build (file := file) (nl := nl) rfl hreg hcol hrows hb
  obtain ⟨N, hN⟩ := readAll_of_rep h1 h2 hord
  refine ⟨_, N, hN, cut_flatten hb rows, ?_, ?_⟩
  · by_cases hx : rows = []
    · subst hx
      unfold cut
      simp only [if_true]
      split <;> simp
    · rw [cut_of_ne hx]; exact (batches_sizes hb rows).1
  · intro hx; rw [cut_of_ne hx]; exact (batches_sizes hb rows).2.1

/-- What `Spec.table` says, row by row: as many rows as each projected column has, and in row `k` the fields are, in projection order, the name of
the column and its `k`-th value. -/
theorem C36_rows_combine_columns (env : Env α) (file : Bytes) (cs : List FbLayout) (names : List Str) (dtypes : List DType)
    (fields : List RowExpr.Field) (rows : Rows α) (hrows : Spec.table env file cs names dtypes fields = some rows) :
    ∃ cols : List (Str × Rows α), cols.length = fields.length ∧ fields ≠ [] ∧
      (∀ (j : Nat) (hj : j < cols.length) (hf : j < fields.length), ∃ i c d, Spec.position names fields[j] = some i ∧ cs[i]? = some c ∧ dtypes[i]? = some d ∧
        names[i]? = some cols[j].1 ∧ Spec.denote env file c d = some cols[j].2) ∧
      (∀ c ∈ cols, c.2.length = rows.length) ∧
      ∀ (k : Nat) (hk : k < rows.length), ∃ fs, rows[k] = .struct fs ∧ fs.length = cols.length ∧
        ∀ (j : Nat) (hj : j < cols.length) (hf : j < fs.length), fs[j].1 = cols[j].1 ∧ cols[j].2[k]? = some fs[j].2 := by
  simp only [Spec.table, Option.bind_eq_some_iff] at hrows
  obtain ⟨cols, hcols, hst⟩ := hrows
  have hlen : ∀ (fields : List RowExpr.Field) (cols : List (Str × Rows α)), Spec.columns env file cs names dtypes fields = some cols →
      cols.length = fields.length ∧ ∀ (j : Nat) (hj : j < cols.length) (hf : j < fields.length), ∃ i c d, Spec.position names fields[j] = some i ∧ cs[i]? = some c ∧
        dtypes[i]? = some d ∧ names[i]? = some cols[j].1 ∧ Spec.denote env file c d = some cols[j].2 := by
    intro fields
    induction fields with
    | nil => intro cols h; simp only [Spec.columns, Option.some.injEq] at h; subst h; simp
    | cons f fields ih =>
      intro cols h
      simp only [Spec.columns, Spec.column, Option.bind_eq_some_iff, Option.map_eq_some_iff] at h
      obtain ⟨⟨n, a⟩, ⟨i, hi, n', hn, dt, hdt, c, hc, a', ha, hpair⟩, cols', hcols, rfl⟩ := h
      simp only [Prod.mk.injEq] at hpair
      obtain ⟨rfl, rfl⟩ := hpair
      obtain ⟨h1, h2⟩ := ih cols' hcols
      refine ⟨by simp [h1], fun j hj hf => ?_⟩
      cases j with
      | zero => exact ⟨i, c, dt, hi, hc, hdt, hn, ha⟩
      | succ j => exact h2 j (by simpa using hj) (by simpa using hf)
  obtain ⟨h1, h2⟩ := hlen fields cols hcols
  cases cols with
  | nil => simp [Spec.structOf] at hst
  | cons c0 cols =>
    simp only [Spec.structOf] at hst
    split at hst
    · next hall =>
      simp only [Option.some.injEq] at hst
      subst hst
      refine ⟨c0 :: cols, h1, by intro h; subst h; simp at h1, h2, ?_, ?_⟩
      · intro c hc
        simp only [List.length_map, List.length_range]
        simp only [List.mem_cons] at hc
        rcases hc with rfl | hc
        · rfl
        · exact hall c hc
      · intro k hk
        simp only [List.length_map, List.length_range] at hk
        have hl : ∀ c ∈ c0 :: cols, k < c.2.length := by
          intro c hc
          simp only [List.mem_cons] at hc
          rcases hc with rfl | hc
          · exact hk
          · have := hall c hc; omega
        have hmap : ∀ l : List (Str × Rows α), (∀ c ∈ l, k < c.2.length) →
            let fs := l.filterMap fun c => (c.2[k]?).map fun v => (c.1, v)
            fs.length = l.length ∧ ∀ (j : Nat) (hj : j < l.length) (hf : j < fs.length), fs[j].1 = l[j].1 ∧ l[j].2[k]? = some fs[j].2 := by
          intro l
          induction l with
          | nil => intro _; simp
          | cons c l ih =>
            intro h
            have hc := h c (by simp)
            obtain ⟨g1, g2⟩ := ih (fun c' hc' => h c' (by simp [hc']))
            have hh : (c.2[k]?).map (fun v => (c.1, v)) = some (c.1, c.2[k]) := by rw [List.getElem?_eq_getElem hc]; rfl
            simp only [List.filterMap_cons, hh]
            refine ⟨by simp [g1], fun j hj hf => ?_⟩
            cases j with
            | zero => simp [hc]
            | succ j => exact g2 j (by simpa using hj) (by simpa using hf)
        obtain ⟨g1, g2⟩ := hmap (c0 :: cols) hl
        refine ⟨(c0 :: cols).filterMap fun c => (c.2[k]?).map fun v => (c.1, v), ?_, g1, g2⟩
        rw [List.getElem_map, List.getElem_range]
        rfl
    · simp at hst

/-- Without projection all columns are read, in schema order: the table with the projection `0, 1, …`. -/
theorem C36_all_columns (env : Env α) (file : Bytes) (bufs : Option (List ByteRange)) (cs : List FbLayout) (m : Option Bytes) (names : List Str)
    (dtypes : List DType) (nl : Bool) (hcol : env.registered COLUMN = true) (hn : names.length = dtypes.length) (hc : cs.length = dtypes.length) :
    Spec.denote env file (.mk COLUMN bufs (some cs) m) (.struct names dtypes nl) =
      Spec.table env file cs names dtypes ((List.range names.length).map .index) := by
  have key : ∀ (k s : Nat), s + k = names.length →
      Spec.columns env file cs names dtypes ((List.range' s k).map .index) =
        (Spec.denoteColumns env file (cs.drop s) (dtypes.drop s)).map fun cols => (names.drop s).zip cols := by
    intro k
    induction k with
    | zero =>
      intro s hs
      rw [List.drop_eq_nil_of_le (as := cs) (by omega), List.drop_eq_nil_of_le (as := dtypes) (by omega)]
      simp [Spec.columns, Spec.denoteColumns]
    | succ k ih =>
      intro s hs
      rw [List.drop_eq_getElem_cons (l := cs) (i := s) (by omega), List.drop_eq_getElem_cons (l := dtypes) (i := s) (by omega),
        List.drop_eq_getElem_cons (l := names) (i := s) (by omega)]
      simp only [List.range'_succ, List.map_cons, Spec.columns, Spec.denoteColumns, Spec.column, Spec.position]
      rw [if_pos (by omega)]
      simp only [Option.bind_some]
      rw [List.getElem?_eq_getElem (l := names) (by omega), List.getElem?_eq_getElem (l := dtypes) (by omega),
        List.getElem?_eq_getElem (l := cs) (by omega), ih (s + 1) (by omega)]
      simp only [Option.bind_some]
      cases Spec.denote env file (cs[s]'(by omega)) (dtypes[s]'(by omega)) with
      | none => rfl
      | some a =>
        simp only [Option.map_some, Option.bind_some]
        cases Spec.denoteColumns env file (cs.drop (s + 1)) (dtypes.drop (s + 1)) <;> rfl
  have h0 := key names.length 0 (by omega)
  simp only [List.drop_zero, ← List.range_eq_range'] at h0
  simp only [Spec.table, h0]
  have hlen : ∀ (cs : List FbLayout) (ds : List DType) (cols : List (Rows α)), Spec.denoteColumns env file cs ds = some cols → cols.length = ds.length := by
    intro cs
    induction cs with
    | nil =>
      intro ds cols h
      cases ds with
      | nil => simp only [Spec.denoteColumns, Option.some.injEq] at h; subst h; rfl
      | cons _ _ => simp [Spec.denoteColumns] at h
    | cons c cs ih =>
      intro ds cols h
      cases ds with
      | nil => simp [Spec.denoteColumns] at h
      | cons d ds =>
        simp only [Spec.denoteColumns, Option.bind_eq_some_iff, Option.map_eq_some_iff] at h
        obtain ⟨a, _, cols', h', rfl⟩ := h
        simp [ih ds cols' h']
  simp only [Spec.denote, hcol, Spec.fieldsOf, Option.bind_some]
  simp only [COLUMN, FLAT, CHUNKED]
  cases hcols : Spec.denoteColumns env file cs dtypes with
  | none => simp
  | some cols =>
    have := hlen _ _ _ hcols
    simp only [Option.map_some, Option.bind_some]
    have hcl : names.length = cols.length := by omega
    simp [hcl]

/-- A projection of no columns cannot be read: the first call fails (a struct array without fields has no length). -/
theorem C36_empty_projection_fails (env : Env α) (file : Bytes) (bufs : Option (List ByteRange)) (cs : List FbLayout) (m : Option Bytes)
    (hcol : env.registered COLUMN = true) (names : List Str) (dtypes : List DType) (nl : Bool) (batch : Nat) (order : List Message → List Message)
    (fuel : Nat) (hf : 0 < fuel) :
    readAll env file (.mk COLUMN bufs (some cs) m) (DType.struct names dtypes nl).toFb (.flat []) batch order fuel = .err := by
  have hdepth : FbLayout.depth (.mk COLUMN bufs (some cs) m) = FbLayout.depths cs + 1 := by simp [FbLayout.depth]; omega
  obtain ⟨k, rfl⟩ : ∃ k, fuel = k + 1 := ⟨fuel - 1, by omega⟩
  simp only [readAll]
  rw [hdepth]
  have h1 : readLayout env (FbLayout.depths cs + 1) (.mk COLUMN bufs (some cs) m) ⟨.flat [], batch⟩ ⟨[], .serialized (DType.struct names dtypes nl).toFb .all⟩ =
      .ok (Node.column (.mk COLUMN bufs (some cs) m) ⟨.flat [], batch⟩ ⟨[], .serialized (DType.struct names dtypes nl).toFb .all⟩) := by
    simp only [readLayout, Node.ofFb, FbLayout.encoding, hcol]
    simp [CHUNKED, FLAT, COLUMN]
    rfl
  rw [h1]
  rfl

/-- Columns in different chunks ([10, 11, 12] and [20, 21] + [22]), projected as `b, a` with batch size 2. -/
example : readAll Demo.env Demo.file Demo.root Demo.schema.toFb (.flat [.name "b".toList, .index 0]) 2 id 30 =
    .ok [[.struct [("b".toList, .leaf 20), ("a".toList, .leaf 10)], .struct [("b".toList, .leaf 21), ("a".toList, .leaf 11)]],
      [.struct [("b".toList, .leaf 22), ("a".toList, .leaf 12)]]] := by rfl

/-- … which is what the specification says. -/
example : Spec.table Demo.env Demo.file
    [.mk CHUNKED none (some [Demo.flatAt 0 3]) none, .mk CHUNKED none (some [Demo.flatAt 3 4, Demo.flatAt 4 6, Demo.flatAt 6 7]) (some [1])]
    ["a".toList, "b".toList] [Demo.u8, Demo.u8] [.name "b".toList, .index 0] =
    some [.struct [("b".toList, .leaf 20), ("a".toList, .leaf 10)], .struct [("b".toList, .leaf 21), ("a".toList, .leaf 11)],
      .struct [("b".toList, .leaf 22), ("a".toList, .leaf 12)]] := by rfl

end Vx.Layout
