import Verif.Props.C44
import Verif.Props.C30
/-! Reading a whole file: with and without projection. -/
namespace Vx.Layout
open Ipc (Bytes)

variable {α : Type}

section
variable {owner : Path → Option ByteRange} {file : Bytes} {env : Env α}

theorem position_resolve {names : List Str} {f : RowExpr.Field} {i : Nat} (h : Spec.position names f = some i) :
    resolveField (some names) f = .ok i ∧ i < names.length := by
  cases f with
  | name n =>
    simp only [Spec.position] at h
    have h1 := List.findIdx?_eq_some_iff_findIdx_eq.mp h
    simp only [resolveField, Res.ofOption_some, Res.ok_bind, DType.findName, h1.2]
    rw [if_pos h1.1]
    exact ⟨rfl, h1.1⟩
  | index j =>
    simp only [Spec.position] at h
    split at h
    · simp only [Option.some.injEq] at h; subst h; exact ⟨rfl, by assumption⟩
    · simp at h

theorem position_projectField {names : List Str} {dtypes : List DType} {f : RowExpr.Field} {i : Nat} {n : Str} {d : DType}
    (h : Spec.position names f = some i) (hn : names[i]? = some n) (hd : dtypes[i]? = some d) :
    projectField (some names) (some (DType.toFbs dtypes)) f = .ok (n, d) := by
  obtain ⟨h1, h2⟩ := position_resolve h
  simp only [projectField, h1, Res.ok_bind, readField, Res.ofOption_some, hn, Res.unwrap_some, toFbs_getElem?, hd, Option.map_some,
    C30_dtype_flatbuffer_round_trip]

theorem projection_build {d : Nat} (hB : Builds owner file env d) {scan : Scan} {rel : Rel} {cs : List FbLayout} {names : List Str} {dtypes : List DType}
    {nl : Bool} {z : Bool} {q : Projection}
    (hb : 0 < scan.batchSize) (hlen : cs.length ≤ 2 ^ 16) (hd : ∀ c ∈ cs, c.depth ≤ d) (hr : ∀ c ∈ cs, c.Regular = true) (hz : ∀ c ∈ cs, c.zeroBatch = z)
    (ho : ∀ (j : Nat) (c : FbLayout), cs[j]? = some c → Owns owner (rel.path ++ [j]) c) :
    ∀ (fields : List RowExpr.Field) (cols : List (Str × Rows α)), Spec.columns env file cs names dtypes fields = some cols →
      ∃ ds rs, Res.mapM (projectField (some names) (some (DType.toFbs dtypes))) fields = .ok ((cols.map (·.1)).zip ds) ∧ ds.length = cols.length ∧
        Res.mapM (fun p : RowExpr.Field × DType => do
          let i ← (LazyDType.serialized (DType.struct names dtypes nl).toFb q).resolve p.1
          readChild (readLayout env d) scan rel cs i p.2) (fields.zip ds) = .ok rs ∧
        Reps (RepSt owner file env d) rs ((cols.map (·.2)).map (cut z scan.batchSize)) := by
  intro fields
  induction fields with
  | nil =>
    intro cols h
    simp only [Spec.columns, Option.some.injEq] at h
    subst h
    exact ⟨[], [], rfl, rfl, rfl, .nil⟩
  | cons f fields ih =>
    intro cols h
    simp only [Spec.columns, Spec.column, Option.bind_eq_some_iff, Option.map_eq_some_iff] at h
    obtain ⟨⟨n, a⟩, ⟨i, hi, n', hn, dt, hdt, c, hc, a', ha, hpair⟩, cols', hcols, rfl⟩ := h
    simp only [Prod.mk.injEq] at hpair
    obtain ⟨rfl, rfl⟩ := hpair
    obtain ⟨ds, rs, h1, h2, h3, h4⟩ := ih cols' hcols
    have hmem := List.mem_of_getElem? hc
    have hil := (List.getElem?_eq_some_iff.mp hc).1
    obtain ⟨r, hr1, hr2⟩ := hB c { scan with projection := .all } (rel.relative i (.value dt)) dt a' (hd c hmem) (hr c hmem) rfl hb rfl (by
      have := ho i c hc
      simp only [Rel.relative]
      rw [Nat.mod_eq_of_lt (by omega)]
      exact this) ha
    refine ⟨dt :: ds, r :: rs, ?_, by simp [h2], ?_, ?_⟩
    · simp only [Res.mapM_cons, position_projectField hi hn hdt, Res.ok_bind, h1, List.map_cons, List.zip_cons_cons]
    · have hres : (LazyDType.serialized (DType.struct names dtypes nl).toFb q).resolve f = .ok i := by
        simp only [DType.toFb, LazyDType.resolve]; exact (position_resolve hi).1
      simp only [readChild] at h3
      simp only [List.zip_cons_cons, Res.mapM_cons, hres, Res.ok_bind, readChild, hc, Res.unwrap_some, hr1, h3]
    · simp only [List.map_cons]
      rw [hz c hmem] at hr2
      exact .cons hr2 h4

theorem zip_fst {β γ : Type} : ∀ (as : List β) (bs : List γ), bs.length = as.length → (as.zip bs).map (·.1) = as
  | [], bs, _ => by simp
  | a :: as, b :: bs, h => by simp [zip_fst as bs (by simpa using h)]

theorem zip_snd {β γ : Type} : ∀ (as : List β) (bs : List γ), bs.length = as.length → (as.zip bs).map (·.2) = bs
  | [], [], _ => rfl
  | a :: as, b :: bs, h => by simp [zip_snd as bs (by simpa using h)]

/-- A table stored column by column, with a projection. -/
theorem table_build {root : FbLayout} {cs : List FbLayout} {bufs : Option (List ByteRange)} {m : Option Bytes} (hroot : root = .mk COLUMN bufs (some cs) m)
    (hreg : root.Regular = true) (hcol : env.registered COLUMN = true)
    {names : List Str} {dtypes : List DType} {nl : Bool} {fields : List RowExpr.Field} {rows : Rows α}
    (hrows : Spec.table env file cs names dtypes fields = some rows) {batch : Nat} (hb : 0 < batch) :
    ∃ r, readLayout env root.depth root ⟨.flat fields, batch⟩ ⟨[], .serialized (DType.struct names dtypes nl).toFb .all⟩ = .ok r ∧
      RepSt (Spec.rangeAt root) file env root.depth r (cut root.zeroBatch batch rows) := by
  subst hroot
  have hdepth : FbLayout.depth (.mk COLUMN bufs (some cs) m) = FbLayout.depths cs + 1 := by simp [FbLayout.depth]; omega
  have hzb : FbLayout.zeroBatch (.mk COLUMN bufs (some cs) m) = FbLayout.zeroBatches cs := by simp [FbLayout.zeroBatch, CHUNKED, FLAT, COLUMN]
  rw [hdepth, hzb]
  simp only [FbLayout.Regular, Bool.and_eq_true, decide_eq_true_eq, bne_self_eq_false, Bool.false_or, List.all_eq_true, beq_iff_eq] at hreg
  simp only [Spec.table, Option.bind_eq_some_iff] at hrows
  obtain ⟨cols, hcols, hst⟩ := hrows
  obtain ⟨ds, rs, h1, h2, h3, h4⟩ := projection_build (owner := Spec.rangeAt (.mk COLUMN bufs (some cs) m)) (d := FbLayout.depths cs)
    (builds (file := file) (env := env) (FbLayout.depths cs))
    (scan := ⟨.flat fields, batch⟩) (rel := ⟨[], .serialized (DType.struct names dtypes nl).toFb .all⟩) (nl := nl) (q := .flat fields)
    hb hreg.1 (fun c hc => depth_mem hc) (fun c hc => regular_mem hreg.2.1 hc) hreg.2.2
    (fun j c hj => by simpa using rangeAt_child (bufs := bufs) (m := m) (e := COLUMN) (Or.inr rfl) (path := []) (fun p _ => by simp) j c hj) fields cols hcols
  have hzip : cols = (cols.map (·.1)).zip (cols.map (·.2)) := (List.zip_of_prod rfl rfl)
  rw [hzip] at hst
  obtain ⟨hne, L, hL, rfl⟩ := structOf_rowsOf (by simp) hst
  refine ⟨Node.column (.mk COLUMN bufs (some cs) m) ⟨.flat fields, batch⟩ ⟨[], .serialized (DType.struct names dtypes nl).toFb .all⟩, ?_,
    cols.map (·.1), rs, ?_, ?_, _, slots_none_length h4, aligned_cut hb _ _ _ L hne hL⟩
  · simp only [readLayout, Node.ofFb, FbLayout.encoding, hcol, if_false]
    simp [CHUNKED, FLAT, COLUMN]
    rfl
  · simp only [expandColumn, columnDType, LazyDType.project, Res.ok_bind, LazyDType.dtype, DType.toFb, deserializeAndProject, h1, FbLayout.children,
      Res.ofOption_some, columnChildren]
    rw [zip_fst _ _ (by simpa using h2), zip_snd _ _ (by simpa using h2)]
    simp only [DType.toFb] at h3
    rw [h3]; rfl
  · intro h
    subst h
    cases cols with
    | nil => simp at hne
    | cons c cs' => cases h4

end

/-- From a reader's remaining batches to what `readAll` returns. -/
theorem readAll_of_rep {env : Env α} {file : Bytes} {root : FbLayout} {schema : FbDType} {proj : Projection} {batch : Nat} {bs : List (Rows α)} {r : St α root.depth}
    (hr : readLayout env root.depth root ⟨proj, batch⟩ ⟨[], .serialized schema .all⟩ = .ok r)
    (hrep : RepSt (Spec.rangeAt root) file env root.depth r bs) {order : List Message → List Message} (hord : ∀ l, (order l).Perm l) :
    ∃ N, ∀ fuel, N ≤ fuel → readAll env file root schema proj batch order fuel = .ok bs := by
  obtain ⟨U, hU⟩ := rangeAt_finite _ root (Nat.le_refl _)
  obtain ⟨N, K, h⟩ := collect_unfiltered (st_law (Spec.rangeAt root) file env root.depth) hU hord bs (fun _ => none) r (by intro p b h; simp at h) hrep
  refine ⟨max N K, fun fuel hf => ?_⟩
  simp only [readAll, hr, Res.ok_bind]
  have := h fuel (fuel - K) (by omega)
  rw [show fuel - K + K = fuel by omega] at this
  exact this

end Vx.Layout
