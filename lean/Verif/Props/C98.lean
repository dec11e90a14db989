import Verif.Spec.PlanStats
import Verif.Props.C43
/-!
# C98: the statistics a scan reports are true of the rows it returns

Model: `Model/PlanStats.lean`. Specification: `Spec/PlanStats.lean`.
-/
namespace Vx.DF

variable {V S : Type} [LinearOrder V]

theorem field_stats {ncols : Nat} {table : List (Chunk V)} {i : Nat} {a : ChunkedCol V} (h : chunkedField ncols table i = some a) :
    a.stats = {} ∧ i < ncols ∧ table.mapM (fun c => (c.cols[i]?).map (·.2)) = some a.chunks := by
  simp only [chunkedField, Option.bind_eq_bind, Option.bind_eq_some_iff] at h
  obtain ⟨cols, h1, h2⟩ := h
  split at h2
  · cases h2; exact ⟨rfl, by assumption, h1⟩
  · simp at h2

theorem mapM_some_of {f : α → Option β} {l : List α} (h : ∀ x ∈ l, ∃ y, f x = some y) : ∃ ys, l.mapM f = some ys := by
  induction l with
  | nil => exact ⟨[], rfl⟩
  | cons x l ih =>
    obtain ⟨y, hy⟩ := h x (by simp)
    obtain ⟨ys, hys⟩ := ih (fun x hx => h x (by simp [hx]))
    exact ⟨y :: ys, by simp [List.mapM_cons, hy, hys]⟩

theorem columnStats_absent (conv : Option V → Res S) {a : ChunkedCol V} (h : a.stats = {}) :
    columnStats conv a = .ok ⟨.absent, .absent, .absent, .absent⟩ := by
  simp only [columnStats, h, convStat, Res.ok_bind]; rfl

/-- What `chunked_array_df_stats` returns, if it returns. -/
theorem dfStats_eq {nbytes : ChunkedCol V → Nat} {conv : Option V → Res S} {ncols : Nat} {table : List (Chunk V)} {proj : List Nat} {s : Statistics S}
    (h : dfStats nbytes conv ncols table proj = .ok s) :
    s.numRows = .exact ((table.map (·.n)).sum) ∧ s.columns = proj.map (fun _ => ⟨.absent, .absent, .absent, .absent⟩) ∧
      ∀ i ∈ proj, i < ncols := by
  simp only [dfStats, Res.bind_eq_ok, Res.ok.injEq] at h
  obtain ⟨cols, h1, rfl⟩ := h
  have hf := mapM_forall₂ h1
  refine ⟨rfl, ?_, ?_⟩
  · clear h1
    induction hf with
    | nil => rfl
    | cons g1 _ ih =>
      simp only [Res.bind_eq_ok, Res.ok.injEq] at g1
      obtain ⟨a, ha, c, hc, rfl⟩ := g1
      refine List.cons_eq_cons.mpr ⟨?_, ih⟩
      have hs : a.stats = {} := by
        cases hh : chunkedField ncols table _ with
        | none => rw [hh] at ha; simp [Res.ofOption] at ha
        | some b => rw [hh] at ha; simp only [Res.ofOption, Res.ok.injEq] at ha; subst ha; exact (field_stats hh).1
      rw [columnStats_absent conv hs] at hc
      exact (Res.ok.inj hc).symm
  · clear h1
    intro i hi
    obtain ⟨k, hk, rfl⟩ := List.mem_iff_getElem.mp hi
    have hg := (List.forall₂_iff_get.mp hf).2 k hk (by rw [← hf.length_eq]; exact hk)
    simp only [List.get_eq_getElem, Res.bind_eq_ok, Res.ok.injEq] at hg
    obtain ⟨a, ha, -⟩ := hg
    cases hh : chunkedField ncols table proj[k] with
    | none => rw [hh] at ha; simp [Res.ofOption] at ha
    | some b => exact (field_stats hh).2.1

/-- **C98 (true).** Whatever statistics the plan of a scan reports for a table, projection and filter list, and whatever batches the scan
then returns: every number marked exact is true of those batches. -/
theorem C98_statistics_true (rep : S → Cell V) (le : Cell V → Cell V → Prop) (nbytes : ChunkedCol V → Nat) (conv : Option V → Res S)
    (fp : List (List Char)) (ncols : Nat) (projection : Option (List Nat)) (filters : List (DExpr V)) (table out : List (Chunk V)) (s : Statistics S)
    (hs : planStats nbytes conv ncols projection filters table = .ok s) (ho : scan fp ncols projection filters table = .ok out) :
    StatsTrue rep le s out := by
  have hcols : s.columns = (projection.getD (List.range ncols)).map (fun _ => ⟨.absent, .absent, .absent, .absent⟩) := by
    simp only [planStats] at hs
    split at hs
    · cases hs; rfl
    · exact (dfStats_eq hs).2.1
  have habs : ∀ (j : Nat) cs, s.columns[j]? = some cs → cs = (⟨.absent, .absent, .absent, .absent⟩ : ColumnStatistics S) := by
    intro j cs h
    rw [hcols, List.getElem?_map] at h
    cases hh : (projection.getD (List.range ncols))[j]? with
    | none => rw [hh] at h; simp at h
    | some x => rw [hh] at h; exact (Option.some.inj h).symm
  refine ⟨?_, ?_, ?_, ?_, ?_⟩
  · intro n hn
    simp only [planStats] at hs
    simp only [scan] at ho
    split at hs
    · cases hs; cases hn
    · rename_i hc
      rw [(dfStats_eq hs).1] at hn
      cases hn
      rw [hc] at ho
      have hf := mapM_forall₂ ho
      clear ho hs hc
      induction hf with
      | nil => rfl
      | cons g1 _ ih =>
        simp only [projectIdx, Res.bind_eq_ok, Res.ok.injEq] at g1
        obtain ⟨_, _, rfl⟩ := g1
        simp only [List.map_cons, List.sum_cons, ih]
  all_goals
    intro j cs x h hx
    rw [habs j cs h] at hx
    cases hx

/-- **C98 (reported).** Without filters, and with a projection within the columns, statistics are reported, the number of rows among them;
the scan returns that many rows. -/
theorem C98_count_reported (nbytes : ChunkedCol V → Nat) (conv : Option V → Res S) (fp : List (List Char)) (ncols : Nat)
    (projection : Option (List Nat)) (table : List (Chunk V)) (hc : ∀ c ∈ table, c.cols.length = ncols)
    (hp : ∀ j ∈ projection.getD (List.range ncols), j < ncols) :
    ∃ s out n, planStats nbytes conv ncols projection [] table = .ok s ∧ scan fp ncols projection [] table = .ok out ∧
      s.numRows = .exact n ∧ n = (out.map (·.n)).sum ∧ s.columns.length = (projection.getD (List.range ncols)).length := by
  have hstat : ∃ s, planStats nbytes conv ncols projection [] table = .ok s := by
    simp only [planStats, conjunction, dfStats]
    obtain ⟨cols, hcols⟩ := mapM_total (f := fun i => (do
      let a ← Res.ofOption (chunkedField ncols table i)
      let c ← columnStats conv a
      Res.ok (nbytes a, c))) (projection.getD (List.range ncols)) (by
        intro i hi
        obtain ⟨ys, hys⟩ := mapM_some_of (f := fun c : Chunk V => (c.cols[i]?).map (·.2)) (l := table) (by
          intro c hcm
          rw [List.getElem?_eq_getElem (by rw [hc c hcm]; exact hp i hi)]
          exact ⟨_, rfl⟩)
        have hcf : chunkedField ncols table i = some ⟨ys, {}⟩ := by
          simp only [chunkedField, Option.bind_eq_bind, hys, Option.bind_some, if_pos (hp i hi)]
        refine ⟨(nbytes ⟨ys, {}⟩, ⟨.absent, .absent, .absent, .absent⟩), ?_⟩
        simp only [hcf, Res.ofOption, Res.ok_bind, columnStats_absent conv (a := ⟨ys, {}⟩) rfl])
    rw [hcols]
    exact ⟨_, rfl⟩
  obtain ⟨s, hs⟩ := hstat
  obtain ⟨out, ho, -⟩ := C43_full_scan fp ncols projection table (fun c hcm j hj => by rw [hc c hcm]; exact hp j hj)
  have ht := C98_statistics_true (fun _ => .inr true) (fun _ _ => True) nbytes conv fp ncols projection [] table out s hs ho
  have hd := dfStats_eq (nbytes := nbytes) (conv := conv) (ncols := ncols) (table := table) (proj := projection.getD (List.range ncols)) (s := s) hs
  exact ⟨s, out, _, hs, ho, hd.1, ht.rows _ hd.1, by rw [hd.2.1]; simp⟩

/-- **C98 (unknown column).** A projection with a position outside the columns is an error, not a statistic. -/
theorem C98_unknown_column (nbytes : ChunkedCol V → Nat) (conv : Option V → Res S) (ncols : Nat) (proj : List Nat) (table : List (Chunk V))
    (i : Nat) (hi : i ∈ proj) (hn : ncols ≤ i) : ∀ s, planStats nbytes conv ncols (some proj) [] table ≠ .ok s := by
  intro s h
  exact absurd ((dfStats_eq (s := s) h).2.2 i hi) (by omega)

/-! ### Instances -/

/-- Two chunks of three columns. -/
def exStatTable : List (Chunk Nat) :=
  [⟨2, [(['a'], .prims 0 [(4, true), (9, false)]), (['b'], .bools [(true, true), (false, true)]), (['n'], .nulls 2)]⟩,
   ⟨3, [(['a'], .prims 0 [(1, true), (2, true), (3, true)]), (['b'], .bools [(true, true), (true, false), (false, true)]), (['n'], .nulls 3)]⟩]

example : planStats (fun _ => 7) (fun v => Res.ok v) 3 (some [2, 0]) [] exStatTable =
    .ok ⟨.exact 5, .exact 14, [⟨.absent, .absent, .absent, .absent⟩, ⟨.absent, .absent, .absent, .absent⟩]⟩ := by decide +kernel

example : ∃ s out n, planStats (fun _ => 7) (fun v => Res.ok v) 3 none [] exStatTable = .ok s ∧ scan [] 3 none [] exStatTable = .ok out ∧
    s.numRows = .exact n ∧ n = (out.map (·.n)).sum ∧ s.columns.length = 3 :=
  C98_count_reported _ _ [] 3 none exStatTable (by decide) (by decide)

/-- A statistic marked exact that is wrong is refuted by the specification. -/
example : ¬ StatsTrue (S := Nat) (fun n => .inl (0, n)) (fun _ _ => True) ⟨.exact 4, .absent, []⟩ exStatTable := by
  intro h
  exact absurd (h.rows 4 rfl) (by decide)

example : ¬ StatsTrue (S := Nat) (fun n => .inl (0, n)) (fun a b => match a, b with | .inl x, .inl y => x.2 ≤ y.2 | _, _ => True)
    ⟨.absent, .absent, [⟨.absent, .exact 3, .absent, .absent⟩]⟩ exStatTable := by
  intro h
  have h4 := (h.max 0 _ 3 rfl rfl).2 (.inl (0, 4)) (by simp [column, exStatTable, RCol.cells])
  exact absurd h4 (by decide)

end Vx.DF
