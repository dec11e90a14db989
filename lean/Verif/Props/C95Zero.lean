import Verif.Props.C95
/-! # C95: a batch size of 0 -/
namespace Vx.Py
open Vx.Layout Vx.FileScan
open Vx.RowExpr (Op Val Expr)
open Ipc (Bytes)
variable {V : Type}

theorem mapM_all_ok {β γ : Type} {f : β → Res γ} : ∀ (l : List β), (∀ x ∈ l, ∃ y, f x = .ok y) → ∃ ys, Res.mapM f l = .ok ys ∧ List.Forall₂ (fun x y => f x = .ok y) l ys
  | [], _ => ⟨[], rfl, .nil⟩
  | x :: l, h => by
    obtain ⟨y, hy⟩ := h x (by simp)
    obtain ⟨ys, h1, h2⟩ := mapM_all_ok l (fun z hz => h z (by simp [hz]))
    exact ⟨y :: ys, by simp only [Res.mapM_cons, hy, h1, Res.ok_bind], .cons hy h2⟩

/-- A chunked column read in batches of no rows ends at once. -/
theorem chunked_zero {α : Type} {env : Layout.Env α} (hflat : env.registered FLAT = true) (fuel : Nat) (c : Cache) (D : Nat) {ranges : List (Nat × Nat)} {d m : Nat × Nat}
    (hr : ∀ p ∈ ranges, p.1 < p.2) (rel : Rel) :
    ∃ n, Node.next env (fuel + 1) c (readLayout env (D + 1)) (readNext env (fuel + 1) c (D + 1)) (.chunked (colLayout ranges d m) ⟨.all, 0⟩ rel) = .ok (none, n) := by
  have hbuild : ∀ x ∈ (((List.range (FbLayout.inlineL [.flatL (toRange m)] (toRange d) :: ranges.map fun p => .flatL (toRange p)).length).zip
      (FbLayout.inlineL [.flatL (toRange m)] (toRange d) :: ranges.map fun p => .flatL (toRange p))).drop 1),
      ∃ y, (fun p : Nat × FbLayout => readLayout env (D + 1) p.2 ⟨.all, 0⟩ (rel.relative p.1 rel.dtype)) x = .ok y := by
    intro x hx
    have : x.2 ∈ ranges.map fun p => FbLayout.flatL (toRange p) := by
      rw [List.length_cons, List.range_succ_eq_map, List.zip_cons_cons, List.drop_one, List.tail_cons] at hx
      exact (List.of_mem_zip hx).2
    obtain ⟨p, hp, hx2⟩ := List.mem_map.mp this
    refine ⟨.flat (toRange p) ⟨.all, 0⟩ (rel.relative x.1 rel.dtype) false none, ?_⟩
    simp only [← hx2, readLayout, Node.ofFb, FbLayout.flatL, FbLayout.encoding, hflat, FbLayout.buffers]
    have h := hr p hp
    simp [Res.unwrap, firstBuffer, ByteRange.new, toRange, show p.1 < p.2 from h]
    rfl
  obtain ⟨rs, h1, _⟩ := mapM_all_ok _ hbuild
  have hexp : expandChunked (α := α) (readLayout env (D + 1)) (colLayout ranges d m) ⟨.all, 0⟩ rel = .ok (.buffered rs [] 0) := by
    simp only [expandChunked, colLayout, FbLayout.chunkedL, FbLayout.children, Res.ofOption_some, Res.ok_bind, hasMetadata, FbLayout.metadata,
      List.getElem?_cons_zero, Res.unwrap, if_true]
    have : ((1 : UInt8) != 0) = true := rfl
    simp only [this, if_true, h1, Res.ok_bind]
  simp only [Node.next, hexp, Res.ok_bind, bufferedRead]
  split
  · exact ⟨_, rfl⟩
  · simp only [bufferLoop, rowCount, List.map_nil, List.sum_nil, Nat.lt_irrefl, if_false, Res.bind]
    cases rs <;> exact ⟨_, rfl⟩

theorem batchRead_ended {α R : Type} {f : R → Res (Option (ReadResult α) × R)} (names : List Str) {r r' : R} (rs : List R) (h : f r = .ok (none, r')) :
    batchRead f names (r :: rs) (none :: rs.map fun _ => none) = .ok (none, .batch names (r' :: rs) (none :: rs.map fun _ => none)) := by
  have : (rs.map fun _ => (none : Option (Rows α))).any Option.isSome = false := by simp
  simp only [batchRead, batchLoop, h, Res.bind, this, Bool.or_false, Bool.false_eq_true, if_false]

theorem build_col {α : Type} {env : Layout.Env α} (hc : env.registered CHUNKED = true) (D : Nat) (rg : List (Nat × Nat)) (e m : Nat × Nat) (scan : Scan) (rel : Rel) :
    readLayout env (D + 1) (colLayout rg e m) scan rel = .ok (Node.chunked (colLayout rg e m) scan rel) := by
  simp only [readLayout, Node.ofFb, colLayout, FbLayout.chunkedL, FbLayout.encoding, hc]
  rfl

theorem readChild_at {α : Type} {env : Layout.Env α} (hc : env.registered CHUNKED = true) (D : Nat) {rg : List (Nat × Nat)} {e m : Nat × Nat} (b : Nat) (rel : Rel) {cs : List FbLayout}
    {i : Nat} (hi : cs[i]? = some (colLayout rg e m)) (d : DType) :
    readChild (readLayout env (D + 1)) ⟨.all, b⟩ rel cs i d = .ok (Node.chunked (colLayout rg e m) ⟨.all, b⟩ (rel.relative i (.value d))) := by
  rw [readChild, hi]
  exact build_col hc D rg e m _ _

theorem ats_lt {C : Ipc.Codec} {out : Bytes} : ∀ {ps : List (Nat × Nat)} {cs : List Chunk}, Ats C out ps cs → ∀ p ∈ ps, p.1 < p.2
  | [], _, _, p, hp => by simp at hp
  | q :: ps, [], h, _, _ => h.elim
  | q :: ps, c :: cs, h, p, hp => by
    simp only [List.mem_cons] at hp
    rcases hp with rfl | hp
    · exact h.1.1
    · exact ats_lt h.2 p hp

section
variable [LinearOrder V] {R : Reader V} {ctx : Nat → Bool} {meaning : DType → Nat → Ipc.Node → Rows (Val V)} {metaNode : List Nat → Ipc.Node}
  {names : List Str} {dtypes : List DType} {nl : Bool} {data : List StructBatch} {file : Bytes}

/-- A batch size of 0 is accepted and returns no rows, whatever the file holds. -/
theorem C95_batch_size_zero (hR : ReaderOk R ctx meaning) (hf : FileOk R metaNode ctx names dtypes nl data file) (hd : dtypes ≠ []) (C : Conv V) (fuel : Nat) :
    toArray R C none (some 0) none (fuel + 1) file = .ok (.struct names dtypes nl, []) := by
  obtain ⟨d, ls, rs, o1, o2, o3, hfin⟩ := opened hR.codec hf.table hf.written hf.size hf.tail
  obtain ⟨hlen, hls⟩ := finished_get hfin
  have hl : ls.length = dtypes.length := by rw [hlen]; simp [Layout.Spec.allColumns]
  have hp : projectedDType (DType.struct names dtypes nl).toFb .all = .ok (.struct names dtypes nl) := C30_dtype_flatbuffer_round_trip _
  cases ls with
  | nil => simp at hl; exact absurd (List.eq_nil_of_length_eq_zero hl.symm) hd
  | cons l ls =>
  have hdepth : ∃ D, FbLayout.depths (l :: ls) = D + 2 := by
    obtain ⟨rg, e, m, h1, _⟩ := hls 0 (by simp) (by rw [← hlen]; simp)
    simp only [List.getElem_cons_zero] at h1
    subst h1
    refine ⟨FbLayout.depths (colLayout rg e m :: ls) - 2, ?_⟩
    have : 2 ≤ FbLayout.depths (colLayout rg e m :: ls) := by
      simp only [FbLayout.depths, colLayout, FbLayout.chunkedL, FbLayout.depth, FbLayout.inlineL]
      omega
    omega
  obtain ⟨D, hD⟩ := hdepth
  have hroot : (FbLayout.columnL (l :: ls)).depth = D + 2 + 1 := by simp only [FbLayout.columnL, FbLayout.depth, hD]; omega
  let rel : Rel := ⟨[], .serialized (DType.struct names dtypes nl).toFb .all⟩
  have hchild : ∀ x ∈ (List.range (l :: ls).length).zip dtypes, ∃ y,
      (fun p : Nat × DType => readChild (readLayout R.env (D + 2)) ⟨.all, 0⟩ rel (l :: ls) p.1 p.2) x = .ok y := by
    intro x hx
    have hi := List.mem_range.mp (List.of_mem_zip hx).1
    obtain ⟨rg, e, m, h1, _⟩ := hls x.1 hi (by rw [← hlen]; exact hi)
    refine ⟨.chunked (colLayout rg e m) ⟨.all, 0⟩ (rel.relative x.1 (.value x.2)), ?_⟩
    exact readChild_at hR.env.chunked _ 0 rel (by rw [List.getElem?_eq_getElem hi, h1]) _
  obtain ⟨ys, y1, y2⟩ := mapM_all_ok _ hchild
  obtain ⟨dt, dts, rfl⟩ : ∃ dt dts, dtypes = dt :: dts := by cases dtypes with
    | nil => simp at hl
    | cons a b => exact ⟨a, b, rfl⟩
  rw [List.length_cons, List.range_succ_eq_map, List.zip_cons_cons] at y2
  cases y2 with
  | @cons _ y _ ys' hy _ =>
  obtain ⟨rg, e, m, h1, h2⟩ := hls 0 (by simp) (by rw [← hlen]; simp)
  simp only [List.getElem_cons_zero] at h1
  subst h1
  have hy' : y = .chunked (colLayout rg e m) ⟨.all, 0⟩ (rel.relative 0 (.value dt)) := by
    rw [readChild_at hR.env.chunked (D + 1) 0 rel (i := 0) (rg := rg) (e := e) (m := m) rfl] at hy
    exact (Res.ok.inj hy).symm
  subst hy'
  obtain ⟨n, hn⟩ := chunked_zero (d := e) (m := m) hR.env.flat fuel (fun _ => none) D (ats_lt h2) (rel.relative 0 (.value dt))
  have hexp : expandColumn (α := Val V) (readLayout R.env (D + 2)) (.columnL (colLayout rg e m :: ls)) ⟨.all, 0⟩ rel =
      .ok (.batch names (.chunked (colLayout rg e m) ⟨.all, 0⟩ (rel.relative 0 (.value dt)) :: ys')
        (none :: ys'.map fun _ => none)) := by
    have hdt : rel.dtype.dtype = .ok (.struct names (dt :: dts) nl) := C30_dtype_flatbuffer_round_trip _
    simp only [expandColumn, columnDType, Res.ok_bind, hdt, FbLayout.columnL, FbLayout.children, Res.ofOption_some, columnChildren, if_pos hl, y1]
    rfl
  have hread : ∃ r, readLayout R.env (FbLayout.columnL (colLayout rg e m :: ls)).depth (.columnL (colLayout rg e m :: ls)) ⟨.all, 0⟩ rel = .ok r ∧
      ∃ r', readNext R.env (fuel + 1) (fun _ => none) (FbLayout.columnL (colLayout rg e m :: ls)).depth r = .ok (none, r') := by
    rw [hroot]
    refine ⟨Node.column (.columnL (colLayout rg e m :: ls)) ⟨.all, 0⟩ rel, ?_, ?_⟩
    · simp only [readLayout, Node.ofFb, FbLayout.columnL, FbLayout.encoding, hR.env.column]; rfl
    · have hnx : readNext R.env (fuel + 1) (fun _ => none) (D + 2) (Node.chunked (colLayout rg e m) ⟨.all, 0⟩ (rel.relative 0 (.value dt))) = .ok (none, n) := hn
      have hstep : Node.next R.env (fuel + 1) (fun _ => none) (readLayout R.env (D + 2)) (readNext R.env (fuel + 1) (fun _ => none) (D + 2))
          (.column (.columnL (colLayout rg e m :: ls)) ⟨.all, 0⟩ rel) = .ok (none, .batch names ((show St (Val V) (D + 2) from n) :: ys') (none :: ys'.map fun _ => none)) := by
        simp only [Node.next, hexp, Res.ok_bind]
        exact batchRead_ended names ys' hnx
      exact ⟨_, hstep⟩
  obtain ⟨r, r1, r', r2⟩ := hread
  simp only [toArray, filterSrc, columnsArg, asyncRead, Option.getD_some, buildAndRead, readFile, o1, o2, o3, Res.ok_bind, hp, readAll, rel] at r1 ⊢
  simp only [r1, Res.ok_bind, Stream.collect, Stream.turn, Stream.new, Option.isSome_none, Bool.false_eq_true, if_false, r2, Res.bind, List.flatten_nil]
end
end Vx.Py
