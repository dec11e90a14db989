import Verif.Lemmas.LayoutStream
/-! # Building readers for a layout tree -/
namespace Vx.Layout
open Ipc (Bytes)

variable {α : Type}

theorem readAt_of_bytesAt {file : Bytes} {r : ByteRange} {b : Bytes} (h : Spec.bytesAt file r = some b) :
    readAt file r = .ok b ∧ r.start < r.stop := by
  unfold Spec.bytesAt at h
  split at h
  · next hc =>
    simp only [Option.some.injEq] at h
    subst h
    simp only [readAt, Res.sub_of_le (Nat.le_of_lt hc.1), Res.ok_bind, hc.2, if_true, hc.1, and_self]
  · simp at h

theorem firstBuffer_of_bytesAt {file : Bytes} {r : ByteRange} {rs : List ByteRange} {b : Bytes} (h : Spec.bytesAt file r = some b) :
    firstBuffer (r :: rs) = .ok r := by
  simp [firstBuffer, ByteRange.new, (readAt_of_bytesAt h).2]

/-! ## Columns line up -/

/-- The first `L` struct rows of some columns. -/
def rowsOf (names : List Str) (cols : List (Rows α)) (L : Nat) : Rows α := (List.range L).map (structRow (names.zip cols))

theorem rowsOf_length (names : List Str) (cols : List (Rows α)) (L : Nat) : (rowsOf names cols L).length = L := by simp [rowsOf]

theorem structRow_map (g : Rows α → Rows α) (k k' : Nat) : ∀ (names : List Str) (cols : List (Rows α)), (∀ c ∈ cols, (g c)[k]? = c[k']?) →
    structRow (names.zip (cols.map g)) k = structRow (names.zip cols) k' := by
  intro names cols h
  unfold structRow
  congr 1
  induction cols generalizing names with
  | nil => simp
  | cons c cs ih =>
    cases names with
    | nil => simp
    | cons n ns =>
      simp only [List.map_cons, List.zip_cons_cons, List.filterMap_cons]
      rw [h c (by simp), ih ns (fun c' hc' => h c' (by simp [hc']))]

theorem rowsOf_take (names : List Str) (cols : List (Rows α)) (n L : Nat) (hL : ∀ c ∈ cols, c.length = L) :
    rowsOf names (cols.map (List.take n)) (min n L) = (rowsOf names cols L).take n := by
  apply List.ext_getElem?
  intro k
  unfold rowsOf
  rw [List.getElem?_take]
  simp only [List.getElem?_map]
  by_cases hk : k < n
  · by_cases hk' : k < L
    · rw [List.getElem?_range (by omega), if_pos hk, List.getElem?_range hk']
      simp only [Option.map_some]
      rw [structRow_map (List.take n) k k names cols]
      intro c hc
      rw [List.getElem?_take, if_pos hk]
    · rw [if_pos hk, List.getElem?_eq_none (by simp; omega), List.getElem?_eq_none (by simp; omega)]; rfl
  · rw [if_neg hk, List.getElem?_eq_none (by simp; omega)]; rfl

theorem rowsOf_drop (names : List Str) (cols : List (Rows α)) (n L : Nat) :
    rowsOf names (cols.map (List.drop n)) (L - n) = (rowsOf names cols L).drop n := by
  apply List.ext_getElem?
  intro k
  unfold rowsOf
  rw [List.getElem?_drop]
  simp only [List.getElem?_map]
  by_cases hk : k < L - n
  · rw [List.getElem?_range hk, List.getElem?_range (by omega)]
    simp only [Option.map_some]
    rw [structRow_map (List.drop n) k (n + k) names cols]
    intro c hc
    rw [List.getElem?_drop]
  · rw [List.getElem?_eq_none (by simp; omega), List.getElem?_eq_none (by simp; omega)]; rfl

theorem fromFields_rowsOf (names : List Str) (cols : List (Rows α)) (L : Nat) (hne : names.zip cols ≠ []) (hL : ∀ c ∈ cols, c.length = L) :
    fromFields (names.zip cols) = .ok (rowsOf names cols L) := by
  cases names with
  | nil => simp at hne
  | cons n ns =>
    cases cols with
    | nil => simp at hne
    | cons c cs =>
      have hc := hL c (by simp)
      simp only [List.zip_cons_cons, fromFields]
      rw [if_pos, rowsOf, hc]; rfl
      simp only [List.all_eq_true, beq_iff_eq]
      intro d hd
      have := hL d.2 (by simp [(List.of_mem_zip (show (d.1, d.2) ∈ ns.zip cs from hd)).2])
      omega

theorem structOf_rowsOf {names : List Str} {cols : List (Rows α)} {rows : Rows α} (hlen : names.length = cols.length)
    (h : Spec.structOf (names.zip cols) = some rows) : names.zip cols ≠ [] ∧ ∃ L, (∀ c ∈ cols, c.length = L) ∧ rows = rowsOf names cols L := by
  cases names with
  | nil => simp [Spec.structOf] at h
  | cons n ns =>
    cases cols with
    | nil => simp [Spec.structOf] at h
    | cons c cs =>
      simp only [List.zip_cons_cons, Spec.structOf] at h
      split at h
      · next hall =>
        simp only [Option.some.injEq] at h
        subst h
        refine ⟨by simp, c.length, ?_, rfl⟩
        intro c' hc'
        simp only [List.mem_cons] at hc'
        rcases hc' with rfl | hc'
        · rfl
        · obtain ⟨i, hi, rfl⟩ := List.getElem_of_mem hc'
          simp only [List.length_cons, Nat.add_right_cancel_iff] at hlen
          exact hall (ns[i]'(by omega), cs[i]) (List.mem_iff_getElem.mpr ⟨i, by simp; omega, by simp⟩)
      · simp at h

theorem aligned_batches {n : Nat} (hn : 0 < n) (names : List Str) : ∀ (L : Nat) (cols : List (Rows α)), names.zip cols ≠ [] →
    (∀ c ∈ cols, c.length = L) → Aligned names (cols.map (Spec.batches n)) (Spec.batches n (rowsOf names cols L)) := by
  intro L
  induction L using Nat.strongRecOn with
  | _ L ih =>
    intro cols hne hL
    by_cases h0 : L = 0
    · subst h0
      have h1 : rowsOf names cols 0 = [] := rfl
      rw [h1, batches_nil]
      refine .nil ?_
      intro b hb
      simp only [List.mem_map] at hb
      obtain ⟨c, hc, rfl⟩ := hb
      rw [List.eq_nil_of_length_eq_zero (hL c hc), batches_nil]
    · have hcne : ∀ c ∈ cols, c ≠ [] := by
        intro c hc h
        have := hL c hc
        rw [h] at this; simp at this; omega
      have hrne : rowsOf names cols L ≠ [] := by
        intro h
        have := rowsOf_length names cols L
        rw [h] at this; simp at this; omega
      rw [batches_cons hn hrne, ← rowsOf_take names cols n L hL, ← rowsOf_drop names cols n L]
      have hzip : cols.map (Spec.batches n) =
          List.zipWith List.cons (cols.map (List.take n)) ((cols.map (List.drop n)).map (Spec.batches n)) := by
        clear ih hne hrne hL
        induction cols with
        | nil => rfl
        | cons c cs ih =>
          simp only [List.map_cons, List.zipWith_cons_cons]
          rw [ih (fun c' h => hcne c' (by simp [h])), batches_cons hn (hcne c (by simp))]
      rw [hzip]
      have hz : ∀ g : Rows α → Rows α, names.zip (cols.map g) ≠ [] := by
        intro g h
        apply hne
        cases names with
        | nil => rfl
        | cons a as => cases cols with
          | nil => rfl
          | cons b bs => simp at h
      refine .cons (by simp) (fromFields_rowsOf names _ _ (hz _) ?_) (ih (L - n) (by omega) _ (hz _) ?_)
      · intro c hc
        simp only [List.mem_map] at hc
        obtain ⟨c', hc', rfl⟩ := hc
        simp [hL c' hc']
      · intro c hc
        simp only [List.mem_map] at hc
        obtain ⟨c', hc', rfl⟩ := hc
        simp [hL c' hc']

theorem aligned_cut {n : Nat} (hn : 0 < n) (names : List Str) (z : Bool) (cols : List (Rows α)) (L : Nat) (hne : names.zip cols ≠ [])
    (hL : ∀ c ∈ cols, c.length = L) : Aligned names (cols.map (cut z n)) (cut z n (rowsOf names cols L)) := by
  by_cases h0 : L = 0
  · subst h0
    have h1 : rowsOf names cols 0 = [] := rfl
    have hnil : ∀ c ∈ cols, c = [] := fun c hc => List.eq_nil_of_length_eq_zero (hL c hc)
    rw [h1]
    cases z with
    | false =>
      simp only [cut, if_true, Bool.false_eq_true, if_false]
      refine .nil ?_
      intro b hb
      simp only [List.mem_map] at hb
      obtain ⟨c, hc, rfl⟩ := hb
      rw [hnil c hc]; rfl
    | true =>
      have h2 : cut true n ([] : Rows α) = [[]] := rfl
      rw [h2]
      have h3 : cols.map (cut true n) = List.zipWith List.cons cols (cols.map fun _ => []) := by
        clear hne hL h1
        induction cols with
        | nil => rfl
        | cons c cs ih =>
          simp only [List.map_cons, List.zipWith_cons_cons]
          rw [ih (fun c' h => hnil c' (by simp [h])), hnil c (by simp)]; rfl
      rw [h3]
      have h4 := fromFields_rowsOf names cols 0 hne hL
      rw [h1] at h4
      refine .cons (by simp) h4 (.nil ?_)
      simp
  · have hcne : ∀ c ∈ cols, c ≠ [] := by
      intro c hc h
      have := hL c hc
      rw [h] at this; simp at this; omega
    have hrne : rowsOf names cols L ≠ [] := by
      intro h
      have := rowsOf_length names cols L
      rw [h] at this; simp at this; omega
    have h5 : cols.map (cut z n) = cols.map (Spec.batches n) := List.map_congr_left (fun c hc => cut_of_ne (hcne c hc))
    rw [cut_of_ne hrne, h5]
    exact aligned_batches hn names L cols hne hL

/-! ## Building -/

section
variable {owner : Path → Option ByteRange} {file : Bytes} {env : Env α}

/-- The paths under `path` stand for the parts of the layout `fb`. -/
def Owns (owner : Path → Option ByteRange) (path : Path) (fb : FbLayout) : Prop :=
  ∀ p, Spec.rangeAt fb p ≠ none → owner (path ++ p) = Spec.rangeAt fb p

/-- What building achieves for a layout at a place of the tree. -/
def Builds (owner : Path → Option ByteRange) (file : Bytes) (env : Env α) (d : Nat) : Prop :=
  ∀ (fb : FbLayout) (scan : Scan) (rel : Rel) (dt : DType) (xs : Rows α), fb.depth ≤ d → fb.Regular = true → scan.projection = .all →
    0 < scan.batchSize → rel.dtype.dtype = .ok dt → Owns owner rel.path fb → Spec.denote env file fb dt = some xs →
    ∃ r, readLayout env d fb scan rel = .ok r ∧ RepSt owner file env d r (cut fb.zeroBatch scan.batchSize xs)

theorem depth_mem {c : FbLayout} : ∀ {cs : List FbLayout}, c ∈ cs → c.depth ≤ FbLayout.depths cs
  | x :: xs, h => by
    simp only [List.mem_cons] at h
    simp only [FbLayout.depths]
    rcases h with rfl | h
    · omega
    · have := depth_mem h; omega

theorem regular_mem {c : FbLayout} : ∀ {cs : List FbLayout}, FbLayout.Regulars cs = true → c ∈ cs → c.Regular = true
  | x :: xs, hr, h => by
    simp only [FbLayout.Regulars, Bool.and_eq_true] at hr
    simp only [List.mem_cons] at h
    rcases h with rfl | h
    · exact hr.1
    · exact regular_mem hr.2 h

theorem chunks_build {d : Nat} (hB : Builds owner file env d) {scan : Scan} {rel : Rel} {dt : DType} (hs : scan.projection = .all)
    (hb : 0 < scan.batchSize) (hdt : rel.dtype.dtype = .ok dt) : ∀ (cs : List FbLayout) (s : Nat) (xss : List (Rows α)), s + cs.length ≤ 2 ^ 16 →
    (∀ c ∈ cs, c.depth ≤ d) → (∀ c ∈ cs, c.Regular = true) →
    (∀ (j : Nat) (c : FbLayout), cs[j]? = some c → Owns owner (rel.path ++ [s + j]) c) → Spec.denoteChunks env file cs dt 0 = some xss →
    ∃ rs bss, Res.mapM (fun p : Nat × FbLayout => readLayout env d p.2 scan (rel.relative p.1 rel.dtype)) ((List.range' s cs.length).zip cs) = .ok rs ∧
      Reps (RepSt owner file env d) rs bss ∧ bss.flatten.flatten = xss.flatten := by
  intro cs
  induction cs with
  | nil =>
    intro s xss _ _ _ _ h
    simp only [Spec.denoteChunks, Option.some.injEq] at h
    subst h
    exact ⟨[], [], rfl, .nil, rfl⟩
  | cons c cs ih =>
    intro s xss hlen hd hr ho h
    simp only [Spec.denoteChunks, Option.bind_eq_some_iff, Option.map_eq_some_iff] at h
    obtain ⟨a, ha, xss', hx, rfl⟩ := h
    simp only [List.length_cons] at hlen
    obtain ⟨r, hr1, hr2⟩ := hB c scan (rel.relative s rel.dtype) dt a (hd c (by simp)) (hr c (by simp)) hs hb hdt (by
      have := ho 0 c (by simp)
      simp only [Rel.relative]
      rw [Nat.mod_eq_of_lt (by omega)]
      simpa using this) ha
    obtain ⟨rs, bss, h1, h2, h3⟩ := ih (s + 1) xss' (by omega) (fun c' h' => hd c' (by simp [h'])) (fun c' h' => hr c' (by simp [h']))
      (fun j c' hj => by
        have := ho (j + 1) c' (by simpa using hj)
        rw [show s + 1 + j = s + (j + 1) by omega]; exact this) hx
    refine ⟨r :: rs, cut c.zeroBatch scan.batchSize a :: bss, ?_, .cons hr2 h2, ?_⟩
    · simp only [List.length_cons, List.range'_succ, List.zip_cons_cons, Res.mapM_cons, hr1, Res.ok_bind, h1]
    · simp only [List.flatten_cons, List.flatten_append, h3, cut_flatten hb]

theorem slots_none_length {rep : R → List (Rows α) → Prop} : ∀ {rs : List R} {bss : List (List (Rows α))}, Reps rep rs bss →
    Slots rep rs (rs.map fun _ => none) bss := by
  intro rs bss h
  induction h with
  | nil => exact .nil
  | cons h1 _ ih => exact .cons h1 ih

theorem columns_build {d : Nat} (hB : Builds owner file env d) {scan : Scan} {rel : Rel} {all : List FbLayout} {z : Bool}
    (hb : 0 < scan.batchSize) : ∀ (cs : List FbLayout) (dts : List DType) (s : Nat) (cols : List (Rows α)), s + cs.length ≤ 2 ^ 16 →
    all.drop s = cs → (∀ c ∈ cs, c.depth ≤ d) → (∀ c ∈ cs, c.Regular = true) → (∀ c ∈ cs, c.zeroBatch = z) →
    (∀ (j : Nat) (c : FbLayout), cs[j]? = some c → Owns owner (rel.path ++ [s + j]) c) → Spec.denoteColumns env file cs dts = some cols →
    ∃ rs, Res.mapM (fun p : Nat × DType => readChild (readLayout env d) scan rel all p.1 p.2) ((List.range' s cs.length).zip dts) = .ok rs ∧
      Reps (RepSt owner file env d) rs (cols.map (cut z scan.batchSize)) ∧ cs.length = dts.length ∧ cols.length = dts.length := by
  intro cs
  induction cs with
  | nil =>
    intro dts s cols _ _ _ _ _ _ h
    cases dts with
    | nil =>
      simp only [Spec.denoteColumns, Option.some.injEq] at h
      subst h
      exact ⟨[], rfl, .nil, rfl, rfl⟩
    | cons _ _ => simp [Spec.denoteColumns] at h
  | cons c cs ih =>
    intro dts s cols hlen hall hd hr hz ho h
    cases dts with
    | nil => simp [Spec.denoteColumns] at h
    | cons dt dts =>
      simp only [Spec.denoteColumns, Option.bind_eq_some_iff, Option.map_eq_some_iff] at h
      obtain ⟨a, ha, cols', hx, rfl⟩ := h
      simp only [List.length_cons] at hlen
      obtain ⟨r, hr1, hr2⟩ := hB c { scan with projection := .all } (rel.relative s (.value dt)) dt a (hd c (by simp)) (hr c (by simp)) rfl hb rfl (by
        have := ho 0 c (by simp)
        simp only [Rel.relative]
        rw [Nat.mod_eq_of_lt (by omega)]
        simpa using this) ha
      have hget : all[s]? = some c := by
        have := congrArg (fun l => l[0]?) hall
        simpa [List.getElem?_drop] using this
      have hdrop : all.drop (s + 1) = cs := by
        rw [← List.drop_drop, hall]; rfl
      obtain ⟨rs, h1, h2, h3, h4⟩ := ih dts (s + 1) cols' (by omega) hdrop (fun c' h' => hd c' (by simp [h'])) (fun c' h' => hr c' (by simp [h']))
        (fun c' h' => hz c' (by simp [h'])) (fun j c' hj => by
          have := ho (j + 1) c' (by simpa using hj)
          rw [show s + 1 + j = s + (j + 1) by omega]; exact this) hx
      refine ⟨r :: rs, ?_, ?_, by simp [h3], by simp [h4]⟩
      · simp only [List.length_cons, List.range'_succ, List.zip_cons_cons, Res.mapM_cons, readChild, hget, Res.unwrap_some, Res.ok_bind, hr1]
        simp only [readChild] at h1
        simp only [h1, Res.ok_bind]
      · simp only [List.map_cons]
        rw [hz c (by simp)] at hr2
        exact .cons hr2 h2

theorem rangeAt_child {cs : List FbLayout} {e : Nat} {bufs : Option (List ByteRange)} {m : Option Bytes} {path : Path} (he : e = CHUNKED ∨ e = COLUMN)
    (ho : Owns owner path (.mk e bufs (some cs) m)) (j : Nat) (c : FbLayout) (hj : cs[j]? = some c) : Owns owner (path ++ [j]) c := by
  intro p hp
  have h1 : Spec.rangeAt (.mk e bufs (some cs) m) (j :: p) = Spec.rangeAt c p := by
    simp [Spec.rangeAt, he, hj]
  have := ho (j :: p) (by rw [h1]; exact hp)
  rw [h1] at this
  simpa using this

theorem range_zip_drop (cs : List FbLayout) (k : Nat) :
    ((List.range cs.length).zip cs).drop k = (List.range' k (cs.drop k).length).zip (cs.drop k) := by
  rw [List.zip, List.drop_zipWith, ← List.zip, List.range_eq_range', List.drop_range', List.length_drop]
  simp

theorem denoteChunks_drop : ∀ (cs : List FbLayout) (dt : DType) (k : Nat), Spec.denoteChunks env file cs dt k = Spec.denoteChunks env file (cs.drop k) dt 0
  | [], _, k => by simp [Spec.denoteChunks]
  | _ :: _, _, 0 => rfl
  | _ :: cs, dt, k + 1 => by
    rw [Spec.denoteChunks, denoteChunks_drop cs dt k]; rfl

theorem hasMetadata_eq {fb : FbLayout} (h : Spec.MetaOk fb.metadata = true) :
    ∃ b, hasMetadata fb = .ok b ∧ (if b = true then 1 else 0) = Spec.skips fb.metadata := by
  unfold hasMetadata
  cases hm : fb.metadata with
  | none => exact ⟨false, rfl, rfl⟩
  | some m =>
    cases m with
    | nil => rw [hm] at h; simp [Spec.MetaOk] at h
    | cons b bs =>
      refine ⟨b != 0, rfl, ?_⟩
      simp only [Spec.skips]
      by_cases hb : b = 0 <;> simp [hb]

theorem chunked_build {d : Nat} (hB : Builds owner file env d) {scan : Scan} {rel : Rel} {dt : DType} (hs : scan.projection = .all)
    (hb : 0 < scan.batchSize) (hdt : rel.dtype.dtype = .ok dt) {bufs : Option (List ByteRange)} {cs : List FbLayout} {m : Option Bytes}
    {xss : List (Rows α)} (hlen : cs.length ≤ 2 ^ 16) (hd : ∀ c ∈ cs, c.depth ≤ d) (hr : ∀ c ∈ cs, c.Regular = true) (hm : Spec.MetaOk m = true)
    (ho : Owns owner rel.path (.mk CHUNKED bufs (some cs) m)) (hden : Spec.denoteChunks env file cs dt (Spec.skips m) = some xss) :
    ∃ rs, expandChunked (α := α) (readLayout env d) (.mk CHUNKED bufs (some cs) m) scan rel = .ok (.buffered rs [] scan.batchSize) ∧
      RepBuffered (RepSt owner file env d) rs [] scan.batchSize (cut false scan.batchSize xss.flatten) := by
  obtain ⟨b, hb1, hb2⟩ := hasMetadata_eq (fb := .mk CHUNKED bufs (some cs) m) hm
  simp only [FbLayout.metadata] at hb2
  rw [denoteChunks_drop] at hden
  have hskip : Spec.skips m ≤ 1 := by rw [← hb2]; split <;> omega
  have hl : Spec.skips m + (cs.drop (Spec.skips m)).length ≤ 2 ^ 16 ∨ cs = [] := by
    cases cs with
    | nil => exact Or.inr rfl
    | cons c cs => left; simp only [List.length_drop, List.length_cons] at hlen ⊢; omega
  have hgo : ∃ rs bss, Res.mapM (fun p : Nat × FbLayout => readLayout env d p.2 scan (rel.relative p.1 rel.dtype))
      ((List.range' (Spec.skips m) (cs.drop (Spec.skips m)).length).zip (cs.drop (Spec.skips m))) = .ok rs ∧
      Reps (RepSt owner file env d) rs bss ∧ bss.flatten.flatten = xss.flatten := by
    rcases hl with hl | hl
    · refine chunks_build hB hs hb hdt _ _ _ hl (fun c hc => hd c (List.mem_of_mem_drop hc)) (fun c hc => hr c (List.mem_of_mem_drop hc)) ?_ hden
      intro j c hj
      rw [List.getElem?_drop] at hj
      exact rangeAt_child (Or.inl rfl) ho _ c hj
    · subst hl
      simp only [List.drop_nil, Spec.denoteChunks, Option.some.injEq] at hden
      subst hden
      exact ⟨[], [], by simp, .nil, rfl⟩
  obtain ⟨rs, bss, h1, h2, h3⟩ := hgo
  refine ⟨rs, ?_, hb, bss, h2, ?_⟩
  · simp only [expandChunked, FbLayout.children, Res.ofOption_some, Res.ok_bind, hb1]
    rw [hb2, range_zip_drop, h1]; rfl
  · simp only [List.flatten_nil, List.nil_append, h3]
    by_cases hx : xss.flatten = []
    · rw [hx, batches_nil]; rfl
    · rw [cut_of_ne hx]

theorem column_build {d : Nat} (hB : Builds owner file env d) {scan : Scan} {rel : Rel} {names : List Str} {dtypes : List DType} {nl : Bool}
    (hs : scan.projection = .all) (hb : 0 < scan.batchSize) (hdt : rel.dtype.dtype = .ok (.struct names dtypes nl)) {bufs : Option (List ByteRange)}
    {cs : List FbLayout} {m : Option Bytes} {cols : List (Rows α)} {rows : Rows α} {z : Bool} (hlen : cs.length ≤ 2 ^ 16) (hd : ∀ c ∈ cs, c.depth ≤ d)
    (hr : ∀ c ∈ cs, c.Regular = true) (hz : ∀ c ∈ cs, c.zeroBatch = z) (ho : Owns owner rel.path (.mk COLUMN bufs (some cs) m))
    (hden : Spec.denoteColumns env file cs dtypes = some cols) (hnames : names.length = cols.length)
    (hst : Spec.structOf (names.zip cols) = some rows) :
    ∃ names' rs, expandColumn (α := α) (readLayout env d) (.mk COLUMN bufs (some cs) m) scan rel = .ok (.batch names' rs (rs.map fun _ => none)) ∧
      RepBatch (RepSt owner file env d) names' rs (rs.map fun _ => none) (cut z scan.batchSize rows) := by
  obtain ⟨rs, h1, h2, h3, h4⟩ := columns_build (scan := scan) (rel := rel) (all := cs) (z := z) hB hb cs dtypes 0 cols (by omega) rfl hd hr hz
    (fun j c hj => by simpa using rangeAt_child (Or.inr rfl) ho j c hj) hden
  obtain ⟨hne, L, hL, rfl⟩ := structOf_rowsOf hnames hst
  refine ⟨names, rs, ?_, ?_, _, slots_none_length h2, aligned_cut hb names z cols L hne hL⟩
  · simp only [expandColumn, columnDType, hs, Res.ok_bind, hdt, FbLayout.children, Res.ofOption_some, columnChildren, h3, if_true]
    rw [List.range_eq_range', ← h3, h1]; rfl
  · intro h
    subst h
    cases cols with
    | nil => simp at hne
    | cons c cs' => cases h2

theorem firstBytes_some {bufs : Option (List ByteRange)} {b : Bytes} (h : Spec.firstBytes file bufs = some b) :
    ∃ r rest, bufs = some (r :: rest) ∧ Spec.bytesAt file r = some b := by
  cases bufs with
  | none => simp [Spec.firstBytes] at h
  | some l => cases l with
    | nil => simp [Spec.firstBytes] at h
    | cons r rest => exact ⟨r, rest, rfl, h⟩

theorem toOption_some {β : Type} {x : Res β} {a : β} (h : Spec.toOption x = some a) : x = .ok a := by
  cases x <;> simp [Spec.toOption] at h
  rw [h]

theorem fieldsOf_some {d : DType} {names : List Str} {dtypes : List DType} (h : Spec.fieldsOf d = some (names, dtypes)) :
    ∃ n, d = .struct names dtypes n := by
  cases d <;> simp [Spec.fieldsOf] at h
  obtain ⟨rfl, rfl⟩ := h
  exact ⟨_, rfl⟩

theorem builds : ∀ d : Nat, Builds owner file env d
  | 0 => by
    intro fb _ _ _ _ hd
    cases fb with
    | mk e b cs m => cases cs <;> simp [FbLayout.depth] at hd
  | d + 1 => by
    have hB := builds d
    intro fb scan rel dt xs hd hreg hs hb hdt ho hden
    have hflatcase : ∀ bufs cs m, Owns owner rel.path (.mk FLAT bufs cs m) → env.registered FLAT = true →
        ((Spec.firstBytes file bufs).bind fun b => Spec.toOption (env.decode dt b)) = some xs →
        ∃ r, readLayout env (d + 1) (.mk FLAT bufs cs m) scan rel = .ok r ∧
          RepSt owner file env (d + 1) r (cut (FbLayout.zeroBatch (.mk FLAT bufs cs m)) scan.batchSize xs) := by
      intro bufs cs m ho hregd hden
      simp only [Option.bind_eq_some_iff] at hden
      obtain ⟨b, hb1, hb2⟩ := hden
      obtain ⟨r, rest, rfl, hb1⟩ := firstBytes_some hb1
      have hdec := toOption_some hb2
      refine ⟨Node.flat r scan rel false none, ?_, ?_⟩
      · simp only [readLayout, Node.ofFb, FbLayout.encoding, FbLayout.buffers, hregd, if_false, if_true, Bool.true_eq_false]
        simp only [Res.unwrap_some, Res.ok_bind, firstBuffer_of_bytesAt hb1]
        rfl
      · have hown : owner rel.path = some r := by
          have := ho [] (by simp [Spec.rangeAt])
          simpa [Spec.rangeAt] using this
        have hz : FbLayout.zeroBatch (.mk FLAT (some (r :: rest)) cs m) = true := by
          cases cs <;> simp [FbLayout.zeroBatch, FLAT]
        rw [hz]
        refine ⟨hown, hb, ?_⟩
        simp only [Bool.false_eq_true, if_false]
        exact ⟨dt, b, xs, hdt, (readAt_of_bytesAt hb1).1, hdec, rfl⟩
    obtain ⟨e, bufs, cs, m⟩ := fb
    cases cs with
    | none =>
      simp only [Spec.denote] at hden
      split at hden
      · next h => obtain ⟨h1, rfl⟩ := h; exact hflatcase _ _ _ ho h1 hden
      · simp at hden
    | some cs =>
    simp only [Spec.denote] at hden
    split at hden
    · simp at hden
    next hregd =>
    split at hden
    · next he => subst he; exact hflatcase _ _ _ ho (by simpa using hregd) hden
    next hflat =>
    split at hden
    · -- chunked
      next he =>
      subst he
      split at hden
      · next hm =>
        simp only [Option.map_eq_some_iff] at hden
        obtain ⟨xss, hxss, rfl⟩ := hden
        simp only [FbLayout.Regular, Bool.and_eq_true, decide_eq_true_eq] at hreg
        simp only [FbLayout.depth] at hd
        obtain ⟨rs, h1, h2⟩ := chunked_build (bufs := bufs) hB hs hb hdt hreg.1 (fun c hc => by have := depth_mem hc; omega)
          (fun c hc => regular_mem hreg.2.1 hc) hm ho hxss
        refine ⟨Node.chunked (.mk CHUNKED bufs (some cs) m) scan rel, ?_, rs, h1, ?_⟩
        · simp only [readLayout, Node.ofFb, FbLayout.encoding, hregd, if_false, if_true]
          simp [CHUNKED, FLAT]
          rfl
        · have : FbLayout.zeroBatch (.mk CHUNKED bufs (some cs) m) = false := by simp [FbLayout.zeroBatch, CHUNKED, FLAT]
          rw [this]; exact h2
      · simp at hden
    next hchunk =>
    split at hden
    · -- column
      next he =>
      subst he
      simp only [Option.bind_eq_some_iff] at hden
      obtain ⟨⟨names, dtypes⟩, hfs, cols, hcols, hst⟩ := hden
      obtain ⟨nl, rfl⟩ := fieldsOf_some hfs
      split at hst
      · next hnames =>
        simp only [FbLayout.Regular, Bool.and_eq_true, decide_eq_true_eq, bne_self_eq_false, Bool.false_or, List.all_eq_true, beq_iff_eq] at hreg
        simp only [FbLayout.depth] at hd
        obtain ⟨names', rs, h1, h2⟩ := column_build (bufs := bufs) (m := m) hB hs hb hdt hreg.1 (fun c hc => by have := depth_mem hc; omega)
          (fun c hc => regular_mem hreg.2.1 hc) hreg.2.2 ho hcols hnames hst
        refine ⟨Node.column (.mk COLUMN bufs (some cs) m) scan rel, ?_, names', rs, h1, ?_⟩
        · simp only [readLayout, Node.ofFb, FbLayout.encoding, hregd, if_false]
          simp [CHUNKED, FLAT, COLUMN]
          rfl
        · have : FbLayout.zeroBatch (.mk COLUMN bufs (some cs) m) = FbLayout.zeroBatches cs := by simp [FbLayout.zeroBatch, CHUNKED, FLAT, COLUMN]
          rw [this]; exact h2
      · simp at hst
    next hcol =>
    split at hden
    · -- inline
      next he =>
      subst he
      simp only [Option.bind_eq_some_iff] at hden
      obtain ⟨b, hb1, d', hdd, hb2⟩ := hden
      obtain ⟨r, rest, rfl, hb1⟩ := firstBytes_some hb1
      have hdd := toOption_some hdd
      cases cs with
      | nil => simp [Spec.denoteFirst] at hb2
      | cons c cs =>
        simp only [Spec.denoteFirst] at hb2
        simp only [FbLayout.Regular, FbLayout.Regulars, Bool.and_eq_true, decide_eq_true_eq] at hreg
        simp only [FbLayout.depth, FbLayout.depths] at hd
        obtain ⟨child, h1, h2⟩ := hB c scan (rel.relative 1 (.value d')) d' xs (by omega) hreg.2.1.1 hs hb rfl (by
          intro p hp
          have h3 : Spec.rangeAt (.mk INLINE (some (r :: rest)) (some (c :: cs)) m) (1 :: p) = Spec.rangeAt c p := by
            simp [Spec.rangeAt, INLINE, CHUNKED, COLUMN]
          have := ho (1 :: p) (by rw [h3]; exact hp)
          rw [h3] at this
          simpa [Rel.relative] using this) hb2
        refine ⟨Node.inline (.mk INLINE (some (r :: rest)) (some (c :: cs)) m) scan rel, ?_, r, b, d', child, ?_, ?_, (readAt_of_bytesAt hb1).1, hdd, ?_, ?_⟩
        · simp only [readLayout, Node.ofFb, FbLayout.encoding, hregd, if_false]
          simp [CHUNKED, FLAT, COLUMN, INLINE]
          rfl
        · simp only [inlineRequest, FbLayout.buffers, Res.ofOption_some, Res.ok_bind, firstBuffer_of_bytesAt hb1]
        · have := ho [0] (by simp [Spec.rangeAt, INLINE, CHUNKED, COLUMN])
          simpa [Spec.rangeAt, INLINE, CHUNKED, COLUMN, Rel.absoluteId] using this
        · simp only [expandInline, FbLayout.children, Res.ofOption_some, Res.ok_bind, List.getElem?_cons_zero, Res.unwrap_some, h1]
        · have : FbLayout.zeroBatch (.mk INLINE (some (r :: rest)) (some (c :: cs)) m) = c.zeroBatch := by
            simp [FbLayout.zeroBatch, FbLayout.zeroBatches, CHUNKED, FLAT, INLINE]
          rw [this]; exact h2
    · simp at hden

end

end Vx.Layout
