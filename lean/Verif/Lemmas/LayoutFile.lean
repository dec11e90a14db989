import Verif.Model.LayoutFile
import Verif.Props.C31
import Verif.Props.C33
/-! Facts about the file writer: where the chunks end up, and that they do not move. -/
namespace Vx.Layout
open Ipc (Bytes Codec itemBytes streamOf byteStarts rowStarts frame)

/-- A chunk: the array tree the serialiser sees, and its length. -/
abbrev Chunk := Ipc.Node × Nat

variable {C : Codec}

/-- The bytes between the two positions are the chunk's message. -/
def At (C : Codec) (out : Bytes) (p : Nat × Nat) (c : Chunk) : Prop :=
  p.1 < p.2 ∧ p.2 ≤ out.length ∧ (out.drop p.1).take (p.2 - p.1) = itemBytes C (.batch c.1 c.2)

theorem At.mono {out : Bytes} {p : Nat × Nat} {c : Chunk} (h : At C out p c) (more : Bytes) : At C (out ++ more) p c := by
  obtain ⟨h1, h2, h3⟩ := h
  refine ⟨h1, by simp; omega, ?_⟩
  rw [List.drop_append_of_le_length (by omega), List.take_append_of_le_length (by simp; omega)]
  exact h3

/-- Positions and chunks, one for one. -/
def Ats (C : Codec) (out : Bytes) : List (Nat × Nat) → List Chunk → Prop
  | [], [] => True
  | p :: ps, c :: cs => At C out p c ∧ Ats C out ps cs
  | _, _ => False

theorem Ats.mono {out : Bytes} (more : Bytes) : ∀ {ps : List (Nat × Nat)} {cs : List Chunk}, Ats C out ps cs → Ats C (out ++ more) ps cs
  | [], [], _ => trivial
  | _ :: _, _ :: _, h => ⟨h.1.mono more, Ats.mono more h.2⟩
  | [], _ :: _, h => h.elim
  | _ :: _, [], h => h.elim

theorem Ats.append {out : Bytes} : ∀ {ps qs : List (Nat × Nat)} {cs ds : List Chunk}, Ats C out ps cs → Ats C out qs ds → Ats C out (ps ++ qs) (cs ++ ds)
  | [], _, [], _, _, h => h
  | _ :: _, _, _ :: _, _, h, h' => ⟨h.1, Ats.append h.2 h'⟩
  | [], _, _ :: _, _, h, _ => h.elim
  | _ :: _, _, [], _, h, _ => h.elim

theorem Ats.length {out : Bytes} : ∀ {ps : List (Nat × Nat)} {cs : List Chunk}, Ats C out ps cs → ps.length = cs.length
  | [], [], _ => rfl
  | _ :: _, _ :: _, h => by simp [Ats.length h.2]
  | [], _ :: _, h => h.elim
  | _ :: _, [], h => h.elim

theorem Ats.mem {out : Bytes} : ∀ {ps : List (Nat × Nat)} {cs : List Chunk}, Ats C out ps cs → ∀ p ∈ ps, p.1 < p.2 ∧ p.2 ≤ out.length
  | [], [], _ => by simp
  | p :: ps, _ :: _, h => by
    intro q hq
    simp only [List.mem_cons] at hq
    rcases hq with rfl | hq
    · exact ⟨h.1.1, h.1.2.1⟩
    · exact Ats.mem h.2 q hq
  | [], _ :: _, h => h.elim
  | _ :: _, [], h => h.elim

theorem windows_cons (x y : Nat) (ys : List Nat) : windows (x :: y :: ys) = (x, y) :: windows (y :: ys) := by simp [windows]

theorem byteStarts_head (C : Codec) (s : Nat) (cs : List Chunk) : ∃ t, byteStarts C s cs = s :: t := by
  cases cs with
  | nil => exact ⟨[], rfl⟩
  | cons c cs => exact ⟨_, rfl⟩

theorem windows_byteStarts_cons (C : Codec) (s : Nat) (c : Chunk) (cs : List Chunk) :
    windows (byteStarts C s (c :: cs)) = (s, s + (itemBytes C (.batch c.1 c.2)).length) :: windows (byteStarts C (s + (itemBytes C (.batch c.1 c.2)).length) cs) := by
  obtain ⟨n, l⟩ := c
  simp only [byteStarts]
  obtain ⟨t, ht⟩ := byteStarts_head C (s + (itemBytes C (.batch n l)).length) cs
  rw [ht, windows_cons]

theorem itemBytes_pos (C : Codec) (i : Ipc.Spec.Item) : 0 < (itemBytes C i).length := by
  rw [Ipc.itemBytes_length, Ipc.frame_length]
  have := Ipc.alignUp_ge (4 + (C.enc (Ipc.itemMsg i)).length)
  omega

theorem windows_at : ∀ (cs : List Chunk) (out : Bytes),
    Ats C (out ++ streamOf C (cs.map fun p => .batch p.1 p.2)) (windows (byteStarts C out.length cs)) cs
  | [], _ => by simp [byteStarts, windows, Ats]
  | c :: cs, out => by
    rw [windows_byteStarts_cons]
    have hs : out ++ streamOf C ((c :: cs).map fun p => .batch p.1 p.2) =
        (out ++ itemBytes C (.batch c.1 c.2)) ++ streamOf C (cs.map fun p => .batch p.1 p.2) := by
      simp [streamOf, List.append_assoc]
    have hpos := itemBytes_pos C (.batch c.1 c.2)
    refine ⟨?_, ?_⟩
    · rw [hs]
      apply At.mono
      refine ⟨by omega, by simp, ?_⟩
      simp
    · rw [hs]
      have := windows_at cs (out ++ itemBytes C (.batch c.1 c.2))
      rw [List.length_append] at this
      exact this

/-- Two ranges have no byte in common. -/
def Disj (p q : Nat × Nat) : Prop := p.2 ≤ q.1 ∨ q.2 ≤ p.1

theorem Disj.symm {p q : Nat × Nat} (h : Disj p q) : Disj q p := Or.symm h

theorem windows_from : ∀ (cs : List Chunk) (s : Nat), (∀ p ∈ windows (byteStarts C s cs), s ≤ p.1) ∧ (windows (byteStarts C s cs)).Pairwise Disj
  | [], _ => by simp [byteStarts, windows]
  | c :: cs, s => by
    rw [windows_byteStarts_cons]
    obtain ⟨h1, h2⟩ := windows_from cs (s + (itemBytes C (.batch c.1 c.2)).length)
    refine ⟨?_, ?_⟩
    · intro p hp
      simp only [List.mem_cons] at hp
      rcases hp with rfl | hp
      · simp
      · have := h1 p hp; omega
    · rw [List.pairwise_cons]
      exact ⟨fun p hp => Or.inl (h1 p hp), h2⟩

/-- The byte ranges a column's chunks are recorded at. -/
def BatchOffsets.ranges (bo : BatchOffsets) : List (Nat × Nat) := bo.byteOffsets.flatMap windows

/-- A column's records are right. -/
def Col (C : Codec) (out : Bytes) (bo : BatchOffsets) (chunks : List Chunk) : Prop :=
  bo.rowOffsets = rowStarts 0 chunks ∧ Ats C out bo.ranges chunks

def Cols (C : Codec) (out : Bytes) : List BatchOffsets → List (List Chunk) → Prop
  | [], [] => True
  | b :: bs, c :: cs => Col C out b c ∧ Cols C out bs cs
  | _, _ => False

theorem Cols.mono {out : Bytes} (more : Bytes) : ∀ {bs : List BatchOffsets} {cs : List (List Chunk)}, Cols C out bs cs → Cols C (out ++ more) bs cs
  | [], [], _ => trivial
  | _ :: _, _ :: _, h => ⟨⟨h.1.1, h.1.2.mono more⟩, Cols.mono more h.2⟩
  | [], _ :: _, h => h.elim
  | _ :: _, [], h => h.elim

theorem Cols.append {out : Bytes} : ∀ {bs bs' : List BatchOffsets} {cs cs' : List (List Chunk)}, Cols C out bs cs → Cols C out bs' cs' →
    Cols C out (bs ++ bs') (cs ++ cs')
  | [], _, [], _, _, h => h
  | _ :: _, _, _ :: _, _, h, h' => ⟨h.1, Cols.append h.2 h'⟩
  | [], _, _ :: _, _, h, _ => h.elim
  | _ :: _, _, [], _, h, _ => h.elim

theorem Cols.length {out : Bytes} : ∀ {bs : List BatchOffsets} {cs : List (List Chunk)}, Cols C out bs cs → bs.length = cs.length
  | [], [], _ => rfl
  | _ :: _, _ :: _, h => by simp [Cols.length h.2]
  | [], _ :: _, h => h.elim
  | _ :: _, [], h => h.elim

theorem Cols.mem {out : Bytes} : ∀ {bs : List BatchOffsets} {cs : List (List Chunk)}, Cols C out bs cs → ∀ p ∈ bs.flatMap BatchOffsets.ranges, p.1 < p.2 ∧ p.2 ≤ out.length
  | [], [], _ => by simp
  | b :: bs, _ :: _, h => by
    intro p hp
    simp only [List.flatMap_cons, List.mem_append] at hp
    rcases hp with hp | hp
    · exact h.1.2.mem p hp
    · exact Cols.mem h.2 p hp
  | [], _ :: _, h => h.elim
  | _ :: _, [], h => h.elim

theorem rowStarts_append (cs ds : List Chunk) : ∀ (s : Nat), ∃ n, (rowStarts s cs).getLast? = some n ∧
    rowStarts s (cs ++ ds) = rowStarts s cs ++ (rowStarts n ds).drop 1 := by
  induction cs with
  | nil =>
    intro s
    refine ⟨s, rfl, ?_⟩
    cases ds with
    | nil => rfl
    | cons d ds => rfl
  | cons c cs ih =>
    intro s
    obtain ⟨n, h1, h2⟩ := ih (s + c.2)
    refine ⟨n, ?_, ?_⟩
    · simp only [rowStarts]
      rw [List.getLast?_cons, h1]; rfl
    · simp only [List.cons_append, rowStarts, h2]

/-- Add one struct array's fields to the columns. -/
def merge : List (List Chunk) → List (List Chunk) → List (List Chunk)
  | [], fs => fs
  | os, [] => os
  | o :: os, f :: fs => (o ++ f) :: merge os fs

/-- What holds between calls. -/
structure Inv (C : Codec) (w : LayoutWriter) (cols : List (List Chunk)) : Prop where
  aligned : w.msgs.pos % 64 = 0
  cols : Cols C w.msgs.out w.columns cols
  disj : (w.columns.flatMap BatchOffsets.ranges).Pairwise Disj

theorem writeChunks_aligned {w : Ipc.Writer} (hw : w.pos % 64 = 0) (cs : List Chunk) :
    (⟨w.out ++ streamOf C (cs.map fun p => .batch p.1 p.2)⟩ : Ipc.Writer).pos % 64 = 0 := by
  have := Ipc.streamOf_aligned C (cs.map fun p => .batch p.1 p.2)
  simp only [Ipc.Writer.pos, List.length_append] at hw ⊢
  omega

theorem pairwise_insert {ps qs rs new : List (Nat × Nat)} {n : Nat} (h : (ps ++ (qs ++ rs)).Pairwise Disj) (hle : ∀ p ∈ ps ++ (qs ++ rs), p.2 ≤ n)
    (hnew : new.Pairwise Disj) (hge : ∀ p ∈ new, n ≤ p.1) : (ps ++ ((qs ++ new) ++ rs)).Pairwise Disj := by
  have hp : ((ps ++ (qs ++ rs)) ++ new).Perm (ps ++ ((qs ++ new) ++ rs)) := by
    rw [List.append_assoc, List.append_assoc, List.append_assoc]
    exact List.Perm.append_left ps (List.Perm.append_left qs (List.perm_append_comm))
  rw [← hp.pairwise_iff (fun h => Disj.symm h)]
  rw [List.pairwise_append]
  exact ⟨h, hnew, fun a ha b hb => Or.inl (Nat.le_trans (hle a ha) (hge b hb))⟩

theorem writeFields_spec : ∀ (fs : List (List Chunk)) (w : LayoutWriter) (pre post : List BatchOffsets) (spre spost : List (List Chunk)),
    w.columns = pre ++ post → Cols C w.msgs.out pre spre → Cols C w.msgs.out post spost → w.msgs.pos % 64 = 0 →
    (w.columns.flatMap BatchOffsets.ranges).Pairwise Disj →
    ∃ w', w.writeFields C pre.length fs = .ok w' ∧ w'.rowCount = w.rowCount ∧ w'.dtype = w.dtype ∧ Inv C w' (spre ++ merge spost fs)
  | [], w, pre, post, spre, spost, h1, h2, h3, h4, h5 => by
    refine ⟨w, rfl, rfl, rfl, h4, ?_, h5⟩
    have : merge spost [] = spost := by cases spost <;> rfl
    rw [this, h1]; exact h2.append h3
  | f :: fs, w, pre, post, spre, spost, h1, h2, h3, h4, h5 => by
    have hmem := (Cols.append h2 h3).mem
    obtain ⟨hw1, hw2⟩ := windows_from (C := C) f w.msgs.pos
    have hat := windows_at (C := C) f w.msgs.out
    cases post with
    | nil =>
      cases spost with
      | cons _ _ => exact h3.elim
      | nil =>
        have hget : w.columns[pre.length]? = none := by rw [h1]; simp
        have hcall : w.writeColumnChunks C f pre.length = .ok ⟨⟨w.msgs.out ++ streamOf C (f.map fun p => .batch p.1 p.2)⟩, w.rowCount, w.dtype, w.columns ++ [⟨rowStarts 0 f, [byteStarts C w.msgs.pos f]⟩]⟩ := by
          simp only [LayoutWriter.writeColumnChunks, hget, Ipc.C31_chunk_offsets C f w.msgs 0 h4, Res.ok_bind]
        obtain ⟨w', g1, g2, g3, g4⟩ := writeFields_spec fs ⟨⟨w.msgs.out ++ streamOf C (f.map fun p => .batch p.1 p.2)⟩, w.rowCount, w.dtype, w.columns ++ [⟨rowStarts 0 f, [byteStarts C w.msgs.pos f]⟩]⟩ (pre ++ [⟨rowStarts 0 f, [byteStarts C w.msgs.pos f]⟩]) []
            (spre ++ [f]) [] (by simp [h1]) (by
              refine Cols.append (h2.mono _) ⟨⟨rfl, ?_⟩, trivial⟩
              simp only [BatchOffsets.ranges, List.flatMap_cons, List.flatMap_nil, List.append_nil]
              exact hat) trivial (writeChunks_aligned h4 f) (by
              simp only [h1, List.append_nil, List.flatMap_append, List.flatMap_cons, List.flatMap_nil, BatchOffsets.ranges] at h5 ⊢
              rw [List.pairwise_append]
              refine ⟨h5, hw2, fun a ha b hb => Or.inl ?_⟩
              have h6 := (hmem a (by simpa [BatchOffsets.ranges] using ha)).2
              exact Nat.le_trans h6 (hw1 b hb))
        refine ⟨w', ?_, g2, g3, ?_⟩
        · simp only [LayoutWriter.writeFields, hcall, Res.ok_bind]
          rw [List.length_append] at g1
          exact g1
        · have : merge [] (f :: fs) = f :: fs := rfl
          rw [this]
          rw [List.append_assoc] at g4
          have e : merge ([] : List (List Chunk)) fs = fs := by cases fs <;> rfl
          rw [e] at g4
          exact g4
    | cons x post =>
      cases spost with
      | nil => exact h3.elim
      | cons o spost =>
        have hget : w.columns[pre.length]? = some x := by rw [h1]; simp
        obtain ⟨n, hn1, hn2⟩ := rowStarts_append o f 0
        have hlast : x.rowOffsets.getLast? = some n := by rw [h3.1.1]; exact hn1
        have hset : w.columns.set pre.length ⟨x.rowOffsets ++ (rowStarts n f).drop 1, x.byteOffsets ++ [byteStarts C w.msgs.pos f]⟩ =
            pre ++ ⟨x.rowOffsets ++ (rowStarts n f).drop 1, x.byteOffsets ++ [byteStarts C w.msgs.pos f]⟩ :: post := by
          rw [h1]; simp
        have hcall : w.writeColumnChunks C f pre.length = .ok ⟨⟨w.msgs.out ++ streamOf C (f.map fun p => .batch p.1 p.2)⟩, w.rowCount, w.dtype, pre ++ ⟨x.rowOffsets ++ (rowStarts n f).drop 1, x.byteOffsets ++ [byteStarts C w.msgs.pos f]⟩ :: post⟩ := by
          simp only [LayoutWriter.writeColumnChunks, hget, hlast, Res.unwrap_some, Ipc.C31_chunk_offsets C f w.msgs n h4, Res.ok_bind, hset]
        obtain ⟨w', g1, g2, g3, g4⟩ := writeFields_spec fs ⟨⟨w.msgs.out ++ streamOf C (f.map fun p => .batch p.1 p.2)⟩, w.rowCount, w.dtype, pre ++ ⟨x.rowOffsets ++ (rowStarts n f).drop 1, x.byteOffsets ++ [byteStarts C w.msgs.pos f]⟩ :: post⟩
            (pre ++ [⟨x.rowOffsets ++ (rowStarts n f).drop 1, x.byteOffsets ++ [byteStarts C w.msgs.pos f]⟩]) post
            (spre ++ [o ++ f]) spost (by simp) (by
              refine Cols.append (h2.mono _) ⟨⟨?_, ?_⟩, trivial⟩
              · rw [h3.1.1, hn2]
              · simp only [BatchOffsets.ranges, List.flatMap_append, List.flatMap_cons, List.flatMap_nil, List.append_nil]
                exact Ats.append (h3.1.2.mono _) hat) (h3.2.mono _) (writeChunks_aligned h4 f) (by
              simp only [h1, List.flatMap_append, List.flatMap_cons, List.flatMap_nil, BatchOffsets.ranges, List.append_nil] at h5 ⊢
              refine pairwise_insert (n := w.msgs.out.length) h5 (fun a ha => (hmem a ?_).2) hw2 hw1
              simpa [BatchOffsets.ranges] using ha)
        refine ⟨w', ?_, g2, g3, ?_⟩
        · simp only [LayoutWriter.writeFields, hcall, Res.ok_bind]
          rw [List.length_append] at g1
          exact g1
        · have : merge (o :: spost) (f :: fs) = (o ++ f) :: merge spost fs := rfl
          rw [this]
          rw [List.append_assoc] at g4
          exact g4

/-- Add several struct arrays' fields. -/
def mergeAll (cols : List (List Chunk)) : List StructBatch → List (List Chunk)
  | [] => cols
  | b :: bs => mergeAll (merge cols b.fields) bs

theorem writeBatches_spec : ∀ (bs : List StructBatch) (w : LayoutWriter) (cols : List (List Chunk)), Inv C w cols →
    ∃ w', w.writeBatches C bs = .ok w' ∧ w'.rowCount = w.rowCount + (bs.map StructBatch.len).sum ∧ w'.dtype = w.dtype ∧ Inv C w' (mergeAll cols bs)
  | [], w, cols, h => ⟨w, rfl, by simp, rfl, h⟩
  | b :: bs, w, cols, h => by
    obtain ⟨w1, g1, g2, g3, g4⟩ := writeFields_spec (C := C) b.fields { w with rowCount := w.rowCount + b.len } [] w.columns [] cols rfl trivial h.cols h.aligned h.disj
    obtain ⟨w2, e1, e2, e3, e4⟩ := writeBatches_spec bs w1 (merge cols b.fields) g4
    refine ⟨w2, ?_, ?_, by rw [e3, g3], e4⟩
    · simp only [LayoutWriter.writeBatches]
      have : LayoutWriter.writeFields C { w with rowCount := w.rowCount + b.len } 0 b.fields = .ok w1 := g1
      rw [this]; exact e1
    · rw [e2, g2]; simp; omega

/-- The chunks of column `j`: those of every struct array in turn. -/
def Spec.columnChunks (batches : List StructBatch) (j : Nat) : List Chunk := batches.flatMap fun b => (b.fields[j]?).getD []

theorem merge_getElem? : ∀ (os fs : List (List Chunk)) (j : Nat), os.length = fs.length → (merge os fs)[j]? =
    (os[j]?).bind fun o => (fs[j]?).map fun f => o ++ f
  | [], [], j, _ => by simp [merge]
  | o :: os, f :: fs, j, h => by
    simp only [merge]
    cases j with
    | zero => simp
    | succ j => simpa using merge_getElem? os fs j (by simpa using h)

theorem merge_length : ∀ (os fs : List (List Chunk)), os.length = fs.length → (merge os fs).length = fs.length
  | [], [], _ => rfl
  | o :: os, f :: fs, h => by simp only [merge, List.length_cons]; rw [merge_length os fs (by simpa using h)]

theorem mergeAll_eq (k : Nat) : ∀ (bs : List StructBatch) (cols : List (List Chunk)), cols.length = k → (∀ b ∈ bs, b.fields.length = k) →
    (mergeAll cols bs).length = k ∧ ∀ j, j < k → (mergeAll cols bs)[j]? = (cols[j]?).map fun c => c ++ Spec.columnChunks bs j
  | [], cols, h, _ => ⟨h, fun j _ => by simp [mergeAll, Spec.columnChunks]⟩
  | b :: bs, cols, h, hb => by
    have hl : cols.length = b.fields.length := by rw [h, hb b (by simp)]
    obtain ⟨h1, h2⟩ := mergeAll_eq k bs (merge cols b.fields) (by rw [merge_length _ _ hl, hb b (by simp)]) (fun b' hb' => hb b' (by simp [hb']))
    refine ⟨h1, fun j hj => ?_⟩
    simp only [mergeAll]
    rw [h2 j hj, merge_getElem? _ _ _ hl]
    have hbl := hb b (by simp)
    rw [List.getElem?_eq_getElem (by omega : j < cols.length), List.getElem?_eq_getElem (by omega : j < b.fields.length)]
    simp [Spec.columnChunks, List.getElem?_eq_getElem (by omega : j < b.fields.length)]

/-- The columns that end up in the file. -/
def Spec.allColumns (k : Nat) (batches : List StructBatch) : List (List Chunk) := (List.range k).map (Spec.columnChunks batches)

theorem mergeAll_nil (k : Nat) (bs : List StructBatch) (hne : bs ≠ []) (hb : ∀ b ∈ bs, b.fields.length = k) :
    mergeAll [] bs = Spec.allColumns k bs := by
  cases bs with
  | nil => exact absurd rfl hne
  | cons b bs =>
    have e : merge ([] : List (List Chunk)) b.fields = b.fields := by cases b.fields <;> rfl
    simp only [mergeAll, e]
    obtain ⟨h1, h2⟩ := mergeAll_eq k bs b.fields (hb b (by simp)) (fun b' hb' => hb b' (by simp [hb']))
    apply List.ext_getElem?
    intro j
    by_cases hj : j < k
    · rw [h2 j hj]
      have hbl := hb b (by simp)
      simp [Spec.allColumns, Spec.columnChunks, hj, List.getElem?_eq_getElem (by omega : j < b.fields.length)]
    · rw [List.getElem?_eq_none (by omega), List.getElem?_eq_none (by simp [Spec.allColumns]; omega)]

end Vx.Layout
