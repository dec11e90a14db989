import Verif.Lemmas.LayoutFile
import Verif.Lemmas.LayoutRead
/-! Facts about the end of the file: metadata tables, schema, footer, postscript, and opening it. -/
namespace Vx.Layout
open Ipc (Bytes Codec itemBytes streamOf byteStarts rowStarts frame)

variable {C : Codec}

def toRange (p : Nat × Nat) : ByteRange := ⟨p.1, p.2⟩

/-- The layout written for a column. -/
def colLayout (ranges : List (Nat × Nat)) (d m : Nat × Nat) : FbLayout :=
  .chunkedL (.inlineL [.flatL (toRange m)] (toRange d) :: ranges.map fun p => .flatL (toRange p)) true

mutual
/-- All byte ranges mentioned in a layout. -/
def FbLayout.ranges : FbLayout → List ByteRange
  | .mk _ bufs none _ => bufs.getD []
  | .mk _ bufs (some cs) _ => bufs.getD [] ++ FbLayout.rangesAll cs
def FbLayout.rangesAll : List FbLayout → List ByteRange
  | [] => []
  | c :: cs => FbLayout.ranges c ++ FbLayout.rangesAll cs
end

theorem rangesAll_flats : ∀ ps : List (Nat × Nat), FbLayout.rangesAll (ps.map fun p => .flatL (toRange p)) = ps.map toRange
  | [] => rfl
  | p :: ps => by simp [FbLayout.rangesAll, FbLayout.flatL, FbLayout.ranges]; exact rangesAll_flats ps

theorem ranges_colLayout (ps : List (Nat × Nat)) (d m : Nat × Nat) : (colLayout ps d m).ranges = (d :: m :: ps).map toRange := by
  simp only [colLayout, FbLayout.chunkedL, FbLayout.inlineL, FbLayout.ranges, FbLayout.rangesAll, rangesAll_flats]
  simp [FbLayout.flatL, FbLayout.ranges]

/-- The finished columns: their layouts, their chunks, all byte ranges in them. -/
inductive Finished (C : Codec) (metaNode : List Nat → Ipc.Node) (out : Bytes) : List FbLayout → List (List Chunk) → List (Nat × Nat) → Prop
  | nil : Finished C metaNode out [] [] []
  | cons {ranges d m chunks ls css rs} : Ats C out ranges chunks →
      At C out m (metaNode ((rowStarts 0 chunks).take chunks.length), chunks.length) → d.1 < d.2 ∧ d.2 ≤ out.length →
      Finished C metaNode out ls css rs → Finished C metaNode out (colLayout ranges d m :: ls) (chunks :: css) ((d :: m :: ranges) ++ rs)

theorem Finished.mono {metaNode : List Nat → Ipc.Node} {out : Bytes} (more : Bytes) {ls : List FbLayout} {css : List (List Chunk)} {rs : List (Nat × Nat)}
    (h : Finished C metaNode out ls css rs) : Finished C metaNode (out ++ more) ls css rs := by
  induction h with
  | nil => exact .nil
  | cons h1 h2 h3 _ ih => exact .cons (h1.mono more) (h2.mono more) ⟨h3.1, by simp; omega⟩ ih

theorem Finished.ranges {metaNode : List Nat → Ipc.Node} {out : Bytes} {ls : List FbLayout} {css : List (List Chunk)} {rs : List (Nat × Nat)}
    (h : Finished C metaNode out ls css rs) : FbLayout.rangesAll ls = rs.map toRange := by
  induction h with
  | nil => rfl
  | cons _ _ _ _ ih => rw [FbLayout.rangesAll, ranges_colLayout, ih, List.map_append]

theorem Finished.inside {metaNode : List Nat → Ipc.Node} {out : Bytes} {ls : List FbLayout} {css : List (List Chunk)} {rs : List (Nat × Nat)}
    (h : Finished C metaNode out ls css rs) : ∀ p ∈ rs, p.1 < p.2 ∧ p.2 ≤ out.length := by
  induction h with
  | nil => simp
  | cons h1 h2 h3 _ ih =>
    intro p hp
    simp only [List.mem_append, List.mem_cons] at hp
    rcases hp with (rfl | rfl | hp) | hp
    · exact h3
    · exact ⟨h2.1, h2.2.1⟩
    · exact h1.mem p hp
    · exact ih p hp

theorem rowStarts_length : ∀ (cs : List Chunk) (s : Nat), (rowStarts s cs).length = cs.length + 1
  | [], _ => rfl
  | c :: cs, s => by simp [rowStarts, rowStarts_length cs]

theorem chunkLayouts_eq {bo : BatchOffsets} (h : ∀ p ∈ bo.ranges, p.1 < p.2) :
    chunkLayouts bo = .ok (bo.ranges.map fun p => .flatL (toRange p)) := by
  unfold chunkLayouts
  change Res.mapM _ bo.ranges = _
  generalize bo.ranges = rs at h
  induction rs with
  | nil => rfl
  | cons p ps ih =>
    have hp : ByteRange.new p.1 p.2 = .ok (toRange p) := by simp only [ByteRange.new, if_pos (h p (by simp)), toRange]
    simp only [Res.mapM_cons, hp, Res.ok_bind, ih (fun q hq => h q (by simp [hq])), List.map_cons]

theorem finishColumn_spec {metaNode : List Nat → Ipc.Node} {w : Ipc.Writer} {bo : BatchOffsets} {chunks : List Chunk} (hw : w.pos % 64 = 0)
    (h : Col C w.out bo chunks) :
    ∃ p1 p2 more, finishColumn C metaNode w bo = .ok (⟨w.out ++ more⟩, colLayout bo.ranges (w.pos, p1) (p1, p2)) ∧ w.pos < p1 ∧
      p2 = (w.out ++ more).length ∧ At C (w.out ++ more) (p1, p2) (metaNode ((rowStarts 0 chunks).take chunks.length), chunks.length) ∧
      (⟨w.out ++ more⟩ : Ipc.Writer).pos % 64 = 0 := by
  obtain ⟨hrow, hats⟩ := h
  have hlen := hats.length
  have hsub : Res.sub bo.rowOffsets.length 1 = .ok chunks.length := by
    rw [hrow, rowStarts_length, Res.sub_of_le (by omega)]; simp
  have h1 := Ipc.writeItem_eq C w (.dtype metaDType) hw
  simp only [Ipc.Spec.writeItem] at h1
  have hw1 : (⟨w.out ++ itemBytes C (.dtype metaDType)⟩ : Ipc.Writer).pos % 64 = 0 := by
    have := Ipc.itemBytes_aligned C (.dtype metaDType)
    simp only [Ipc.Writer.pos, List.length_append] at hw ⊢; omega
  have h2 := Ipc.writeItem_eq C ⟨w.out ++ itemBytes C (.dtype metaDType)⟩
    (.batch (metaNode (bo.rowOffsets.take chunks.length)) chunks.length) hw1
  simp only [Ipc.Spec.writeItem] at h2
  have hp1 := itemBytes_pos C (.dtype metaDType)
  have hp2 := itemBytes_pos C (.batch (metaNode (bo.rowOffsets.take chunks.length)) chunks.length)
  refine ⟨w.pos + (itemBytes C (.dtype metaDType)).length, _,
    itemBytes C (.dtype metaDType) ++ itemBytes C (.batch (metaNode (bo.rowOffsets.take chunks.length)) chunks.length), ?_, by omega, rfl, ?_, ?_⟩
  · unfold finishColumn
    rw [chunkLayouts_eq (fun p hp => (hats.mem p hp).1)]
    simp only [Res.ok_bind, hsub]
    rw [if_pos (by rw [List.length_map, List.length_take, hrow, rowStarts_length, hlen]; omega)]
    simp only [h1, Res.ok_bind, h2, ByteRange.new]
    rw [if_pos (by simp only [Ipc.Writer.pos, List.length_append]; omega)]
    simp only [Res.ok_bind]
    rw [if_pos (by simp only [Ipc.Writer.pos, List.length_append]; omega)]
    simp only [Res.ok_bind, Ipc.Writer.pos, List.length_append, List.append_assoc, colLayout, toRange]
  · refine ⟨?_, Nat.le_refl _, ?_⟩
    · simp only [Ipc.Writer.pos, List.length_append]; omega
    · rw [hrow]
      simp only [Ipc.Writer.pos]
      rw [← List.append_assoc, List.drop_append_of_le_length (by simp), List.drop_of_length_le (by simp), List.nil_append, List.take_of_length_le]
      simp only [List.length_append]; omega
  · have := Ipc.itemBytes_aligned C (.dtype metaDType)
    have := Ipc.itemBytes_aligned C (.batch (metaNode (bo.rowOffsets.take chunks.length)) chunks.length)
    simp only [Ipc.Writer.pos, List.length_append] at hw ⊢
    omega

theorem finishColumns_spec {metaNode : List Nat → Ipc.Node} : ∀ (bos : List BatchOffsets) (w : Ipc.Writer) (cols : List (List Chunk)), w.pos % 64 = 0 →
    Cols C w.out bos cols →
    ∃ more ls rs metas, finishColumns C metaNode w bos = .ok (⟨w.out ++ more⟩, ls) ∧ (⟨w.out ++ more⟩ : Ipc.Writer).pos % 64 = 0 ∧
      Finished C metaNode (w.out ++ more) ls cols rs ∧ rs.Perm (bos.flatMap BatchOffsets.ranges ++ metas) ∧ metas.Pairwise Disj ∧
      (∀ p ∈ metas, w.out.length ≤ p.1 ∧ p.2 ≤ (w.out ++ more).length) ∧ (bos ≠ [] → 0 < (w.out ++ more).length)
  | [], w, cols, hw, h => by
    cases cols with
    | cons _ _ => exact h.elim
    | nil => exact ⟨[], [], [], [], by simp [finishColumns], by simpa using hw, .nil, by simp, by simp, by simp, by simp⟩
  | bo :: bos, w, cols, hw, h => by
    cases cols with
    | nil => exact h.elim
    | cons chunks cols =>
      obtain ⟨p1, p2, more1, g1, g2, g3, g4, g5⟩ := finishColumn_spec (metaNode := metaNode) hw h.1
      obtain ⟨more, ls, rs, metas, e1, e2, e3, e4, e5, e6, _⟩ := finishColumns_spec (metaNode := metaNode) bos ⟨w.out ++ more1⟩ cols g5 (h.2.mono more1)
      simp only at e1 e2 e3 e4 e5 e6
      refine ⟨more1 ++ more, colLayout bo.ranges (w.pos, p1) (p1, p2) :: ls, _, (w.pos, p1) :: (p1, p2) :: metas, ?_, ?_, .cons (ranges := bo.ranges) (d := (w.pos, p1)) (m := (p1, p2)) (rs := rs) ?_ ?_ ?_ ?_, ?_, ?_, ?_, ?_⟩
      · simp only [finishColumns, g1, Res.ok_bind, e1, List.append_assoc]
      · rw [← List.append_assoc]; exact e2
      · exact h.1.2.mono _
      · rw [← List.append_assoc]; exact g4.mono more
      · have hx := g4.1
        simp only at hx
        simp only [List.length_append] at g3 ⊢
        exact ⟨g2, by omega⟩
      · rw [← List.append_assoc]; exact e3
      · simp only [List.flatMap_cons, List.cons_append]
        have h1 : ((w.pos, p1) :: (p1, p2) :: (bo.ranges ++ rs)).Perm ((w.pos, p1) :: (p1, p2) :: (bo.ranges ++ (bos.flatMap BatchOffsets.ranges ++ metas))) :=
          List.Perm.cons _ (List.Perm.cons _ (List.Perm.append_left _ e4))
        refine h1.trans ?_
        rw [← List.append_assoc]
        have h2 := List.perm_append_comm (l₁ := [(w.pos, p1), (p1, p2)]) (l₂ := bo.ranges ++ bos.flatMap BatchOffsets.ranges)
        have h3 := List.Perm.append_right metas h2
        simpa [List.append_assoc] using h3
      · rw [List.pairwise_cons, List.pairwise_cons]
        have hx := g4.1
        simp only at hx
        refine ⟨?_, ?_, e5⟩
        · intro q hq
          simp only [List.mem_cons] at hq
          rcases hq with rfl | hq
          · exact Or.inl (Nat.le_refl _)
          · have := (e6 q hq).1; left; simp only; omega
        · intro q hq
          have := (e6 q hq).1; left; simp only; omega
      · intro q hq
        simp only [List.mem_cons] at hq
        have hx := g4.1
        simp only at hx
        have hl : (w.out ++ (more1 ++ more)).length = (w.out ++ more1).length + more.length := by simp [Nat.add_assoc]
        have hwp : w.pos = w.out.length := rfl
        rcases hq with rfl | rfl | hq
        · simp only; omega
        · simp only; omega
        · have h6 := e6 q hq
          rw [← List.append_assoc]
          simp only [List.length_append] at h6 ⊢
          omega
      · intro _
        have hx := g4.1
        have hl : (w.out ++ (more1 ++ more)).length = (w.out ++ more1).length + more.length := by simp [Nat.add_assoc]
        simp only at hx
        omega

/-! ## Framing of the footer, slices -/

def tableFrame (table : Bytes) : Bytes := frame ⟨fun _ => table, fun _ => none⟩ (.page 0 0)

theorem writeTable_eq (w : Ipc.Writer) (table : Bytes) (hw : w.pos % 64 = 0) : writeTable w table = .ok ⟨w.out ++ tableFrame table⟩ :=
  Ipc.writeMessage_eq _ w _ hw

/-- The bytes of a finished file. -/
def fileOf (F : FileCodec) (data : Bytes) (dtype : DType) (root : FbLayout) (rowCount : Nat) : Bytes :=
  data ++ frame F.msgs (Ipc.schemaMsg dtype) ++ tableFrame (F.encFooter root rowCount) ++
    F.encPs data.length (data.length + (frame F.msgs (Ipc.schemaMsg dtype)).length) ++ EOF

theorem sliceBytes_mid (a b c : Bytes) (i j : Nat) (hi : i = a.length) (hj : j = a.length + b.length) : sliceBytes (a ++ (b ++ c)) i j = .ok b := by
  subst hi hj
  unfold sliceBytes
  rw [if_pos ⟨by omega, by simp⟩]
  simp

theorem frame_split (C : Codec) (m : Ipc.FbMsg) : ∃ l4 : Bytes, l4.length = 4 ∧ frame C m = l4 ++ Ipc.payload C m :=
  ⟨_, by simp [Ipc.le32], rfl⟩

end Vx.Layout
