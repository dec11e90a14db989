import Verif.Lemmas.TreeScalar
/-! # One level of a tree: `slice` -/
namespace Vx.Tree
open Vx.Spec (InBounds)

variable {L : Type} {env : Env L} {leafRows : L → List SV} {ok : L → Prop} {st : Bool}

/-- The patches of a sparse array that fall into a window. -/
theorem sparse_window {is : List Nat} {vs : List SV} {n off s e : Nat} {fill : SV} (hs : is.Pairwise (· < ·))
    (hl : is.length = vs.length) (hb : InBounds n s e) :
    ∃ rs re, searchSlice compare is (off + s) .left = .ok rs ∧ searchSlice compare is (off + e) .left = .ok re ∧
      InBounds is.length rs.toIndex re.toIndex ∧
      (∀ i ∈ Spec.slice is rs.toIndex re.toIndex, off + s ≤ i ∧ i < off + e) ∧
      Spec.patched (e - s) (off + s) fill ((Spec.slice is rs.toIndex re.toIndex).zip (Spec.slice vs rs.toIndex re.toIndex)) =
        Spec.slice (Spec.patched n off fill (is.zip vs)) s e := by
  refine ⟨_, _, search_left is hs _, search_left is hs _, ?_⟩
  have h1 : ∀ v, (if v ∈ is then SearchResult.found (is.countP (fun x => decide (x < v)))
      else SearchResult.notFound (is.countP (fun x => decide (x < v)))).toIndex = is.countP (fun x => decide (x < v)) := by
    intro v; split <;> rfl
  rw [h1, h1]
  have hse : is.countP (fun x => decide (x < off + s)) ≤ is.countP (fun x => decide (x < off + e)) := by
    apply List.countP_mono_left
    intro x _ hx
    have := hb.1
    simp at hx ⊢; omega
  have hei : is.countP (fun x => decide (x < off + e)) ≤ is.length := List.countP_le_length
  have hib : InBounds is.length (is.countP (fun x => decide (x < off + s))) (is.countP (fun x => decide (x < off + e))) := ⟨hse, hei⟩
  refine ⟨hib, ?_, ?_⟩
  · intro i hi
    obtain ⟨k, hk, rfl⟩ := List.mem_iff_getElem.mp hi
    rw [Spec.slice_getElem hk]
    have hkl := hk
    rw [Spec.slice_length' hib] at hkl
    have c1 := countP_lt_split hs (off + s) (is.countP (fun x => decide (x < off + s)) + k) (by omega)
    have c2 := countP_lt_split hs (off + e) (is.countP (fun x => decide (x < off + s)) + k) (by omega)
    constructor
    · by_contra hcon
      have := c1.mpr (by omega)
      omega
    · exact c2.mp (by omega)
  · apply List.ext_getElem?
    intro i
    rw [Spec.slice_getElem?]
    have := hb.1
    have := hb.2
    by_cases hi : s + i < e
    · rw [if_pos hi]
      simp [Spec.patched, show i < e - s by omega, show s + i < n by omega, Spec.patchOr]
      rw [Sparse.find_slice hs hl (by omega) (by omega), Nat.add_assoc]
    · rw [if_neg hi]
      simp [Spec.patched]
      omega

/-- The runs that fall into a window that does not start at the end. -/
theorem run_window {ends : List Nat} {vs : List SV} {off n s e : Nat} (hs : ends.Pairwise (· < ·)) (hlen : ends.length = vs.length)
    (hlast : off + n ≤ ends.getLast?.getD 0) (hfirst : off = 0 ∨ ∀ e ∈ ends.head?, off < e) (hb : InBounds n s e) (hsn : s < n) :
    ∃ b t, physical ends (s + off) = .ok b ∧ physical ends (e + off) = .ok t ∧ InBounds ends.length b (t + 1) ∧ b < ends.length ∧
      (Spec.slice ends b (t + 1)).Pairwise (· < ·) ∧
      (s + off = 0 ∨ ∀ e ∈ (Spec.slice ends b (t + 1)).head?, s + off < e) ∧
      s + off + (e - s) ≤ (Spec.slice ends b (t + 1)).getLast?.getD 0 ∧
      Spec.slice (Spec.expand (Spec.slice ends b (t + 1)) (Spec.slice vs b (t + 1))) (s + off) (s + off + (e - s)) =
        Spec.slice (Spec.slice (Spec.expand ends vs) off (off + n)) s e := by
  let a : RunEnd SV := ⟨ends, ⟨vs, .nonNullable⟩, .nonNullable, off, n⟩
  have hw : a.WF := ⟨hs, hlen, rfl, hfirst, hlast, by simp [a, Spec.FitsLen, Spec.mask]⟩
  have hn : 0 < a.ends.length := by
    cases h : ends with
    | nil => simp [h] at hlast; omega
    | cons => simp [a, h]
  have hlt : a.offset + s < a.ends.getLast?.getD 0 := by simp only [a]; omega
  obtain ⟨b, t, es, vs', v, h1, h2, h3, h4, -, -, h5, h6, h7, h8, h9, h10, h11, h12⟩ := RunEnd.slice_runs hw hn hb hlt
  obtain ⟨c, hc, hcw, hcl, hcr⟩ := RunEnd.C15_slice_partial a hw s e hb hlt
  have hv : v = .nonNullable := by
    simp only [a, Validity.slice] at h9
    cases h9; rfl
  have hce : c = ⟨es, vs', v, s + off, e - s⟩ := by
    have h := hb.1
    have h' := hb.2
    simp only [RunEnd.slice, h1, h2, h5, h7, h9, Res.ok_bind] at hc
    rw [if_neg (by simp only [a]; omega), if_neg (by simp only [a]; omega), if_neg (by omega)] at hc
    simp only [RunEnd.withOffsetAndLength] at hc
    obtain ⟨-, -, hc⟩ := Res.bind_eq_ok.mp hc
    obtain ⟨-, -, hc⟩ := Res.bind_eq_ok.mp hc
    obtain ⟨-, -, hc⟩ := Res.bind_eq_ok.mp hc
    obtain ⟨-, -, hc⟩ := Res.bind_eq_ok.mp hc
    cases hc; rfl
  subst hce hv h8 h6
  refine ⟨b, t, h1, h2, ⟨by omega, h4⟩, by have : a.ends.length = ends.length := rfl; omega, hcw.strict, hcw.first, ?_, ?_⟩
  · have := hcw.last
    exact this
  · have hmap : ∀ (xs : List SV) (k : Nat), xs.length = k → Spec.rows xs (Spec.mask k .nonNullable) = xs.map some := by
      intro xs k hk
      subst hk
      simp only [Spec.mask, Spec.rows]
      apply List.ext_getElem?
      intro i
      simp [List.getElem?_zipWith, List.getElem?_replicate]
      by_cases hi : i < xs.length
      · simp [hi]
      · simp [hi]
        try simp [List.getElem?_eq_none (by omega : xs.length ≤ i)]
    have e1 := RunEnd.window_length hcw
    have e2 := RunEnd.window_length hw
    simp only [RunEnd.rows] at hcr
    rw [hmap _ _ e1, hmap _ _ e2, Spec.slice_map] at hcr
    have := congrArg (List.map (fun x : Option SV => x.getD .null)) hcr
    have hid : (fun x : Option SV => x.getD .null) ∘ some = id := rfl
    simpa [RunEnd.window, hid] using this


/-- What slicing must deliver. -/
def Sliced (env : Env L) (leafRows : L → List SV) (ok : L → Prop) (st : Bool) (r : Res (Arr L)) (a : Arr L) (s e : Nat) : Prop :=
  ∃ b, r = .ok b ∧ WF env leafRows ok b ∧ Regular env leafRows st b ∧ Le env b a ∧ rows env leafRows b = Spec.slice (rows env leafRows a) s e

theorem sliceFn_flat {o : Ops L} {d : Nat} (H : Laws env leafRows ok o d) (k : Kind) (vals : List SV) (v : TVal (Arr L)) (s e : Nat)
    (hw : WF env leafRows ok (.flat k vals v)) (hr : Regular env leafRows st (.flat k vals v)) (hd : depth (.flat k vals v) ≤ d + 1)
    (hb : InBounds vals.length s e) (hs : s < vals.length ∨ runFreeV v = true) :
    Sliced env leafRows ok st (sliceFn env o (.flat k vals v) s e) (.flat k vals v) s e := by
  simp only [WF, Regular, depth] at hw hr hd
  obtain ⟨w, h1, h2, h3, h4, h5, h6, h7⟩ := sliceV_ok H hw.2 hr (by omega) hb hs
  have hlen : ((vals.drop s).take (e - s)).length = e - s := by have := hb.2; simp; omega
  refine ⟨.flat k ((vals.drop s).take (e - s)) w, by simp only [sliceFn, h1, Res.ok_bind], ?_, h3, ⟨?_, ?_, h6⟩, ?_⟩
  · simp only [WF, hlen]
    exact ⟨fun x hx => hw.1 x (List.mem_of_mem_drop (List.mem_of_mem_take hx)), h2⟩
  · simp only [depth]; omega
  · simp only [dtype, h5]
  · simp only [rows, hlen, h7, masked_slice, Spec.slice_eq_drop_take vals]

theorem sliceFn_chunked (hl : LeafLaws env leafRows ok) {o : Ops L} {d : Nat} (H : Laws env leafRows ok o d) (dt : DType) (cs : List (Arr L))
    (s e : Nat) (hw : WF env leafRows ok (.chunked dt cs)) (hr : Regular env leafRows st (.chunked dt cs)) (hd : depth (.chunked dt cs) ≤ d + 1)
    (hb : InBounds (rows env leafRows (.chunked dt cs)).length s e)
    (hs : s < (rows env leafRows (.chunked dt cs)).length ∨ runFree (.chunked dt cs) = true) :
    Sliced env leafRows ok st (sliceFn env o (.chunked dt cs) s e) (.chunked dt cs) s e := by
  simp only [WF, Regular, depth, rows, runFree] at hw hr hd hb hs
  let Good : Arr L → Prop := fun c => WF env leafRows ok c ∧ Regular env leafRows st c ∧ depth c ≤ depths cs ∧ dtype env c = dt ∧
    (runFrees cs = true → runFree c = true)
  have hg : ∀ c ∈ cs, Good c := fun c hc =>
    ⟨(WFs_iff cs).mp hw.1 c hc, (Regulars_iff cs).mp hr.2 c hc, (depths_le cs _).mp (Nat.le_refl _) c hc,
      hw.2 _ (by rw [dtypes_eq]; exact List.mem_map_of_mem hc), fun h => (runFrees_iff cs).mp h c hc⟩
  have hflat : (rowsEach env leafRows cs).flatten = Chunked.rows (rows env leafRows) cs := by
    rw [rowsEach_eq, Chunked.rows_eq_flatten]
  rw [hflat] at hb hs
  obtain ⟨out, h1, h2, h3, h4⟩ := Chunked.slice_okP (Good := Good) (rowsOf := rows env leafRows) (len := len env) (sl := o.slice)
    (runFrees cs = true) (fun c hc => len_eq hl c hc.1)
    (fun c s' e' hc hb' hs' => by
      obtain ⟨b, b1, b2, b3, b4, b5⟩ := H.slice st c s' e' hc.1 hc.2.1 (by have := hc.2.2.1; omega) hb' (hs'.imp_right (fun h => hc.2.2.2.2 h))
      exact ⟨b, b1, ⟨b2, b3, Nat.le_trans b4.depth hc.2.2.1, by rw [b4.dtype, hc.2.2.2.1], fun h => b4.runFree (hc.2.2.2.2 h)⟩, b5⟩)
    cs hr.1 hg s e hb hs
  have hdt : out.all (fun c => decide (dtype env c = dt)) = true := by
    rw [List.all_eq_true]; intro c hc; simpa using (h3 c hc).2.2.2.1
  refine ⟨.chunked dt out, by simp only [sliceFn, h1, mkChunked, Res.guard, hdt, Res.ok_bind, if_true], ?_, ?_, ⟨?_, rfl, ?_⟩, ?_⟩
  · simp only [WF]
    refine ⟨(WFs_iff out).mpr (fun c hc => (h3 c hc).1), ?_⟩
    rw [dtypes_eq]
    intro x hx
    obtain ⟨c, hc, rfl⟩ := List.mem_map.mp hx
    exact (h3 c hc).2.2.2.1
  · simp only [Regular]
    exact ⟨h2, (Regulars_iff out).mpr (fun c hc => (h3 c hc).2.1)⟩
  · simp only [depth]
    have := (depths_le out (depths cs)).mpr (fun c hc => (h3 c hc).2.2.1)
    omega
  · simp only [runFree]
    intro h
    exact (runFrees_iff out).mpr (fun c hc => (h3 c hc).2.2.2.2 h)
  · simp only [rows]
    rw [hflat, rowsEach_eq, ← Chunked.rows_eq_flatten, h4]

/-- Slicing a list of equally long arrays. -/
theorem slice_each {o : Ops L} {d : Nat} (H : Laws env leafRows ok o d) (n s e : Nat) (hb : InBounds n s e) :
    ∀ (fs : List (Arr L)), WFs env leafRows ok fs → Regulars env leafRows st fs → depths fs ≤ d →
      (∀ c ∈ rowsEach env leafRows fs, c.length = n) → (s < n ∨ runFrees fs = true) →
    ∃ gs, Res.mapM (fun f => o.slice f s e) fs = .ok gs ∧ WFs env leafRows ok gs ∧ Regulars env leafRows st gs ∧ depths gs ≤ depths fs ∧
      dtypes env gs = dtypes env fs ∧ (runFrees fs = true → runFrees gs = true) ∧ gs.length = fs.length ∧
      rowsEach env leafRows gs = (rowsEach env leafRows fs).map (fun c => Spec.slice c s e)
  | [], _, _, _, _, _ => ⟨[], rfl, trivial, trivial, Nat.le_refl _, rfl, fun h => h, rfl, by simp [rowsEach]⟩
  | f :: fs, hw, hr, hd, hn, hs => by
    simp only [WFs, Regulars, depths, rowsEach, List.mem_cons, forall_eq_or_imp, runFrees, Bool.and_eq_true] at hw hr hd hn hs
    obtain ⟨b, b1, b2, b3, b4, b5⟩ := H.slice st f s e hw.1 hr.1 (by omega) (by rw [hn.1]; exact hb) (by rw [hn.1]; exact hs.imp_right And.left)
    obtain ⟨gs, g1, g2, g3, g4, g5, g6, g7, g8⟩ := slice_each H n s e hb fs hw.2 hr.2 (by omega) hn.2 (hs.imp_right And.right)
    refine ⟨b :: gs, by simp [b1, g1], ⟨b2, g2⟩, ⟨b3, g3⟩, ?_, by simp [dtypes, b4.dtype, g5], ?_, by simp [g7], by simp [rowsEach, b5, g8]⟩
    · have := b4.depth
      simp only [depths]; omega
    · simp only [runFrees, Bool.and_eq_true]
      exact fun h => ⟨b4.runFree h.1, g6 h.2⟩

theorem structRows_slice (n : Nat) (cols : List (List SV)) (m : List Bool) (s e : Nat) (hb : InBounds n s e)
    (hm : m.length = n) (hc : ∀ c ∈ cols, c.length = n) :
    Spec.slice (structRows n cols m) s e = structRows (e - s) (cols.map (fun c => Spec.slice c s e)) (Spec.slice m s e) := by
  have := hb.1
  have := hb.2
  apply List.ext_getElem?
  intro i
  rw [Spec.slice_getElem?]
  by_cases hi : s + i < e
  · rw [if_pos hi, structRows_getElem? _ _ _ _ (by omega), structRows_getElem? _ _ _ _ (by omega), Spec.slice_getElem?, if_pos hi]
    congr 1
    have : structRow (cols.map (fun c => Spec.slice c s e)) i = structRow cols (s + i) := by
      simp only [structRow, List.map_map]
      congr 1
      apply List.map_congr_left
      intro c _
      simp [Spec.slice_getElem?, hi]
    rw [this]
  · rw [if_neg hi, List.getElem?_eq_none (by simp; omega)]

theorem sliceFn_struct (hl : LeafLaws env leafRows ok) {o : Ops L} {d : Nat} (H : Laws env leafRows ok o d) (names : List Str)
    (fs : List (Arr L)) (n : Nat) (v : TVal (Arr L)) (s e : Nat)
    (hw : WF env leafRows ok (.struct names fs n v)) (hr : Regular env leafRows st (.struct names fs n v)) (hd : depth (.struct names fs n v) ≤ d + 1)
    (hb : InBounds n s e) (hs : s < n ∨ runFree (.struct names fs n v) = true) :
    Sliced env leafRows ok st (sliceFn env o (.struct names fs n v) s e) (.struct names fs n v) s e := by
  simp only [WF, Regular, depth, runFree, Bool.and_eq_true] at hw hr hd hs
  obtain ⟨hw1, hw2, hw3, hw4⟩ := hw
  have hb1 := hb.1
  have hb2 := hb.2
  obtain ⟨gs, g1, g2, g3, g4, g5, g6, g7, g8⟩ := slice_each H n s e hb fs hw2 hr.1 (by omega) hw3 (hs.imp_right And.left)
  obtain ⟨w, h1, h2, h3, h4, h5, h6, h7⟩ := sliceV_ok H hw4 hr.2 (by omega) hb (hs.imp_right And.right)
  have hgl : ∀ c ∈ rowsEach env leafRows gs, c.length = e - s := by
    rw [g8]
    intro c hc
    obtain ⟨c', hc', rfl⟩ := List.mem_map.mp hc
    rw [Spec.slice_length, hw3 c' hc']; omega
  have hall : gs.all (fun f => len env f == e - s) = true := by
    rw [List.all_eq_true]
    intro c hc
    rw [len_eq hl c ((WFs_iff gs).mp g2 c hc)]
    simpa using hgl _ (by rw [rowsEach_eq]; exact List.mem_map_of_mem hc)
  refine ⟨.struct names gs (e - s) w, ?_, ?_, ⟨g3, h3⟩, ⟨?_, ?_, ?_⟩, ?_⟩
  · simp only [sliceFn, g1, h1, mkStruct, Res.guard, hw1, g7, hall, checkV_ok hl h2, Res.ok_bind, beq_self_eq_true, if_true]
  · simp only [WF]; exact ⟨by rw [hw1, g7], g2, hgl, h2⟩
  · simp only [depth]; omega
  · simp only [dtype, g5, h5]
  · simp only [runFree, Bool.and_eq_true]; exact fun h => ⟨g6 h.1, h6 h.2⟩
  · simp only [rows]
    rw [structRows_slice n _ _ s e hb (maskOf_length hw4) hw3, g8, h7]

theorem sliceFn_sparse (hl : LeafLaws env leafRows ok) {o : Ops L} {d : Nat} (H : Laws env leafRows ok o d) (is : List Nat)
    (values : Arr L) (n off : Nat) (fill : SV) (s e : Nat)
    (hw : WF env leafRows ok (.sparse is values n off fill)) (hr : Regular env leafRows st (.sparse is values n off fill))
    (hd : depth (.sparse is values n off fill) ≤ d + 1) (hb : InBounds n s e) :
    Sliced env leafRows ok st (sliceFn env o (.sparse is values n off fill) s e) (.sparse is values n off fill) s e := by
  simp only [WF, Regular, depth] at hw hr hd
  obtain ⟨hw1, hw2, hw3, hw4, hw5⟩ := hw
  have hb1 := hb.1
  obtain ⟨rs, re, h1, h2, h3, h4, h5⟩ := sparse_window (off := off) (fill := fill) hw4 hw3 hb
  obtain ⟨vs, v1, v2, v3, v4, v5⟩ := H.slice st values rs.toIndex re.toIndex hw1 hr.1 (by omega) (by rw [← hw3]; exact h3) (.inr hr.2.1)
  have hvl : (Spec.slice is rs.toIndex re.toIndex).length = (rows env leafRows vs).length := by
    rw [v5, Spec.slice_length, Spec.slice_length, hw3]
  have hlast : checkLast (Spec.slice is rs.toIndex re.toIndex) (e - s) (off + s) = .ok () := by
    unfold checkLast
    cases hc : (Spec.slice is rs.toIndex re.toIndex).getLast? with
    | none => rfl
    | some x =>
      obtain ⟨a1, a2⟩ := h4 x (List.mem_of_getLast? hc)
      simp only [Res.sub_of_le a1, Res.ok_bind]
      rw [if_neg (by omega)]
  refine ⟨.sparse (Spec.slice is rs.toIndex re.toIndex) vs (e - s) (off + s) fill, ?_, ?_, ?_, ⟨?_, ?_, ?_⟩, ?_⟩
  · simp [sliceFn, h1, h2, sliceList_ok h3, v1, mkSparse, Res.guard, v4.dtype, hw2, len_eq hl vs v2, hvl, hlast]
  · simp only [WF]
    refine ⟨v2, by rw [v4.dtype]; exact hw2, hvl, (hw4.sublist (List.take_sublist _ _)).sublist (List.drop_sublist _ _), ?_⟩
    intro i hi
    obtain ⟨a1, a2⟩ := h4 i hi
    omega
  · simp only [Regular]
    exact ⟨v3, v4.runFree hr.2.1, fun hst r hr' => hr.2.2 hst r (by rw [v5] at hr'; exact mem_slice hr')⟩
  · have := v4.depth
    simp only [depth]; omega
  · simp only [dtype, v4.dtype]
  · exact v4.runFree
  · simp only [rows]; rw [v5]; exact h5

theorem sliceFn_runEnd (hl : LeafLaws env leafRows ok) {o : Ops L} {d : Nat} (H : Laws env leafRows ok o d) (ends : List Nat)
    (values : Arr L) (v : TVal (Arr L)) (off n : Nat) (s e : Nat)
    (hw : WF env leafRows ok (.runEnd ends values v off n)) (hr : Regular env leafRows st (.runEnd ends values v off n))
    (hd : depth (.runEnd ends values v off n) ≤ d + 1) (hb : InBounds n s e) (hs : s < n) :
    Sliced env leafRows ok st (sliceFn env o (.runEnd ends values v off n) s e) (.runEnd ends values v off n) s e := by
  simp only [WF, Regular, depth] at hw hr hd
  obtain ⟨hw1, hw2, hw3, hw4, hw5, hw6, hw7, hw8⟩ := hw
  have hb1 := hb.1
  obtain ⟨b, t, r1, r2, r3, r4, r5, r6, r7, r8⟩ := run_window hw4 hw5 hw7 hw6 hb hs
  obtain ⟨vs, v1, v2, v3, v4, v5⟩ := H.slice st values b (t + 1) hw1 hr.1 (by omega) (by rw [← hw5]; exact r3) (.inl (by omega))
  obtain ⟨w, h1, h2, h3, h4, h5, h6, h7⟩ := sliceV_ok H hw2 hr.2 (by omega) hb (.inl hs)
  have hfirst : RunEnd.checkFirst (Spec.slice ends b (t + 1)) (s + off) = .ok () := by
    unfold RunEnd.checkFirst
    by_cases h0 : s + off = 0
    · simp [h0]
    · rw [if_pos h0]
      rcases r6 with r6 | r6
      · exact absurd r6 h0
      · cases hc : (Spec.slice ends b (t + 1)).head? with
        | none => rfl
        | some x =>
          have := r6 x hc
          simp only
          rw [if_neg (by omega)]
  refine ⟨.runEnd (Spec.slice ends b (t + 1)) vs w (s + off) (e - s), ?_, ?_, ⟨v3, h3⟩, ⟨?_, ?_, ?_⟩, ?_⟩
  · simp [sliceFn, r1, r2, sliceList_ok r3, v1, h1, mkRunEnd, Res.guard, v4.dtype, hw3, h5, hfirst,
      RunEnd.strictSorted_iff.mpr r5, checkV_ok hl h2]
  · simp only [WF]
    refine ⟨v2, h2, by rw [v4.dtype, hw3, h5], r5, by rw [v5, Spec.slice_length, Spec.slice_length, hw5], r6, r7, ?_⟩
    intro r hr'
    rw [v5] at hr'
    exact hw8 r (mem_slice hr')
  · have := v4.depth
    simp only [depth]; omega
  · simp only [dtype, v4.dtype]
  · simp [runFree]
  · simp only [rows]; rw [v5, r8, h7, masked_slice]

theorem slice_step (hl : LeafLaws env leafRows ok) {o : Ops L} {d : Nat} (H : Laws env leafRows ok o d) (a : Arr L) (s e : Nat)
    (hw : WF env leafRows ok a) (hr : Regular env leafRows st a) (hd : depth a ≤ d + 1) (hb : InBounds (rows env leafRows a).length s e)
    (hs : s < (rows env leafRows a).length ∨ runFree a = true) : Sliced env leafRows ok st (slice env o a s e) a s e := by
  have hlen := len_eq hl a hw
  have hb1 := hb.1
  have hb2 := hb.2
  have hsl : slice env o a s e = sliceFn env o a s e := by
    simp only [slice, hlen]
    rw [if_neg (by omega), if_neg (by omega), if_neg (by omega)]
  rw [hsl]
  cases a with
  | leaf l =>
    obtain ⟨l', h1, h2, h3, h4⟩ := hl.slice l s e hw hb
    exact ⟨.leaf l', h1, h2, trivial, ⟨Nat.le_refl _, h3, fun h => h⟩, h4⟩
  | flat k vals v =>
    have : (rows env leafRows (.flat k vals v)).length = vals.length := by rw [← hlen]; rfl
    rw [this] at hb hs
    exact sliceFn_flat H k vals v s e hw hr hd hb hs
  | null n =>
    simp [rows] at hb hb2
    exact ⟨.null (e - s), rfl, trivial, trivial, ⟨Nat.le_refl _, rfl, fun h => h⟩, by simp [rows, Spec.slice_replicate, Nat.min_eq_left hb2]⟩
  | const dt x n =>
    simp [rows] at hb hb2
    exact ⟨.const dt x (e - s), rfl, hw, trivial, ⟨Nat.le_refl _, rfl, fun h => h⟩, by
      simp [rows, Spec.slice_replicate, Nat.min_eq_left hb2]⟩
  | chunked dt cs => exact sliceFn_chunked hl H dt cs s e hw hr hd hb hs
  | struct names fs n v =>
    have : (rows env leafRows (.struct names fs n v)).length = n := by rw [← hlen]; rfl
    rw [this] at hb hs
    exact sliceFn_struct hl H names fs n v s e hw hr hd hb hs
  | ext id m sg =>
    simp only [WF, Regular, depth, rows, runFree] at hw hr hd hb hs
    obtain ⟨b, b1, b2, b3, b4, b5⟩ := H.slice st sg s e hw hr (by omega) hb hs
    refine ⟨.ext id m b, by simp [sliceFn, b1], b2, b3, ⟨?_, by simp only [dtype, b4.dtype], b4.runFree⟩, by simp only [rows, b5]⟩
    have := b4.depth
    simp only [depth]; omega
  | sparse is values n off fill =>
    have : (rows env leafRows (.sparse is values n off fill)).length = n := by rw [← hlen]; rfl
    rw [this] at hb
    exact sliceFn_sparse hl H is values n off fill s e hw hr hd hb
  | dict codes values =>
    simp only [WF, Regular, depth, rows, runFree, List.length_map, Bool.and_eq_true] at hw hr hd hb hs
    obtain ⟨w1, w2, ⟨p, hp1, hp2⟩, w3⟩ := hw
    obtain ⟨b, b1, b2, b3, b4, b5⟩ := H.slice st codes s e w1 hr.1 (by omega) hb (hs.imp_right And.left)
    refine ⟨.dict b values, by simp [sliceFn, b1, mkDict, b4.dtype, hp1, hp2], ?_, ⟨b3, hr.2⟩, ⟨?_, rfl, ?_⟩, ?_⟩
    · simp only [WF]
      refine ⟨b2, w2, ⟨p, by rw [b4.dtype]; exact hp1, hp2⟩, ?_⟩
      rw [b5]
      exact fun r h => w3 r (mem_slice h)
    · have := b4.depth
      simp only [depth]; omega
    · simp only [runFree, Bool.and_eq_true]; exact fun h => ⟨b4.runFree h.1, h.2⟩
    · simp only [rows, b5, Spec.slice_map]
  | runEnd ends values v off n =>
    have : (rows env leafRows (.runEnd ends values v off n)).length = n := by rw [← hlen]; rfl
    rw [this] at hb hs
    exact sliceFn_runEnd hl H ends values v off n s e hw hr hd hb (by simpa [runFree] using hs)
  | mapped c enc =>
    simp only [WF, Regular, depth, rows, runFree, List.length_map] at hw hr hd hb hs
    obtain ⟨w1, w2, w3⟩ := hw
    obtain ⟨b, b1, b2, b3, b4, b5⟩ := H.slice st enc s e w1 hr (by omega) hb hs
    obtain ⟨dt, hdt⟩ := Option.isSome_iff_exists.mp w2
    refine ⟨.mapped c b, by simp [sliceFn, b1, mkMapped, b4.dtype, hdt], ?_, b3, ⟨?_, by simp only [dtype, b4.dtype], b4.runFree⟩,
      by simp only [rows, b5, Spec.slice_map]⟩
    · simp only [WF]
      exact ⟨b2, by rw [b4.dtype]; exact w2, by rw [b5]; exact fun r h => w3 r (mem_slice h)⟩
    · have := b4.depth
      simp only [depth]; omega
  | alpP x f enc patches =>
    simp only [WF, Regular, depth, rows, runFree, Bool.and_eq_true] at hw hr hd hb hs
    obtain ⟨w1, w2, w3, ⟨dt, hdt, heq⟩, w5, w6, w7⟩ := hw
    rw [List.length_zipWith, w3, Nat.min_self] at hb hs
    obtain ⟨b, b1, b2, b3, b4, b5⟩ := H.slice st enc s e w1 hr.1 (by omega) hb (hs.imp_right And.left)
    obtain ⟨p, p1, p2, p3, p4, p5⟩ := H.slice st patches s e w2 hr.2 (by omega) (by rw [w3]; exact hb) (by rw [w3]; exact hs.imp_right And.right)
    have hlp : (rows env leafRows p).length = (rows env leafRows b).length := by rw [b5, p5, Spec.slice_length, Spec.slice_length, w3]
    refine ⟨.alpP x f b p, ?_, ?_, ⟨b3, p3⟩, ⟨?_, by simp only [dtype, b4.dtype], ?_⟩, ?_⟩
    · simp [sliceFn, b1, p1, mkAlpP, b4.dtype, p4.dtype, hdt, heq, w5, len_eq hl b b2, len_eq hl p p2, hlp]
    · simp only [WF]
      refine ⟨b2, p2, hlp, ⟨dt, by rw [b4.dtype]; exact hdt, by rw [p4.dtype]; exact heq⟩, by rw [p4.dtype]; exact w5, ?_, ?_⟩
      · rw [b5]; exact fun r h => w6 r (mem_slice h)
      · rw [p5]; exact fun r h => w7 r (mem_slice h)
    · have := b4.depth
      have := p4.depth
      simp only [depth]; omega
    · simp only [runFree, Bool.and_eq_true]; exact fun h => ⟨b4.runFree h.1, p4.runFree h.2⟩
    · simp only [rows, b5, p5, Spec.slice_zipWith]

/-- The entry points are right, for trees of every depth. -/
theorem laws (hl : LeafLaws env leafRows ok) : ∀ d, Laws env leafRows ok (ops env d) d
  | 0 => by
    refine ⟨?_, ?_, ?_, ?_⟩
    · intro a; intros; have := depth_pos a; omega
    · intro a; intros; have := depth_pos a; omega
    · intro a; intros; have := depth_pos a; omega
    · intro _ a; intros; have := depth_pos a; omega
  | d + 1 => by
    have H := laws hl d
    exact ⟨fun a i r h1 h2 h3 h4 => isValid_step hl H a i r h1 h2 h3 h4, fun a i r h1 h2 h3 h4 => scalarAt_step hl H a i r h1 h2 h3 h4,
      fun a i r h1 h2 h3 h4 h5 => scalarFnU_step hl H a i r h1 h2 h3 h4 h5, fun st a s e h1 h2 h3 h4 h5 => slice_step hl H a s e h1 h2 h3 h4 h5⟩

end Vx.Tree
