import Verif.Lemmas.TreeTake
/-! # `filter` on trees, and the laws of all entry points -/
namespace Vx.Tree
open Vx.Spec (InBounds FitsLen)

variable {L : Type} {env : BEnv L} {leafRows : L → List SV} {ok : L → Prop}

theorem filter_flat {o : Bulks L} {d : Nat} (H : BLaws env leafRows ok o d) {k : Kind} {vals : List SV} {v : TVal (Arr L)} {m : List Bool}
    (hw : WF env.toEnv leafRows ok (.flat k vals v)) (hn : NiceV env.toEnv leafRows v) (hd : depthV v ≤ d) (hm : m.length = vals.length) :
    Taken env leafRows ok true (filterFlat o k vals v v.nullable m) (.flat k vals v) (Spec.filter (rows env.toEnv leafRows (.flat k vals v)) m) := by
  obtain ⟨w, h1, h2, h3, h4, h5, _⟩ := filterFlat_ok H hw hn hd hm
  exact ⟨_, h1, h2, by simpa only [Bulk] using h4, h3, by simp [isPatches], h5⟩

/-- Filtering what an array decodes to. -/
theorem filter_decoded {o : Bulks L} {d : Nat} (H : BLaws env leafRows ok o d) {a : Arr L} {r : Res (Arr L)} {m : List Bool}
    (h : Decoded env leafRows ok r a) (hn : Nice env.toEnv leafRows a) (hd : depth a ≤ d + 1) (hm : m.length = (rows env.toEnv leafRows a).length)
    (hp : isPatches a = false) :
    Taken env leafRows ok true (do let c ← r; filterArrow env o c (dtype env.toEnv a).isNullable m) a (Spec.filter (rows env.toEnv leafRows a) m) := by
  obtain ⟨k, vals, v, c1, c2, c3, c4⟩ := h
  have hcd := c3.depth
  simp only [depth] at hcd
  have hcn := c3.nice hn
  simp only [Nice] at hcn
  have hnul : (dtype env.toEnv a).isNullable = v.nullable := by
    have := c3.dtype
    simp only [dtype] at this
    exact (kind_of_dtype this).2
  obtain ⟨b, t1, t2, t3, t4, _, t5⟩ := filter_flat H c2 hcn (by omega) (m := m) (by rw [← flat_rows_len c2, c4]; exact hm)
  exact ⟨b, by rw [c1, Res.ok_bind, hnul]; simpa only [filterArrow] using t1, t2, t3, t4.trans c3, by simp [hp], by rw [t5, c4]⟩

theorem filter_chunked (hl : LeafLaws env.toEnv leafRows ok) {o : Bulks L} {d : Nat} (H : BLaws env leafRows ok o d) (dt : DType)
    (cs : List (Arr L)) (m : List Bool) (hw : WF env.toEnv leafRows ok (.chunked dt cs))
    (hbk : Bulk env.toEnv leafRows env.temporal true (.chunked dt cs)) (hd : depth (.chunked dt cs) ≤ d + 1)
    (hm : m.length = (rows env.toEnv leafRows (.chunked dt cs)).length) :
    Taken env leafRows ok true (filterFn env o (.chunked dt cs) m) (.chunked dt cs) (Spec.filter (rows env.toEnv leafRows (.chunked dt cs)) m) := by
  have hg := chunks_good hw hbk
  simp only [depth] at hd
  have hflat : rows env.toEnv leafRows (.chunked dt cs) = Chunked.rows (rows env.toEnv leafRows) cs := by
    simp only [rows]; rw [rowsEach_eq, Chunked.rows_eq_flatten]
  rw [hflat] at hm ⊢
  obtain ⟨out, h1, h2, h3⟩ := Chunked.C22_filter (len := len env.toEnv) (fl := o.filter) (fun c hc => len_eq hl c hc.1)
    (chunk_take (f := true) H (by omega))
    (fun c m' hc hm' => by
      obtain ⟨b, b1, b2, b3, b4, _, b5⟩ := H.filter c m' hc.1 hc.2.1 (by have := hc.2.2.1; omega) hm'
      exact ⟨b, b1, ⟨b2, b3, Nat.le_trans b4.depth hc.2.2.1, by rw [b4.dtype, hc.2.2.2.1], fun h => b4.nice (hc.2.2.2.2 h)⟩, b5⟩)
    env.manySet cs hg m hm
  have := chunks_out h2 h3
  simpa only [filterFn, h1, Res.ok_bind] using this

/-- Filtering a list of equally long arrays. -/
theorem filter_each {o : Bulks L} {d : Nat} (H : BLaws env leafRows ok o d) (n : Nat) (m : List Bool) (hm : m.length = n) :
    ∀ (fs : List (Arr L)), WFs env.toEnv leafRows ok fs → BulkAll env.toEnv leafRows env.temporal true fs → depths fs ≤ d →
      (∀ c ∈ rowsEach env.toEnv leafRows fs, c.length = n) →
    ∃ gs, Res.mapM (fun x => o.filter x m) fs = .ok gs ∧ WFs env.toEnv leafRows ok gs ∧ BulkAll env.toEnv leafRows env.temporal true gs ∧
      depths gs ≤ depths fs ∧ dtypes env.toEnv gs = dtypes env.toEnv fs ∧ (chunkFrees fs = true → chunkFrees gs = true) ∧
      gs.length = fs.length ∧ rowsEach env.toEnv leafRows gs = (rowsEach env.toEnv leafRows fs).map (fun c => Spec.filter c m)
  | [], _, _, _, _ => ⟨[], rfl, trivial, trivial, Nat.le_refl _, rfl, fun h => h, rfl, by simp [rowsEach]⟩
  | x :: fs, hw, hr, hd, hn => by
    simp only [WFs, BulkAll, depths, rowsEach, List.mem_cons, forall_eq_or_imp] at hw hr hd hn
    obtain ⟨b, b1, b2, b3, b4, _, b5⟩ := H.filter x m hw.1 hr.1 (by omega) (by rw [hn.1]; exact hm)
    obtain ⟨gs, g1, g2, g3, g4, g5, g6, g7, g8⟩ := filter_each H n m hm fs hw.2 hr.2 (by omega) hn.2
    refine ⟨b :: gs, by simp [b1, g1], ⟨b2, g2⟩, ⟨b3, g3⟩, ?_, by simp [dtypes, b4.dtype, g5], ?_, by simp [g7], by simp [rowsEach, b5, g8]⟩
    · have := b4.depth
      simp only [depths]; omega
    · simp only [chunkFrees, Bool.and_eq_true]
      exact fun h => ⟨b4.chunkFree h.1, g6 h.2⟩

/-- The positions of the set bits. -/
def setPos : Nat → List Bool → List Nat
  | _, [] => []
  | s, b :: bs => if b then s :: setPos (s + 1) bs else setPos (s + 1) bs

theorem filter_setPos (pre xs : List α) (m : List Bool) (h : m.length = xs.length) :
    Spec.filter xs m = Spec.take (pre ++ xs) (setPos pre.length m) := by
  induction xs generalizing pre m with
  | nil => cases m <;> simp_all [setPos, Spec.take, Spec.filter]
  | cons x xs ih =>
    cases m with
    | nil => simp at h
    | cons b m =>
      have h1 := ih (pre ++ [x]) m (by simpa using h)
      simp only [List.append_assoc, List.cons_append, List.nil_append, List.length_append, List.length_cons, List.length_nil, Nat.zero_add] at h1
      cases b with
      | true =>
        simp only [setPos, if_true]
        rw [Spec.take_cons (by simp), ← h1]
        simp
      | false => simpa [setPos] using h1

theorem setPos_lt (s : Nat) (m : List Bool) : ∀ i ∈ setPos s m, s ≤ i ∧ i < s + m.length := by
  induction m generalizing s with
  | nil => simp [setPos]
  | cons b m ih =>
    intro i hi
    have key : ∀ j ∈ setPos (s + 1) m, s ≤ j ∧ j < s + (b :: m).length := by
      intro j hj
      have := ih (s + 1) j hj
      simp only [List.length_cons]; omega
    cases b with
    | true =>
      simp only [setPos, if_true, List.mem_cons] at hi
      rcases hi with rfl | hi
      · simp
      · exact key i hi
    | false => exact key i (by simpa [setPos] using hi)

theorem setPos_length (s : Nat) (m : List Bool) : (setPos s m).length = m.count true := by
  induction m generalizing s with
  | nil => rfl
  | cons b m ih => cases b <;> simp [setPos, ih]

theorem filter_eq_take {xs : List α} {m : List Bool} (h : m.length = xs.length) : Spec.filter xs m = Spec.take xs (setPos 0 m) := by
  simpa using filter_setPos [] xs m h

theorem structRows_filter (n : Nat) (cols : List (List SV)) (mk m : List Bool) (hm : m.length = n) (hmk : mk.length = n) (hc : ∀ c ∈ cols, c.length = n) :
    Spec.filter (structRows n cols mk) m = structRows (m.count true) (cols.map (fun c => Spec.filter c m)) (Spec.filter mk m) := by
  have hb : ∀ i ∈ setPos 0 m, i < n := fun i hi => by have := setPos_lt 0 m i hi; omega
  rw [filter_eq_take (by simp [hm]), structRows_take n cols mk _ hb hmk hc, setPos_length, filter_eq_take (xs := mk) (by omega)]
  congr 1
  apply List.map_congr_left
  intro c hcc
  rw [filter_eq_take (by rw [hc c hcc]; exact hm)]

theorem filter_struct (hl : LeafLaws env.toEnv leafRows ok) {o : Bulks L} {d : Nat} (H : BLaws env leafRows ok o d) (names : List Str)
    (fs : List (Arr L)) (n : Nat) (v : TVal (Arr L)) (m : List Bool) (hw : WF env.toEnv leafRows ok (.struct names fs n v))
    (hbk : Bulk env.toEnv leafRows env.temporal true (.struct names fs n v)) (hd : depth (.struct names fs n v) ≤ d + 1) (hm : m.length = n) :
    Taken env leafRows ok true (filterFn env o (.struct names fs n v) m) (.struct names fs n v)
      (Spec.filter (rows env.toEnv leafRows (.struct names fs n v)) m) := by
  simp only [WF, Bulk, depth] at hw hbk hd
  obtain ⟨hw1, hw2, hw3, hw4⟩ := hw
  obtain ⟨gs, g1, g2, g3, g4, g5, g6, g7, g8⟩ := filter_each H n m hm fs hw2 hbk.1 (by omega) hw3
  obtain ⟨w, h1, h2, h3, h4, h5, h6, h7⟩ := filterV_ok H hw4 hbk.2 (by omega) hm
  have hgl : ∀ c ∈ rowsEach env.toEnv leafRows gs, c.length = m.count true := by
    rw [g8]
    intro c hc
    obtain ⟨c', hc', rfl⟩ := List.mem_map.mp hc
    exact Spec.filter_length (by rw [hw3 c' hc']; exact hm.symm)
  have hlen : ∀ c ∈ gs, len env.toEnv c = m.count true := by
    intro c hc
    rw [len_eq hl c ((WFs_iff gs).mp g2 c hc)]
    exact hgl _ (by rw [rowsEach_eq]; exact List.mem_map_of_mem hc)
  have hall : gs.all (fun f => len env.toEnv f == m.count true) = true := by
    rw [List.all_eq_true]
    intro c hc
    simpa using hlen c hc
  have hhead : (gs.head?.map (len env.toEnv)).getD (m.count true) = m.count true := by
    cases gs with
    | nil => rfl
    | cons c cs => simpa using hlen c (by simp)
  refine ⟨.struct names gs (m.count true) w, ?_, ?_, ?_, ⟨?_, ?_, ?_, ?_⟩, by simp [isPatches], ?_⟩
  · simp only [filterFn, g1, h1, hhead, mkStruct, Res.guard, hw1, g7, hall, checkV_ok hl h2, Res.ok_bind, beq_self_eq_true, if_true]
  · simp only [WF]; exact ⟨by rw [hw1, g7], g2, hgl, h2⟩
  · simp only [Bulk]; exact ⟨g3, h3⟩
  · simp only [depth]; omega
  · simp only [dtype, g5, h5]
  · simp only [chunkFree, Bool.and_eq_true]; exact fun h => ⟨g6 h.1, h6 h.2⟩
  · simp [Nice]
  · simp only [rows]
    rw [structRows_filter n _ _ m hm (maskOf_length hw4) hw3, g8, h7]

theorem filter_sparse (hl : LeafLaws env.toEnv leafRows ok) {o : Bulks L} {d : Nat} (H : BLaws env leafRows ok o d) (js : List Nat)
    (values : Arr L) (n off : Nat) (fill : SV) (m : List Bool) (hw : WF env.toEnv leafRows ok (.sparse js values n off fill))
    (hbk : Bulk env.toEnv leafRows env.temporal true (.sparse js values n off fill)) (hd : depth (.sparse js values n off fill) ≤ d + 1)
    (hm : m.length = n) :
    Taken env leafRows ok true (filterFn env o (.sparse js values n off fill) m) (.sparse js values n off fill)
      (Spec.filter (rows env.toEnv leafRows (.sparse js values n off fill)) m) := by
  have hw' := hw
  simp only [WF] at hw'
  obtain ⟨coords, ps, h0, h1, h2, h3, h4, h5⟩ := sparse_filter_shadow fill hw'.2.2.2.1 hw'.2.2.1 hw'.2.2.2.2 m hm
  have := sparse_out hl H js values n off fill hw hbk hd ps (m.count true) _ h2 h3 h4 h5
  simpa only [filterFn, h0, h1, Res.ok_bind, rows] using this

theorem filter_ext {o : Bulks L} {d : Nat} (H : BLaws env leafRows ok o d) (id : Str) (md : Option (List UInt8)) (s : Arr L) (m : List Bool)
    (hw : WF env.toEnv leafRows ok (.ext id md s)) (hbk : Bulk env.toEnv leafRows env.temporal true (.ext id md s))
    (hd : depth (.ext id md s) ≤ d + 1) (hm : m.length = (rows env.toEnv leafRows (.ext id md s)).length) :
    Taken env leafRows ok true (filterFn env o (.ext id md s) m) (.ext id md s) (Spec.filter (rows env.toEnv leafRows (.ext id md s)) m) := by
  simp only [WF] at hw
  simp only [Bulk] at hbk
  simp only [depth] at hd
  simp only [rows] at hm ⊢
  obtain ⟨h1, h2⟩ := hbk
  obtain ⟨hn, p, n, hdt, htm⟩ := h2 trivial
  obtain ⟨k, vals, v, c1, c2, c3, c4⟩ := H.canon s hw hn (by omega)
  have hcd := c3.depth
  simp only [depth] at hcd
  have hcn := c3.nice hn
  simp only [Nice] at hcn
  have hk : k = .prim p ∧ n = v.nullable := by
    have := c3.dtype
    simp only [dtype, hdt] at this
    obtain ⟨g1, g2⟩ := kind_of_dtype this
    simp only [kindOf, Option.some.injEq] at g1
    exact ⟨g1.symm, by simpa [DType.isNullable] using g2⟩
  obtain ⟨rfl, rfl⟩ := hk
  obtain ⟨b, t1, t2, t3, t4, _, t5⟩ := filter_flat H c2 hcn (by omega) (m := m) (by rw [← flat_rows_len c2, c4]; exact hm)
  have hkeep := t4.trans c3
  refine ⟨.ext id md b, ?_, by simpa only [WF] using t2, ?_, ⟨?_, ?_, ?_, by simp [Nice]⟩, by simp [isPatches], by simp only [rows]; rw [t5, c4]⟩
  · simp only [filterFn, canonFn, Res.ok_bind, filterArrow, filterTemporal, htm, c1, asFlat, if_true, dtype, hdt, DType.isNullable, t1]
  · simp only [Bulk]
    exact ⟨t3, fun _ => ⟨hkeep.nice hn, p, _, hkeep.dtype.trans hdt, htm⟩⟩
  · have := hkeep.depth
    simp only [depth]; omega
  · simp only [dtype, hkeep.dtype]
  · simp only [chunkFree]; exact hkeep.chunkFree

/-- `filter` one level up. -/
theorem filter_step (hl : LeafLaws env.toEnv leafRows ok) (lb : LeafBulk env leafRows ok) {o : Bulks L} {d : Nat} (H : BLaws env leafRows ok o d)
    (a : Arr L) (m : List Bool) (hw : WF env.toEnv leafRows ok a) (hbk : Bulk env.toEnv leafRows env.temporal true a) (hd : depth a ≤ d + 1)
    (hm : m.length = (rows env.toEnv leafRows a).length) :
    Taken env leafRows ok true (filterChecked env o a m) a (Spec.filter (rows env.toEnv leafRows a) m) := by
  have hlen := len_eq hl a hw
  have hne : ¬ m.length ≠ len env.toEnv a := by omega
  simp only [filterChecked, if_neg hne]
  cases a with
  | leaf l =>
    simp only [WF] at hw
    simp only [rows] at hm ⊢
    obtain ⟨b, h1, h2, h3, h4⟩ := lb.filter l m hw hm
    exact ⟨b, h1, h2, Nice.bulk b (h3.nice (by simp [Nice])), h3, by simp [isPatches], h4⟩
  | flat k vals v =>
    simp only [Bulk] at hbk
    have := filter_decoded H (a := .flat k vals v) (r := .ok (.flat k vals v)) (m := m)
      ⟨k, vals, v, rfl, hw, ⟨Nat.le_refl _, rfl, fun h => h, fun h => h⟩, rfl⟩ (by simpa only [Nice] using hbk) hd hm rfl
    simpa only [filterFn, canonFn] using this
  | null n =>
    simp only [rows, List.length_replicate] at hm ⊢
    refine ⟨.null (m.count true), by simp [filterFn, canonFn, filterArrow], trivial, trivial, ⟨Nat.le_refl _, rfl, fun _ => rfl, by simp [Nice]⟩,
      by simp [isPatches], ?_⟩
    simp only [rows]
    rw [Spec.filter_replicate _ _ _ hm]
  | const dt x n =>
    simp only [rows, List.length_replicate] at hm ⊢
    refine ⟨.const dt x (m.count true), rfl, by simpa only [WF] using hw, by simp [Bulk],
      ⟨Nat.le_refl _, rfl, fun _ => rfl, by simp only [Nice]; exact fun h => h⟩, by simp [isPatches], ?_⟩
    simp only [rows]
    rw [Spec.filter_replicate _ _ _ hm]
  | chunked dt cs => exact filter_chunked hl H dt cs m hw hbk hd hm
  | struct names fs n v => simp only [len] at hlen; exact filter_struct hl H names fs n v m hw hbk hd (by omega)
  | ext id md s => exact filter_ext H id md s m hw hbk hd hm
  | sparse js values n off fill => simp only [len] at hlen; exact filter_sparse hl H js values n off fill m hw hbk hd (by omega)
  | dict codes values =>
    have hw' := hw
    simp only [WF] at hw'
    simp only [Bulk] at hbk
    simp only [depth] at hd
    simp only [rows, List.length_map] at hm ⊢
    obtain ⟨b, b1, b2, b3, b4, _, b5⟩ := H.filter codes m hw'.1 hbk (by omega) hm
    have := dict_out hw b2 b3 b4 (by rw [b5]; exact fun r hr => mem_filter' hr)
      (want := Spec.filter ((rows env.toEnv leafRows codes).map (deref (rows env.toEnv leafRows values))) m) (by rw [b5, Spec.filter_map])
    simpa only [filterFn, b1, Res.ok_bind] using this
  | runEnd ends values v off n =>
    have hnice : Nice env.toEnv leafRows (.runEnd ends values v off n) := by simpa only [Nice, Bulk] using hbk
    have := filter_decoded H (canon_runEnd H ends values v off n hw hnice hd) hnice hd hm rfl
    simpa only [filterFn] using this
  | mapped c enc =>
    have hw' := hw
    simp only [WF] at hw'
    cases c with
    | zigzag =>
      simp only [Bulk] at hbk
      have hnice : Nice env.toEnv leafRows (.mapped .zigzag enc) := by simpa only [Nice] using hbk
      have := filter_decoded H (canon_mapped lb H .zigzag enc hw hnice hd) hnice hd hm rfl
      simpa only [filterFn] using this
    | «for» p r s =>
      simp only [Bulk] at hbk
      simp only [depth] at hd
      simp only [rows, List.length_map] at hm ⊢
      obtain ⟨b, b1, b2, b3, b4, _, b5⟩ := H.filter enc m hw'.1 hbk (by omega) hm
      have := mapped_out hw b2 (by simpa only [Bulk] using b3) b4 (by rw [b5]; exact fun r hr => mem_filter' hr)
        (want := Spec.filter ((rows env.toEnv leafRows enc).map (decRow env.toEnv (.for p r s))) m) (by rw [b5, Spec.filter_map])
      simpa only [filterFn, b1, Res.ok_bind] using this
    | alp e g =>
      simp only [Bulk] at hbk
      simp only [depth] at hd
      simp only [rows, List.length_map] at hm ⊢
      obtain ⟨b, b1, b2, b3, b4, _, b5⟩ := H.filter enc m hw'.1 hbk (by omega) hm
      have := mapped_out hw b2 (by simpa only [Bulk] using b3) b4 (by rw [b5]; exact fun r hr => mem_filter' hr)
        (want := Spec.filter ((rows env.toEnv leafRows enc).map (decRow env.toEnv (.alp e g))) m) (by rw [b5, Spec.filter_map])
      simpa only [filterFn, b1, Res.ok_bind] using this
  | alpP e g enc patches =>
    have hw' := hw
    simp only [WF] at hw'
    simp only [Bulk] at hbk
    simp only [depth] at hd
    simp only [rows, List.length_zipWith] at hm ⊢
    have hpl := hw'.2.2.1
    obtain ⟨x, x1, x2, x3, x4, _, x5⟩ := H.filter enc m hw'.1 hbk.1 (by omega) (by omega)
    obtain ⟨p, p1, p2, p3, p4, p6, p5⟩ := H.filter patches m hw'.2.1 hbk.2 (by omega) (by omega)
    have := alpP_out hl hw x2 x3 x4 p2 p3 p4 p6
      (by rw [x5, p5, Spec.filter_length (by omega), Spec.filter_length (by omega)])
      (by rw [x5]; exact fun r hr => mem_filter' hr) (by rw [p5]; exact fun r hr => mem_filter' hr)
      (want := Spec.filter (List.zipWith (patchRow env.toEnv e g) (rows env.toEnv leafRows enc) (rows env.toEnv leafRows patches)) m)
      (by rw [x5, p5, Spec.filter_zipWith _ _ _ _ hpl.symm])
    simpa only [filterFn, x1, p1, Res.ok_bind] using this

/-- The laws of the entry points hold for trees of every depth. -/
theorem blaws (hl : LeafLaws env.toEnv leafRows ok) (lb : LeafBulk env leafRows ok) : ∀ d, BLaws env leafRows ok (bulks env d) d
  | 0 => by
    refine ⟨?_, ?_, ?_, ?_⟩
    · intro a; intros; have := depth_pos a; omega
    · intro a; intros; have := depth_pos a; omega
    · intro f a; intros; have := depth_pos a; omega
    · intro a; intros; have := depth_pos a; omega
  | d + 1 => by
    have H := blaws hl lb d
    refine ⟨?_, ?_, ?_, ?_⟩
    · intro a hw hn hd; exact canon_step hl lb H a hw hn hd
    · intro a hw hn hd ht; exact valid_step hl lb H a hw hn hd ht
    · intro f a is hw hb hd hi hs; exact take_step hl lb H a is hw hb hd hi hs
    · intro a m hw hb hd hm; exact filter_step hl lb H a m hw hb hd hm

end Vx.Tree
