import Verif.Lemmas.TreeCanon
/-! # `take` on trees -/
namespace Vx.Tree
open Vx.Spec (InBounds FitsLen)

variable {L : Type} {env : BEnv L} {leafRows : L → List SV} {ok : L → Prop} {f : Bool}

theorem Keep.trans {a b c : Arr L} (h : Keep env leafRows c b) (g : Keep env leafRows b a) : Keep env leafRows c a :=
  ⟨Nat.le_trans h.depth g.depth, h.dtype.trans g.dtype, fun x => h.chunkFree (g.chunkFree x), fun x => h.nice (g.nice x)⟩

/-- What `take` promises. -/
def Taken (env : BEnv L) (leafRows : L → List SV) (ok : L → Prop) (f : Bool) (r : Res (Arr L)) (a : Arr L) (want : List SV) : Prop :=
  ∃ b, r = .ok b ∧ WF env.toEnv leafRows ok b ∧ Bulk env.toEnv leafRows env.temporal f b ∧ Keep env leafRows b a ∧
    (isPatches a = true → isPatches b = true) ∧ rows env.toEnv leafRows b = want

theorem take_flat {o : Bulks L} {d : Nat} (H : BLaws env leafRows ok o d) {k : Kind} {vals : List SV} {v : TVal (Arr L)} {is : List Nat}
    (hw : WF env.toEnv leafRows ok (.flat k vals v)) (hn : NiceV env.toEnv leafRows v) (hd : depthV v ≤ d) (hb : ∀ i ∈ is, i < vals.length)
    (hc : is ≠ [] ∨ chunkFreeV v = true) :
    Taken env leafRows ok f (takeFlat o k vals v is) (.flat k vals v) (Spec.take (rows env.toEnv leafRows (.flat k vals v)) is) := by
  obtain ⟨w, h1, h2, h3, h4, h5⟩ := takeFlat_ok H hw hn hd hb hc
  exact ⟨_, h1, h2, by simpa only [Bulk] using h4, h3, by simp [isPatches], h5⟩

theorem strictIdx_sorted {is : List Nat} (h : strictIdx is = true) : is.Pairwise (· < ·) := by
  simp only [strictIdx, Bool.and_eq_true] at h
  exact RunEnd.strictSorted_iff.mp h.2

/-- What the chunks of a chunked array have in common. -/
def ChunkGood (env : BEnv L) (leafRows : L → List SV) (ok : L → Prop) (f : Bool) (dt : DType) (cs : List (Arr L)) (c : Arr L) : Prop :=
  WF env.toEnv leafRows ok c ∧ Bulk env.toEnv leafRows env.temporal f c ∧ depth c ≤ depths cs ∧ dtype env.toEnv c = dt ∧
    (Nices env.toEnv leafRows cs → Nice env.toEnv leafRows c)

theorem chunks_good {dt : DType} {cs : List (Arr L)} (hw : WF env.toEnv leafRows ok (.chunked dt cs))
    (hb : Bulk env.toEnv leafRows env.temporal f (.chunked dt cs)) : ∀ c ∈ cs, ChunkGood env leafRows ok f dt cs c := by
  simp only [WF, Bulk] at hw hb
  exact fun c hc => ⟨(WFs_iff cs).mp hw.1 c hc, (BulkAll_iff cs).mp hb c hc, (depths_le cs _).mp (Nat.le_refl _) c hc,
      hw.2 _ (by rw [dtypes_eq]; exact List.mem_map_of_mem hc), fun h => (Nices_iff cs).mp h c hc⟩

theorem chunks_out {dt : DType} {cs out : List (Arr L)} {want : List SV} (h : ∀ c ∈ out, ChunkGood env leafRows ok f dt cs c)
    (hr : Chunked.rows (rows env.toEnv leafRows) out = want) :
    Taken env leafRows ok f (mkChunked env.toEnv dt out) (.chunked dt cs) want := by
  have hdt : out.all (fun c => decide (dtype env.toEnv c = dt)) = true := by
    rw [List.all_eq_true]; intro c hc; simpa using (h c hc).2.2.2.1
  refine ⟨.chunked dt out, by simp only [mkChunked, Res.guard, hdt, Res.ok_bind, if_true], ?_, ?_, ⟨?_, rfl, ?_, ?_⟩, by simp [isPatches], ?_⟩
  · simp only [WF]
    refine ⟨(WFs_iff out).mpr (fun c hc => (h c hc).1), ?_⟩
    rw [dtypes_eq]
    intro x hx
    obtain ⟨c, hc, rfl⟩ := List.mem_map.mp hx
    exact (h c hc).2.2.2.1
  · simp only [Bulk]; exact (BulkAll_iff out).mpr (fun c hc => (h c hc).2.1)
  · simp only [depth]
    have := (depths_le out (depths cs)).mpr (fun c hc => (h c hc).2.2.1)
    omega
  · simp [chunkFree]
  · simp only [Nice]
    exact fun g => ⟨g.1, (Nices_iff out).mpr (fun c hc => (h c hc).2.2.2.2 g.2)⟩
  · simp only [rows]
    rw [rowsEach_eq, ← Chunked.rows_eq_flatten, hr]

theorem chunk_take {o : Bulks L} {d : Nat} (H : BLaws env leafRows ok o d) {dt : DType} {cs : List (Arr L)} (hd : depths cs ≤ d) :
    Chunked.TakeLaw (ChunkGood env leafRows ok f dt cs) (rows env.toEnv leafRows) o.take := by
  intro c is hc hne hb
  obtain ⟨b, b1, b2, b3, b4, _, b5⟩ := H.take f c is hc.1 hc.2.1 (by have := hc.2.2.1; omega) hb (Or.inl hne)
  exact ⟨b, b1, ⟨b2, b3, Nat.le_trans b4.depth hc.2.2.1, by rw [b4.dtype, hc.2.2.2.1], fun h => b4.nice (hc.2.2.2.2 h)⟩, b5⟩

theorem take_chunked (hl : LeafLaws env.toEnv leafRows ok) {o : Bulks L} {d : Nat} (H : BLaws env leafRows ok o d) (dt : DType)
    (cs : List (Arr L)) (is : List Nat) (hw : WF env.toEnv leafRows ok (.chunked dt cs))
    (hbk : Bulk env.toEnv leafRows env.temporal f (.chunked dt cs)) (hd : depth (.chunked dt cs) ≤ d + 1)
    (hb : ∀ i ∈ is, i < (rows env.toEnv leafRows (.chunked dt cs)).length) (hne : is ≠ []) :
    Taken env leafRows ok f (takeFn env o (.chunked dt cs) is) (.chunked dt cs) (Spec.take (rows env.toEnv leafRows (.chunked dt cs)) is) := by
  have hg := chunks_good hw hbk
  simp only [depth] at hd
  have hflat : rows env.toEnv leafRows (.chunked dt cs) = Chunked.rows (rows env.toEnv leafRows) cs := by
    simp only [rows]; rw [rowsEach_eq, Chunked.rows_eq_flatten]
  rw [hflat] at hb ⊢
  obtain ⟨out, h1, h2, h3⟩ := Chunked.C22_take_partial (len := len env.toEnv) (fun c hc => len_eq hl c hc.1) (chunk_take (f := f) H (by omega))
    (strictIdx is) cs hg is hne hb (fun h => strictIdx_sorted h)
  have := chunks_out h2 h3
  simpa only [takeFn, h1, Res.ok_bind] using this

/-- Taking from a list of equally long arrays. -/
theorem take_each {o : Bulks L} {d : Nat} (H : BLaws env leafRows ok o d) (n : Nat) (is : List Nat) (hb : ∀ i ∈ is, i < n) :
    ∀ (fs : List (Arr L)), WFs env.toEnv leafRows ok fs → BulkAll env.toEnv leafRows env.temporal f fs → depths fs ≤ d →
      (∀ c ∈ rowsEach env.toEnv leafRows fs, c.length = n) → (is ≠ [] ∨ chunkFrees fs = true) →
    ∃ gs, Res.mapM (fun x => o.take x is) fs = .ok gs ∧ WFs env.toEnv leafRows ok gs ∧ BulkAll env.toEnv leafRows env.temporal f gs ∧
      depths gs ≤ depths fs ∧ dtypes env.toEnv gs = dtypes env.toEnv fs ∧ (chunkFrees fs = true → chunkFrees gs = true) ∧
      gs.length = fs.length ∧ rowsEach env.toEnv leafRows gs = (rowsEach env.toEnv leafRows fs).map (fun c => Spec.take c is)
  | [], _, _, _, _, _ => ⟨[], rfl, trivial, trivial, Nat.le_refl _, rfl, fun h => h, rfl, by simp [rowsEach]⟩
  | x :: fs, hw, hr, hd, hn, hs => by
    simp only [WFs, BulkAll, depths, rowsEach, List.mem_cons, forall_eq_or_imp, chunkFrees, Bool.and_eq_true] at hw hr hd hn hs
    obtain ⟨b, b1, b2, b3, b4, _, b5⟩ := H.take f x is hw.1 hr.1 (by omega) (by rw [hn.1]; exact hb) (hs.imp_right And.left)
    obtain ⟨gs, g1, g2, g3, g4, g5, g6, g7, g8⟩ := take_each H n is hb fs hw.2 hr.2 (by omega) hn.2 (hs.imp_right And.right)
    refine ⟨b :: gs, by simp [b1, g1], ⟨b2, g2⟩, ⟨b3, g3⟩, ?_, by simp [dtypes, b4.dtype, g5], ?_, by simp [g7], by simp [rowsEach, b5, g8]⟩
    · have := b4.depth
      simp only [depths]; omega
    · simp only [chunkFrees, Bool.and_eq_true]
      exact fun h => ⟨b4.chunkFree h.1, g6 h.2⟩

theorem take_getElem? {xs : List α} {is : List Nat} (hb : ∀ i ∈ is, i < xs.length) {j : Nat} :
    (Spec.take xs is)[j]? = is[j]? >>= fun i => xs[i]? := by
  induction is generalizing j with
  | nil => simp [Spec.take]
  | cons i is ih =>
    have hi := hb i (by simp)
    rw [Spec.take_cons hi]
    cases j with
    | zero => simp [List.getElem?_eq_getElem hi]
    | succ j => simpa using ih (fun k hk => hb k (by simp [hk]))

theorem structRows_take (n : Nat) (cols : List (List SV)) (m : List Bool) (is : List Nat) (hb : ∀ i ∈ is, i < n)
    (hm : m.length = n) (hc : ∀ c ∈ cols, c.length = n) :
    Spec.take (structRows n cols m) is = structRows is.length (cols.map (fun c => Spec.take c is)) (Spec.take m is) := by
  apply List.ext_getElem?
  intro j
  rw [take_getElem? (by simpa using hb)]
  by_cases hj : j < is.length
  · have hij : is[j]? = some is[j] := List.getElem?_eq_getElem hj
    have hi := hb is[j] (List.getElem_mem hj)
    rw [hij]
    simp only [Option.bind_eq_bind, Option.bind_some]
    rw [structRows_getElem? _ _ _ _ hi, structRows_getElem? _ _ _ _ hj, take_getElem? (by rw [hm]; exact hb), hij]
    congr 1
    have : structRow (cols.map (fun c => Spec.take c is)) j = structRow cols is[j] := by
      simp only [structRow, List.map_map]
      congr 1
      apply List.map_congr_left
      intro c hcc
      simp only [Function.comp]
      rw [take_getElem? (by rw [hc c hcc]; exact hb), hij]
      rfl
    rw [this]
    rfl
  · rw [List.getElem?_eq_none (by omega), List.getElem?_eq_none (by simp; omega)]
    rfl

theorem take_struct (hl : LeafLaws env.toEnv leafRows ok) {o : Bulks L} {d : Nat} (H : BLaws env leafRows ok o d) (names : List Str)
    (fs : List (Arr L)) (n : Nat) (v : TVal (Arr L)) (is : List Nat) (hw : WF env.toEnv leafRows ok (.struct names fs n v))
    (hbk : Bulk env.toEnv leafRows env.temporal f (.struct names fs n v)) (hd : depth (.struct names fs n v) ≤ d + 1)
    (hb : ∀ i ∈ is, i < n) (hs : is ≠ [] ∨ chunkFree (.struct names fs n v) = true) :
    Taken env leafRows ok f (takeFn env o (.struct names fs n v) is) (.struct names fs n v)
      (Spec.take (rows env.toEnv leafRows (.struct names fs n v)) is) := by
  simp only [WF, Bulk, depth, chunkFree, Bool.and_eq_true] at hw hbk hd hs
  obtain ⟨hw1, hw2, hw3, hw4⟩ := hw
  obtain ⟨gs, g1, g2, g3, g4, g5, g6, g7, g8⟩ := take_each H n is hb fs hw2 hbk.1 (by omega) hw3 (hs.imp_right And.left)
  obtain ⟨w, h1, h2, h3, h4, h5, h6, h7⟩ := takeV_ok H hw4 hbk.2 (by omega) hb (hs.imp_right And.right)
  have hgl : ∀ c ∈ rowsEach env.toEnv leafRows gs, c.length = is.length := by
    rw [g8]
    intro c hc
    obtain ⟨c', hc', rfl⟩ := List.mem_map.mp hc
    exact Spec.take_length (by rw [hw3 c' hc']; exact hb)
  have hall : gs.all (fun f => len env.toEnv f == is.length) = true := by
    rw [List.all_eq_true]
    intro c hc
    rw [len_eq hl c ((WFs_iff gs).mp g2 c hc)]
    simpa using hgl _ (by rw [rowsEach_eq]; exact List.mem_map_of_mem hc)
  refine ⟨.struct names gs is.length w, ?_, ?_, ?_, ⟨?_, ?_, ?_, ?_⟩, by simp [isPatches], ?_⟩
  · simp only [takeFn, g1, h1, mkStruct, Res.guard, hw1, g7, hall, checkV_ok hl h2, Res.ok_bind, beq_self_eq_true, if_true]
  · simp only [WF]; exact ⟨by rw [hw1, g7], g2, hgl, h2⟩
  · simp only [Bulk]; exact ⟨g3, h3⟩
  · simp only [depth]; omega
  · simp only [dtype, g5, h5]
  · simp only [chunkFree, Bool.and_eq_true]; exact fun h => ⟨g6 h.1, h6 h.2⟩
  · simp [Nice]
  · simp only [rows]
    rw [structRows_take n _ _ is hb (maskOf_length hw4) hw3, g8, h7]

theorem checkLast_ok {is : List Nat} {n : Nat} (h : ∀ i ∈ is, i < n) : checkLast is n 0 = .ok () := by
  simp only [checkLast]
  cases hl : is.getLast? with
  | none => rfl
  | some x =>
    have := h x (List.mem_of_getLast? hl)
    simp only [Res.sub_of_le (Nat.zero_le x), Res.ok_bind]
    rw [if_neg (by omega)]

/-- The sparse array with the patches chosen by `take` or `filter`. -/
theorem sparse_out (hl : LeafLaws env.toEnv leafRows ok) {o : Bulks L} {d : Nat} (H : BLaws env leafRows ok o d) (js : List Nat)
    (values : Arr L) (n off : Nat) (fill : SV) (hw : WF env.toEnv leafRows ok (.sparse js values n off fill))
    (hbk : Bulk env.toEnv leafRows env.temporal f (.sparse js values n off fill)) (hd : depth (.sparse js values n off fill) ≤ d + 1)
    (ps : List (Nat × Nat)) (m : Nat) (want : List SV) (h1 : (ps.map (·.1)).Pairwise (· < ·)) (h2 : ∀ i ∈ ps.map (·.1), i < m)
    (h3 : ∀ k ∈ ps.map (·.2), k < (rows env.toEnv leafRows values).length)
    (h4 : Spec.patched m 0 fill ((ps.map (·.1)).zip (Spec.take (rows env.toEnv leafRows values) (ps.map (·.2)))) = want) :
    Taken env leafRows ok f (do let vs ← o.take values (ps.map (·.2)); mkSparse env.toEnv (ps.map (·.1)) vs m 0 fill)
      (.sparse js values n off fill) want := by
  simp only [WF, Bulk, depth] at hw hbk hd
  obtain ⟨b, b1, b2, b3, b4, _, b5⟩ := H.take f values (ps.map (·.2)) hw.1 hbk.1 (by omega) h3 (Or.inr hbk.2)
  have hlen : (ps.map (·.1)).length = (rows env.toEnv leafRows b).length := by
    rw [b5, Spec.take_length h3]; simp
  have hmk : mkSparse env.toEnv (ps.map (·.1)) b m 0 fill = .ok (.sparse (ps.map (·.1)) b m 0 fill) := by
    simp only [mkSparse, Res.guard, b4.dtype, hw.2.1, if_true, Res.ok_bind, len_eq hl b b2, hlen, beq_self_eq_true, checkLast_ok h2]
  refine ⟨_, by rw [b1, Res.ok_bind]; exact hmk, ?_, ?_, ⟨?_, ?_, ?_, ?_⟩, by simp [isPatches], ?_⟩
  · simp only [WF]
    exact ⟨b2, by rw [b4.dtype]; exact hw.2.1, hlen, h1, fun i hi => ⟨Nat.zero_le _, by have := h2 i hi; omega⟩⟩
  · simp only [Bulk]; exact ⟨b3, b4.chunkFree hbk.2⟩
  · have := b4.depth
    simp only [depth]; omega
  · simp only [dtype, b4.dtype]
  · simp only [chunkFree]; exact b4.chunkFree
  · simp only [Nice]
    rintro ⟨g1, g2, g3, g4⟩
    refine ⟨b4.nice g1, b4.chunkFree g2, by rw [b4.dtype]; exact g3, ?_⟩
    rw [b5]
    exact fun r hr => g4 r (mem_take hr)
  · simp only [rows]
    rw [b5, h4]

theorem take_sparse (hl : LeafLaws env.toEnv leafRows ok) {o : Bulks L} {d : Nat} (H : BLaws env leafRows ok o d) (js : List Nat)
    (values : Arr L) (n off : Nat) (fill : SV) (is : List Nat) (hw : WF env.toEnv leafRows ok (.sparse js values n off fill))
    (hbk : Bulk env.toEnv leafRows env.temporal f (.sparse js values n off fill)) (hd : depth (.sparse js values n off fill) ≤ d + 1)
    (hb : ∀ i ∈ is, i < n) :
    Taken env leafRows ok f (takeFn env o (.sparse js values n off fill) is) (.sparse js values n off fill)
      (Spec.take (rows env.toEnv leafRows (.sparse js values n off fill)) is) := by
  have hw' := hw
  simp only [WF] at hw'
  obtain ⟨ps, h1, h2, h3, h4, h5⟩ := sparse_take_shadow fill hw'.2.2.2.1 hw'.2.2.1 hw'.2.2.2.2 is hb
  have := sparse_out hl H js values n off fill hw hbk hd ps is.length _ h2 h3 h4 h5
  simpa only [takeFn, h1, Res.ok_bind, rows] using this

theorem dict_out {codes values c : Arr L} {want : List SV} (hw : WF env.toEnv leafRows ok (.dict codes values))
    (h2 : WF env.toEnv leafRows ok c) (h3 : Bulk env.toEnv leafRows env.temporal f c) (h4 : Keep env leafRows c codes)
    (hsub : ∀ r ∈ rows env.toEnv leafRows c, r ∈ rows env.toEnv leafRows codes)
    (hr : (rows env.toEnv leafRows c).map (deref (rows env.toEnv leafRows values)) = want) :
    Taken env leafRows ok f (mkDict env.toEnv c values) (.dict codes values) want := by
  simp only [WF] at hw
  obtain ⟨w1, w2, ⟨p, w3, w3'⟩, w4⟩ := hw
  refine ⟨.dict c values, by simp only [mkDict, h4.dtype, w3, w3', if_true], ?_, ?_, ⟨?_, rfl, ?_, ?_⟩, by simp [isPatches], by simpa only [rows] using hr⟩
  · simp only [WF]; exact ⟨h2, w2, ⟨p, by rw [h4.dtype]; exact w3, w3'⟩, fun r hr => w4 r (hsub r hr)⟩
  · simpa only [Bulk] using h3
  · have := h4.depth
    simp only [depth]; omega
  · simp only [chunkFree, Bool.and_eq_true]; exact fun h => ⟨h4.chunkFree h.1, h.2⟩
  · simp only [Nice]
    rintro ⟨g1, g2, g3, g4⟩
    exact ⟨h4.nice g1, g2, g3, fun hn r hr => g4 hn r (hsub r hr)⟩

theorem mapped_out {c : Codec} {enc x : Arr L} {want : List SV} (hw : WF env.toEnv leafRows ok (.mapped c enc))
    (h2 : WF env.toEnv leafRows ok x) (h3 : Bulk env.toEnv leafRows env.temporal f (.mapped c x)) (h4 : Keep env leafRows x enc)
    (hsub : ∀ r ∈ rows env.toEnv leafRows x, r ∈ rows env.toEnv leafRows enc)
    (hr : (rows env.toEnv leafRows x).map (decRow env.toEnv c) = want) :
    Taken env leafRows ok f (mkMapped env.toEnv c x) (.mapped c enc) want := by
  simp only [WF] at hw
  obtain ⟨out, hout⟩ := Option.isSome_iff_exists.mp hw.2.1
  refine ⟨.mapped c x, by simp only [mkMapped, h4.dtype, hout], ?_, h3, ⟨?_, ?_, ?_, ?_⟩, by simp [isPatches], by simpa only [rows] using hr⟩
  · simp only [WF]; exact ⟨h2, by rw [h4.dtype]; exact hw.2.1, fun r hr => hw.2.2 r (hsub r hr)⟩
  · have := h4.depth
    simp only [depth]; omega
  · simp only [dtype, h4.dtype]
  · simp only [chunkFree]; exact h4.chunkFree
  · simp only [Nice]; exact h4.nice

theorem alpP_out (hl : LeafLaws env.toEnv leafRows ok) {e g : Nat} {enc patches x p : Arr L} {want : List SV}
    (hw : WF env.toEnv leafRows ok (.alpP e g enc patches)) (x1 : WF env.toEnv leafRows ok x) (x2 : Bulk env.toEnv leafRows env.temporal f x)
    (x3 : Keep env leafRows x enc) (p1 : WF env.toEnv leafRows ok p) (p2 : Bulk env.toEnv leafRows env.temporal f p)
    (p3 : Keep env leafRows p patches) (p4 : isPatches patches = true → isPatches p = true)
    (hlen : (rows env.toEnv leafRows p).length = (rows env.toEnv leafRows x).length)
    (hx : ∀ r ∈ rows env.toEnv leafRows x, r ∈ rows env.toEnv leafRows enc) (hp : ∀ r ∈ rows env.toEnv leafRows p, r ∈ rows env.toEnv leafRows patches)
    (hr : List.zipWith (patchRow env.toEnv e g) (rows env.toEnv leafRows x) (rows env.toEnv leafRows p) = want) :
    Taken env leafRows ok f (mkAlpP env.toEnv e g x p) (.alpP e g enc patches) want := by
  simp only [WF] at hw
  obtain ⟨w1, w2, w3, ⟨out, w4, w5⟩, w6, w7, w8⟩ := hw
  refine ⟨.alpP e g x p, ?_, ?_, ?_, ⟨?_, ?_, ?_, ?_⟩, by simp [isPatches], by simpa only [rows] using hr⟩
  · simp only [mkAlpP, x3.dtype, w4, len_eq hl p p1, len_eq hl x x1, hlen, p3.dtype, w5, w6]
    simp
  · simp only [WF]
    exact ⟨x1, p1, hlen, ⟨out, by rw [x3.dtype]; exact w4, by rw [p3.dtype]; exact w5⟩, by rw [p3.dtype]; exact w6,
      fun r hr => w7 r (hx r hr), fun r hr => w8 r (hp r hr)⟩
  · simp only [Bulk]; exact ⟨x2, p2⟩
  · have := x3.depth
    have := p3.depth
    simp only [depth]; omega
  · simp only [dtype, x3.dtype]
  · simp only [chunkFree, Bool.and_eq_true]; exact fun h => ⟨x3.chunkFree h.1, p3.chunkFree h.2⟩
  · simp only [Nice]
    exact fun h => ⟨x3.nice h.1, p3.nice h.2.1, p4 h.2.2⟩

theorem take_runEnd (hl : LeafLaws env.toEnv leafRows ok) {o : Bulks L} {d : Nat} (H : BLaws env leafRows ok o d) (ends : List Nat)
    (values : Arr L) (v : TVal (Arr L)) (off n : Nat) (is : List Nat) (hw : WF env.toEnv leafRows ok (.runEnd ends values v off n))
    (hn : Nice env.toEnv leafRows (.runEnd ends values v off n)) (hd : depth (.runEnd ends values v off n) ≤ d + 1)
    (hb : ∀ i ∈ is, i < n) (hs : is ≠ [] ∨ chunkFree (.runEnd ends values v off n) = true) :
    Taken env leafRows ok f (takeFn env o (.runEnd ends values v off n) is) (.runEnd ends values v off n)
      (Spec.take (rows env.toEnv leafRows (.runEnd ends values v off n)) is) := by
  simp only [WF] at hw
  simp only [Nice] at hn
  simp only [depth] at hd
  simp only [chunkFree, Bool.and_eq_true] at hs
  obtain ⟨w1, w2, w3, w4, w5, w6, w7, w8⟩ := hw
  obtain ⟨n1, n2, n3, p, nn, n4⟩ := hn
  obtain ⟨ph, r1, r2, r3, r4⟩ := run_take_shadow w4 w5 w6 w7 is hb
  obtain ⟨e1, e2, e3⟩ := run_decode w4 w5 w6 w7
  obtain ⟨D, b1, b2, b3, b4, _, b5⟩ := H.take f values ph w1 (Nice.bulk values n1) (by omega) r3 (Or.inr n3)
  have hDl : (rows env.toEnv leafRows D).length = is.length := by rw [b5, Spec.take_length r3, r2]
  have hDn : ∀ r ∈ rows env.toEnv leafRows D, r.isNull = false := by
    rw [b5]; exact fun r hr => w8 r (mem_take hr)
  have hwant : Spec.take (rows env.toEnv leafRows (.runEnd ends values v off n)) is =
      masked (rows env.toEnv leafRows D) (Spec.take (maskOf env.toEnv leafRows v n) is) := by
    simp only [rows]
    rw [masked_take _ _ _ (by rw [e2, maskOf_length w2]) (by rw [e2]; exact hb), b5, r4]
  have hdense : v = .nonNullable ∨ v = .allValid →
      Taken env leafRows ok f (Res.ok D) (.runEnd ends values v off n) (Spec.take (rows env.toEnv leafRows (.runEnd ends values v off n)) is) := by
    intro hv
    refine ⟨D, rfl, b2, b3, ⟨?_, ?_, ?_, ?_⟩, by simp [isPatches], ?_⟩
    · have := b4.depth; simp only [depth]; omega
    · simp only [dtype]; exact b4.dtype
    · simp only [chunkFree, Bool.and_eq_true]; exact fun h => b4.chunkFree h.1
    · exact fun _ => b4.nice n1
    · rw [hwant]
      have : Spec.take (maskOf env.toEnv leafRows v n) is = List.replicate (rows env.toEnv leafRows D).length true := by
        rcases hv with rfl | rfl <;> simp only [maskOf] <;> rw [take_replicate _ _ _ hb, hDl]
      rw [this, masked_replicate_true]
  have hstep : takeFn env o (.runEnd ends values v off n) is = takeNulls env o (dtype env.toEnv values) v D is := by
    simp only [takeFn, r1, b1, Res.ok_bind]
  rw [hstep]
  cases v with
  | nonNullable => exact hdense (Or.inl rfl)
  | allValid => exact hdense (Or.inr rfl)
  | allInvalid =>
    simp only [TVal.nullable] at w3
    refine ⟨.const (dtype env.toEnv values) .null is.length, rfl, ?_, by simp [Bulk], ⟨?_, ?_, ?_, ?_⟩, by simp [isPatches], ?_⟩
    · simp only [WF]
      cases hdt : dtype env.toEnv values <;> rw [hdt] at w3 <;> simpa [inst, DType.isNullable] using w3
    · simp only [depth]; omega
    · simp only [dtype]
    · intro _; rfl
    · intro _; simp [Nice, n4, kindOf]
    · rw [hwant]
      simp only [maskOf]
      rw [take_replicate _ _ _ hb, ← hDl, masked_replicate_false]
      simp only [rows]
  | array a =>
    simp only [WFV] at w2
    simp only [NiceV] at n2
    simp only [depthV] at hd
    simp only [chunkFreeV] at hs
    obtain ⟨v1, v2, v3, v4⟩ := w2
    obtain ⟨dv, t1, t2, t3, t4, _, t5⟩ := H.take true a is v1 (Nice.bulk a n2) (by omega) (by rw [v3]; exact hb) (hs.imp_right And.right)
    have hbits := bitsOf_ok H t2 (t4.nice n2) (by have := t4.depth; omega) (by rw [t4.dtype, v2]) (by rw [t5]; exact fun r hr => v4 r (mem_take hr))
    rw [t5] at hbits
    generalize hbv : (Spec.take (rows env.toEnv leafRows a) is).map isTrue = bits at hbits
    have hbl : bits.length = is.length := by
      rw [← hbv, List.length_map, Spec.take_length (by rw [v3]; exact hb)]
    obtain ⟨F, g1, g2, g3, g4, _, g5⟩ := H.filter D bits b2 (Nice.bulk D (b4.nice n1)) (by have := b4.depth; omega) (by omega)
    have hmask : Spec.take (maskOf env.toEnv leafRows (.array a) n) is = bits := by
      rw [maskOf_array, Spec.take_map, hbv]
    have hpm := patched_of_mask (rows env.toEnv leafRows D) bits (by omega)
    have hidx : (RunEnd.setIndices bits).length = (rows env.toEnv leafRows F).length := by
      rw [g5, Spec.filter_length (by omega)]
      exact RunEnd.setIndices_length bits
    have hlt : ∀ i ∈ RunEnd.setIndices bits, i < bits.length := fun i hi => by simp only [RunEnd.setIndices, List.mem_filter, List.mem_range] at hi; exact hi.1
    have hnul : inst .null (dtype env.toEnv F) = true := by
      rw [g4.dtype, b4.dtype, n4]
      rw [n4] at w3
      simpa [inst, DType.isNullable, TVal.nullable] using w3
    have hlen : len env.toEnv dv = bits.length := by
      rw [len_eq hl dv t2, t5, Spec.take_length (by rw [v3]; exact hb), hbl]
    have hFn : ∀ r ∈ rows env.toEnv leafRows F, r.isNull = false := by
      rw [g5]; exact fun r hr => hDn r (mem_filter' hr)
    have hcf : chunkFree F = true := g4.chunkFree (b4.chunkFree n3)
    have hnF : Nice env.toEnv leafRows F := g4.nice (b4.nice n1)
    refine ⟨.sparse (RunEnd.setIndices bits) F bits.length 0 .null, ?_, ?_, ?_, ⟨?_, ?_, ?_, ?_⟩, by simp [isPatches], ?_⟩
    · simp only [takeNulls, t1, hbits, g1, Res.ok_bind, mkSparse, Res.guard, hnul, if_true, len_eq hl F g2, hidx, beq_self_eq_true, hlen,
        checkLast_ok hlt]
    · simp only [WF]
      exact ⟨g2, hnul, hidx, RunEnd.setIndices_strict bits, fun i hi => ⟨Nat.zero_le _, by have := hlt i hi; omega⟩⟩
    · simp only [Bulk]
      exact ⟨Nice.bulk F hnF, hcf⟩
    · have := g4.depth
      have := b4.depth
      simp only [depth]; omega
    · simp only [dtype]; rw [g4.dtype, b4.dtype]
    · intro _; simpa only [chunkFree] using hcf
    · intro _
      simp only [Nice]
      exact ⟨hnF, hcf, Or.inl ⟨p, nn, by rw [g4.dtype, b4.dtype, n4], fun _ => rfl⟩, hFn⟩
    · rw [hwant, hmask]
      simp only [rows]
      rw [g5, hpm]

/-- `take` one level up. -/
theorem take_step (hl : LeafLaws env.toEnv leafRows ok) (lb : LeafBulk env leafRows ok) {o : Bulks L} {d : Nat} (H : BLaws env leafRows ok o d)
    (a : Arr L) (is : List Nat) (hw : WF env.toEnv leafRows ok a) (hbk : Bulk env.toEnv leafRows env.temporal f a) (hd : depth a ≤ d + 1)
    (hb : ∀ i ∈ is, i < (rows env.toEnv leafRows a).length) (hs : is ≠ [] ∨ chunkFree a = true) :
    Taken env leafRows ok f (takeFn env o a is) a (Spec.take (rows env.toEnv leafRows a) is) := by
  have hlen := len_eq hl a hw
  cases a with
  | leaf l =>
    simp only [WF] at hw
    simp only [rows] at hb ⊢
    obtain ⟨b, h1, h2, h3, h4⟩ := lb.take l is hw hb
    exact ⟨b, h1, h2, Nice.bulk b (h3.nice (by simp [Nice])), h3, by simp [isPatches], h4⟩
  | flat k vals v =>
    rw [flat_rows_len hw] at hb
    simp only [Bulk] at hbk
    simp only [depth] at hd
    exact take_flat H hw hbk (by omega) hb hs
  | null n =>
    simp only [rows, List.length_replicate] at hb ⊢
    have : (is.any (fun i => decide (n ≤ i))) = false := by
      rw [List.any_eq_false]
      intro i hi
      have := hb i hi
      simp; omega
    refine ⟨.null is.length, by simp [takeFn, this], trivial, trivial, ⟨Nat.le_refl _, rfl, fun _ => rfl, by simp [Nice]⟩, by simp [isPatches], ?_⟩
    simp only [rows]
    rw [take_replicate _ _ _ hb]
  | const dt x n =>
    simp only [rows, List.length_replicate] at hb ⊢
    refine ⟨.const dt x is.length, rfl, by simpa only [WF] using hw, by simp [Bulk],
      ⟨Nat.le_refl _, rfl, fun _ => rfl, by simp only [Nice]; exact fun h => h⟩, by simp [isPatches], ?_⟩
    simp only [rows]
    rw [take_replicate _ _ _ hb]
  | chunked dt cs => exact take_chunked hl H dt cs is hw hbk hd hb (hs.resolve_right (by simp [chunkFree]))
  | struct names fs n v =>
    simp only [len] at hlen
    exact take_struct hl H names fs n v is hw hbk hd (by rw [hlen]; exact hb) hs
  | ext id m s =>
    simp only [WF] at hw
    simp only [Bulk] at hbk
    simp only [depth] at hd
    simp only [rows] at hb ⊢
    simp only [chunkFree] at hs
    obtain ⟨b, b1, b2, b3, b4, _, b5⟩ := H.take f s is hw hbk.1 (by omega) hb hs
    refine ⟨.ext id m b, by simp only [takeFn, b1, Res.ok_bind], by simpa only [WF] using b2, ?_, ⟨?_, ?_, ?_, by simp [Nice]⟩,
      by simp [isPatches], by simpa only [rows] using b5⟩
    · simp only [Bulk]
      refine ⟨b3, fun hf => ⟨b4.nice (hbk.2 hf).1, ?_⟩⟩
      rw [b4.dtype]; exact (hbk.2 hf).2
    · have := b4.depth
      simp only [depth]; omega
    · simp only [dtype, b4.dtype]
    · simp only [chunkFree]; exact b4.chunkFree
  | sparse js values n off fill =>
    simp only [len] at hlen
    exact take_sparse hl H js values n off fill is hw hbk hd (by rw [hlen]; exact hb)
  | dict codes values =>
    have hw' := hw
    simp only [WF] at hw'
    simp only [Bulk] at hbk
    simp only [depth] at hd
    simp only [rows, List.length_map] at hb ⊢
    simp only [chunkFree, Bool.and_eq_true] at hs
    obtain ⟨b, b1, b2, b3, b4, _, b5⟩ := H.take f codes is hw'.1 hbk (by omega) hb (hs.imp_right And.left)
    have := dict_out hw b2 b3 b4 (by rw [b5]; exact fun r hr => mem_take hr)
      (want := Spec.take ((rows env.toEnv leafRows codes).map (deref (rows env.toEnv leafRows values))) is) (by rw [b5, Spec.take_map])
    simpa only [takeFn, b1, Res.ok_bind] using this
  | runEnd ends values v off n =>
    simp only [len] at hlen
    exact take_runEnd hl H ends values v off n is hw (by simpa only [Nice, Bulk] using hbk) hd (by rw [hlen]; exact hb) hs
  | mapped c enc =>
    have hw' := hw
    simp only [WF] at hw'
    have hdd := hd
    simp only [depth] at hdd
    cases c with
    | zigzag =>
      simp only [Bulk] at hbk
      obtain ⟨k, vals, v, c1, c2, c3, c4⟩ := canon_mapped lb H .zigzag enc hw (by simpa only [Nice] using hbk) hd
      have hcd := c3.depth
      simp only [depth] at hcd
      have hcn := c3.nice (by simpa only [Nice] using hbk)
      simp only [Nice] at hcn
      have hcf := c3.chunkFree
      simp only [chunkFree] at hcf hs
      obtain ⟨b, t1, t2, t3, t4, _, t5⟩ := take_flat (f := f) H c2 hcn (by omega) (is := is) (by
        rw [← flat_rows_len c2, c4]; exact hb) (hs.imp_right hcf)
      exact ⟨b, by simp only [takeFn, c1, Res.ok_bind, asFlat, t1], t2, t3, t4.trans c3, by simp [isPatches], by rw [t5, c4]⟩
    | «for» p r s =>
      simp only [Bulk] at hbk
      simp only [rows, List.length_map] at hb ⊢
      simp only [chunkFree] at hs
      obtain ⟨b, b1, b2, b3, b4, _, b5⟩ := H.take f enc is hw'.1 hbk (by omega) hb hs
      have := mapped_out hw b2 (by simpa only [Bulk] using b3) b4 (by rw [b5]; exact fun r hr => mem_take hr)
        (want := Spec.take ((rows env.toEnv leafRows enc).map (decRow env.toEnv (.for p r s))) is) (by rw [b5, Spec.take_map])
      simpa only [takeFn, b1, Res.ok_bind] using this
    | alp e g =>
      simp only [Bulk] at hbk
      simp only [rows, List.length_map] at hb ⊢
      simp only [chunkFree] at hs
      obtain ⟨b, b1, b2, b3, b4, _, b5⟩ := H.take f enc is hw'.1 hbk (by omega) hb hs
      have := mapped_out hw b2 (by simpa only [Bulk] using b3) b4 (by rw [b5]; exact fun r hr => mem_take hr)
        (want := Spec.take ((rows env.toEnv leafRows enc).map (decRow env.toEnv (.alp e g))) is) (by rw [b5, Spec.take_map])
      simpa only [takeFn, b1, Res.ok_bind] using this
  | alpP e g enc patches =>
    have hw' := hw
    simp only [WF] at hw'
    simp only [Bulk] at hbk
    simp only [depth] at hd
    simp only [rows, List.length_zipWith] at hb ⊢
    simp only [chunkFree, Bool.and_eq_true] at hs
    have hpl := hw'.2.2.1
    obtain ⟨x, x1, x2, x3, x4, _, x5⟩ := H.take f enc is hw'.1 hbk.1 (by omega) (fun i hi => by have := hb i hi; omega) (hs.imp_right And.left)
    obtain ⟨p, p1, p2, p3, p4, p6, p5⟩ := H.take f patches is hw'.2.1 hbk.2 (by omega) (fun i hi => by have := hb i hi; omega) (hs.imp_right And.right)
    have := alpP_out hl hw x2 x3 x4 p2 p3 p4 p6
      (by rw [x5, p5, Spec.take_length (fun i hi => by have := hb i hi; omega), Spec.take_length (fun i hi => by have := hb i hi; omega)])
      (by rw [x5]; exact fun r hr => mem_take hr) (by rw [p5]; exact fun r hr => mem_take hr)
      (want := Spec.take (List.zipWith (patchRow env.toEnv e g) (rows env.toEnv leafRows enc) (rows env.toEnv leafRows patches)) is)
      (by rw [x5, p5, take_zipWith _ _ _ _ hpl.symm (fun i hi => by have := hb i hi; omega)])
    simpa only [takeFn, x1, p1, Res.ok_bind] using this

end Vx.Tree
