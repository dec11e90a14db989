import Verif.Lemmas.StoredLeavesLaws
import Verif.Props.C102
/-!
# C102: the encodings the compressor uses

The same as Props/C102.lean with the storage of bit-packed, delta, ALP-RD, FSST, roaring and date-time-parts arrays spelled out (`storeLeaf`, `loadLeaf`)
instead of assumed.
-/
namespace Vx.Store
open Own
open Vx.Tree (TVal WF WFs WFV RLeaf leafSound leafEnv leafRows leafLen)

variable {L : Type} {env : Tree.Env L} {rowsOf : L → List SV} {ok P : L → Prop}

mutual
theorem wf_and : ∀ a : Tree.Arr L, WF env rowsOf ok a → AllLeaves P a → WF env rowsOf (fun l => ok l ∧ P l) a
  | .leaf l, h, g => by simp only [WF] at h ⊢; exact ⟨h, g⟩
  | .flat k vals v, h, g => by simp only [WF] at h ⊢; exact ⟨h.1, wfV_and v _ h.2 g⟩
  | .null _, _, _ => by simp only [WF]
  | .const _ _ _, h, _ => by simp only [WF] at h ⊢; exact h
  | .chunked _ cs, h, g => by simp only [WF] at h ⊢; exact ⟨wfs_and cs h.1 g, h.2⟩
  | .struct _ fs _ v, h, g => by simp only [WF] at h ⊢; exact ⟨h.1, wfs_and fs h.2.1 g.1, h.2.2.1, wfV_and v _ h.2.2.2 g.2⟩
  | .ext _ _ s, h, g => by simp only [WF] at h ⊢; exact wf_and s h g
  | .sparse _ values _ _ _, h, g => by simp only [WF] at h ⊢; exact ⟨wf_and values h.1 g, h.2⟩
  | .dict codes values, h, g => by simp only [WF] at h ⊢; exact ⟨wf_and codes h.1 g.1, wf_and values h.2.1 g.2, h.2.2⟩
  | .runEnd _ values v _ _, h, g => by simp only [WF] at h ⊢; exact ⟨wf_and values h.1 g.1, wfV_and v _ h.2.1 g.2, h.2.2⟩
  | .mapped _ enc, h, g => by simp only [WF] at h ⊢; exact ⟨wf_and enc h.1 g, h.2⟩
  | .alpP _ _ enc patches, h, g => by simp only [WF] at h ⊢; exact ⟨wf_and enc h.1 g.1, wf_and patches h.2.1 g.2, h.2.2⟩
theorem wfs_and : ∀ cs : List (Tree.Arr L), WFs env rowsOf ok cs → AllLeavess P cs → WFs env rowsOf (fun l => ok l ∧ P l) cs
  | [], _, _ => by simp only [WFs]
  | c :: cs, h, g => by simp only [WFs] at h ⊢; exact ⟨wf_and c h.1 g.1, wfs_and cs h.2 g.2⟩
theorem wfV_and : ∀ (v : TVal (Tree.Arr L)) (n : Nat), WFV env rowsOf ok v n → AllLeavesV P v → WFV env rowsOf (fun l => ok l ∧ P l) v n
  | .array a, n, h, g => by simp only [WFV] at h ⊢; exact ⟨wf_and a h.1 g, h.2⟩
  | .nonNullable, _, _, _ => by simp only [WFV]
  | .allValid, _, _, _ => by simp only [WFV]
  | .allInvalid, _, _, _ => by simp only [WFV]
end

mutual
theorem wf_leaves : ∀ a : Tree.Arr L, WF env rowsOf P a → AllLeaves P a
  | .leaf _, h => by simp only [WF] at h; exact h
  | .flat k vals v, h => by simp only [WF] at h; exact wfV_leaves v _ h.2
  | .null _, _ => trivial
  | .const _ _ _, _ => trivial
  | .chunked _ cs, h => by simp only [WF] at h; exact wfs_leaves cs h.1
  | .struct _ fs _ v, h => by simp only [WF] at h; exact ⟨wfs_leaves fs h.2.1, wfV_leaves v _ h.2.2.2⟩
  | .ext _ _ s, h => by simp only [WF] at h; exact wf_leaves s h
  | .sparse _ values _ _ _, h => by simp only [WF] at h; exact wf_leaves values h.1
  | .dict codes values, h => by simp only [WF] at h; exact ⟨wf_leaves codes h.1, wf_leaves values h.2.1⟩
  | .runEnd _ values v _ _, h => by simp only [WF] at h; exact ⟨wf_leaves values h.1, wfV_leaves v _ h.2.1⟩
  | .mapped _ enc, h => by simp only [WF] at h; exact wf_leaves enc h.1
  | .alpP _ _ enc patches, h => by simp only [WF] at h; exact ⟨wf_leaves enc h.1, wf_leaves patches h.2.1⟩
theorem wfs_leaves : ∀ cs : List (Tree.Arr L), WFs env rowsOf P cs → AllLeavess P cs
  | [], _ => trivial
  | c :: cs, h => by simp only [WFs] at h; exact ⟨wf_leaves c h.1, wfs_leaves cs h.2⟩
theorem wfV_leaves : ∀ (v : TVal (Tree.Arr L)) (n : Nat), WFV env rowsOf P v n → AllLeavesV P v
  | .array a, n, h => by simp only [WFV] at h; exact wf_leaves a h.1
  | .nonNullable, _, _ => trivial
  | .allValid, _, _ => trivial
  | .allInvalid, _, _ => trivial
end

mutual
theorem leaves_mp : ∀ a : Tree.Arr L, AllLeaves (fun l => P l → ok l) a → AllLeaves P a → AllLeaves ok a
  | .leaf _, h, g => h g
  | .flat _ _ v, h, g => leavesV_mp v h g
  | .null _, _, _ => trivial
  | .const _ _ _, _, _ => trivial
  | .chunked _ cs, h, g => leavess_mp cs h g
  | .struct _ fs _ v, h, g => ⟨leavess_mp fs h.1 g.1, leavesV_mp v h.2 g.2⟩
  | .ext _ _ s, h, g => leaves_mp s h g
  | .sparse _ values _ _ _, h, g => leaves_mp values h g
  | .dict codes values, h, g => ⟨leaves_mp codes h.1 g.1, leaves_mp values h.2 g.2⟩
  | .runEnd _ values v _ _, h, g => ⟨leaves_mp values h.1 g.1, leavesV_mp v h.2 g.2⟩
  | .mapped _ enc, h, g => leaves_mp enc h g
  | .alpP _ _ enc patches, h, g => ⟨leaves_mp enc h.1 g.1, leaves_mp patches h.2 g.2⟩
theorem leavess_mp : ∀ cs : List (Tree.Arr L), AllLeavess (fun l => P l → ok l) cs → AllLeavess P cs → AllLeavess ok cs
  | [], _, _ => trivial
  | c :: cs, h, g => ⟨leaves_mp c h.1 g.1, leavess_mp cs h.2 g.2⟩
theorem leavesV_mp : ∀ v : TVal (Tree.Arr L), AllLeavesV (fun l => P l → ok l) v → AllLeavesV P v → AllLeavesV ok v
  | .array a, h, g => leaves_mp a h g
  | .nonNullable, _, _ => trivial
  | .allValid, _, _ => trivial
  | .allInvalid, _, _ => trivial
end

variable {C : Compute} {sc : Scalars} {x : Tree.Outside} {unitOf : Str → Option (List UInt8) → Option DateTimeParts.TimeUnit}

/-- **C102 (one array of each encoding).** A bit-packed, delta, ALP-RD, FSST, roaring or date-time-parts array can be built from its stored parts, has its
type and length, and is read back as itself. -/
theorem C102_leaf (hC : C.Lawful) (hN : NullsKept sc) (l : RLeaf) (h : leafSound l) (hf : LeafFits unitOf l) :
    Built C (storeLeaf sc l) ∧ (storeLeaf sc l).dtype = Tree.leafDtype l ∧ (storeLeaf sc l).len = leafLen l ∧ loadLeaf sc unitOf (storeLeaf sc l) = some l :=
  ⟨leaf_built hC l h, by cases l <;> rfl, by cases l <;> rfl, leaf_load hN l h hf⟩

/-- **C102 (trees of all encodings, in bytes).** A tree with any of these encodings as leaves is stored, serialised to bytes without any type or length
inside, and read with the type and length of the whole: the result is the same tree. -/
theorem C102_all_encodings (hx : x.Lawful) (hC : C.Lawful) (hO : SortedOk C) (hN : NullsKept sc) (mc : MetaCodec) (t : Tree.Arr RLeaf)
    (h : WF (leafEnv x).toEnv (leafRows x) leafSound t) (hl : AllLeaves (LeafFits unitOf) t) (hf : Fits sc (leafEnv x).toEnv t)
    (hm : Everywhere (MetaOk mc) (phys sc (realLeaves sc unitOf) (leafEnv x).toEnv t)) :
    ∃ a, readIpc (leCodec mc) (Tree.dtype (leafEnv x).toEnv t) (Tree.rows (leafEnv x).toEnv (leafRows x) t).length
        (toIpc (leCodec mc) (phys sc (realLeaves sc unitOf) (leafEnv x).toEnv t)) = .ok a ∧ view sc (realLeaves sc unitOf) a = some t :=
  C102_bytes hC hO (fun l hs => Tree.leafSound_len x hx l hs.1) (leaf_store hC hN x) (fun l hs => leaf_buffers l hs) mc t (wf_and t h hl) hf hm

end Vx.Store

namespace Vx.Tree
open Own Store
open Layout (Rows Row FileCodec LayoutWriter EnvOk finalize readFile)

variable {x : Outside} {sc : Scalars} {C : Compute} {t : Trained}

theorem tryNew_offset {is : List Nat} {vs : PArr α} {n : Nat} {f : Option α} {q : Sparse α} (h : Sparse.tryNew is vs n f = .ok q) : q.offset = 0 := by
  simp only [Sparse.tryNew, Sparse.tryNewWithOffset, Res.bind_eq_ok] at h
  obtain ⟨_, _, _, _, h⟩ := h
  split at h
  · cases h; rfl
  · simp only [Res.bind_eq_ok] at h
    obtain ⟨d, _, h⟩ := h
    split at h
    · cases h
    · cases h; rfl

theorem gathered_offset {w : Nat} {a : PArr (BitVec T)} {q : Sparse (BitVec T)} (h : BitPack.gatherPatches w a = .ok (some q)) : q.offset = 0 := by
  simp only [BitPack.gatherPatches] at h
  split at h
  · cases h
  · split at h
    · rename_i s hs
      obtain rfl : s = q := by simpa using h
      exact tryNew_offset hs
    · cases h

theorem packed_patches {fl : BitPack.FL T} {a : PArr (BitVec T)} {w : Nat} {b : BitPack.Arr T} (h : BitPack.encode fl a w = .ok b) (q : Sparse (BitVec T))
    (hq : b.patches = some q) : q.offset = 0 := by
  simp only [BitPack.encode, Res.bind_eq_ok] at h
  obtain ⟨freq, _, _, _, ps, hps, h⟩ := h
  rw [tryNew_fields h] at hq
  simp only at hq
  subst hq
  split at hps
  · exact gathered_offset hps
  · cases hps

theorem alprd_patches {e : ALPRD.Encoder} {a : PArr (BitVec n)} {b : ALPRD.Arr n} (h : ALPRD.encode e a = .ok b) (q : Sparse (BitVec 16))
    (hq : b.exc = some q) : q.offset = 0 := by
  simp only [ALPRD.encode, Res.bind_eq_ok] at h
  obtain ⟨_, _, y, hy, h⟩ := h
  split at h
  · rename_i h3
    cases h
    simp only [ALPRD.tryNew, Res.bind_eq_ok] at h3
    obtain ⟨_, _, _, _, _, _, h3⟩ := h3
    cases h3
    simp only at hq
    subst hq
    simp only [ALPRD.mkExc] at hy
    split at hy
    · cases hy
    · split at hy
      · rename_i s hs
        obtain rfl : s = q := by simpa using hy
        exact tryNew_offset hs
      · cases hy
  · cases h

theorem fsst_syms {syms : List (List (BitVec 8))} {comp : List (BitVec 8) → List (BitVec 8)} {nullable : Bool} {rs : List (Option (List (BitVec 8)))}
    {b : FSST.Arr} (h : FSST.compressIter syms comp nullable rs = .ok b) : b.syms = syms := by
  simp only [FSST.compressIter, Res.bind_eq_ok] at h
  obtain ⟨codes, _, h⟩ := h
  cases h' : FSST.tryNew nullable syms codes (rs.map fun r => BitVec.ofNat 32 (r.getD []).length) with
  | ok c =>
    rw [h'] at h
    obtain rfl : c = b := by simpa [VarBin.expect] using h
    simp only [FSST.tryNew, Res.bind_eq_ok] at h'
    obtain ⟨_, _, _, _, h'⟩ := h'
    cases h'
    rfl
  | err => rw [h'] at h; cases h
  | panic => rw [h'] at h; cases h

theorem ofOption_some {o : Option α} {y : α} (h : Res.ofOption o = .ok y) : o = some y := by
  cases o with
  | none => cases h
  | some z => cases h; rfl

theorem tdiv_i64 {t k : Int} (hk : 0 < k) (h : DateTimeParts.IsI64 t) : DateTimeParts.IsI64 (t.tdiv k) := by
  obtain ⟨h1, h2⟩ := h
  have ha : (t.tdiv k).natAbs ≤ t.natAbs := by rw [Int.natAbs_tdiv]; exact Nat.div_le_self _ _
  have hs1 : 0 ≤ t → 0 ≤ t.tdiv k := fun h => Int.tdiv_nonneg h (by omega)
  have hs2 : t ≤ 0 → t.tdiv k ≤ 0 := fun h => by
    have := Int.tdiv_nonneg (show 0 ≤ -t by omega) (show 0 ≤ k by omega)
    rw [Int.neg_tdiv] at this; omega
  constructor <;> omega

theorem tmod_i64 {t k : Int} (h : DateTimeParts.IsI64 t) : DateTimeParts.IsI64 (t.tmod k) := by
  obtain ⟨h1, h2⟩ := h
  have ha : (t.tmod k).natAbs ≤ t.natAbs := by rw [Int.natAbs_tmod]; exact Nat.mod_le _ _
  have hs1 : 0 ≤ t → 0 ≤ t.tmod k := fun h => Int.tmod_nonneg k h
  have hs2 : t ≤ 0 → t.tmod k ≤ 0 := fun h => by
    have := Int.tmod_nonneg k (show 0 ≤ -t by omega)
    rw [Int.neg_tmod] at this; omega
  constructor <;> omega

/-- **C102 (what the encoders make fits).** What the leaf compressors return can be stored: symbol tables have symbols of up to eight bytes (the `fsst`
crate's), the array has less than 2⁶⁴ rows. -/
theorem C102_encoders_fit (hsym : ∀ like a c, t.fsst like a = .ok c → ∀ s ∈ c.1, s.length ≤ 8) {i : CId} {a : Arr RLeaf} {like : Option CTree} {l : RLeaf}
    (h : encLeaf x t i a like = .ok (some l)) (hs : leafSound l) (hn : leafLen l < 2 ^ 64) : LeafFits t.unit l := by
  unfold encLeaf at h
  have packed : ∀ {i allow p vals v}, encPacked x t i allow p vals v = .ok (some l) → LeafFits t.unit l := by
    intro i allow p vals v h
    simp only [encPacked, Res.bind_eq_ok] at h
    obtain ⟨_, _, _, _, _, _, _, _, h⟩ := h
    split at h
    · cases h
    · simp only [Res.bind_eq_ok] at h
      obtain ⟨b, hb, h⟩ := h
      cases h
      intro q hq j hj
      obtain ⟨w1, _, _, w4, _⟩ := hs.2.patches q hq
      have := w1.upper j hj
      rw [packed_patches hb q hq, w4] at this
      simp only [leafLen] at hn
      omega
  split at h
  · exact packed h
  · exact packed h
  · simp only [Res.bind_eq_ok] at h
    obtain ⟨_, _, _, _, b, hb, h⟩ := h
    cases h
    intro q hq j hj
    obtain ⟨w1, _, _, w4⟩ := hs.2.exc q hq
    have := w1.upper j hj
    rw [alprd_patches hb q hq, w4] at this
    simp only [leafLen] at hn
    omega
  · split at h
    · cases h
    · simp only [Res.bind_eq_ok] at h
      obtain ⟨c, hc, _, _, b, hb, h⟩ := h
      cases h
      intro s hs'
      rw [fsst_syms hb] at hs'
      exact hsym _ _ _ hc s hs'
  · simp only [Res.bind_eq_ok] at h; obtain ⟨_, _, _, _, h⟩ := h; cases h; trivial
  · simp only [Res.bind_eq_ok] at h
    obtain ⟨_, _, h⟩ := h
    split at h
    · simp only [Res.bind_eq_ok] at h; obtain ⟨_, _, h⟩ := h; cases h; trivial
    · cases h
  · simp only [Res.bind_eq_ok] at h; obtain ⟨_, _, _, _, h⟩ := h; cases h; trivial
  · simp only [Res.bind_eq_ok] at h
    obtain ⟨u, hu, c, _, h⟩ := h
    split at h
    · simp only [Res.bind_eq_ok] at h
      obtain ⟨lv, _, b, hb, h⟩ := h
      have hu' := ofOption_some hu
      cases h
      have hd : u ≠ .d := by
        intro hd
        subst hd
        simp [DateTimeParts.encode, DateTimeParts.splitTemporal, DateTimeParts.divisor] at hb
      rw [DateTimeParts.encode_eq hd] at hb
      obtain rfl := Res.ok.inj hb
      have hk : 0 < DateTimeParts.ticks u := by cases u <;> first | exact absurd rfl hd | decide
      refine ⟨hu', ?_, ?_, ?_⟩
      · intro y hy
        simp only [DateTimeParts.encoded, PArr.map, flatArr, List.map_map, List.mem_map] at hy
        obtain ⟨v, _, rfl⟩ := hy
        exact tdiv_i64 (by omega) (tick_range v)
      · intro y hy
        simp only [DateTimeParts.encoded, flatArr, List.map_map, List.mem_map] at hy
        obtain ⟨v, _, rfl⟩ := hy
        exact tdiv_i64 hk (tmod_i64 (tick_range v))
      · intro y hy
        simp only [DateTimeParts.encoded, flatArr, List.map_map, List.mem_map] at hy
        obtain ⟨v, _, rfl⟩ := hy
        exact tmod_i64 (tmod_i64 (tick_range v))
    · cases h
  · cases h

/-- **C102 (plain input).** Where nothing was encoded before, all that is compressed fits the stored form: what a leaf of the result came from is one of the
encoders. -/
theorem C102_plain_fits (hx : x.Lawful) (ht : t.Lawful x) (hsym : ∀ like a c, t.fsst like a = .ok c → ∀ s ∈ c.1, s.length ≤ 8)
    {ch : Choice RLeaf} (hc : RealChoice x t ch) (fuel : Nat) (ctx : Ctx) (a b : Arr RLeaf) (like tr : Option CTree)
    (hg : Good (leafEnv x).toEnv (leafRows x) (fun _ => False) a) (h : compress (leafEnv x) ch fuel ctx a like = .ok (b, tr))
    (hn : AllLeaves (fun l => leafLen l < 2 ^ 64) b) : AllLeaves (LeafFits t.unit) b := by
  have hlaws : ChoiceLaws (leafEnv x).toEnv (leafRows x) (fun _ => False) (fun l => leafLen l < 2 ^ 64 → LeafFits t.unit l) ch := by
    refine ⟨fun a hw => hc.constant a (WF_mono (fun _ h => h.elim) a hw), ?_, hc.alpEnc⟩
    intro i a like l hg hcan h
    rw [hc.enc] at h
    obtain ⟨h1, h2⟩ := hc.can i a like l hcan h
    have hg' : Good (leafEnv x).toEnv (leafRows x) (leafOk true) a := ⟨WF_mono (fun _ h => h.elim) a hg.wf, hg.regular, hg.comp⟩
    obtain ⟨e1, e2, e3⟩ := encLeaf_ok hx ht hg' h1 h2 h
    exact ⟨fun hlen => C102_encoders_fit hsym h e1 hlen, e2, by simp only [rows]; rw [e3]⟩
  have s := compress_sound (fun _ h => h.elim) ⟨fun _ h => h.elim, fun _ _ _ h => h.elim, fun _ _ _ h => h.elim, fun _ _ _ h => h.elim, fun _ _ _ h => h.elim⟩
    ⟨hx.alp32, hx.alp64, fun _ h => h.elim, fun _ h => h.elim, fun _ _ h => h.elim, fun _ _ h => h.elim⟩ hlaws fuel ctx a like b tr h hg
  exact leaves_mp b (wf_leaves b s.wf) hn

/-- **C102 (compress with the real encoders, write, read).** A table is compressed with the bit-packing, ALP-RD, FSST, roaring, delta and date-time encoders
under any decisions, written to a file and read: what is read has the rows of the table that was compressed, up to the sign of floating-point zeros. -/
theorem C102_real_file (hx : x.Lawful) (ht : t.Lawful x) {ch : Choice RLeaf} (hc : RealChoice x t ch) (hC : C.Lawful) (hO : SortedOk C) (hN : NullsKept sc)
    {M : OwnCodec} (hM : M.Lawful) (F : FileCodec) (hF : F.Lawful) (metaNode : List Nat → Ipc.Node) (fctx : Nat → Bool) (fenv : Layout.Env SV)
    (hE : EnvOk fenv F fctx (viewRows M (storedRows sc (realLeaves sc t.unit) (leafEnv x).toEnv (leafRows x)))) (fuel : Nat) (ctx : Ctx)
    (a b : Arr RLeaf) (like tr : Option CTree) (hg : Good (leafEnv x).toEnv (leafRows x) (leafOk true) a)
    (h : compress (leafEnv x) ch fuel ctx a like = .ok (b, tr)) (hl : AllLeaves (LeafFits t.unit) b) (hf : Store.Fits sc (leafEnv x).toEnv b) (hb : Store.Table b)
    (names : List Str) (dtypes : List DType) (nl : Bool)
    (hs : Spec.Storable F M fctx (phys sc (realLeaves sc t.unit) (leafEnv x).toEnv b) names dtypes nl) :
    ∃ w data ls file, writeArrayColumns C M F.msgs LayoutWriter.new (phys sc (realLeaves sc t.unit) (leafEnv x).toEnv b) = .ok w ∧
      finalize F metaNode w = .ok file ∧ file = Layout.fileOf F data (dtype (leafEnv x).toEnv a) (.columnL ls) (len (leafEnv x).toEnv a) ∧
      (file.length < 2 ^ 64 → ∀ (init : Nat), Layout.tailLength F (dtype (leafEnv x).toEnv a) (.columnL ls) (len (leafEnv x).toEnv a) ≤ init →
        ∀ (batch : Nat), 0 < batch → ∀ (order : List Layout.Message → List Layout.Message), (∀ l, (order l).Perm l) →
        ∃ bs N', (∀ fuel, N' ≤ fuel → readFile F fenv init file file.length .all batch order fuel = .ok (dtype (leafEnv x).toEnv a, bs)) ∧
          (bs.flatten.map toSV).map norm = (rows (leafEnv x).toEnv (leafRows x) a).map norm) := by
  obtain ⟨w1, w2, w3, w4⟩ := C90_compress_partial hx ht hc fuel ctx a b like tr hg h
  obtain ⟨w, data, ls, file, h1, h2, h3, h4⟩ := C102_file hC hO (fun l hs => leafSound_len x hx l hs.1) (leaf_store (unitOf := t.unit) hC hN x) hM F hF metaNode
    fctx fenv hE b (wf_and b w1 hl) hf hb names dtypes nl hs
  rw [w2, w3] at h3 h4
  refine ⟨w, data, ls, file, h1, h2, h3, ?_⟩
  intro hsz init hi batch hb' order ho
  obtain ⟨bs, N', r3, r4⟩ := (h4 hsz init hi batch hb' order ho).1
  exact ⟨bs, N', r3, by rw [r4]; exact w4⟩

end Vx.Tree
