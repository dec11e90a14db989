import Verif.Model.LeafCompress
import Verif.Props.C41
import Verif.Props.C03Leaves
/-!
# C90: compression with the real encoders

C41 with the compressors of the leaf encodings spelled out: bit-packing, ALP-RD, FSST, roaring, delta and date-time parts.
-/
namespace Vx.Tree
open Vx.Spec (FitsLen InBounds mask)

/-- The invariants of the leaf encodings: what every compressor produces. -/
def leafSound : RLeaf → Prop
  | .bitPacked p a => isUnsigned p = true ∧ BitPack.WF a
  | .roaringBool a => Roaring.BWF a
  | .delta p a => isUnsigned p = true ∧ Delta.WF a ∧ ((∀ bits, a.validity ≠ .array bits) ∨ a.len = a.deltas.vals.length) ∧
      a.bases.validity.nullable = a.validity.nullable
  | .alpRd p a => (p = .f32 ∨ p = .f64) ∧ ALPRD.WF a
  | .fsst k a => (k = .utf8 ∨ k = .binary) ∧ FSST.Denotes a (fsstRows a)
  | .roaringInt p a => isUnsigned p = true ∧ Roaring.IWF a ∧ a.w = p.bits
  | .dateTime _ _ a => DateTimeParts.WF a ∧ ∃ b, DateTimeParts.decode a = .ok b

theorem leafSound_of {bulk : Bool} {l : RLeaf} (h : leafOk bulk l) : leafSound l := by
  cases l with
  | bitPacked p a => exact ⟨h.1, h.2.1⟩
  | roaringBool a => exact h
  | delta p a => exact ⟨h.1, h.2.1, .inl h.2.2.1, h.2.2.2⟩
  | alpRd p a => exact ⟨h.1, h.2.1⟩
  | fsst k a => exact ⟨h.1, h.2.1⟩
  | roaringInt p a => exact h.elim
  | dateTime id m a => exact ⟨h.1, h.2.1⟩

theorem leafOk_weaken {l : RLeaf} (h : leafOk true l) : leafOk false l := by
  cases l with
  | bitPacked p a => exact ⟨h.1, h.2.1, nofun⟩
  | roaringBool a => exact h
  | delta p a => exact h
  | alpRd p a => exact ⟨h.1, h.2.1, nofun⟩
  | fsst k a => exact ⟨h.1, h.2.1, rfl⟩
  | roaringInt p a => exact h.elim
  | dateTime id m a => exact ⟨h.1, h.2.1, rfl⟩

theorem leafSound_len (x : Outside) (hx : x.Lawful) (l : RLeaf) (h : leafSound l) : leafLen l = (leafRows x l).length := by
  cases l with
  | bitPacked p a => simp [leafLen, leafRows, BitPack.rows_length (hx.fl _) h.2]
  | roaringBool a => simp [leafLen, leafRows, Roaring.bView]
  | delta p a => simp [leafLen, leafRows, Delta.rows_length (hx.kern _) h.2.1]
  | alpRd p a => simp [leafLen, leafRows, ALPRD.rows_length h.2]
  | fsst k a => simpa [leafLen, leafRows] using h.2.len
  | roaringInt p a => simp [leafLen, leafRows, Roaring.iIntoCanonical, Roaring.IArr.len]
  | dateTime id m a =>
    obtain ⟨hw, b, hb⟩ := h
    simp [leafLen, leafRows, (dtp_facts hw hb).2.1]

/-! ## Reading a plain array -/

section
variable {x : Outside} (hx : x.Lawful)

theorem readV_plain (hx : x.Lawful) {vals : List SV} {v : TVal (Arr RLeaf)} {lv : LogicalValidity}
    (hw : WFV (leafEnv x).toEnv (leafRows x) (leafOk true) v vals.length) (hn : NiceV (leafEnv x).toEnv (leafRows x) v)
    (h : readV (leafEnv x) v vals.length = .ok lv) :
    lv.intoBools = maskOf (leafEnv x).toEnv (leafRows x) v vals.length ∧
      mask vals.length lv.intoValidity = maskOf (leafEnv x).toEnv (leafRows x) v vals.length := by
  obtain ⟨lv', h1, h2⟩ := logicalV_ok (blaws (C03_leaf_laws x hx true) (C05_leaf_bulk x hx) (depthV v)) hw hn (Nat.le_refl _)
  rw [readV, h1] at h
  simp only [Res.ok.injEq] at h
  subst h
  have h3 : lv'.len = vals.length := by rw [← intoBools_length, h2, maskOf_length hw]
  refine ⟨h2, ?_⟩
  rw [← h2, ← h3]
  cases lv' <;> rfl

theorem flatArr_ok (hx : x.Lawful) {k : Kind} {vals : List SV} {v : TVal (Arr RLeaf)} {lv : LogicalValidity}
    (hw : WF (leafEnv x).toEnv (leafRows x) (leafOk true) (.flat k vals v)) (hn : NiceV (leafEnv x).toEnv (leafRows x) v)
    (h : readV (leafEnv x) v vals.length = .ok lv) (f : SV → α) (g : α → SV) (hfg : ∀ y ∈ vals, g (f y) = y) :
    (flatArr f vals v lv).WF ∧ (flatArr f vals v lv).validity.nullable = v.nullable ∧
    rows (leafEnv x).toEnv (leafRows x) (.flat k vals v) = (flatArr f vals v lv).rows.map (optSV g) := by
  obtain ⟨h1, h2⟩ := readV_plain hx hw.2 hn h
  have hlen : (flatArr f vals v lv).vals.length = vals.length := by simp [flatArr]
  have hm : mask vals.length (flatArr f vals v lv).validity = maskOf (leafEnv x).toEnv (leafRows x) v vals.length := by
    simp only [flatArr]
    cases v with
    | nonNullable => simp [TVal.nullable, mask, maskOf]
    | _ => simpa only [TVal.nullable, if_true] using h2
  refine ⟨?_, ?_, ?_⟩
  · rw [PArr.WF, hlen, FitsLen, hm, maskOf_length hw.2]
  · simp only [flatArr]
    cases hv : v.nullable with
    | false => rfl
    | true => simp only [if_true]; cases lv <;> rfl
  · have := rows_masked g (vals.map f) (maskOf (leafEnv x).toEnv (leafRows x) v vals.length)
    rw [flat_rows, PArr.rows, hlen, hm]
    rw [show (fun o : Option α => o.elim SV.null g) = optSV g from rfl] at this
    rw [show (flatArr f vals v lv).vals = vals.map f from rfl, this, List.map_map]
    congr 1
    conv => lhs; rw [← List.map_id vals]
    exact List.map_congr_left (fun y hy => (hfg y hy).symm)

/-! ## The encoders one by one -/

theorem prim_roundtrip {p : PType} {y : SV} (h : (Kind.prim p).has y = true) : SV.prim ⟨p, rawBits p y⟩ = y := by
  have := ofBits_raw h
  simpa [ofBits] using this

/-- `bitpack_encode` on any array it accepts, empty ones included. -/
theorem packed_sound {fl : BitPack.FL T} (hT : BitPack.IsWidth T) (hfl : fl.Lawful) {a : PArr (BitVec T)} (ha : a.WF) {w : Nat} {b : BitPack.Arr T}
    (h : BitPack.encode fl a w = .ok b) : BitPack.WF b ∧ BitPack.rows fl b = a.rows ∧ b.validity = a.validity := by
  have hwT : w < T := by
    simp only [BitPack.encode, Res.bind_eq_ok] at h
    obtain ⟨_, _, _, hg, _⟩ := h
    by_cases hw : w < T
    · exact hw
    · simp [Res.guard, hw] at hg
  have hval : b.validity = a.validity := by
    simp only [BitPack.encode, Res.bind_eq_ok] at h
    obtain ⟨_, _, _, _, _, _, h⟩ := h
    rw [tryNew_fields h]
  by_cases hne : a.vals = []
  · obtain ⟨c, h1, h2, h3⟩ := BitPack.C10_unchecked hT hfl a ha w (by omega) (by simp [hne])
    have hb : b = c := by
      have hex : BitPack.gatherPatches w a = .ok none := by simp [BitPack.gatherPatches, BitPack.exceptions, hne]
      simp only [BitPack.encode, Res.bind_eq_ok] at h
      obtain ⟨freq, _, _, _, ps, hps, h⟩ := h
      have : ps = none := by
        split at hps
        · rw [hex] at hps; cases hps; rfl
        · cases hps; rfl
      subst this
      rw [BitPack.encodeUnchecked, h] at h1
      cases h1; rfl
    subst hb
    exact ⟨h2, h3, hval⟩
  · obtain ⟨arr, _, h1, h2, h3, _⟩ := BitPack.C10_roundtrip hT hfl a ha hne w hwT
    rw [h] at h1
    cases h1
    exact ⟨h2, h3, hval⟩

theorem delta_encode_keeps {k : Delta.Kern T} {a : PArr (BitVec T)} {b : Delta.Arr T} (h : Delta.encode k a = .ok b) :
    b.validity = a.validity ∧ b.bases.validity.nullable = a.validity.nullable ∧ b.len = b.deltas.vals.length := by
  have := delta_tryNew h
  subst this
  refine ⟨rfl, ?_, rfl⟩
  simp only [Delta.compress]
  split <;> simp_all [Validity.nullable]

theorem alprd_encode_keeps {e : ALPRD.Encoder} {a : PArr (BitVec n)} {b : ALPRD.Arr n} (h : ALPRD.encode e a = .ok b) :
    b.left.validity = a.validity := by
  simp only [ALPRD.encode, Res.bind_eq_ok] at h
  obtain ⟨_, _, h⟩ := h
  obtain ⟨x, _, h⟩ := h
  split at h
  · rename_i h3
    cases h
    simp only [ALPRD.tryNew, Res.bind_eq_ok] at h3
    obtain ⟨_, _, _, _, _, _, h3⟩ := h3
    cases h3
    rfl
  · cases h

theorem bytes_roundtrip {y : SV} (h : Kind.utf8.has y = true) : bytesSV .utf8 (bytesOf y) = y := by
  cases y <;> simp [Kind.has] at h
  simp only [bytesSV, bytesOf, List.map_map, SV.str.injEq]
  exact (List.map_congr_left (fun _ _ => rfl)).trans (List.map_id _)

theorem bool_roundtrip {y : SV} (h : Kind.bool.has y = true) : SV.bool (boolOf y) = y := by
  cases y <;> simp [Kind.has] at h
  rfl

theorem tick_bits (b : BitVec 64) : BitVec.ofInt 64 b.toInt = b := BitVec.ofInt_toInt

theorem tick_roundtrip {y : SV} (h : (Kind.prim .i64).has y = true) : tickSV (tickOf y) = y :=
  (congrArg (fun b => SV.prim ⟨.i64, b⟩) (tick_bits (rawBits .i64 y))).trans (prim_roundtrip h)

theorem tick_int (b : BitVec 64) : DateTimeParts.IsI64 b.toInt := by
  have h1 := BitVec.toInt_lt (x := b)
  have h2 := BitVec.le_toInt (x := b)
  constructor <;> omega

theorem tick_range (y : SV) : DateTimeParts.IsI64 (tickOf y) := tick_int _

theorem zipWith_congr_left {f g : α → β → γ} {as : List α} {bs : List β} (h : ∀ a ∈ as, ∀ b, f a b = g a b) :
    List.zipWith f as bs = List.zipWith g as bs := by
  induction as generalizing bs with
  | nil => rfl
  | cons a as ih =>
    cases bs with
    | nil => rfl
    | cons b bs => simp only [List.zipWith_cons_cons, h a (by simp), ih (fun y hy => h y (by simp [hy]))]

theorem rows_nonnull (as : List α) : Spec.rows as (mask as.length .nonNullable) = as.map some := by
  simp only [mask, Spec.rows]
  induction as with
  | nil => rfl
  | cons a as ih => simp [List.replicate_succ, ih]

theorem masked_true (vals : List SV) : masked vals (List.replicate vals.length true) = vals := by
  induction vals with
  | nil => rfl
  | cons a as ih => simpa [masked, List.replicate_succ] using ih

theorem iEncode_w {w : Nat} {vals : List Nat} {b : Roaring.IArr} (h : Roaring.iEncode w vals = .ok b) : b.w = w := by
  simp only [Roaring.iEncode, Res.bind_eq_ok, Roaring.iTryNew] at h
  obtain ⟨_, _, h⟩ := h
  split at h
  · split at h
    · cases h
    · cases h; rfl
  · cases h; rfl

theorem rows_getD {rs : List (Option α)} {m : List Bool} {d : α} (h : rs.map Option.isSome = m) : Spec.rows (rs.map (·.getD d)) m = rs := by
  subst h
  induction rs with
  | nil => rfl
  | cons r rs ih =>
    simp only [List.map_cons, Spec.rows, List.zipWith_cons_cons] at ih ⊢
    rw [ih]
    cases r <;> rfl

/-- The contracts of what the compressors learn: an ALP-RD encoder has one to eight dictionary entries and cuts off at most 16 bits, an FSST
symbol table has at most 255 symbols and its compression is inverted by the modelled decompression (both of the `fsst` crate),
`is_strict_sorted` is not said of other arrays. -/
structure Trained.Lawful (t : Trained) (x : Outside) : Prop where
  rd : ∀ like p vals v e, t.rd like (.flat (.prim p) vals v) = .ok e → (p = .f32 ∨ p = .f64) → ALPRD.GoodEncoder p.bits e
  fsst : ∀ like a c, t.fsst like a = .ok c → c.1.length ≤ 255 ∧ ∀ s, FSST.decode c.1 (c.2 s) = .ok s
  sorted : ∀ a p, t.strictSorted a = true → WF (leafEnv x).toEnv (leafRows x) (leafOk true) a → dtype (leafEnv x).toEnv a = .prim p false →
    ((rows (leafEnv x).toEnv (leafRows x) a).map (fun r => (rawBits p r).toNat)).Pairwise (· < ·)

/-- The two compressors that decode their input first are given something the decoding theorem covers. -/
def niceFor (x : Outside) (i : CId) (a : Arr RLeaf) : Prop :=
  match i, a with
  | .roaringInt, a => Nice (leafEnv x).toEnv (leafRows x) a
  | .dateTimeParts, .ext _ _ s => Nice (leafEnv x).toEnv (leafRows x) s
  | _, _ => True

/-- What is said of an encoder's result: the invariants of the encoding, the type and exactly the rows. -/
def Enc (x : Outside) (a : Arr RLeaf) (l : RLeaf) : Prop :=
  leafSound l ∧ leafDtype l = dtype (leafEnv x).toEnv a ∧ leafRows x l = rows (leafEnv x).toEnv (leafRows x) a

theorem encPacked_ok (hx : x.Lawful) {t : Trained} {i : CId} {allow : Bool} {p : PType} {vals : List SV} {v : TVal (Arr RLeaf)} {l : RLeaf}
    (hp : isUnsigned p = true) (hw : WF (leafEnv x).toEnv (leafRows x) (leafOk true) (.flat (.prim p) vals v))
    (hn : NiceV (leafEnv x).toEnv (leafRows x) v) (h : encPacked x t i allow p vals v = .ok (some l)) : Enc x (.flat (.prim p) vals v) l := by
  simp only [encPacked, Res.bind_eq_ok] at h
  obtain ⟨lv, hlv, freq, _, w, _, _, _, h⟩ := h
  split at h
  · cases h
  · simp only [Res.bind_eq_ok] at h
    obtain ⟨b, hb, h⟩ := h
    cases h
    obtain ⟨f1, f2, f3⟩ := flatArr_ok hx hw hn hlv (rawBits p) (fun y => .prim ⟨p, y⟩) (fun y hy => prim_roundtrip (hw.1 y hy))
    obtain ⟨g1, g2, g3⟩ := packed_sound (isWidth_of_unsigned hp) (hx.fl _) f1 hb
    refine ⟨⟨hp, g1⟩, ?_, ?_⟩
    · simp only [leafDtype, dtype, Kind.dtype, g3, f2]
    · rw [f3, leafRows, g2]
      exact List.map_congr_left (fun o _ => by cases o <;> rfl)

theorem encLeaf_ok (hx : x.Lawful) {t : Trained} (ht : t.Lawful x) {i : CId} {a : Arr RLeaf} {like : Option CTree} {l : RLeaf}
    (hg : Good (leafEnv x).toEnv (leafRows x) (leafOk true) a) (hcan : canLeaf x t i a = true) (hnice : niceFor x i a)
    (h : encLeaf x t i a like = .ok (some l)) : Enc x a l := by
  have hw := hg.wf
  have hcomp := hg.comp
  clear hg
  unfold encLeaf at h
  split at h
  -- bit-packing
  · rename_i p vals v
    simp only [canLeaf, canPack, Bool.and_eq_true] at hcan
    exact encPacked_ok hx hcan.1 hw hcomp.1 h
  · rename_i p vals v
    simp only [canLeaf, canPack, Bool.and_eq_true] at hcan
    exact encPacked_ok hx hcan.1 hw hcomp.1 h
  -- ALP-RD
  · rename_i p vals v
    simp only [canLeaf, decide_eq_true_eq] at hcan
    simp only [Res.bind_eq_ok] at h
    obtain ⟨lv, hlv, e, he, b, hb, h⟩ := h
    cases h
    obtain ⟨f1, f2, f3⟩ := flatArr_ok hx hw hcomp.1 hlv (rawBits p) (fun y => .prim ⟨p, y⟩) (fun y hy => prim_roundtrip (hw.1 y hy))
    obtain ⟨arr, d, h1, h2, h3, h4, _, h6⟩ := ALPRD.C13_roundtrip e (ht.rd like p vals v e he hcan) _ f1
    rw [hb] at h1
    cases h1
    obtain ⟨d', h7, _, h8⟩ := ALPRD.C13_decode b h2
    rw [h3] at h7
    cases h7
    refine ⟨⟨hcan, h2⟩, ?_, ?_⟩
    · simp only [leafDtype, dtype, Kind.dtype, alprd_encode_keeps hb, f2]
    · rw [f3, leafRows, ← h8, h6]
  -- FSST
  · rename_i k vals v
    simp only [canLeaf, decide_eq_true_eq] at hcan
    subst hcan
    split at h
    · cases h
    · simp only [Res.bind_eq_ok] at h
      obtain ⟨c, hc, lv, hlv, b, hb, h⟩ := h
      cases h
      obtain ⟨c1, c2⟩ := ht.fsst like _ c hc
      obtain ⟨m1, _⟩ := readV_plain hx hw.2 hcomp.1 hlv
      have hb2 := hb
      simp only [FSST.compressIter, Res.bind_eq_ok] at hb2
      obtain ⟨codes, hcodes, _⟩ := hb2
      have hsum : ((((optRows vals lv).map (Option.map bytesOf))).map fun r => ((r.map c.2).getD []).length).sum ≤ FSST.maxI32 := by
        by_contra hgt
        have := (VarBin.C21_from_iter_refuses FSST.maxI32 v.nullable (((optRows vals lv).map (Option.map bytesOf)).map (Option.map c.2))).1
          (by simpa only [List.map_map, Function.comp_def] using Nat.lt_of_not_le hgt)
        rw [this] at hcodes; cases hcodes
      have hnull : v.nullable = true ∨ ∀ r ∈ (optRows vals lv).map (Option.map bytesOf), r.isSome = true := by
        cases hv : v.nullable with
        | true => exact .inl rfl
        | false =>
          right
          intro r hr
          cases r with
          | some _ => rfl
          | none =>
            have := (VarBin.C21_from_iter_refuses FSST.maxI32 v.nullable (((optRows vals lv).map (Option.map bytesOf)).map (Option.map c.2))).2 hv
              (List.mem_map.mpr ⟨none, hr, rfl⟩)
            rw [this] at hcodes; cases hcodes
      obtain ⟨b', h1, h2, h3⟩ := FSST.C20_compress c.1 c1 c.2 c2 v.nullable _ hnull hsum
      rw [hb] at h1
      cases h1
      have hrows := fsstRows_of h2
      refine ⟨⟨.inl rfl, by rw [hrows]; exact h2⟩, ?_, ?_⟩
      · simp only [leafDtype, dtype, h3]
      · rw [leafRows, hrows, flat_rows, ← m1, optRows, masked, List.map_map, List.map_zipWith]
        apply zipWith_congr_left
        intro y hy m
        cases m with
        | false => rfl
        | true => exact bytes_roundtrip (hw.1 y hy)
  -- roaring booleans
  · rename_i vals v
    simp only [canLeaf, Bool.and_eq_true, decide_eq_true_eq, Bool.not_eq_true', decide_true, true_and] at hcan
    simp only [Res.bind_eq_ok] at h
    obtain ⟨lv, hlv, b, hb, h⟩ := h
    cases h
    obtain ⟨hv, hlen⟩ := hcan
    obtain ⟨f1, f2, f3⟩ := flatArr_ok hx hw hcomp.1 hlv boolOf SV.bool (fun y hy => bool_roundtrip (hw.1 y hy))
    have hflat : flatArr boolOf vals v lv = ⟨vals.map boolOf, .nonNullable⟩ := by simp [flatArr, hv]
    rw [hflat] at hb f3
    obtain ⟨b', h1, h2, h3, h4⟩ := Roaring.C19_roaring_bool_roundtrip (vals.map boolOf) (by simpa using hlen)
    rw [hb] at h1
    cases h1
    refine ⟨h2, ?_, ?_⟩
    · simp only [leafDtype, dtype, Kind.dtype, hv]
    · rw [Roaring.canonical_eq h2.sorted] at h4
      simp only [Res.ok.injEq, PArr.mk.injEq, and_true] at h4
      rw [f3, leafRows, h4, PArr.rows, rows_nonnull]
      simp only [List.map_map]
      rfl
  -- roaring integers
  · simp only [Res.bind_eq_ok] at h
    obtain ⟨c, hc, h⟩ := h
    obtain ⟨k, vals, v, g1, g2, g3, g4⟩ := (blaws (C03_leaf_laws x hx true) (C05_leaf_bulk x hx) (depth a)).canon a hw hnice (Nat.le_refl _)
    rw [Arr.canon] at hc
    rw [g1] at hc
    cases hc
    simp only [canLeaf, Bool.and_eq_true] at hcan
    obtain ⟨hd, hsort⟩ := hcan
    split at h
    · rename_i p vals v heq
      cases heq
      simp only [Res.bind_eq_ok] at h
      obtain ⟨b, hb, h⟩ := h
      cases h
      have hdt := g3.dtype
      simp only [dtype, Kind.dtype] at hdt
      rw [← hdt] at hd
      cases hv : v.nullable with
      | true => rw [hv] at hd; simp at hd
      | false =>
        rw [hv] at hd hdt
        simp only at hd
        have hrows : rows (leafEnv x).toEnv (leafRows x) (.flat (.prim p) vals v) = vals := by
          cases v with
          | nonNullable => rw [flat_rows]; simp [maskOf, masked_true]
          | _ => simp [TVal.nullable] at hv
        have hs := ht.sorted a p hsort hw hdt.symm
        rw [← g4, hrows] at hs
        have hfit : ∀ y ∈ vals.map (fun y => (rawBits p y).toNat), y < 2 ^ p.bits := by
          intro y hy
          obtain ⟨z, _, rfl⟩ := List.mem_map.mp hy
          exact (rawBits p z).isLt
        obtain ⟨r1, r2⟩ := Roaring.C19_roaring_int_roundtrip p.bits _ hs hfit
        have hu : ∀ y ∈ vals.map (fun y => (rawBits p y).toNat), y < Roaring.u32 := by
          intro y hy
          by_contra hgt
          rw [r2 ⟨y, hy, Nat.le_of_not_lt hgt⟩] at hb
          cases hb
        obtain ⟨b', h1, h2, h3, h4⟩ := r1 hu
        rw [hb] at h1
        cases h1
        refine ⟨⟨hd, h2, ?_⟩, ?_, ?_⟩
        · exact iEncode_w hb
        · simp only [leafDtype]; exact hdt
        · rw [leafRows, h4, ← g4, hrows, List.map_map]
          conv => rhs; rw [← List.map_id vals]
          apply List.map_congr_left
          intro y hy
          simp only [Function.comp, BitVec.ofNat_toNat, BitVec.setWidth_eq]
          exact prim_roundtrip (g2.1 y hy)
    · cases h
  -- delta
  · rename_i p vals v
    simp only [canLeaf] at hcan
    simp only [Res.bind_eq_ok] at h
    obtain ⟨lv, hlv, b, hb, h⟩ := h
    cases h
    obtain ⟨f1, f2, f3⟩ := flatArr_ok hx hw hcomp.1 hlv (rawBits p) (fun y => .prim ⟨p, y⟩) (fun y hy => prim_roundtrip (hw.1 y hy))
    obtain ⟨arr, d, h1, h2, h3, _⟩ := Delta.C09_roundtrip (isWidth_of_unsigned hcan) (hx.kern _) _ f1
    rw [hb] at h1
    cases h1
    obtain ⟨e1, e2, e3⟩ := delta_encode_keeps hb
    refine ⟨⟨hcan, h2, .inr e3, by rw [e2, e1]⟩, ?_, ?_⟩
    · simp only [leafDtype, dtype, Kind.dtype, e2, f2]
    · rw [f3, leafRows, h3]
  -- date-time parts
  · rename_i id m s
    simp only [Res.bind_eq_ok] at h
    obtain ⟨u, _, c, hc, h⟩ := h
    obtain ⟨k, vals, v, g1, g2, g3, g4⟩ := (blaws (C03_leaf_laws x hx true) (C05_leaf_bulk x hx) (depth s)).canon s hw hnice (Nat.le_refl _)
    have gn := g3.nice hnice
    rw [Arr.canon, g1] at hc
    cases hc
    split at h
    · rename_i vals v heq
      cases heq
      simp only [Res.bind_eq_ok] at h
      obtain ⟨lv, hlv, b, hb, h⟩ := h
      cases h
      have hu : u ≠ .d := by rintro rfl; rw [DateTimeParts.C17_day_rejected] at hb; cases hb
      obtain ⟨f1, f2, f3⟩ := flatArr_ok hx g2 gn hlv tickOf tickSV (fun y hy => tick_roundtrip (g2.1 y hy))
      have hr : ∀ y ∈ (flatArr tickOf vals v lv).vals, DateTimeParts.IsI64 y := by
        intro y hy
        obtain ⟨z, _, rfl⟩ := List.mem_map.mp hy
        exact tick_range z
      rw [DateTimeParts.encode_eq hu] at hb
      cases hb
      have hw' := DateTimeParts.encoded_WF hu f1
      have hdec := DateTimeParts.decode_encoded hu hr
      have hdt := g3.dtype
      simp only [dtype, Kind.dtype] at hdt
      refine ⟨⟨hw', _, hdec⟩, ?_, ?_⟩
      · simp only [leafDtype, dtype, ← hdt, DType.isNullable, DateTimeParts.encoded, f2]
      · rw [leafRows, (dtp_facts hw' hdec).1, DateTimeParts.rows_validity hw' (by simp [DateTimeParts.encoded, PArr.len, PArr.map])]
        simp only [rows]
        rw [← g4, f3]
        rfl
    · cases h
  · cases h

/-! ## The whole search -/

/-- A policy that uses the real encoders: the decisions (`can`, samples, costs, ratios, order) are free, except that a leaf compressor only
accepts what its own `can_compress` accepts (and, for the two that decode first, something decodable). -/
structure RealChoice (x : Outside) (t : Trained) (ch : Choice RLeaf) : Prop where
  enc : ch.leafEnc = encLeaf x t
  can : ∀ i a like l, ch.can i a = true → encLeaf x t i a like = .ok (some l) → canLeaf x t i a = true ∧ niceFor x i a
  constant : ∀ a, WF (leafEnv x).toEnv (leafRows x) (leafOk true) a → ch.can .constant a = true →
    (∀ r ∈ rows (leafEnv x).toEnv (leafRows x) a, inst r (dtype (leafEnv x).toEnv a) = true) ∧
    ∀ r ∈ rows (leafEnv x).toEnv (leafRows x) a, ∀ s ∈ rows (leafEnv x).toEnv (leafRows x) a, norm r = norm s
  alpEnc : ∀ p q vals e f enc exc, (p = .f32 ∧ q = .i32 ∨ p = .f64 ∧ q = .i64) → (∀ y ∈ vals, (Kind.prim p).has y = true) →
    ch.alpEnc p vals = .ok (e, f, enc, exc) →
    enc.length = vals.length ∧ (∀ y ∈ enc, (Kind.prim q).has y = true) ∧ exc.Pairwise (· < ·) ∧ (∀ i ∈ exc, i < vals.length) ∧
    ∀ i y z, i ∉ exc → vals[i]? = some y → enc[i]? = some z → norm (decRow (leafEnv x).toEnv (.alp e f) z) = norm y

theorem real_laws (hx : x.Lawful) {t : Trained} (ht : t.Lawful x) {ch : Choice RLeaf} (hc : RealChoice x t ch) {ok : RLeaf → Prop}
    (hok : ∀ i a like l, ch.can i a = true → encLeaf x t i a like = .ok (some l) → leafSound l → ok l) :
    ChoiceLaws (leafEnv x).toEnv (leafRows x) (leafOk true) ok ch := by
  refine ⟨hc.constant, ?_, hc.alpEnc⟩
  intro i a like l hg hcan h
  rw [hc.enc] at h
  obtain ⟨h1, h2⟩ := hc.can i a like l hcan h
  obtain ⟨e1, e2, e3⟩ := encLeaf_ok hx ht hg h1 h2 h
  exact ⟨hok i a like l hcan h e1, e2, by simp only [rows]; rw [e3]⟩

/-- **C90.** Compression with the real bit-packing, ALP-RD, FSST, roaring, delta and date-time encoders, under any decisions: if `compress`
returns an array, each of its encoded leaves satisfies the invariants of its encoding, and the array has the length, the type and the rows of
the input, up to the sign of floating-point zeros. -/
theorem C90_compress_partial (hx : x.Lawful) {t : Trained} (ht : t.Lawful x) {ch : Choice RLeaf} (hc : RealChoice x t ch)
    (fuel : Nat) (ctx : Ctx) (a b : Arr RLeaf) (like tr : Option CTree) (hg : Good (leafEnv x).toEnv (leafRows x) (leafOk true) a)
    (h : compress (leafEnv x) ch fuel ctx a like = .ok (b, tr)) :
    WF (leafEnv x).toEnv (leafRows x) leafSound b ∧ dtype (leafEnv x).toEnv b = dtype (leafEnv x).toEnv a ∧
      len (leafEnv x).toEnv b = len (leafEnv x).toEnv a ∧
      (rows (leafEnv x).toEnv (leafRows x) b).map norm = (rows (leafEnv x).toEnv (leafRows x) a).map norm := by
  have s := compress_sound (fun _ h => leafSound_of h) (C03_leaf_laws x hx true) (C05_leaf_bulk x hx)
    (real_laws hx ht hc (fun _ _ _ _ _ _ h => h)) fuel ctx a like b tr h hg
  refine ⟨s.wf, s.dtype, ?_, s.rows⟩
  rw [len_of (fun l hl => leafSound_len x hx l hl) b s.wf, len_eq (C03_leaf_laws x hx true) a hg.wf, sd_length s]

/-- Which compressor makes which leaf. -/
def MadeBy (i : CId) : RLeaf → Prop
  | .bitPacked _ _ => i = .bitPacked ∨ i = .bitPackedNoPatches
  | .roaringBool _ => i = .roaringBool
  | .delta _ _ => i = .delta
  | .alpRd _ _ => i = .alpRd
  | .fsst _ _ => i = .fsst
  | .roaringInt _ _ => i = .roaringInt
  | .dateTime _ _ _ => i = .dateTimeParts

theorem encLeaf_id {t : Trained} {i : CId} {a : Arr RLeaf} {like : Option CTree} {l : RLeaf} (h : encLeaf x t i a like = .ok (some l)) :
    MadeBy i l := by
  unfold encLeaf at h
  split at h
  · simp only [encPacked, Res.bind_eq_ok] at h
    obtain ⟨_, _, _, _, _, _, _, _, h⟩ := h
    split at h
    · cases h
    · simp only [Res.bind_eq_ok] at h; obtain ⟨_, _, h⟩ := h; cases h; exact .inl rfl
  · simp only [encPacked, Res.bind_eq_ok] at h
    obtain ⟨_, _, _, _, _, _, _, _, h⟩ := h
    split at h
    · cases h
    · simp only [Res.bind_eq_ok] at h; obtain ⟨_, _, h⟩ := h; cases h; exact .inr rfl
  · simp only [Res.bind_eq_ok] at h; obtain ⟨_, _, _, _, _, _, h⟩ := h; cases h; rfl
  · split at h
    · cases h
    · simp only [Res.bind_eq_ok] at h; obtain ⟨_, _, _, _, _, _, h⟩ := h; cases h; rfl
  · simp only [Res.bind_eq_ok] at h; obtain ⟨_, _, _, _, h⟩ := h; cases h; rfl
  · simp only [Res.bind_eq_ok] at h
    obtain ⟨_, _, h⟩ := h
    split at h
    · simp only [Res.bind_eq_ok] at h; obtain ⟨_, _, h⟩ := h; cases h; rfl
    · cases h
  · simp only [Res.bind_eq_ok] at h; obtain ⟨_, _, _, _, h⟩ := h; cases h; rfl
  · simp only [Res.bind_eq_ok] at h
    obtain ⟨_, _, _, _, h⟩ := h
    split at h
    · simp only [Res.bind_eq_ok] at h; obtain ⟨_, _, _, _, h⟩ := h; cases h; rfl
    · cases h
  · cases h

/-- The delta and roaring-integer compressors are off, as in `DEFAULT_COMPRESSORS` and `FASTEST_COMPRESSORS`
(vortex-sampling-compressor/src/lib.rs:49-73). -/
def Default (ch : Choice RLeaf) : Prop := ∀ a, ch.can .delta a = false ∧ ch.can .roaringInt a = false

theorem default_ok {t : Trained} {ch : Choice RLeaf} (hd : Default ch) (i : CId) (a : Arr RLeaf) (like : Option CTree) (l : RLeaf)
    (hcan : ch.can i a = true) (h : encLeaf x t i a like = .ok (some l)) (hs : leafSound l) : leafOk false l := by
  have hi := encLeaf_id h
  cases l with
  | bitPacked p b => exact ⟨hs.1, hs.2, nofun⟩
  | roaringBool b => exact hs
  | delta p b => simp only [MadeBy] at hi; rw [hi, (hd a).1] at hcan; cases hcan
  | alpRd p b => exact ⟨hs.1, hs.2, nofun⟩
  | fsst k b => exact ⟨hs.1, hs.2, rfl⟩
  | roaringInt p b => simp only [MadeBy] at hi; rw [hi, (hd a).2] at hcan; cases hcan
  | dateTime id m b => exact ⟨hs.1, hs.2, rfl⟩

/-- **C90 (the default compressors).** The result supports element access and slicing: every encoded leaf satisfies the laws of C03 and C04. -/
theorem C90_default_partial (hx : x.Lawful) {t : Trained} (ht : t.Lawful x) {ch : Choice RLeaf} (hc : RealChoice x t ch) (hd : Default ch)
    (fuel : Nat) (ctx : Ctx) (a b : Arr RLeaf) (like tr : Option CTree) (hg : Good (leafEnv x).toEnv (leafRows x) (leafOk true) a)
    (h : compress (leafEnv x) ch fuel ctx a like = .ok (b, tr)) :
    WF (leafEnv x).toEnv (leafRows x) (leafOk false) b ∧
      (rows (leafEnv x).toEnv (leafRows x) b).map norm = (rows (leafEnv x).toEnv (leafRows x) a).map norm := by
  have s := compress_sound (fun _ h => leafOk_weaken h) (C03_leaf_laws x hx true) (C05_leaf_bulk x hx)
    (real_laws hx ht hc (default_ok hd)) fuel ctx a like b tr h hg
  exact ⟨s.wf, s.rows⟩

theorem zeroFree_rows {l k : List SV} (hz : ∀ r ∈ l, zeroFree r = true) (h : k.map norm = l.map norm) : k = l := by
  rw [← norms_eq, ← norms_eq] at h
  refine zeroFrees_eq _ _ ?_ h
  clear h
  induction l with
  | nil => rfl
  | cons y ys ih => simp only [zeroFrees, Bool.and_eq_true]; exact ⟨hz y (by simp), ih (fun r hr => hz r (by simp [hr]))⟩

/-- **C90 (element access).** With the default compressors, and where no floating-point zero occurs, `scalar_at` of the compressed array is
`scalar_at` of the original at every index, in and out of range. -/
theorem C90_scalar_at_partial (hx : x.Lawful) {t : Trained} (ht : t.Lawful x) {ch : Choice RLeaf} (hc : RealChoice x t ch) (hd : Default ch)
    (fuel : Nat) (ctx : Ctx) (a b : Arr RLeaf) (like tr : Option CTree) (hg : Good (leafEnv x).toEnv (leafRows x) (leafOk true) a)
    (hz : ∀ r ∈ rows (leafEnv x).toEnv (leafRows x) a, zeroFree r = true)
    (h : compress (leafEnv x) ch fuel ctx a like = .ok (b, tr)) (hb : Regular (leafEnv x).toEnv (leafRows x) true b) (i : Nat) :
    b.scalarAt (leafEnv x).toEnv i = a.scalarAt (leafEnv x).toEnv i := by
  obtain ⟨h1, h2⟩ := C90_default_partial hx ht hc hd fuel ctx a b like tr hg h
  rw [C03_scalar_at_real_partial x hx b h1 hb i, C03_scalar_at_real_partial x hx a (WF_mono (fun _ h => leafOk_weaken h) a hg.wf) hg.regular i,
    zeroFree_rows hz h2]

/-- **C90 (decoding).** Every encoded leaf a compressor produces decodes to its rows: FSST columns if they are text, as the compressor's are, and
the decoded strings fit the 32-bit offsets (`C20_bulk_decode_overflow`). -/
theorem C90_leaf_decodes (hx : x.Lawful) (l : RLeaf) (hs : leafSound l)
    (hf : ∀ k a, l = .fsst k a → k = .utf8 ∧ ((fsstRows a).map fun r => (r.getD []).length).sum ≤ FSST.maxI32) :
    ∃ d, leafCanon x l = .ok d ∧ rows (leafEnv x).toEnv (leafRows x) d = leafRows x l := by
  cases l with
  | bitPacked p a =>
    obtain ⟨b, h1, h2, h3⟩ := BitPack.C10_unpack (isWidth_of_unsigned hs.1) (hx.fl _) a hs.2
    obtain ⟨_, _, _, _, _, g6⟩ := flat_ok (leafEnv x) (leafRows x) (leafOk true) (.prim p) (fun v => .prim ⟨p, v⟩) (has_prim_leaf p) b h2
    exact ⟨ofPrim p b, by simp [leafCanon, h1], by rw [ofPrim, g6, h3, ← svOf_elim]; rfl⟩
  | roaringBool a =>
    have h1 := Roaring.canonical_eq hs.sorted
    obtain ⟨_, _, _, _, _, g6⟩ := flat_ok (leafEnv x) (leafRows x) (leafOk true) .bool SV.bool has_bool _ (bool_WF (Roaring.bView a))
    exact ⟨_, by simp [leafCanon, h1]; rfl, by rw [ofBool, g6, bits_elim]; rfl⟩
  | delta p a =>
    obtain ⟨b, h1, h2, h3⟩ := Delta.C09_decompress_partial (hx.kern _) a hs.2.1 hs.2.2.1
    obtain ⟨_, _, _, _, _, g6⟩ := flat_ok (leafEnv x) (leafRows x) (leafOk true) (.prim p) (fun v => .prim ⟨p, v⟩) (has_prim_leaf p) b h2
    exact ⟨ofPrim p b, by simp [leafCanon, h1], by rw [ofPrim, g6, h3]; rfl⟩
  | alpRd p a =>
    obtain ⟨b, h1, h2, h3⟩ := ALPRD.C13_decode a hs.2
    obtain ⟨_, _, _, _, _, g6⟩ := flat_ok (leafEnv x) (leafRows x) (leafOk true) (.prim p) (fun v => .prim ⟨p, v⟩) (has_prim_leaf p) b h2
    exact ⟨ofPrim p b, by simp [leafCanon, h1], by rw [ofPrim, g6, h3]; rfl⟩
  | fsst k a =>
    obtain ⟨hk, hf⟩ := hf k a rfl
    obtain ⟨v, h1, h2, h3, _⟩ := FSST.C20_bulk_decode a _ hs.2 hf
    have hkb : k ≠ .binary := by rw [hk]; decide
    have hlen := VarBin.rows_len h2
    have hit := VarBin.C21_iter v h2
    have hsome : (VarBin.rows v).map Option.isSome = mask v.len v.validity :=
      isSome_rows (by rw [VarBin.spans_length]; exact h2.fits)
    have hlm : (mask v.len v.validity).length = v.len := by rw [← hsome, List.length_map, hlen]
    have hbw : (PArr.mk ((VarBin.rows v).map (·.getD [])) v.validity).WF := by
      show (mask ((VarBin.rows v).map (·.getD [])).length v.validity).length = _
      rw [List.length_map, hlen, hlm]
    obtain ⟨_, _, _, _, _, g6⟩ := flat_ok (leafEnv x) (leafRows x) (leafOk true) k (bytesSV k)
      (by rcases hs.1 with rfl | rfl <;> exact fun _ => rfl) _ hbw
    refine ⟨.flat k ((VarBin.rows v).map (fun r => bytesSV k (r.getD []))) (ofValidity v.validity),
      by simp only [leafCanon, h1, Res.ok_bind, stringsOf, hit, if_neg hkb], ?_⟩
    rw [show (VarBin.rows v).map (fun r => bytesSV k (r.getD [])) = ((VarBin.rows v).map (·.getD [])).map (bytesSV k) by rw [List.map_map]; rfl, g6,
      PArr.rows]
    simp only [List.length_map, hlen, rows_getD hsome]
    rw [h3]; rfl
  | roaringInt p a =>
    obtain ⟨_, _, _, _, _, g6⟩ := flat_ok (leafEnv x) (leafRows x) (leafOk true) (.prim p) (fun v => .prim ⟨p, v⟩) (has_prim_leaf p)
      ⟨(Roaring.iIntoCanonical a).map (BitVec.ofNat p.bits), .nonNullable⟩ (by simp [PArr.WF, FitsLen, mask])
    refine ⟨_, rfl, ?_⟩
    rw [ofPrim, g6, PArr.rows, rows_nonnull]
    simp only [leafRows, List.map_map]
    rfl
  | dateTime id m a =>
    obtain ⟨hw, b, hb⟩ := hs
    obtain ⟨m1, m2⟩ := DateTimeParts.validity_mask hw
    obtain ⟨_, hv, hl⟩ := DateTimeParts.decode_inv hw hb
    obtain ⟨_, _, _, _, _, g6⟩ := flat_ok (leafEnv x) (leafRows x) (leafOk true) (.prim .i64) tickSV (fun _ => rfl) b
      (by rw [PArr.WF, hl, hv]; exact m2)
    refine ⟨.ext id m (.flat (.prim .i64) (b.vals.map tickSV) (ofValidity b.validity)), by simp only [leafCanon, hb, Res.ok_bind], ?_⟩
    simp only [rows] at g6 ⊢
    rw [g6, leafRows, (dtp_facts hw hb).1]
    rfl

end

/-! ## A concrete instance -/

/-- Small trained parameters: two-bit packing, one dictionary entry, every byte escaped, timestamps in milliseconds. -/
def plainTrained : Trained where
  width _ _ := .ok 2
  strictSorted _ := false
  rd _ a := match a with
    | .flat (.prim p) _ _ => .ok ⟨p.bits - 16, [0x3F80]⟩
    | _ => .err
  fsst _ _ := .ok ([], FSST.compress [] (fun _ => none))
  tooSmall _ := false
  unit _ _ := some .ms

theorem plainTrained_lawful : plainTrained.Lawful plainOutside := by
  refine ⟨?_, ?_, ?_⟩
  · intro like p vals v e h hp
    simp only [plainTrained, Res.ok.injEq] at h
    subst h
    rcases hp with rfl | rfl <;> exact ⟨by simp, by simp, by decide, by decide⟩
  · intro like a c h
    simp only [plainTrained, Res.ok.injEq] at h
    subst h
    exact ⟨by simp, FSST.C20_codec_roundtrip [] _ (by intro s c h; cases h)⟩
  · intro a p h; simp [plainTrained] at h

/-- Bit-packing, FSST, ALP-RD, roaring booleans and date-time parts, each wherever its `can_compress` says yes. -/
def realChoice : Choice RLeaf where
  can i a := match i with
    | .constant => false
    | .delta => false
    | .roaringInt => false
    | .dateTimeParts => match a with
      | .ext _ _ (.flat _ _ .nonNullable) => canLeaf plainOutside plainTrained i a
      | _ => false
    | i => canLeaf plainOutside plainTrained i a
  cost _ := 1
  maxCost := 3
  own _ _ := false
  small _ := true
  sample a := .ok a
  better best _ _ := best.isNone
  unsatisfactory _ _ _ := false
  nbytes a := len (leafEnv plainOutside).toEnv a
  targetBytes := 4
  targetRows := 4
  leafEnc := encLeaf plainOutside plainTrained
  alpEnc _ _ := .err

theorem realChoice_ok : RealChoice plainOutside plainTrained realChoice := by
  refine ⟨rfl, ?_, ?_, ?_⟩
  · intro i a like l h _
    cases i <;> first
      | exact ⟨h, trivial⟩
      | (simp [realChoice] at h; done)
      | skip
    simp only [realChoice] at h
    split at h
    · refine ⟨h, ?_⟩
      exact trivial
    · cases h
  · intro a _ h; simp [realChoice] at h
  · intro p q vals e f enc exc _ _ h; simp [realChoice] at h

theorem realChoice_default : Default realChoice := fun _ => ⟨rfl, rfl⟩

def realCtx : Ctx := ⟨[.bitPacked, .fsst, .alpRd, .roaringBool, .dateTimeParts], 0, []⟩

/-- A table: integers with an exception and a validity array, strings, floats, flags and timestamps. -/
def realTable : Arr RLeaf := .struct ["i".toList, "s".toList, "f".toList, "b".toList, "t".toList] [
  .flat (.prim .u8) [.prim ⟨.u8, 1⟩, .prim ⟨.u8, 200⟩] (.array (.flat .bool [.bool true, .bool true] .nonNullable)),
  .flat .utf8 [.str [97, 98], .str []] .allValid,
  .flat (.prim .f32) [.prim ⟨.f32, 0x3F800001⟩, .prim ⟨.f32, 0x40000001⟩] .allValid,
  .flat .bool [.bool true, .bool false] .nonNullable,
  .ext "ts".toList none (.flat (.prim .i64) [tickSV 86400001, tickSV (-5)] .nonNullable)] 2 .nonNullable

/-- What each column became. -/
def shape : Arr RLeaf → List Nat
  | .leaf (.bitPacked _ _) => [1]
  | .leaf (.fsst _ _) => [2]
  | .leaf (.alpRd _ _) => [3]
  | .leaf (.roaringBool _) => [4]
  | .leaf (.dateTime _ _ _) => [5]
  | .struct _ [a, b, c, d, e] _ _ => shape a ++ shape b ++ shape c ++ shape d ++ shape e
  | _ => [0]

/-- The search ends with every column encoded by another encoder, so the theorems speak about it. -/
theorem realTable_compressed : ((compress (leafEnv plainOutside) realChoice 5 realCtx realTable none).bind (fun r => .ok (shape r.1))) =
    .ok [1, 2, 3, 4, 5] := by decide +kernel

/-- The table is in the domain of the theorems. -/
theorem realTable_good : Good (leafEnv plainOutside).toEnv (leafRows plainOutside) (leafOk true) realTable := by
  refine ⟨?_, ?_, ?_⟩
  · simp [realTable, WF, WFs, WFV, Kind.has, Kind.dtype, tickSV, TVal.nullable, dtype, rows, rowsEach, maskOf, masked]
  · simp [realTable, Regular, Regulars, RegularV]
  · simp [realTable, Comp, Comps, CompV, NiceV, Nice]

/-- The theorems applied to it: the compressed table has the rows of the table, and reads like it. -/
example : ∃ b t, compress (leafEnv plainOutside) realChoice 5 realCtx realTable none = .ok (b, t) ∧ shape b = [1, 2, 3, 4, 5] ∧
    WF (leafEnv plainOutside).toEnv (leafRows plainOutside) (leafOk false) b ∧
    (rows (leafEnv plainOutside).toEnv (leafRows plainOutside) b).map norm =
      (rows (leafEnv plainOutside).toEnv (leafRows plainOutside) realTable).map norm := by
  have h := realTable_compressed
  cases hc : compress (leafEnv plainOutside) realChoice 5 realCtx realTable none with
  | ok r =>
    rw [hc] at h
    simp only [Res.bind, Res.ok.injEq] at h
    obtain ⟨h1, h2⟩ := C90_default_partial plainOutside_lawful plainTrained_lawful realChoice_ok realChoice_default 5 realCtx realTable r.1 none r.2
      realTable_good hc
    exact ⟨r.1, r.2, rfl, h, h1, h2⟩
  | err => rw [hc] at h; simp [Res.bind] at h
  | panic => rw [hc] at h; simp [Res.bind] at h

/-- The delta encoder on a nullable column and the roaring encoder on a sorted one. -/
example : ((encLeaf plainOutside plainTrained .delta (.flat (.prim .u8) [.prim ⟨.u8, 5⟩, .prim ⟨.u8, 7⟩] .allValid) none).bind
    (fun o => .ok o.isSome)) = .ok true ∧
    ((encLeaf plainOutside plainTrained .roaringInt (.flat (.prim .u8) [.prim ⟨.u8, 5⟩, .prim ⟨.u8, 7⟩] .nonNullable) none).bind
    (fun o => .ok o.isSome)) = .ok true := by decide +kernel

end Vx.Tree
