import Verif.Lemmas.Leaves
import Verif.Props.C03Canon
import Verif.Props.C05
import Verif.Props.C06
import Verif.Props.C04
import Verif.Props.C10More
import Verif.Props.C19
/-!
# C03–C06 with real leaves
The laws the tree theorems ask of leaf encodings hold of bit-packed arrays (with patches for access, slicing and decoding; without patches
for `take`), of delta arrays without per-row nulls, of ALP-RD arrays (nullable ones for `take` and `filter`), of FSST and date-time-parts
arrays (access and slicing) and of roaring boolean arrays. So the theorems about trees are theorems about, for instance, a dictionary of
bit-packed codes over FSST strings.
-/
namespace Vx.Tree
open Vx.Spec

/-- A stored value as a scalar value. -/
def svOf (p : PType) : Option (BitVec p.bits) → SV
  | some x => .prim ⟨p, x⟩
  | none => .null

/-- The logical rows of a leaf: the rows of the bit-packed array, the bits of the roaring array. -/
def leafRows (x : Outside) : RLeaf → List SV
  | .bitPacked p a => (BitPack.rows (x.fl p.bits) a).map (svOf p)
  | .roaringBool a => (Roaring.bView a).map .bool
  | .delta p a => (Delta.rows (x.kern p.bits) a).map (optSV (fun v => .prim ⟨p, v⟩))
  | .alpRd p a => (ALPRD.rows a).map (optSV (fun v => .prim ⟨p, v⟩))
  | .fsst k a => (fsstRows a).map (optSV (bytesSV k))
  | .roaringInt p a => (Roaring.iIntoCanonical a).map (fun v => .prim ⟨p, BitVec.ofNat p.bits v⟩)
  | .dateTime _ _ a => (dtpRows a).map (optSV tickSV)

/-- The invariants of the constructors, and what the code needs for access and slicing; with `bulk`, also for decoding, `take` and
`filter`. Excluded, with the code's failures in `C09_sliced_nullable_panics`, `C19_roaring_int_empty_slice_wrong`, `C13_nullability_lost`,
`C10_take_patches_misplaced` and `C20_take`: delta arrays with per-row nulls, roaring integers and, for `bulk`, patches, non-nullable ALP-RD
arrays, and FSST arrays (a take may exceed the offsets). Date-time parts decode to an extension array, which the bulk laws do not cover. -/
def leafOk (bulk : Bool) : RLeaf → Prop
  | .bitPacked p a => isUnsigned p = true ∧ BitPack.WF a ∧ (bulk = true → a.patches = none)
  | .roaringBool a => Roaring.BWF a
  | .delta p a => isUnsigned p = true ∧ Delta.WF a ∧ (∀ bits, a.validity ≠ .array bits) ∧ a.bases.validity.nullable = a.validity.nullable
  | .alpRd p a => (p = .f32 ∨ p = .f64) ∧ ALPRD.WF a ∧ (bulk = true → a.left.validity.nullable = true)
  | .fsst k a => (k = .utf8 ∨ k = .binary) ∧ FSST.Denotes a (fsstRows a) ∧ bulk = false
  | .roaringInt _ _ => False
  | .dateTime _ _ a => DateTimeParts.WF a ∧ (∃ b, DateTimeParts.decode a = .ok b) ∧ bulk = false

/-- The contracts of what is outside the model. -/
structure Outside.Lawful (x : Outside) : Prop where
  fl : ∀ T, (x.fl T).Lawful
  kern : ∀ T, (x.kern T).Lawful
  alp32 : ∀ e f q, q.pt = .i32 → (x.alpDec e f q).pt = .f32
  alp64 : ∀ e f q, q.pt = .i64 → (x.alpDec e f q).pt = .f64

theorem isWidth_of_unsigned {p : PType} (h : isUnsigned p = true) : BitPack.IsWidth p.bits := by
  cases p <;> simp_all [isUnsigned, BitPack.IsWidth, PType.bits]

theorem nullable_slice {v w : Validity} {s e : Nat} (h : v.slice s e = .ok w) : w.nullable = v.nullable := by
  cases v <;> simp only [Validity.slice, Res.bind_eq_ok] at h
  case array => obtain ⟨b, _, h⟩ := h; cases h; rfl
  all_goals (cases h; rfl)

theorem nullable_take {v w : Validity} {is : List Nat} (h : v.take is = .ok w) : w.nullable = v.nullable := by
  cases v <;> simp only [Validity.take, Res.bind_eq_ok] at h
  case array => obtain ⟨b, _, h⟩ := h; cases h; rfl
  all_goals (cases h; rfl)

theorem tryNew_fields {packed : List (BitVec 8)} {v : Validity} {ps : Option (Sparse (BitVec T))} {w len off : Nat} {b : BitPack.Arr T}
    (h : BitPack.tryNew packed v ps w len off = .ok b) : b = ⟨packed, v, ps, w, len, off⟩ := by
  simp only [BitPack.tryNew, Res.bind_eq_ok] at h
  obtain ⟨_, _, _, _, _, _, _, _, _, _, h⟩ := h
  cases h; rfl

theorem slice_keeps {a b : BitPack.Arr T} {s e : Nat} (h : BitPack.slice a s e = .ok b) :
    b.validity.nullable = a.validity.nullable ∧ (a.patches = none → b.patches = none) := by
  unfold BitPack.slice at h
  split at h
  · cases h
  split at h
  · cases h
  split at h
  · cases h
  simp only [Res.bind_eq_ok] at h
  obtain ⟨_, _, v, hv, ps, hps, h⟩ := h
  have := tryNew_fields h
  subst this
  refine ⟨nullable_slice (by assumption), ?_⟩
  intro hn
  simp_all [BitPack.slicePatches]

theorem take_keeps {fl : BitPack.FL T} {a : BitPack.Arr T} {is : List Nat} {b : PArr (BitVec T)} (hp : a.patches = none)
    (h : BitPack.take fl a is = .ok b) : b.validity.nullable = a.validity.nullable := by
  unfold BitPack.take at h
  split at h
  · simp only [Res.bind_eq_ok, BitPack.unpack, hp, PArr.take] at h
    obtain ⟨u, ⟨_, _, hu⟩, v, hv, _, _, h⟩ := h
    cases hu; cases h
    exact nullable_take hv
  · simp only [Res.bind_eq_ok] at h
    obtain ⟨v, hv, _, _, h⟩ := h
    cases h
    exact nullable_take hv

section
variable {L : Type} (env : BEnv L) (lr : L → List SV) (ok : L → Prop)

/-- A decoded array as a tree. -/
theorem flat_ok (k : Kind) (f : α → SV) (hk : ∀ x, k.has (f x) = true) (b : PArr α) (hb : b.WF) :
    WF env.toEnv lr ok (.flat k (b.vals.map f) (ofValidity b.validity)) ∧
    depth (.flat k (b.vals.map f) (ofValidity (L := L) b.validity)) ≤ 2 ∧
    dtype env.toEnv (.flat k (b.vals.map f) (ofValidity b.validity)) = k.dtype b.validity.nullable ∧
    chunkFree (.flat k (b.vals.map f) (ofValidity (L := L) b.validity)) = true ∧
    Nice env.toEnv lr (.flat k (b.vals.map f) (ofValidity b.validity)) ∧
    rows env.toEnv lr (.flat k (b.vals.map f) (ofValidity b.validity)) = b.rows.map (fun o => o.elim .null f) := by
  obtain ⟨g1, g2, g3, g4, g5, g6⟩ := maskOf_ofValidity (env := env) (leafRows := lr) (ok := ok) b.validity b.vals.length hb
  refine ⟨?_, ?_, ?_, ?_, ?_, ?_⟩
  · simp only [WF, List.length_map]
    refine ⟨?_, g2⟩
    intro x hx
    obtain ⟨y, _, rfl⟩ := List.mem_map.mp hx
    exact hk y
  · simp only [depth]; omega
  · simp only [dtype, g6]
  · simpa only [chunkFree] using g5
  · simpa only [Nice] using g3
  · simp only [rows, List.length_map, g1, masked, PArr.rows, Spec.rows, List.map_zipWith, List.zipWith_map_left]
    congr 1
    funext x y
    cases y <;> rfl

/-- Filtering a decoded array through arrow. -/
theorem flat_filter_ok (k : Kind) (f : α → SV) (hk : ∀ x, k.has (f x) = true) (b : PArr α) (hb : b.WF) (m : List Bool)
    (hm : m.length = b.vals.length) :
    ∃ w : TVal (Arr L), arrowNulls b.validity.nullable (pick (b.validity.toLogical b.vals.length).intoBools m) = .ok w ∧
    WF env.toEnv lr ok (.flat k (pick (b.vals.map f) m) w) ∧
    depth (.flat k (pick (b.vals.map f) m) w) ≤ 2 ∧
    dtype env.toEnv (.flat k (pick (b.vals.map f) m) w) = k.dtype b.validity.nullable ∧
    chunkFree (.flat k (pick (b.vals.map f) m) w) = true ∧
    Nice env.toEnv lr (.flat k (pick (b.vals.map f) m) w) ∧
    rows env.toEnv lr (.flat k (pick (b.vals.map f) m) w) = Spec.filter (b.rows.map (fun o => o.elim .null f)) m := by
  have hbools : (b.validity.toLogical b.vals.length).intoBools = Spec.mask b.vals.length b.validity := (C23_to_logical b.validity b.vals.length hb).1
  have hmask : (Spec.mask b.vals.length b.validity).length = b.vals.length := hb
  rw [hbools, pick_eq]
  have hfl : (Spec.filter (b.vals.map f) m).length = m.count true := Spec.filter_length (by simpa using hm.symm)
  have hbl : (Spec.filter (Spec.mask b.vals.length b.validity) m).length = m.count true := Spec.filter_length (by omega)
  have key : ∃ V : Validity, arrowNulls (L := L) b.validity.nullable (Spec.filter (Spec.mask b.vals.length b.validity) m) = .ok (ofValidity V) ∧
      FitsLen V (m.count true) ∧ Spec.mask (m.count true) V = Spec.filter (Spec.mask b.vals.length b.validity) m ∧ V.nullable = b.validity.nullable := by
    cases hn : b.validity.nullable with
    | false =>
      have hv : b.validity = .nonNullable := by cases hv : b.validity <;> simp_all [Validity.nullable]
      refine ⟨.nonNullable, ?_, by simp [FitsLen, Spec.mask], ?_, rfl⟩
      · rw [hv]; simp [arrowNulls, Spec.mask, Spec.filter_replicate _ _ _ hm, ofValidity]
      · rw [hv]; simp [Spec.mask, Spec.filter_replicate _ _ _ hm]
    | true =>
      refine ⟨Validity.ofBooleanBuffer (Spec.filter (Spec.mask b.vals.length b.validity) m), rfl, ?_, ?_, ?_⟩
      · rw [← hbl]; simp [FitsLen, mask_ofBooleanBuffer]
      · rw [← hbl]; simp [mask_ofBooleanBuffer]
      · simp only [Validity.ofBooleanBuffer]; (repeat' split) <;> rfl
  obtain ⟨V, h1, h2, h3, h4⟩ := key
  have hV : (PArr.mk (Spec.filter b.vals m) V).WF := by
    simp only [PArr.WF]
    rw [Spec.filter_length hm.symm]; exact h2
  have hpick : pick (b.vals.map f) m = (Spec.filter b.vals m).map f := by rw [pick_eq, Spec.filter_map]
  have := flat_ok env lr ok k f hk ⟨Spec.filter b.vals m, V⟩ hV
  rw [hpick]
  refine ⟨_, h1, this.1, this.2.1, by rw [← h4]; exact this.2.2.1, this.2.2.2.1, this.2.2.2.2.1, ?_⟩
  rw [this.2.2.2.2.2, Spec.filter_map]
  congr 1
  simp only [PArr.rows, Spec.rows]
  rw [Spec.filter_length hm.symm, h3]
  exact (Spec.filter_zipWith _ _ _ _ (by omega)).symm

end

theorem svOf_elim (p : PType) : svOf p = fun o => o.elim .null (fun x => .prim ⟨p, x⟩) := by
  funext o; cases o <;> rfl

theorem bits_elim (xs : List Bool) : (PArr.mk xs .nonNullable).rows.map (fun o => o.elim .null SV.bool) = xs.map .bool := by
  simp [PArr.rows, Spec.rows, Spec.mask, List.map_zipWith]
  induction xs with
  | nil => rfl
  | cons x xs ih => simp [List.replicate_succ, ih]

theorem bool_WF (xs : List Bool) : (PArr.mk xs .nonNullable).WF := by simp [PArr.WF, FitsLen, Spec.mask]

theorem has_prim_leaf (p : PType) (x : BitVec p.bits) : (Kind.prim p).has (.prim ⟨p, x⟩) = true := by simp [Kind.has]

theorem has_bool (b : Bool) : Kind.bool.has (.bool b) = true := rfl

/-- One row of a bit-packed array: its validity, and what `ScalarAtFn` gives. -/
theorem packed_row {fl : BitPack.FL T} (hT : BitPack.IsWidth T) (hfl : fl.Lawful) {a : BitPack.Arr T} (h : BitPack.WF a) {i : Nat} {r : Option (BitVec T)}
    (hr : (BitPack.rows fl a)[i]? = some r) :
    ∃ b, a.validity.isValid i = .ok b ∧ ((b = false ∧ r = none) ∨ (b = true ∧ ∃ x, r = some x ∧ packedScalar fl a i = .ok x)) := by
  have hs := BitPack.C10_scalar_at hT hfl a h i
  rw [hr] at hs
  have hs : BitPack.scalarAt fl a i = .ok r := hs
  unfold BitPack.scalarAt at hs
  split at hs
  · cases hs
  · simp only [Res.bind_eq_ok] at hs
    obtain ⟨b, hb, hs⟩ := hs
    refine ⟨b, hb, ?_⟩
    cases b with
    | false => simp at hs; exact .inl ⟨rfl, hs.symm⟩
    | true =>
      simp only [Bool.not_true, Bool.false_eq_true, if_false, Res.bind_eq_ok] at hs
      obtain ⟨o, ho, hs⟩ := hs
      refine .inr ⟨rfl, ?_⟩
      cases o with
      | some x =>
        cases hs
        exact ⟨x, rfl, by simp [packedScalar, ho]⟩
      | none =>
        simp only [Res.bind_eq_ok] at hs
        obtain ⟨x, hx, hs⟩ := hs
        cases hs
        exact ⟨x, rfl, by simp [packedScalar, ho, hx]⟩

theorem leaf_scalar (x : Outside) (hx : x.Lawful) (bulk : Bool) (l : RLeaf) (i : Nat) (r : SV) (hl : leafOk bulk l)
    (hr : (leafRows x l)[i]? = some r) (hn : r.isNull = false) : leafScalar x l i = .ok r := by
  cases l with
  | bitPacked p a =>
    simp only [leafRows, List.getElem?_map, Option.map_eq_some_iff] at hr
    obtain ⟨o, ho, rfl⟩ := hr
    obtain ⟨b, _, h | ⟨_, v, rfl, hv⟩⟩ := packed_row (isWidth_of_unsigned hl.1) (hx.fl _) hl.2.1 ho
    · rw [h.2] at hn; simp [svOf, SV.isNull] at hn
    · simp [leafScalar, hv, svOf]
  | roaringBool a =>
    simp only [leafRows, List.getElem?_map, Option.map_eq_some_iff] at hr
    obtain ⟨b, hb, rfl⟩ := hr
    have hi : i < a.len := by
      have := (List.getElem?_eq_some_iff.mp hb).1
      simpa [Roaring.bView] using this
    have := hl.small
    simp only [Roaring.bView, List.getElem?_map, List.getElem?_range hi, Option.map_some, Option.some.injEq] at hb
    simp only [leafScalar, Nat.mod_eq_of_lt (show i < Roaring.u32 by omega), hb]
  | delta p a =>
    refine opt_scalar (prim_nonnull p) hr hn (fun o ho => ?_)
    rw [Delta.C09_scalar_at_partial (isWidth_of_unsigned hl.1) (hx.kern _) a hl.2.1 hl.2.2.1 i, ho]
  | alpRd p a =>
    refine opt_scalar (prim_nonnull p) hr hn (fun o ho => ?_)
    rw [ALPRD.C13_scalar_at a hl.2.1 i, ho]
  | fsst k a => exact opt_scalar (bytesSV_nonnull k) hr hn (fun o ho => (FSST.C20_scalar_at a _ hl.2.1 i).1 o ho)
  | roaringInt p a => exact hl.elim
  | dateTime id m a =>
    obtain ⟨hw, ⟨b, hb⟩, _⟩ := hl
    obtain ⟨f1, f2, _⟩ := dtp_facts hw hb
    refine opt_scalar tickSV_nonnull hr hn (fun o ho => ?_)
    have hi : i < a.days.len := by rw [← f2]; exact (List.getElem?_eq_some_iff.mp ho).1
    obtain ⟨r', h1, h2⟩ := (DateTimeParts.C17_scalar_at a hw b hb i).1 hi
    rw [f1] at ho
    rw [h1]; rw [h2] at ho; exact congrArg _ (Option.some.inj ho)

/-- **C03/C04 for real leaves.** Bit-packed arrays with any patches, delta, ALP-RD, FSST, roaring boolean and date-time-parts arrays satisfy
the laws of leaves. -/
theorem C03_leaf_laws (x : Outside) (hx : x.Lawful) (bulk : Bool) : LeafLaws (leafEnv x).toEnv (leafRows x) (leafOk bulk) := by
  refine ⟨?_, ?_, leaf_scalar x hx bulk, leaf_scalar x hx bulk, ?_⟩
  · intro l hl
    cases l with
    | bitPacked p a => simp [leafEnv, leafLen, leafRows, BitPack.rows_length (hx.fl _) hl.2.1]
    | roaringBool a => simp [leafEnv, leafLen, leafRows, Roaring.bView]
    | delta p a => simp [leafEnv, leafLen, leafRows, Delta.rows_length (hx.kern _) hl.2.1]
    | alpRd p a => simp [leafEnv, leafLen, leafRows, ALPRD.rows_length hl.2.1]
    | fsst k a => simpa [leafEnv, leafLen, leafRows] using hl.2.1.len
    | roaringInt p a => exact hl.elim
    | dateTime id m a =>
      obtain ⟨hw, ⟨b, hb⟩, _⟩ := hl
      simp [leafEnv, leafLen, leafRows, (dtp_facts hw hb).2.1]
  · intro l i r hl hr
    cases l with
    | bitPacked p a =>
      simp only [leafRows, List.getElem?_map, Option.map_eq_some_iff] at hr
      obtain ⟨o, ho, rfl⟩ := hr
      obtain ⟨b, hb, ⟨rfl, rfl⟩ | ⟨rfl, v, rfl, hv⟩⟩ := packed_row (isWidth_of_unsigned hl.1) (hx.fl _) hl.2.1 ho
      · exact hb
      · exact hb
    | roaringBool a =>
      simp only [leafRows, List.getElem?_map, Option.map_eq_some_iff] at hr
      obtain ⟨b, _, rfl⟩ := hr
      rfl
    | delta p a => exact opt_valid (prim_nonnull p) hl.2.1.validity (delta_mask (hx.kern _) hl.2.1) hr
    | alpRd p a => exact opt_valid (prim_nonnull p) hl.2.1.left (alprd_mask hl.2.1) hr
    | fsst k a => exact opt_valid (bytesSV_nonnull k) hl.2.1.wf.fits (FSST.mask_of hl.2.1).symm hr
    | roaringInt p a => exact hl.elim
    | dateTime id m a =>
      obtain ⟨hw, ⟨b, hb⟩, _⟩ := hl
      exact opt_valid tickSV_nonnull (DateTimeParts.validity_mask hw).2 (dtp_facts hw hb).2.2.1 hr
  · intro l s e hl hb
    cases l with
    | bitPacked p a =>
      have hlen : ((BitPack.rows (x.fl p.bits) a).map (svOf p)).length = a.len := by simp [BitPack.rows_length (hx.fl _) hl.2.1]
      simp only [leafRows, hlen] at hb
      obtain ⟨b, h1, h2, h3, h4⟩ := (BitPack.C10_slice (isWidth_of_unsigned hl.1) (hx.fl _) a hl.2.1 s e).1 hb
      have hk := slice_keeps h1
      refine ⟨.bitPacked p b, by simp [leafEnv, leafSlice, h1], ⟨hl.1, h2, fun hh => hk.2 (hl.2.2 hh)⟩, ?_, ?_⟩
      · simp [leafEnv, leafDtype, hk.1]
      · simp only [leafRows, h4, Spec.slice, List.map_drop, List.map_take]
    | roaringBool a =>
      have hlen : ((Roaring.bView a).map SV.bool).length = a.len := by simp [Roaring.bView]
      simp only [leafRows, hlen] at hb
      obtain ⟨b, h1, h2, h3, h4⟩ := (Roaring.C19_roaring_bool_slice a hl s e).1 hb
      refine ⟨.roaringBool b, by simp [leafEnv, leafSlice, h1], h2, rfl, ?_⟩
      simp only [leafRows, h4, Spec.slice, List.map_drop, List.map_take]
    | delta p a =>
      simp only [leafRows, List.length_map, Delta.rows_length (hx.kern _) hl.2.1] at hb
      obtain ⟨b, h1, h2, h3, h4⟩ := (Delta.C09_slice (isWidth_of_unsigned hl.1) (hx.kern _) a hl.2.1 s e).1 hb
      obtain ⟨k1, k2, k3⟩ := delta_slice_keeps h1
      refine ⟨.delta p b, by simp [leafEnv, leafSlice, h1], ⟨hl.1, h2, k3 hl.2.2.1, by rw [k1, k2]; exact hl.2.2.2⟩, ?_, ?_⟩
      · simp [leafEnv, leafDtype, k2]
      · simp only [leafRows, h4, Spec.slice, List.map_drop, List.map_take]
    | alpRd p a =>
      simp only [leafRows, List.length_map, ALPRD.rows_length hl.2.1] at hb
      obtain ⟨b, h1, h2, h4⟩ := ALPRD.C13_slice a hl.2.1 s e hb
      have k1 := alprd_slice_keeps h1
      refine ⟨.alpRd p b, by simp [leafEnv, leafSlice, h1], ⟨hl.1, h2, by rw [k1]; exact hl.2.2⟩, ?_, ?_⟩
      · simp [leafEnv, leafDtype, k1]
      · simp only [leafRows, h4, Spec.slice, List.map_drop, List.map_take]
    | fsst k a =>
      simp only [leafRows, List.length_map] at hb
      obtain ⟨b, h1, h2, h3⟩ := (FSST.C20_slice a _ hl.2.1 s e).1 hb
      have h4 := fsstRows_of h2
      refine ⟨.fsst k b, by simp [leafEnv, leafSlice, h1], ⟨hl.1, by rw [h4]; exact h2, hl.2.2⟩, ?_, ?_⟩
      · simp [leafEnv, leafDtype, h3]
      · simp only [leafRows, h4, Spec.slice, List.map_drop, List.map_take]
    | roaringInt p a => exact hl.elim
    | dateTime id m a =>
      obtain ⟨hw, ⟨b, hd⟩, hbulk⟩ := hl
      obtain ⟨f1, f2, _⟩ := dtp_facts hw hd
      simp only [leafRows, List.length_map, f2] at hb
      obtain ⟨a', b', h1, h2, h3, h4, _, h5⟩ := DateTimeParts.C17_slice a hw b hd s e hb
      refine ⟨.dateTime id m a', by simp [leafEnv, leafSlice, h1], ⟨h2, ⟨b', h3⟩, hbulk⟩, ?_, ?_⟩
      · have n1 := (DateTimeParts.decode_inv hw hd).2.1
        have n2 := (DateTimeParts.decode_inv h2 h3).2.1
        rw [n1, n2, DateTimeParts.validity_nullable, DateTimeParts.validity_nullable] at h5
        simp [leafEnv, leafDtype, h5]
      · simp only [leafRows, (dtp_facts h2 h3).1, f1, h4, Spec.slice, List.map_drop, List.map_take]

theorem unpack_keeps {fl : BitPack.FL T} {a : BitPack.Arr T} {b : PArr (BitVec T)} (hp : a.patches = none)
    (h : BitPack.unpack fl a = .ok b) : b.validity = a.validity := by
  simp only [BitPack.unpack, hp, Res.bind_eq_ok] at h
  obtain ⟨_, _, h⟩ := h
  cases h; rfl

/-- The logical validity of a leaf marks exactly its non-null rows, whether or not its type is nullable. -/
theorem C23_leaf_validity (x : Outside) (hx : x.Lawful) (bulk : Bool) (l : RLeaf) (hl : leafOk bulk l) :
    ∃ lv, leafValid l = .ok lv ∧ lv.intoBools = nonNulls (leafRows x l) := by
  cases l with
  | bitPacked p a =>
    refine ⟨_, rfl, ?_⟩
    have := (C23_to_logical a.validity a.len hl.2.1.validity).1
    rw [this]
    apply List.ext_getElem?
    intro i
    simp only [nonNulls, leafRows, List.map_map, List.getElem?_map]
    cases ho : (BitPack.rows (x.fl p.bits) a)[i]? with
    | none =>
      have hi := List.getElem?_eq_none_iff.mp ho
      rw [BitPack.rows_length (hx.fl _) hl.2.1] at hi
      simp only [Option.map_none]
      exact List.getElem?_eq_none_iff.mpr (by rw [show (Spec.mask a.len a.validity).length = a.len from hl.2.1.validity]; exact hi)
    | some o =>
      have hi := (List.getElem?_eq_some_iff.mp ho).1
      rw [BitPack.rows_length (hx.fl _) hl.2.1] at hi
      obtain ⟨b, hb, hcase⟩ := packed_row (isWidth_of_unsigned hl.1) (hx.fl _) hl.2.1 ho
      obtain ⟨m, hm, hmi⟩ := PArr.isValid_mask hl.2.1.validity hi
      rw [hb] at hm
      cases hm
      rw [hmi]
      obtain ⟨rfl, rfl⟩ | ⟨rfl, v, rfl, hv⟩ := hcase <;> rfl
  | roaringBool a =>
    refine ⟨_, rfl, ?_⟩
    simp only [leafRows, Roaring.bView, List.map_map, LogicalValidity.intoBools, nonNulls]
    apply List.ext_getElem?
    intro i
    by_cases hi : i < a.len <;> simp [List.getElem?_replicate, hi, SV.isNull]
  | delta p a => exact ⟨_, rfl, opt_logical (prim_nonnull p) hl.2.1.validity (delta_mask (hx.kern _) hl.2.1)⟩
  | alpRd p a => exact ⟨_, rfl, opt_logical (prim_nonnull p) hl.2.1.left (alprd_mask hl.2.1)⟩
  | fsst k a => exact ⟨_, rfl, opt_logical (bytesSV_nonnull k) hl.2.1.wf.fits (FSST.mask_of hl.2.1).symm⟩
  | roaringInt p a => exact hl.elim
  | dateTime id m a =>
    obtain ⟨hw, ⟨b, hb⟩, _⟩ := hl
    exact ⟨_, rfl, opt_logical tickSV_nonnull hw.days (dtp_facts hw hb).2.2.2⟩

/-- **C05/C06 for real leaves.** Bit-packed arrays without patches, delta arrays, nullable ALP-RD arrays and roaring boolean arrays satisfy
the bulk laws of leaves: decoding, validity, `take` and `filter`. -/
theorem C05_leaf_bulk (x : Outside) (hx : x.Lawful) : LeafBulk (leafEnv x) (leafRows x) (leafOk true) := by
  refine ⟨hx.alp32, hx.alp64, ?_, ?_, ?_, ?_⟩
  · intro l hl
    cases l with
    | bitPacked p a =>
      obtain ⟨b, h1, h2, h3⟩ := BitPack.C10_unpack (isWidth_of_unsigned hl.1) (hx.fl _) a hl.2.1
      have hv := unpack_keeps (hl.2.2 rfl) h1
      obtain ⟨g1, g2, g3, g4, g5, g6⟩ := flat_ok (leafEnv x) (leafRows x) (leafOk true) (.prim p) (fun v => .prim ⟨p, v⟩) (has_prim_leaf p) b h2
      refine ⟨_, _, _, by simp [leafEnv, leafCanon, h1, ofPrim], g1, ⟨g2, ?_, fun _ => g4, fun _ => g5⟩, ?_⟩
      · rw [g3, hv]; rfl
      · rw [g6, h3, ← svOf_elim]; rfl
    | roaringBool a =>
      have h1 := Roaring.canonical_eq hl.sorted
      obtain ⟨g1, g2, g3, g4, g5, g6⟩ := flat_ok (leafEnv x) (leafRows x) (leafOk true) .bool SV.bool has_bool _ (bool_WF (Roaring.bView a))
      refine ⟨_, _, _, by simp [leafEnv, leafCanon, h1, ofBool], g1, ⟨g2, ?_, fun _ => g4, fun _ => g5⟩, ?_⟩
      · rw [g3]; rfl
      · rw [g6, bits_elim]; rfl
    | delta p a =>
      obtain ⟨b, h1, h2, h3⟩ := Delta.C09_decompress_partial (hx.kern _) a hl.2.1 (.inl hl.2.2.1)
      obtain ⟨g1, g2, g3, g4, g5, g6⟩ := flat_ok (leafEnv x) (leafRows x) (leafOk true) (.prim p) (fun v => .prim ⟨p, v⟩) (has_prim_leaf p) b h2
      refine ⟨_, _, _, by simp [leafEnv, leafCanon, h1, ofPrim], g1, ⟨g2, ?_, fun _ => g4, fun _ => g5⟩, ?_⟩
      · rw [g3, delta_decompress_keeps h1, ← hl.2.2.2]; rfl
      · rw [g6, h3]; rfl
    | alpRd p a =>
      obtain ⟨b, h1, h2, h3⟩ := ALPRD.C13_decode a hl.2.1
      obtain ⟨g1, g2, g3, g4, g5, g6⟩ := flat_ok (leafEnv x) (leafRows x) (leafOk true) (.prim p) (fun v => .prim ⟨p, v⟩) (has_prim_leaf p) b h2
      refine ⟨_, _, _, by simp [leafEnv, leafCanon, h1, ofPrim], g1, ⟨g2, ?_, fun _ => g4, fun _ => g5⟩, ?_⟩
      · rw [g3, alprd_decode_nullable h1, ← hl.2.2 rfl]; rfl
      · rw [g6, h3]; rfl
    | fsst k a => exact absurd hl.2.2 (by decide)
    | roaringInt p a => exact hl.elim
    | dateTime id m a => exact absurd hl.2.2 (by decide)
  · intro l hl _
    exact C23_leaf_validity x hx true l hl
  · intro l is hl his
    cases l with
    | bitPacked p a =>
      have hlen : ((BitPack.rows (x.fl p.bits) a).map (svOf p)).length = a.len := by simp [BitPack.rows_length (hx.fl _) hl.2.1]
      simp only [leafRows, hlen] at his
      obtain ⟨b, h1, h2, h3⟩ := BitPack.C10_take_partial (isWidth_of_unsigned hl.1) (hx.fl _) a hl.2.1 is his (.inl (hl.2.2 rfl))
      have hv := take_keeps (hl.2.2 rfl) h1
      obtain ⟨g1, g2, g3, g4, g5, g6⟩ := flat_ok (leafEnv x) (leafRows x) (leafOk true) (.prim p) (fun v => .prim ⟨p, v⟩) (has_prim_leaf p) b h2
      refine ⟨ofPrim p b, by simp [leafEnv, leafTake, h1], g1, ⟨g2, ?_, fun _ => g4, fun _ => g5⟩, ?_⟩
      · rw [ofPrim, g3, hv]; rfl
      · rw [ofPrim, g6, h3, ← svOf_elim]
        exact (Spec.take_map _ _ _).symm
    | roaringBool a =>
      have hlen : ((Roaring.bView a).map SV.bool).length = (Roaring.bView a).length := by simp
      simp only [leafRows, hlen] at his
      have h1 := Roaring.canonical_eq hl.sorted
      obtain ⟨b, g1, g2, g3, _⟩ := PArr.take_ok (bool_WF (Roaring.bView a)) (is := is) his
      have hv : b.validity = .nonNullable := by
        simp only [PArr.take, Validity.take, Res.ok_bind, Res.bind_eq_ok] at g1
        obtain ⟨_, _, g1⟩ := g1
        cases g1; rfl
      obtain ⟨k1, k2, k3, k4, k5, k6⟩ := flat_ok (leafEnv x) (leafRows x) (leafOk true) .bool SV.bool has_bool b g3
      refine ⟨ofBool b, by simp [leafEnv, leafTake, h1, g1], k1, ⟨k2, ?_, fun _ => k4, fun _ => k5⟩, ?_⟩
      · rw [ofBool, k3, hv]; rfl
      · rw [ofBool, k6, g2, ← Spec.take_map, bits_elim]; rfl
    | delta p a =>
      obtain ⟨b, h1, h2, h3⟩ := Delta.C09_decompress_partial (hx.kern _) a hl.2.1 (.inl hl.2.2.1)
      have hlen : b.vals.length = (leafRows x (.delta p a)).length := by
        rw [show b.vals.length = b.len from rfl, ← PArr.rows_len h2, h3]; simp [leafRows]
      rw [← hlen] at his
      obtain ⟨c, c1, c2, c3, _⟩ := PArr.take_ok h2 (is := is) his
      obtain ⟨g1, g2, g3, g4, g5, g6⟩ := flat_ok (leafEnv x) (leafRows x) (leafOk true) (.prim p) (fun v => .prim ⟨p, v⟩) (has_prim_leaf p) c c3
      refine ⟨ofPrim p c, by simp [leafEnv, leafTake, h1, c1], g1, ⟨g2, ?_, fun _ => g4, fun _ => g5⟩, ?_⟩
      · rw [ofPrim, g3, parr_take_null c1, delta_decompress_keeps h1, ← hl.2.2.2]; rfl
      · rw [ofPrim, g6, c2, h3, ← Spec.take_map]; rfl
    | alpRd p a =>
      simp only [leafRows, List.length_map, ALPRD.rows_length hl.2.1] at his
      obtain ⟨b, h1, h2, h3⟩ := ALPRD.C13_take a hl.2.1 is his
      have k1 := alprd_take_keeps h1
      refine ⟨.leaf (.alpRd p b), by simp [leafEnv, leafTake, h1], ⟨hl.1, h2, by rw [k1]; exact hl.2.2⟩, ⟨Nat.le_refl _, ?_, fun _ => rfl, fun _ => trivial⟩, ?_⟩
      · simp [dtype, leafEnv, leafDtype, k1]
      · simp only [rows, leafRows, h3, Spec.take_map]
    | fsst k a => exact absurd hl.2.2 (by decide)
    | roaringInt p a => exact hl.elim
    | dateTime id m a => exact absurd hl.2.2 (by decide)
  · intro l m hl hm
    cases l with
    | bitPacked p a =>
      have hlen : ((BitPack.rows (x.fl p.bits) a).map (svOf p)).length = a.len := by simp [BitPack.rows_length (hx.fl _) hl.2.1]
      simp only [leafRows, hlen] at hm
      obtain ⟨b, h1, h2, h3⟩ := BitPack.C10_unpack (isWidth_of_unsigned hl.1) (hx.fl _) a hl.2.1
      have hv := unpack_keeps (hl.2.2 rfl) h1
      have hbl : b.vals.length = a.len := by
        have := PArr.rows_len h2
        rw [h3, BitPack.rows_length (hx.fl _) hl.2.1] at this
        exact this.symm
      obtain ⟨w, g0, g1, g2, g3, g4, g5, g6⟩ := flat_filter_ok (leafEnv x) (leafRows x) (leafOk true) (.prim p) (fun v => .prim ⟨p, v⟩) (has_prim_leaf p) b h2 m
        (by omega)
      refine ⟨_, by simp only [leafEnv, leafFilter, leafArrow, h1, Res.ok_bind, ← hv, g0], g1, ⟨g2, ?_, fun _ => g4, fun _ => g5⟩, ?_⟩
      · rw [g3, hv]; rfl
      · rw [g6, h3, ← svOf_elim]; rfl
    | roaringBool a =>
      have hlen : ((Roaring.bView a).map SV.bool).length = (Roaring.bView a).length := by simp
      simp only [leafRows, hlen] at hm
      have h1 := Roaring.canonical_eq hl.sorted
      obtain ⟨w, g0, g1, g2, g3, g4, g5, g6⟩ := flat_filter_ok (leafEnv x) (leafRows x) (leafOk true) .bool SV.bool has_bool _ (bool_WF (Roaring.bView a)) m hm
      refine ⟨_, by simp only [leafEnv, leafFilter, leafArrow, h1, Res.ok_bind, show false = (Validity.nonNullable).nullable from rfl, g0], g1, ⟨g2, ?_, fun _ => g4, fun _ => g5⟩, ?_⟩
      · rw [g3]; rfl
      · rw [g6, bits_elim]; rfl
    | delta p a =>
      obtain ⟨b, h1, h2, h3⟩ := Delta.C09_decompress_partial (hx.kern _) a hl.2.1 (.inl hl.2.2.1)
      have hlen : b.vals.length = (leafRows x (.delta p a)).length := by
        rw [show b.vals.length = b.len from rfl, ← PArr.rows_len h2, h3]; simp [leafRows]
      have hv := delta_decompress_keeps h1
      obtain ⟨w, g0, g1, g2, g3, g4, g5, g6⟩ := flat_filter_ok (leafEnv x) (leafRows x) (leafOk true) (.prim p) (fun v => .prim ⟨p, v⟩) (has_prim_leaf p) b h2 m
        (by omega)
      refine ⟨_, by simp only [leafEnv, leafFilter, leafArrow, h1, Res.ok_bind, hl.2.2.2, ← hv, g0], g1, ⟨g2, ?_, fun _ => g4, fun _ => g5⟩, ?_⟩
      · rw [g3, hv, ← hl.2.2.2]; rfl
      · rw [g6, h3]; rfl
    | alpRd p a =>
      simp only [leafRows, List.length_map, ALPRD.rows_length hl.2.1] at hm
      obtain ⟨b, h1, h2, h3⟩ := ALPRD.C13_filter a hl.2.1 m hm
      have k1 := alprd_filter_keeps h1
      refine ⟨.leaf (.alpRd p b), by simp [leafEnv, leafFilter, h1], ⟨hl.1, h2, by rw [k1]; exact hl.2.2⟩, ⟨Nat.le_refl _, ?_, fun _ => rfl, fun _ => trivial⟩, ?_⟩
      · simp [dtype, leafEnv, leafDtype, k1]
      · simp only [rows, leafRows, h3, Spec.filter_map]
    | fsst k a => exact absurd hl.2.2 (by decide)
    | roaringInt p a => exact hl.elim
    | dateTime id m a => exact absurd hl.2.2 (by decide)

/-! ## The tree theorems with these leaves -/

section
variable (x : Outside) (hx : x.Lawful)

/-- **C03.** `scalar_at` on any tree of encodings over bit-packed (with patches), delta, ALP-RD, FSST, roaring, date-time and plain leaves gives the logical row, and an
error exactly outside. -/
theorem C03_scalar_at_real_partial (hx : x.Lawful) (a : Arr RLeaf) (hw : WF (leafEnv x).toEnv (leafRows x) (leafOk false) a)
    (hr : Regular (leafEnv x).toEnv (leafRows x) true a) (i : Nat) :
    a.scalarAt (leafEnv x).toEnv i = match (rows (leafEnv x).toEnv (leafRows x) a)[i]? with
      | some r => .ok r
      | none => .err := C03_scalar_at_partial (C03_leaf_laws x hx false) a hw hr i

/-- **C04.** Any sequence of slices of such a tree, then `scalar_at`. -/
theorem C04_sequence_real_partial (hx : x.Lawful) (l : List (Nat × Nat)) (a : Arr RLeaf) (hw : WF (leafEnv x).toEnv (leafRows x) (leafOk false) a)
    (hr : Regular (leafEnv x).toEnv (leafRows x) true a) (hf : Fits (runFree a) (rows (leafEnv x).toEnv (leafRows x) a).length l) :
    ∃ b, sliceAll (leafEnv x).toEnv a l = .ok b ∧ ∀ i, b.scalarAt (leafEnv x).toEnv i =
      match (l.foldl (fun r p => Spec.slice r p.1 p.2) (rows (leafEnv x).toEnv (leafRows x) a))[i]? with
      | some r => .ok r
      | none => .err := by
  obtain ⟨b, h1, h2, h3, h4⟩ := C04_sequence_partial (st := true) (C03_leaf_laws x hx false) l a hw hr hf
  refine ⟨b, h1, fun i => ?_⟩
  rw [C03_scalar_at_real_partial x hx b h2 h3 i, h4]

/-- **C05/C06.** Any pipeline of takes and filters on such a tree (bit-packed leaves without patches), then decoding. -/
theorem C06_pipeline_real_partial (hx : x.Lawful) (l : List Sel) (a : Arr RLeaf) (empty : Bool) (hw : WF (leafEnv x).toEnv (leafRows x) (leafOk true) a)
    (hb : Bulk (leafEnv x).toEnv (leafRows x) (leafEnv x).temporal true a) (he : empty = true → chunkFree a = true)
    (hf : SelFits empty (rows (leafEnv x).toEnv (leafRows x) a).length l) :
    ∃ b, selAll (leafEnv x) a l = .ok b ∧ rows (leafEnv x).toEnv (leafRows x) b = selRows (rows (leafEnv x).toEnv (leafRows x) a) l :=
  C06_pipeline_partial (C03_leaf_laws x hx true) (C05_leaf_bulk x hx) l a empty hw hb he hf

/-- **C03 (decoding).** -/
theorem C03_canonical_real_partial (hx : x.Lawful) (a : Arr RLeaf) (hw : WF (leafEnv x).toEnv (leafRows x) (leafOk true) a)
    (hn : Nice (leafEnv x).toEnv (leafRows x) a) :
    ∃ k vals v, a.canon (leafEnv x) = .ok (.flat k vals v) ∧ rows (leafEnv x).toEnv (leafRows x) (.flat k vals v) = rows (leafEnv x).toEnv (leafRows x) a ∧
      k.dtype v.nullable = dtype (leafEnv x).toEnv a ∧ vals.length = len (leafEnv x).toEnv a :=
  C03_canonical_partial (C03_leaf_laws x hx true) (C05_leaf_bulk x hx) a hw hn

/-- A primitive column that has been bit-packed: reading any row of the packed column is reading the row of the original. -/
theorem C03_packed_column (hx : x.Lawful) (p : PType) (hp : isUnsigned p = true) (a : PArr (BitVec p.bits)) (ha : a.WF) (hne : a.vals ≠ []) (w : Nat)
    (hw : w < p.bits) : ∃ packed, BitPack.encode (x.fl p.bits) a w = .ok packed ∧
      ∀ i, (Arr.leaf (RLeaf.bitPacked p packed)).scalarAt (leafEnv x).toEnv i = match a.rows[i]? with
        | some r => .ok (svOf p r)
        | none => .err := by
  obtain ⟨packed, _, h1, h2, h3, _⟩ := BitPack.C10_roundtrip (isWidth_of_unsigned hp) (hx.fl _) a ha hne w hw
  refine ⟨packed, h1, fun i => ?_⟩
  rw [C03_scalar_at_real_partial x hx (.leaf (.bitPacked p packed)) (by simp only [WF]; exact ⟨hp, h2, nofun⟩) (by simp [Regular]) i]
  simp only [rows, leafRows, h3, List.getElem?_map]
  cases a.rows[i]? <;> rfl

end

/-- Concrete kernels. -/
def plainOutside : Outside where
  fl := BitPack.plainFL
  kern := Delta.plainKern
  alpDec _ _ q := if q.pt = .i32 then ⟨.f32, 0⟩ else ⟨.f64, 0⟩
  manySet _ _ := true
  temporal := temporalArrow

theorem plainOutside_lawful : plainOutside.Lawful :=
  ⟨BitPack.plainFL_lawful, Delta.plainKern_lawful, by intro e f q h; simp [plainOutside, h], by intro e f q h; simp [plainOutside, h]⟩

/-- Codes `0, 1, 1` packed into one bit each. -/
def packedCodes : BitPack.Arr 8 := ⟨BitPack.packAll (BitPack.plainFL 8) 1 [0, 1, 1], .nonNullable, none, 1, 3, 0⟩

/-- A dictionary of strings with bit-packed codes. -/
def packedDict : Arr RLeaf :=
  .dict (.leaf (.bitPacked .u8 packedCodes)) (.flat .utf8 [.str [97], .str [98]] .nonNullable)

theorem packedCodes_ok : BitPack.WF packedCodes ∧ BitPack.rows (BitPack.plainFL 8) packedCodes = [some 0, some 1, some 1] := by
  obtain ⟨arr, h1, h2, h3⟩ := BitPack.C10_unchecked (T := 8) (fl := BitPack.plainFL 8) (by simp [BitPack.IsWidth]) (BitPack.plainFL_lawful 8)
    ⟨[0, 1, 1], .nonNullable⟩ (by simp [PArr.WF, FitsLen, Spec.mask]) 1 (by decide) (by intro v hv; simp at hv; rcases hv with rfl | rfl <;> decide)
  have := tryNew_fields h1
  subst this
  exact ⟨h2, h3⟩

/-- The hypotheses of all theorems above are met by a dictionary of strings with bit-packed codes. -/
example : WF (leafEnv plainOutside).toEnv (leafRows plainOutside) (leafOk true) packedDict ∧
    Regular (leafEnv plainOutside).toEnv (leafRows plainOutside) true packedDict ∧
    Bulk (leafEnv plainOutside).toEnv (leafRows plainOutside) (leafEnv plainOutside).temporal true packedDict ∧
    rows (leafEnv plainOutside).toEnv (leafRows plainOutside) packedDict = [.str [97], .str [98], .str [98]] := by
  have hr : rows (leafEnv plainOutside).toEnv (leafRows plainOutside) (.leaf (.bitPacked .u8 packedCodes)) =
      [.prim ⟨.u8, 0⟩, .prim ⟨.u8, 1⟩, .prim ⟨.u8, 1⟩] := by
    simp only [rows, leafRows]
    exact congrArg (List.map (svOf .u8)) packedCodes_ok.2
  have hv : rows (leafEnv plainOutside).toEnv (leafRows plainOutside) (.flat .utf8 [.str [97], .str [98]] .nonNullable) = [.str [97], .str [98]] := by
    simp [rows, maskOf, masked]
  refine ⟨?_, ?_, ?_, ?_⟩
  · simp only [packedDict, WF, hr, hv]
    refine ⟨⟨rfl, packedCodes_ok.1, fun _ => rfl⟩, ⟨by simp [Kind.has], trivial⟩, ⟨.u8, rfl, rfl⟩, ?_⟩
    intro r h
    simp only [List.mem_cons, List.not_mem_nil, or_false] at h
    rcases h with rfl | rfl | rfl
    · exact ⟨0, by decide, by decide⟩
    · exact ⟨1, by decide, by decide⟩
    · exact ⟨1, by decide, by decide⟩
  · simp [packedDict, Regular, RegularV, hv, atomic]
  · simp [packedDict, Bulk]
  · have : rows (leafEnv plainOutside).toEnv (leafRows plainOutside) packedDict =
        (rows (leafEnv plainOutside).toEnv (leafRows plainOutside) (.leaf (.bitPacked .u8 packedCodes))).map
          (deref (rows (leafEnv plainOutside).toEnv (leafRows plainOutside) (.flat .utf8 [.str [97], .str [98]] .nonNullable))) := by
      simp only [packedDict, rows]
    rw [this, hr, hv]
    rfl

end Vx.Tree
