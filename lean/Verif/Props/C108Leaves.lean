import Verif.Model.LeafSearch
import Verif.Props.C108
import Verif.Props.C02BitPack
import Verif.Props.C03Leaves
/-!
# C108 on the real leaf encodings
The laws asked of leaves with a search of their own hold of bit-packed arrays, patches included, so the search on encoded arrays is right for,
for instance, a frame of reference over a bit-packed array.
-/
namespace Vx.Tree
open Vx.Spec

/-- Leaves that can be searched: the invariants of the constructors and, for bit-packed arrays, what compression writes: less than 64 bits per
value, patches exactly where the value needs more (`BitPack.Tight`). -/
def searchOk (x : Outside) (l : RLeaf) : Prop :=
  leafOk false l ∧ match l with
    | .bitPacked p a => a.w < 64 ∧ BitPack.Tight (x.fl p.bits) a
    | _ => True

theorem slice_width {a b : BitPack.Arr T} {s e : Nat} (h : BitPack.slice a s e = .ok b) : b.w = a.w := by
  unfold BitPack.slice at h
  split at h
  · cases h
  split at h
  · cases h
  split at h
  · cases h
  simp only [Res.bind_eq_ok] at h
  obtain ⟨_, _, v, hv, ps, hps, h⟩ := h
  have := tryNew_fields h
  subst this
  rfl

/-- **C108 (leaves).** The access laws hold of searchable leaves, and slicing keeps them searchable. -/
theorem C108_leaf_laws (x : Outside) (hx : x.Lawful) : LeafLaws (leafEnv x).toEnv (leafRows x) (searchOk x) := by
  have h := C03_leaf_laws x hx false
  refine ⟨fun l hl => h.len l hl.1, fun l i r hl => h.isValid l i r hl.1, fun l i r hl => h.scalar l i r hl.1,
    fun l i r hl => h.scalarU l i r hl.1, ?_⟩
  intro l s e hl hb
  obtain ⟨l', h1, h2, h3, h4⟩ := h.slice l s e hl.1 hb
  refine ⟨l', h1, ⟨h2, ?_⟩, h3, h4⟩
  have h1' : leafSlice l s e = .ok (.leaf l') := h1
  cases l with
  | bitPacked p a =>
    simp only [leafSlice, Res.bind_eq_ok] at h1'
    obtain ⟨b, hb', h1'⟩ := h1'
    cases h1'
    have hlen := BitPack.rows_length (hx.fl p.bits) hl.1.2.1
    simp only [leafRows, List.length_map, hlen] at hb
    exact ⟨by rw [slice_width hb']; exact hl.2.1,
      BitPack.slice_tight (isWidth_of_unsigned hl.1.1) (hx.fl _) hl.1.2.1 hl.2.2 hb hb'⟩
  | _ =>
    simp only [leafSlice, Res.bind_eq_ok] at h1'
    obtain ⟨b, hb', h1'⟩ := h1'
    cases h1'
    trivial

/-- Sorted rows of a primitive leaf are values followed by nulls. -/
theorem leaf_shape (p : PType) : ∀ rs : List (Option (BitVec p.bits)), SortedRows (rs.map (svOf p)) →
    ∃ (ys : List (BitVec p.bits)) (k : Nat), rs = ys.map some ++ List.replicate k none
  | [], _ => ⟨[], 0, rfl⟩
  | r :: rs, h => by
    have h' := List.pairwise_cons.mp h
    obtain ⟨ys, k, hyk⟩ := leaf_shape p rs h'.2
    cases r with
    | some y => exact ⟨y :: ys, k, by simp [hyk]⟩
    | none =>
      cases ys with
      | nil => exact ⟨[], k + 1, by simp [hyk, List.replicate_succ]⟩
      | cons y ys =>
        have := h'.1 (.prim ⟨p, y⟩) (by simp [hyk, svOf])
        simp [svOf, SV.cmp] at this
        exact absurd this (by simp [SV.tag]; decide)

theorem key_unsigned {p : PType} (h : isUnsigned p = true) (x : BitVec p.bits) : PValue.key ⟨p, x⟩ = intKey false x := by
  cases p <;> simp_all [isUnsigned, PValue.key, PType.isFloat, PValue.toInt, PType.isSigned, intKey]

/-- **C108 (leaves).** The search of a bit-packed array, for one probe, is right. -/
theorem C108_leaf_own (x : Outside) (hx : x.Lawful) (F : FloatOps) : OwnLaws (leafEnv x).toEnv (leafRows x) (leafOwn x F) (searchOk x) := by
  intro l o v d side hl ho hd hn hs hv hp
  cases l with
  | bitPacked p a =>
    obtain ⟨⟨hu, hw, _⟩, h64, ht⟩ := hl
    obtain ⟨q, rfl, hq⟩ := hp p _ rfl
    simp only [leafOwn, Option.some.injEq] at ho
    subst ho
    simp only [leafRows] at hs ⊢
    obtain ⟨ys, k, hr⟩ := leaf_shape p _ hs
    have hd' : d.eqIgnoreNullability (.prim p a.validity.nullable) = true := hd
    obtain ⟨pt, b⟩ := q
    simp only at hq
    subst hq
    have hrows : (BitPack.rows (x.fl pt.bits) a).map (svOf pt) = (ys.map (PValue.mk pt)).map SV.prim ++ List.replicate k SV.null := by
      rw [hr]; simp [svOf, Function.comp_def]
    have hpt : ∀ z ∈ ys.map (PValue.mk pt), z.pt = pt := by
      intro z hz; obtain ⟨y, _, rfl⟩ := List.mem_map.mp hz; rfl
    have hks : (ys.map (PValue.mk pt)).map PValue.key = ys.map (intKey false) := by
      rw [List.map_map]; apply List.map_congr_left; intro y _; exact key_unsigned hu y
    rw [hrows] at hs ⊢
    have hso := (sorted_prims pt _ hpt k).mp hs
    rw [hks] at hso
    rw [searchRows_prims pt _ hpt k _ rfl side, hks, key_unsigned hu]
    simp only [packedOwn]
    rw [probe_self pt a.validity.nullable ⟨pt, b⟩ rfl d hd']
    simp only [Res.ok_bind, BitVec.ofNat_toNat, BitVec.setWidth_eq]
    exact BitPack.C02_bitpack_search (isWidth_of_unsigned hu) (hx.fl _) a hw h64 ht ys k hr hso b side
  | _ => simp [leafOwn] at ho

/-- **C108 (real leaves).** On every tree of encodings over bit-packed (with patches), delta, ALP-RD, FSST, roaring, date-time and plain leaves
whose rows are in order, the search finds the position that the rows alone determine. Missing: as for `C108_search_sorted_partial`. -/
theorem C108_search_real_partial (x : Outside) (hx : x.Lawful) (F : FloatOps) (a : Arr RLeaf)
    (hw : WF (leafEnv x).toEnv (leafRows x) (searchOk x) a) (hr : Regular (leafEnv x).toEnv (leafRows x) true a)
    (hs : SortedRows (rows (leafEnv x).toEnv (leafRows x) a)) (t : Scalar) (v : SV)
    (ht : t.cast F (dtype (leafEnv x).toEnv a) = .ok ⟨dtype (leafEnv x).toEnv a, v⟩) (hn : v.isNull = false)
    (hv : ProbeFits (rows (leafEnv x).toEnv (leafRows x) a) v) (hq : Searchable (leafEnv x).toEnv (leafRows x) a v) (side : Vx.Side) :
    a.search (leafEnv x).toEnv F (leafOwn x F) t side = .ok (searchRows (rows (leafEnv x).toEnv (leafRows x) a) v side) :=
  C108_search_sorted_partial (C108_leaf_laws x hx) (C108_leaf_own x hx F) a hw hr hs t v ht hn hv hq side

/-- **C108 (real leaves, then slice).** Searching a slice of a sorted array is searching the slice of its rows, provided the slice has a searchable shape.
-/
theorem C108_slice_search_real_partial (x : Outside) (hx : x.Lawful) (F : FloatOps) (a b : Arr RLeaf)
    (hw : WF (leafEnv x).toEnv (leafRows x) (searchOk x) a) (hr : Regular (leafEnv x).toEnv (leafRows x) true a)
    (hs : SortedRows (rows (leafEnv x).toEnv (leafRows x) a)) (s e : Nat) (hf : Fits (runFree a) (rows (leafEnv x).toEnv (leafRows x) a).length [(s, e)])
    (hb : a.slice (leafEnv x).toEnv s e = .ok b) (t : Scalar) (v : SV)
    (ht : t.cast F (dtype (leafEnv x).toEnv b) = .ok ⟨dtype (leafEnv x).toEnv b, v⟩) (hn : v.isNull = false)
    (hv : ProbeFits (rows (leafEnv x).toEnv (leafRows x) a) v) (hq : Searchable (leafEnv x).toEnv (leafRows x) b v) (side : Vx.Side) :
    b.search (leafEnv x).toEnv F (leafOwn x F) t side =
      .ok (searchRows (Spec.slice (rows (leafEnv x).toEnv (leafRows x) a) s e) v side) := by
  obtain ⟨b', h1, h2, h3, h4⟩ := C04_sequence_partial (st := true) (C108_leaf_laws x hx) [(s, e)] a hw hr hf
  have hbb : b' = b := by
    simp only [sliceAll, hb, Res.ok_bind] at h1
    cases h1; rfl
  subst hbb
  simp only [List.foldl] at h4
  have hsub : (Spec.slice (rows (leafEnv x).toEnv (leafRows x) a) s e).Sublist (rows (leafEnv x).toEnv (leafRows x) a) := by
    unfold Spec.slice
    exact ((List.drop_sublist _ _).trans (List.take_sublist _ _))
  rw [← h4] at hsub ⊢
  exact C108_search_real_partial x hx F b' h2 h3 (hs.sublist hsub) t v ht hn (fun y hy => hv y (hsub.subset hy)) hq side

/-- **C108 (`u64` probes on bit-packed arrays).** Without nulls the number is searched for as a number, also when the type cannot represent it; with
nulls the position reported for such a number lies behind them (`C02_bitpack_u64_behind_nulls`). -/
theorem C108_leaf_u64_partial (x : Outside) (hx : x.Lawful) (F : FloatOps) (p : PType) (a : BitPack.Arr p.bits)
    (hl : searchOk x (.bitPacked p a)) (ys : List (BitVec p.bits))
    (hr : rows (leafEnv x).toEnv (leafRows x) (.leaf (.bitPacked p a)) = ys.map (fun y => .prim ⟨p, y⟩))
    (hs : (ys.map BitVec.toNat).Pairwise (· ≤ ·)) (b : BitVec 64) (side : Vx.Side) :
    (Arr.leaf (.bitPacked p a)).searchU64 (leafEnv x).toEnv F (leafOwn x F) b side =
      .ok (Spec.searchSorted (ys.map (fun y => (y.toNat : Int))) (b.toNat : Int) side) := by
  have hr' : BitPack.rows (x.fl p.bits) a = ys.map some := by
    have hinj : Function.Injective (svOf p) := by
      intro o o' h
      cases o <;> cases o' <;> simp_all [svOf]
    apply List.map_injective_iff.mpr hinj
    simp only [rows, leafRows] at hr
    rw [hr, List.map_map]
    rfl
  have hk : ys.map (intKey false) = ys.map (fun y => (y.toNat : Int)) := by
    apply List.map_congr_left; intro y _; simp [intKey]
  simp only [Arr.searchU64, leafOwn, packedOwn]
  rw [← hk]
  refine BitPack.C02_bitpack_search_u64 (isWidth_of_unsigned hl.1.1) (hx.fl _) a hl.1.2.1 hl.2.1 hl.2.2 ys hr' ?_ b.toNat side
  rw [hk, List.pairwise_map]
  rw [List.pairwise_map] at hs
  exact hs.imp (fun h => by exact_mod_cast h)

/-- **C108 (many probes, bit-packed arrays).** Without patches the bulk search of a bit-packed array answers each pair of a probe and a side as the single
search would. Missing: patches (`C108_packed_many_misses`). -/
theorem C108_leaf_many_partial (x : Outside) (hx : x.Lawful) (F : FloatOps) (p : PType) (a : BitPack.Arr p.bits)
    (hl : searchOk x (.bitPacked p a)) (hp : a.patches = none) (hs : SortedRows (rows (leafEnv x).toEnv (leafRows x) (.leaf (.bitPacked p a))))
    (qs : List (BitVec p.bits)) (n : Bool) (sides : List Vx.Side) :
    (Arr.leaf (.bitPacked p a)).searchMany (leafEnv x).toEnv F (leafOwn x F) (qs.map (fun q => ⟨.prim p n, .prim ⟨p, q⟩⟩)) sides =
      .ok ((qs.zip sides).map (fun q => searchRows (rows (leafEnv x).toEnv (leafRows x) (.leaf (.bitPacked p a))) (.prim ⟨p, q.1⟩) q.2)) := by
  have hdt : dtype (leafEnv x).toEnv (.leaf (.bitPacked p a)) = .prim p a.validity.nullable := rfl
  have hig : ∀ m m', DType.eqIgnoreNullability (.prim p m) (.prim p m') = true := by
    intro m m'; simp [DType.eqIgnoreNullability, DType.beq, DType.withNullability]
  have hc : Res.mapM (fun t : Scalar => t.cast F (dtype (leafEnv x).toEnv (.leaf (.bitPacked p a)))) (qs.map (fun q => ⟨.prim p n, .prim ⟨p, q⟩⟩)) =
      .ok (qs.map (fun q => ⟨.prim p a.validity.nullable, .prim ⟨p, q⟩⟩)) := by
    rw [hdt]
    induction qs with
    | nil => rfl
    | cons q qs ih =>
      simp only [List.map_cons, Res.mapM]
      rw [cast_self _ _ rfl _ (hig _ _), ih]
      rfl
  unfold Arr.searchMany
  rw [if_pos (show ownSearch (leafOwn x F) (.leaf (.bitPacked p a)) = true from rfl), hc]
  simp only [Res.ok_bind, leafOwn, packedOwn]
  have hz : (qs.map (fun q => (⟨.prim p a.validity.nullable, .prim ⟨p, q⟩⟩ : Scalar))).zip sides =
      (qs.zip sides).map (fun q => ((⟨.prim p a.validity.nullable, .prim ⟨p, q.1⟩⟩ : Scalar), q.2)) := by
    rw [List.zip_map_left]; rfl
  rw [hz]
  generalize qs.zip sides = l
  induction l with
  | nil => rfl
  | cons q l ih =>
    simp only [List.map_cons, Res.mapM]
    rw [ih, probe_self p a.validity.nullable ⟨p, q.1⟩ rfl _ (hig _ _)]
    have h1 := C108_leaf_own x hx F (.bitPacked p a) _ (.prim ⟨p, q.1⟩) (.prim p a.validity.nullable) q.2 hl rfl (hig _ _) rfl hs ?_ ?_
    · simp only [packedOwn] at h1
      rw [probe_self p a.validity.nullable ⟨p, q.1⟩ rfl _ (hig _ _)] at h1
      simp only [Res.ok_bind, BitPack.searchNative, hp] at h1 ⊢
      rw [h1]
      rfl
    · intro r hr
      simp only [leafRows, List.mem_map] at hr
      obtain ⟨o, _, rfl⟩ := hr
      cases o with
      | none => rw [show svOf p none = SV.null from rfl, cmp_null rfl]; simp
      | some y => simp [svOf, SV.cmp, PValue.partialCmp]
    · intro p' n' h
      cases h
      exact ⟨⟨p, q.1⟩, rfl, rfl⟩

/-- `0, 1, 200` packed into one bit each, the last value as a patch. -/
def patchedLeaf : BitPack.Arr 8 := BitPack.encoded (BitPack.plainFL 8) 1 ⟨[0, 1, 200], .nonNullable⟩

/-- A frame of reference over it: `10, 11, 210`. -/
def patchedFoR : Arr RLeaf := .mapped (.for .u8 (10 : BitVec 8) 0) (.leaf (.bitPacked .u8 patchedLeaf))

theorem patchedLeaf_ok : searchOk plainOutside (.bitPacked .u8 patchedLeaf) ∧
    rows (leafEnv plainOutside).toEnv (leafRows plainOutside) (.leaf (.bitPacked .u8 patchedLeaf)) =
      [.prim ⟨.u8, 0⟩, .prim ⟨.u8, 1⟩, .prim ⟨.u8, 200⟩] := by
  have hl := BitPack.plainFL_lawful 8
  refine ⟨⟨⟨rfl, BitPack.encoded_WF hl (by decide) (by decide), nofun⟩, by decide, BitPack.encoded_tight hl (by decide) (by decide)⟩, ?_⟩
  simp only [rows, leafRows]
  exact congrArg (List.map (svOf .u8)) (BitPack.rows_encoded hl (a := ⟨[0, 1, 200], .nonNullable⟩) (w := 1) (by decide) (by decide))

/-- The hypotheses are met by a frame of reference over a bit-packed array with a patch: 210 is found in the last row. -/
example (F : FloatOps) : patchedFoR.search (leafEnv plainOutside).toEnv F (leafOwn plainOutside F) ⟨.prim .u8 false, .prim ⟨.u8, (210 : BitVec 8)⟩⟩ .left =
    .ok (.found 2) := by
  obtain ⟨hok, hrows⟩ := patchedLeaf_ok
  have hfr : rows (leafEnv plainOutside).toEnv (leafRows plainOutside) patchedFoR =
      [.prim ⟨.u8, (10 : BitVec 8)⟩, .prim ⟨.u8, (11 : BitVec 8)⟩, .prim ⟨.u8, (210 : BitVec 8)⟩] := by
    unfold patchedFoR
    rw [rows, hrows]
    rfl
  have hd : dtype (leafEnv plainOutside).toEnv patchedFoR = .prim .u8 false := rfl
  rw [C108_search_real_partial plainOutside plainOutside_lawful F patchedFoR ?_ ?_ ?_ _ (.prim ⟨.u8, (210 : BitVec 8)⟩) ?_ rfl ?_ ?_ .left, hfr]
  · decide
  · unfold patchedFoR
    rw [WF, hrows]
    refine ⟨by rw [WF]; exact hok, rfl, ?_⟩
    intro r h
    simp only [List.mem_cons, List.not_mem_nil, or_false] at h
    rcases h with rfl | rfl | rfl <;> exact Or.inr ⟨_, rfl⟩
  · simp [patchedFoR, Regular]
  · rw [hfr]; unfold SortedRows; decide
  · rw [hd]; exact cast_self _ _ rfl _ rfl
  · rw [hfr]; unfold ProbeFits; decide
  · unfold patchedFoR
    simp only [Searchable]
    rw [hrows]
    refine ⟨by decide, ?_, ⟨(210 : BitVec 8), rfl, nofun⟩, ?_⟩
    · intro r h
      simp only [List.mem_cons, List.not_mem_nil, or_false] at h
      rcases h with rfl | rfl | rfl
      · exact Or.inr ⟨(10 : BitVec 8), by decide, by decide, rfl⟩
      · exact Or.inr ⟨(11 : BitVec 8), by decide, by decide, rfl⟩
      · exact Or.inr ⟨(210 : BitVec 8), by decide, by decide, rfl⟩
    · intro u p n h
      cases h
      exact ⟨⟨.u8, u⟩, rfl, rfl⟩

/-- **The bulk search misses the patches.** 200 is the last row; a search for it finds it, a search for the list of it does not. -/
theorem C108_packed_many_misses :
    (Arr.leaf (.bitPacked .u8 patchedLeaf)).search (leafEnv plainOutside).toEnv noFloats (leafOwn plainOutside noFloats)
      ⟨.prim .u8 false, .prim ⟨.u8, (200 : BitVec 8)⟩⟩ .left = .ok (.found 2) ∧
    (Arr.leaf (.bitPacked .u8 patchedLeaf)).searchMany (leafEnv plainOutside).toEnv noFloats (leafOwn plainOutside noFloats)
      [⟨.prim .u8 false, .prim ⟨.u8, (200 : BitVec 8)⟩⟩] [.left] = .ok [.notFound 2] := by
  refine ⟨by decide +kernel, by decide +kernel⟩

/-- **The bulk `u64` search truncates.** 257 is found where 1 is. -/
theorem C108_packed_u64_many_truncates :
    (Arr.leaf (.bitPacked .u8 patchedLeaf)).searchU64 (leafEnv plainOutside).toEnv noFloats (leafOwn plainOutside noFloats) 257#64 .left =
      .ok (.notFound 3) ∧
    (Arr.leaf (.bitPacked .u8 patchedLeaf)).searchU64Many (leafEnv plainOutside).toEnv noFloats (leafOwn plainOutside noFloats) [257#64] [.left] =
      .ok [.found 1] := by
  refine ⟨by decide +kernel, by decide +kernel⟩

end Vx.Tree
