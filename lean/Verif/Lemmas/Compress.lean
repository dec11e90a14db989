import Verif.Spec.Compress
import Verif.Lemmas.TreeStruct
import Verif.Lemmas.TreeCanon
import Verif.Props.C03
import Verif.Props.C03Canon
import Verif.Props.C07
import Verif.Props.C08
import Verif.Props.C14
import Verif.Props.C15
import Mathlib.Data.List.Forall2
/-! # Lemmas for C41 -/
namespace Vx.Tree
open Vx.Spec (patched)

variable {L : Type} {env : BEnv L} {leafRows : L → List SV} {okIn ok : L → Prop} {ch : Choice L}

theorem norms_eq (vs : List SV) : norms vs = vs.map norm := by
  induction vs with
  | nil => rfl
  | cons v vs ih => simp [norms, ih]

theorem posZero_pt (p : PValue) : (posZero p).pt = p.pt := by
  unfold posZero; split <;> rfl

theorem posZero_int {p : PValue} (h : floatParts p.pt = none) : posZero p = p := by
  simp [posZero, isNegZero, h]

@[simp] theorem norm_isNull (x : SV) : (norm x).isNull = x.isNull := by cases x <;> simp [norm, SV.isNull]

@[simp] theorem has_norm (k : Kind) (x : SV) : k.has (norm x) = k.has x := by
  cases k <;> cases x <;> simp [norm, Kind.has, posZero_pt]

mutual
theorem inst_norm : ∀ (x : SV) (d : DType), inst (norm x) d = inst x d
  | .bool _, d => by simp [norm]
  | .prim p, d => by cases d <;> simp [norm, inst, posZero_pt]
  | .buffer _, d => by simp [norm]
  | .str _, d => by simp [norm]
  | .list vs, d => by cases d <;> simp [norm, inst, instAll_norm vs, instEach_norm vs]
  | .null, d => by simp [norm]
theorem instAll_norm : ∀ (vs : List SV) (d : DType), instAll (norms vs) d = instAll vs d
  | [], d => by simp [norms]
  | v :: vs, d => by simp [norms, instAll, inst_norm v d, instAll_norm vs d]
theorem instEach_norm : ∀ (vs : List SV) (ds : List DType), instEach (norms vs) ds = instEach vs ds
  | [], ds => by simp [norms]
  | v :: vs, [] => by simp [norms, instEach]
  | v :: vs, d :: ds => by simp [norms, instEach, inst_norm v d, instEach_norm vs ds]
end

/-- Values without a float inside. -/
def Exact (x : SV) : Prop := x = .null ∨ (∃ b, x = .bool b) ∨ ∃ p, x = .prim p ∧ floatParts p.pt = none

theorem exact_of_norm {x y : SV} (h : norm y = norm x) (hx : Exact x) : y = x := by
  rcases hx with rfl | ⟨b, rfl⟩ | ⟨p, rfl, hp⟩
  · cases y <;> simp [norm] at h ⊢
  · cases y <;> simp [norm] at h ⊢; exact h
  · cases y with
    | prim q =>
      simp only [norm, SV.prim.injEq] at h ⊢
      rw [posZero_int hp] at h
      have : floatParts q.pt = none := by rw [← posZero_pt q, h]; exact hp
      rwa [posZero_int this] at h
    | _ => simp [norm] at h

theorem exact_rows {xs ys : List SV} (h : ys.map norm = xs.map norm) (hx : ∀ x ∈ xs, Exact x) : ys = xs := by
  induction xs generalizing ys with
  | nil => simpa using h
  | cons x xs ih =>
    cases ys with
    | nil => simp at h
    | cons y ys =>
      simp only [List.map_cons, List.cons.injEq] at h
      rw [exact_of_norm h.1 (hx x (by simp)), ih h.2 (fun x hx' => hx x (by simp [hx']))]

theorem norm_shape {x y : SV} (h : norm y = norm x) (hx : x = .null ∨ ∃ p, x = .prim p) : y = .null ∨ ∃ p, y = .prim p := by
  rcases hx with rfl | ⟨p, rfl⟩
  · cases y <;> simp [norm] at h ⊢
  · cases y <;> simp [norm] at h ⊢

theorem mem_norm {xs ys : List SV} (h : ys.map norm = xs.map norm) {y : SV} (hy : y ∈ ys) : ∃ x ∈ xs, norm y = norm x := by
  have : norm y ∈ xs.map norm := by rw [← h]; exact List.mem_map_of_mem hy
  obtain ⟨x, hx, he⟩ := List.mem_map.mp this
  exact ⟨x, hx, he.symm⟩

/-! ### The rows of a node under `norm` -/

theorem masked_norm (vals : List SV) (m : List Bool) : (masked vals m).map norm = masked (vals.map norm) m := by
  unfold masked
  rw [List.map_zipWith, List.zipWith_map_left]
  congr 1
  funext x b
  cases b <;> simp [norm]

theorem structRow_norm (cols : List (List SV)) (i : Nat) : norm (structRow cols i) = structRow (cols.map (List.map norm)) i := by
  simp only [structRow, norm, norms_eq, List.map_map, SV.list.injEq]
  apply List.map_congr_left
  intro c _
  simp only [Function.comp, List.getElem?_map]
  cases c[i]? <;> simp [norm]

theorem structRows_norm (n : Nat) (cols : List (List SV)) (m : List Bool) :
    (structRows n cols m).map norm = structRows n (cols.map (List.map norm)) m := by
  simp only [structRows, List.map_map]
  apply List.map_congr_left
  intro i _
  simp only [Function.comp]
  split
  · exact structRow_norm cols i
  · simp [norm]

theorem deref_norm (vs : List SV) (c : SV) : norm (deref vs c) = deref (vs.map norm) c := by
  unfold deref
  cases asIdx c with
  | none => simp [norm]
  | some k => simp only [List.getElem?_map]; cases vs[k]? <;> simp [norm]

theorem expandFrom_map (f : α → β) (ends : List Nat) (vs : List α) (s : Nat) :
    (Spec.expandFrom s ends vs).map f = Spec.expandFrom s ends (vs.map f) := by
  induction ends generalizing vs s with
  | nil => simp [Spec.expandFrom]
  | cons e es ih =>
    cases vs with
    | nil => simp [Spec.expandFrom]
    | cons v vs => simp [Spec.expandFrom, ih]

theorem expand_map (f : α → β) (ends : List Nat) (vs : List α) : (Spec.expand ends vs).map f = Spec.expand ends (vs.map f) := expandFrom_map f ends vs 0

/-! ### Lists of arrays -/

theorem Chks_iff (cs : List (Arr L)) : Chks env.toEnv leafRows cs ↔ ∀ c ∈ cs, Chk env.toEnv leafRows c := by
  induction cs with
  | nil => simp [Chks]
  | cons c cs ih => simp [Chks, ih]

theorem Comps_iff (cs : List (Arr L)) : Comps env.toEnv leafRows cs ↔ ∀ c ∈ cs, Comp env.toEnv leafRows c := by
  induction cs with
  | nil => simp [Comps]
  | cons c cs ih => simp [Comps, ih]

mutual
/-- A weaker invariant of leaves. -/
theorem WF_mono (hs : ∀ l, okIn l → ok l) : ∀ (a : Arr L), WF env.toEnv leafRows okIn a → WF env.toEnv leafRows ok a
  | .leaf l, h => by simp only [WF] at h ⊢; exact hs l h
  | .flat k vals v, h => by simp only [WF] at h ⊢; exact ⟨h.1, WFV_mono hs v _ h.2⟩
  | .null _, _ => by simp only [WF]
  | .const _ _ _, h => by simp only [WF] at h ⊢; exact h
  | .chunked _ cs, h => by simp only [WF] at h ⊢; exact ⟨WFs_mono hs cs h.1, h.2⟩
  | .struct _ fs _ v, h => by simp only [WF] at h ⊢; exact ⟨h.1, WFs_mono hs fs h.2.1, h.2.2.1, WFV_mono hs v _ h.2.2.2⟩
  | .ext _ _ s, h => by simp only [WF] at h ⊢; exact WF_mono hs s h
  | .sparse _ values _ _ _, h => by simp only [WF] at h ⊢; exact ⟨WF_mono hs values h.1, h.2⟩
  | .dict codes values, h => by simp only [WF] at h ⊢; exact ⟨WF_mono hs codes h.1, WF_mono hs values h.2.1, h.2.2⟩
  | .runEnd _ values v _ _, h => by simp only [WF] at h ⊢; exact ⟨WF_mono hs values h.1, WFV_mono hs v _ h.2.1, h.2.2⟩
  | .mapped _ enc, h => by simp only [WF] at h ⊢; exact ⟨WF_mono hs enc h.1, h.2⟩
  | .alpP _ _ enc patches, h => by simp only [WF] at h ⊢; exact ⟨WF_mono hs enc h.1, WF_mono hs patches h.2.1, h.2.2⟩
theorem WFs_mono (hs : ∀ l, okIn l → ok l) : ∀ (cs : List (Arr L)), WFs env.toEnv leafRows okIn cs → WFs env.toEnv leafRows ok cs
  | [], _ => by simp only [WFs]
  | c :: cs, h => by simp only [WFs] at h ⊢; exact ⟨WF_mono hs c h.1, WFs_mono hs cs h.2⟩
theorem WFV_mono (hs : ∀ l, okIn l → ok l) : ∀ (v : TVal (Arr L)) (n : Nat), WFV env.toEnv leafRows okIn v n → WFV env.toEnv leafRows ok v n
  | .array a, n, h => by simp only [WFV] at h ⊢; exact ⟨WF_mono hs a h.1, h.2⟩
  | .nonNullable, _, _ => by simp only [WFV]
  | .allValid, _, _ => by simp only [WFV]
  | .allInvalid, _, _ => by simp only [WFV]
end

theorem SameData.refl {a : Arr L} (h : WF env.toEnv leafRows ok a) : SameData env.toEnv leafRows ok a a := ⟨h, rfl, rfl⟩

theorem SameData.trans {a b c : Arr L} (h : SameData env.toEnv leafRows ok a b) (g : SameData env.toEnv leafRows ok b c) :
    SameData env.toEnv leafRows ok a c := ⟨g.wf, g.dtype.trans h.dtype, g.rows.trans h.rows⟩

theorem sd_length {a b : Arr L} (h : SameData env.toEnv leafRows ok a b) : (rows env.toEnv leafRows b).length = (rows env.toEnv leafRows a).length := by
  simpa using congrArg List.length h.rows

/-- The induction hypothesis: what the recursive calls do. -/
def Sound (env : BEnv L) (leafRows : L → List SV) (okIn ok : L → Prop) (rec : Ctx → Arr L → Option CTree → Res (Out L)) : Prop :=
  ∀ ctx a like b t, rec ctx a like = .ok (b, t) → Good env.toEnv leafRows okIn a → SameData env.toEnv leafRows ok a b

theorem has_prim {p : PType} {x : SV} (h : (Kind.prim p).has x = true) : ∃ b : BitVec p.bits, x = .prim ⟨p, b⟩ := by
  cases x with
  | prim q => obtain ⟨pt, b⟩ := q; simp only [Kind.has, beq_iff_eq] at h; subst h; exact ⟨b, rfl⟩
  | _ => simp [Kind.has] at h

theorem masked_map (f : SV → SV) (hf : f .null = .null) (vals : List SV) (m : List Bool) : (masked vals m).map f = masked (vals.map f) m := by
  unfold masked
  rw [List.map_zipWith, List.zipWith_map_left]
  congr 1
  funext x b
  cases b <;> simp [hf]

theorem mem_masked {vals : List SV} {m : List Bool} {x : SV} (h : x ∈ masked vals m) : x = .null ∨ x ∈ vals := by
  unfold masked at h
  obtain ⟨i, hi, he⟩ := List.mem_iff_getElem.mp h
  rw [List.getElem_zipWith] at he
  split at he
  · exact .inr (he ▸ List.getElem_mem _)
  · exact .inl he.symm

theorem flat_rows {k : Kind} {vals : List SV} {v : TVal (Arr L)} :
    rows env.toEnv leafRows (.flat k vals v) = masked vals (maskOf env.toEnv leafRows v vals.length) := by simp [rows]

theorem mapped_rows {c : Codec} {a : Arr L} : rows env.toEnv leafRows (.mapped c a) = (rows env.toEnv leafRows a).map (decRow env.toEnv c) := by
  simp [rows]

/-- Replacing the stored values of a plain array by as many others. -/
theorem good_flat {k k' : Kind} {vals vals' : List SV} {v : TVal (Arr L)} (h : Good env.toEnv leafRows okIn (.flat k vals v))
    (hl : vals'.length = vals.length) (hv : ∀ x ∈ vals', k'.has x = true) : Good env.toEnv leafRows okIn (.flat k' vals' v) := by
  refine ⟨⟨hv, ?_⟩, h.regular, h.comp⟩
  rw [hl]; exact h.wf.2

/-- A plain array without null information of its own. -/
theorem good_plain {k : Kind} {vals : List SV} {v : TVal (Arr L)} (hv : ∀ x ∈ vals, k.has x = true) (hn : v = .nonNullable ∨ v = .allValid) :
    Good env.toEnv leafRows okIn (.flat k vals v) ∧ rows env.toEnv leafRows (.flat k vals v) = vals := by
  rcases hn with rfl | rfl
  · exact ⟨⟨⟨hv, trivial⟩, trivial, trivial, trivial⟩, by simp only [rows, maskOf]; exact masked_replicate_true _⟩
  · exact ⟨⟨⟨hv, trivial⟩, trivial, trivial, trivial⟩, by simp only [rows, maskOf]; exact masked_replicate_true _⟩

theorem exact_prim {p : PType} (hp : floatParts p = none) {x : SV} (h : (Kind.prim p).has x = true) : Exact x := by
  obtain ⟨b, rfl⟩ := has_prim h
  exact .inr (.inr ⟨_, rfl, hp⟩)

/-- Compressing a plain array of integers keeps the rows exactly. -/
theorem exact_flat {p : PType} (hp : floatParts p = none) {vals : List SV} {v : TVal (Arr L)} {b : Arr L}
    (hg : Good env.toEnv leafRows okIn (.flat (.prim p) vals v)) (hs : SameData env.toEnv leafRows ok (.flat (.prim p) vals v) b) :
    rows env.toEnv leafRows b = rows env.toEnv leafRows (.flat (.prim p) vals v) := by
  apply exact_rows hs.rows
  intro x hx
  rw [flat_rows] at hx
  rcases mem_masked hx with rfl | hx
  · exact .inl rfl
  · exact exact_prim hp (hg.wf.1 x hx)

theorem flat_shape {p : PType} {vals : List SV} {v : TVal (Arr L)} (hw : WF env.toEnv leafRows ok (.flat (.prim p) vals v)) :
    ∀ r ∈ rows env.toEnv leafRows (.flat (.prim p) vals v), r = .null ∨ ∃ q, r = .prim q := by
  intro r hr
  rw [flat_rows] at hr
  rcases mem_masked hr with rfl | hr
  · exact .inl rfl
  · obtain ⟨b, rfl⟩ := has_prim (hw.1 r hr); exact .inr ⟨_, rfl⟩

theorem toUnsigned_signed {p : PType} (h : isSigned p = true) : isUnsigned (toUnsigned p) = true ∧ toSigned (toUnsigned p) = p ∧
    floatParts (toUnsigned p) = none := by
  cases p <;> simp_all [isSigned, toUnsigned, isUnsigned, toSigned, floatParts]

theorem zigzag_has {p : PType} (hs : isSigned p = true) {x : SV} (h : (Kind.prim p).has x = true) :
    (Kind.prim (toUnsigned p)).has (zigzagVal x) = true ∧ decRow env.toEnv .zigzag (zigzagVal x) = x := by
  obtain ⟨b, rfl⟩ := has_prim h
  cases p <;> simp [isSigned] at hs <;>
    simp [zigzagVal, Kind.has, toUnsigned, decRow, Codec.dec] <;> exact C07_roundtrip _

theorem run_zigzag {rec : Ctx → Arr L → Option CTree → Res (Out L)} (hr : Sound env leafRows okIn ok rec) (ctx : Ctx) (a : Arr L) (like : Option CTree)
    (b : Arr L) (t : Option CTree) (h : runZigzag env rec ctx a like = .ok (b, t)) (hg : Good env.toEnv leafRows okIn a) :
    SameData env.toEnv leafRows ok a b := by
  unfold runZigzag at h
  split at h
  · rename_i p vals v
    simp only [Res.bind_eq_ok] at h
    obtain ⟨_, h0, l, _, r, h1, c, h2, h3⟩ := h
    have hs : isSigned p = true := by simpa [Res.guard] using h0
    obtain ⟨hu, hsu, hfl⟩ := toUnsigned_signed hs
    have hval : ∀ x ∈ vals.map zigzagVal, (Kind.prim (toUnsigned p)).has x = true := by
      intro x hx
      obtain ⟨y, hy, rfl⟩ := List.mem_map.mp hx
      exact (zigzag_has (env := env) hs (hg.wf.1 y hy)).1
    have hg' : Good env.toEnv leafRows okIn (.flat (.prim (toUnsigned p)) (vals.map zigzagVal) v) := good_flat hg (by simp) hval
    have hsd := hr _ _ _ _ _ h1 hg'
    have hrows := exact_flat hfl hg' hsd
    have hdt : Codec.zigzag.outType (dtype env.toEnv r.1) = some (.prim p v.nullable) := by
      rw [hsd.dtype]; simp [dtype, Kind.dtype, Codec.outType, hu, hsu]
    simp only [mkMapped, hdt, Res.ok.injEq] at h2
    subst h2
    simp only [Res.ok.injEq, Prod.mk.injEq] at h3
    obtain ⟨rfl, _⟩ := h3
    refine ⟨⟨hsd.wf, by rw [hdt]; rfl, by rw [hrows]; exact flat_shape hg'.wf⟩, ?_, ?_⟩
    · simp [dtype, hdt, Kind.dtype]
    · congr 1
      rw [mapped_rows, hrows, flat_rows, flat_rows, masked_map _ rfl, List.map_map, List.length_map]
      congr 1
      conv => rhs; rw [← List.map_id vals]
      apply List.map_congr_left
      intro x hx
      exact (zigzag_has hs (hg.wf.1 x hx)).2
  · simp at h

/-! ### Frame of reference -/

theorem guard_ok {b : Bool} {u : Unit} (h : Res.guard b = .ok u) : b = true := by
  cases b
  · cases h
  · rfl

/-- An optional value as a row. -/
def rowOf (p : PType) (o : Option (BitVec p.bits)) : SV := o.elim .null (ofBits p)

theorem ofBits_raw {p : PType} {x : SV} (h : (Kind.prim p).has x = true) : ofBits p (rawBits p x) = x := by
  obtain ⟨b, rfl⟩ := has_prim h
  simp [ofBits, rawBits]

theorem rows_masked (f : α → SV) (vals : List α) (m : List Bool) :
    (Spec.rows vals m).map (fun o => o.elim .null f) = masked (vals.map f) m := by
  unfold Spec.rows masked
  rw [List.map_zipWith, List.zipWith_map_left]
  congr 1
  funext x b
  cases b <;> rfl

theorem rows_rowOf (p : PType) (vals : List (BitVec p.bits)) (m : List Bool) :
    (Spec.rows vals m).map (rowOf p) = masked (vals.map (ofBits p)) m := rows_masked (ofBits p) vals m

theorem toUnsigned_bits (p : PType) : (toUnsigned p).bits = p.bits := by cases p <;> rfl

theorem toUnsigned_has {p : PType} (x : BitVec p.bits) : (Kind.prim (toUnsigned p)).has (ofBits (toUnsigned p) x) = true := by
  simp [Kind.has, ofBits]

theorem floatParts_unsigned {p : PType} (h : p.isInt = true) : floatParts (toUnsigned p) = none := by
  cases p <;> simp_all [PType.isInt, PType.isFloat, toUnsigned, floatParts]

theorem for_dec {p : PType} (r : BitVec p.bits) (s : Nat) (x : BitVec p.bits) :
    decRow env.toEnv (.for p r s) (ofBits (toUnsigned p) x) = ofBits p (FoR.decompressVal r s x) := by
  simp only [ofBits, decRow, Codec.dec, BitVec.toNat_ofNat, toUnsigned_bits, SV.prim.injEq, PValue.mk.injEq, heq_eq_eq, true_and]
  have h1 : x.toNat % 2 ^ p.bits = x.toNat := Nat.mod_eq_of_lt x.isLt
  rw [h1]
  simp only [BitVec.ofNat_toNat, BitVec.setWidth_eq, FoR.decompressVal]
  split
  · rfl
  · rename_i h
    have : s = 0 := by omega
    simp [this]

theorem setIdx_sorted (bits : List Bool) : (FoR.setIdx bits).Pairwise (· < ·) ∧ ∀ i ∈ FoR.setIdx bits, i < bits.length := by
  constructor
  · exact List.Pairwise.filter _ List.pairwise_lt_range
  · intro i hi
    exact List.mem_range.mp (List.mem_filter.mp hi).1

theorem readV_ok (hl : LeafLaws env.toEnv leafRows okIn) (lb : LeafBulk env leafRows okIn) {k : Kind} {vals : List SV} {v : TVal (Arr L)} {lv : LogicalValidity}
    (hg : Good env.toEnv leafRows okIn (.flat k vals v)) (h : readV env v vals.length = .ok lv) :
    lv.intoBools = maskOf env.toEnv leafRows v vals.length ∧ lv.len = vals.length ∧
      Spec.mask vals.length lv.intoValidity = maskOf env.toEnv leafRows v vals.length := by
  obtain ⟨lv', h1, h2⟩ := logicalV_ok (blaws hl lb (depthV v)) hg.wf.2 hg.comp.1 (Nat.le_refl _)
  rw [readV, h1] at h
  simp only [Res.ok.injEq] at h
  subst h
  have h3 : lv'.len = vals.length := by rw [← intoBools_length, h2, maskOf_length hg.wf.2]
  refine ⟨h2, h3, ?_⟩
  rw [← h2, ← h3]
  cases lv' <;> rfl

theorem patched_const (n : Nat) (is : List Nat) (z : SV) (hs : is.Pairwise (· < ·)) :
    patched n 0 .null (is.zip (List.replicate is.length z)) = (List.range n).map (fun i => if i ∈ is then z else .null) := by
  unfold patched
  apply List.map_congr_left
  intro i _
  rw [Nat.zero_add]
  by_cases h : i ∈ is
  · obtain ⟨k, hk, he⟩ := List.mem_iff_getElem.mp h
    rw [if_pos h, patchOr_mem hs (k := k) (x := z) (by rw [List.getElem?_eq_getElem hk, he]) (by simp [hk])]
  · rw [if_neg h, patchOr_not_mem h]

/-- What `for_compress` leaves to be compressed holds the same data. -/
theorem for_array (hs : ∀ l, okIn l → ok l) (hl : LeafLaws env.toEnv leafRows okIn) (lb : LeafBulk env leafRows okIn) {p : PType} {vals : List SV} {v : TVal (Arr L)}
    {lv : LogicalValidity} {f : FoR.Encoded p.bits} (hp : p.isInt = true) (hg : Good env.toEnv leafRows okIn (.flat (.prim p) vals v))
    (hv : readV env v vals.length = .ok lv) (hf : FoR.forCompress (isSigned p) (toPArr p vals lv) = .ok f)
    (e : Option (Arr L × BitVec p.bits × Nat) × Arr L) (he : ofForEncoded env p (.prim p v.nullable) v f = .ok e) :
    SameData env.toEnv leafRows ok (.flat (.prim p) vals v) e.2 ∧
    match e.1 with
    | some (enc, r, s) => e.2 = .mapped (.for p r s) enc ∧ ∃ xs, enc = .flat (.prim (toUnsigned p)) xs v ∧ Good env.toEnv leafRows okIn enc
    | none => Good env.toEnv leafRows okIn e.2 := by
  obtain ⟨m1, m2, m3⟩ := readV_ok hl lb hg hv
  have hlen : (toPArr p vals lv).vals.length = vals.length := by simp [toPArr]
  have hw : (toPArr p vals lv).WF := by
    simp only [PArr.WF, Spec.FitsLen, hlen]
    show (Spec.mask _ lv.intoValidity).length = _
    rw [m3, maskOf_length hg.wf.2]
  have hrows : (toPArr p vals lv).rows = Spec.rows (vals.map (rawBits p)) (maskOf env.toEnv leafRows v vals.length) := by
    simp only [PArr.rows, hlen]
    rw [← m3]; rfl
  have hflat : rows env.toEnv leafRows (.flat (.prim p) vals v) = (toPArr p vals lv).rows.map (rowOf p) := by
    rw [hrows, flat_rows]
    rw [rows_rowOf, List.map_map]
    congr 1
    conv => lhs; rw [← List.map_id vals]
    exact List.map_congr_left (fun x hx => (ofBits_raw (hg.wf.1 x hx)).symm)
  have hbits : 0 < p.bits := by cases p <;> decide
  have hvalid : Spec.valid (toPArr p vals lv).rows ≠ [] := by
    intro h0
    rw [C08_no_valid_rows_err _ _ hbits _ hw h0] at hf
    cases hf
  obtain ⟨f', hf1, hf2⟩ := C08_roundtrip (isSigned p) _ _ hw hvalid
  rw [hf] at hf1
  simp only [Res.ok.injEq] at hf1
  subst hf1
  unfold ofForEncoded at he
  split at he
  · -- a frame-of-reference array
    rename_i en r s
    simp only [Res.ok.injEq] at he
    subst he
    obtain ⟨g, hen⟩ : ∃ g, en = (toPArr p vals lv).map g := by
      simp only [FoR.forCompress, Res.bind_eq_ok] at hf
      obtain ⟨mn, _, hf⟩ := hf
      split at hf
      · split at hf <;> cases hf
      · simp only [Res.bind_eq_ok] at hf
        obtain ⟨m, _, _, _, hf⟩ := hf
        simp only [Res.ok.injEq, FoR.Encoded.forArr.injEq] at hf
        exact ⟨_, hf.1.symm⟩
    have henl : en.vals.length = vals.length := by rw [hen]; simp [PArr.map, toPArr]
    have hgood : Good env.toEnv leafRows okIn (.flat (.prim (toUnsigned p)) (en.vals.map (ofBits (toUnsigned p))) v) := by
      refine good_flat hg (by simp [henl]) ?_
      intro x hx
      obtain ⟨y, _, rfl⟩ := List.mem_map.mp hx
      exact toUnsigned_has y
    have hout : (Codec.for p r s).outType (.prim (toUnsigned p) v.nullable) = some (.prim p v.nullable) := by simp [Codec.outType, hp]
    refine ⟨⟨⟨WF_mono hs _ hgood.wf, ?_, flat_shape hgood.wf⟩, ?_, ?_⟩, rfl, _, rfl, hgood⟩
    · simp [dtype, Kind.dtype, hout]
    · simp [dtype, Kind.dtype, hout]
    · congr 1
      rw [hflat, ← hf2, mapped_rows, flat_rows, masked_map _ rfl, List.map_map, List.length_map, henl]
      have : (FoR.Encoded.forArr en r s).rows = Spec.rows (en.vals.map (FoR.decompressVal r s)) (maskOf env.toEnv leafRows v vals.length) := by
        simp only [FoR.Encoded.rows, FoR.decompress, PArr.map, PArr.rows, List.length_map, henl]
        rw [← m3, hen]; rfl
      rw [this]
      rw [rows_rowOf, List.map_map]
      congr 1
      apply List.map_congr_left
      intro x _
      exact for_dec r s x
  · -- all zero
    rename_i b n
    simp only [Res.ok.injEq] at he
    subst he
    have hwf : WF env.toEnv leafRows ok (.const (.prim p v.nullable) (ofBits p b) n) := by simp [WF, inst, ofBits]
    refine ⟨⟨hwf, rfl, ?_⟩, ⟨hwf, trivial, trivial⟩⟩
    congr 1
    rw [hflat, ← hf2]
    simp [FoR.Encoded.rows, rows, rowOf]
  · -- all null
    exfalso
    apply hvalid
    rw [← hf2]
    simp [FoR.Encoded.rows, Spec.valid]
  · -- zero or null
    rename_i is n
    simp only [Res.bind_eq_ok] at he
    obtain ⟨a, ha, he⟩ := he
    simp only [Res.ok.injEq] at he
    subst he
    simp only [mkSparse, Res.bind_eq_ok] at ha
    obtain ⟨_, hi, _, _, _, _, ha⟩ := ha
    simp only [Res.ok.injEq] at ha
    subst ha
    obtain ⟨bits, hb1, hb2, hb3⟩ : ∃ bits : List Bool, is = FoR.setIdx bits ∧ bits.length = n ∧ n = vals.length := by
      simp only [FoR.forCompress, Res.bind_eq_ok] at hf
      obtain ⟨mn, _, hf⟩ := hf
      split at hf
      · split at hf
        · cases hf
        · cases hf
        · rename_i bits hb
          simp only [Res.ok.injEq, FoR.Encoded.sparseZero.injEq] at hf
          have h5 := (C23_to_logical _ _ hw).2.2
          have h6 : (toPArr p vals lv).validity.toLogical (toPArr p vals lv).vals.length = .array bits := hb
          rw [h6] at h5
          refine ⟨bits, hf.1.symm, ?_, ?_⟩
          · rw [← hf.2]; exact h5
          · rw [← hf.2]; exact hlen
      · simp only [Res.bind_eq_ok] at hf
        obtain ⟨m, _, _, _, hf⟩ := hf
        cases hf
    obtain ⟨hs1, hs2⟩ := setIdx_sorted bits
    rw [← hb1] at hs1 hs2
    have hinst : inst .null (DType.prim p v.nullable) = true := by simpa [dtype] using guard_ok hi
    have hwf : WF env.toEnv leafRows ok (.sparse is (.const (.prim p v.nullable) (ofBits p 0#p.bits) is.length) n 0 .null) := by
      refine ⟨by simp [WF, inst, ofBits], by simpa [dtype] using hinst, by simp [rows], hs1, ?_⟩
      intro i hi
      have := hs2 i hi
      omega
    refine ⟨⟨hwf, rfl, ?_⟩, ⟨hwf, ⟨trivial, rfl, ?_⟩, rfl, trivial⟩⟩
    · congr 1
      rw [hflat, ← hf2]
      simp only [rows, FoR.Encoded.rows, List.map_map]
      rw [patched_const n is _ hs1]
      apply List.map_congr_left
      intro i _
      simp only [Function.comp]
      split <;> rfl
    · intro _ r hr
      simp only [rows, List.mem_replicate] at hr
      rw [hr.2]
      exact .inr rfl

theorem run_for (hs : ∀ l, okIn l → ok l) (hl : LeafLaws env.toEnv leafRows okIn) (lb : LeafBulk env leafRows okIn) {rec : Ctx → Arr L → Option CTree → Res (Out L)}
    (hr : Sound env leafRows okIn ok rec) (ctx : Ctx) (a : Arr L) (like : Option CTree)
    (b : Arr L) (t : Option CTree) (h : runFor env rec ctx a like = .ok (b, t)) (hg : Good env.toEnv leafRows okIn a) :
    SameData env.toEnv leafRows ok a b := by
  unfold runFor at h
  split at h
  · rename_i p vals v
    simp only [Res.bind_eq_ok] at h
    obtain ⟨_, h0, lv, h1, f, h2, e, h3, h4⟩ := h
    have hp : p.isInt = true := by simpa [Res.guard] using h0
    obtain ⟨hsd, hrest⟩ := for_array hs hl lb hp hg h1 h2 e h3
    obtain ⟨e1, e2⟩ := e
    unfold finishFor at h4
    cases e1 with
    | none =>
      simp only [Res.bind_eq_ok] at h4
      obtain ⟨c, h5, h6⟩ := h4
      simp only [Res.ok.injEq, Prod.mk.injEq] at h6
      obtain ⟨rfl, _⟩ := h6
      exact hsd.trans (hr _ _ _ _ _ h5 hrest)
    | some q =>
      obtain ⟨enc, r, s⟩ := q
      simp only [Res.bind_eq_ok] at h4
      obtain ⟨l, _, c, h5, x, h6, h7⟩ := h4
      obtain ⟨he2, xs, rfl, hgood⟩ := hrest
      have hs2 := hr _ _ _ _ _ h5 hgood
      have hrows := exact_flat (floatParts_unsigned hp) hgood hs2
      have hout : (Codec.for p r s).outType (dtype env.toEnv c.1) = some (.prim p v.nullable) := by
        rw [hs2.dtype]; simp [dtype, Kind.dtype, Codec.outType, hp]
      simp only [mkMapped, hout, Res.ok.injEq] at h6
      subst h6
      simp only [Res.ok.injEq, Prod.mk.injEq] at h7
      obtain ⟨rfl, _⟩ := h7
      refine ⟨⟨hs2.wf, by rw [hout]; rfl, by rw [hrows]; exact flat_shape hgood.wf⟩, by simp [dtype, hout, Kind.dtype], ?_⟩
      rw [← hsd.rows]
      simp only at he2
      rw [he2, mapped_rows, mapped_rows, hrows]
  · simp at h

/-! ### Dictionary -/

theorem dict_vals {zero : SV} {nullable : Bool} (rs : List (Option SV)) :
    ∀ x ∈ (Dict.encode zero nullable rs).values.vals, x = zero ∨ some x ∈ rs := by
  have key : ∀ (rs : List (Option SV)) (st : Dict.Enc SV), ∀ x ∈ (rs.foldl Dict.step st).values, x ∈ st.values ∨ some x ∈ rs := by
    intro rs
    induction rs with
    | nil => intro st x hx; exact .inl hx
    | cons o rs ih =>
      intro st x hx
      rcases ih _ x hx with h | h
      · cases o with
        | none => exact .inl h
        | some y =>
          simp only [Dict.step] at h
          split at h
          · exact .inl h
          · simp only [List.mem_append, List.mem_singleton] at h
            rcases h with h | rfl
            · exact .inl h
            · exact .inr (by simp)
      · exact .inr (by simp [h])
  intro x hx
  rcases key rs _ x hx with h | h
  · cases nullable <;> simp at h
    exact .inl h
  · exact .inr h

theorem ofVec_nullable (l : List Bool) : (Validity.ofVec l).nullable = true := by
  simp only [Validity.ofVec]
  split
  · rfl
  · split <;> rfl

theorem asIdx_u64 {c : Nat} (h : c < 2 ^ 64) : asIdx (.prim ⟨.u64, BitVec.ofNat 64 c⟩) = some c := by
  have hb : (PValue.mk .u64 (BitVec.ofNat 64 c)).toInt = (c : Int) := by
    show ((BitVec.ofNat 64 c).toNat : Int) = c
    rw [BitVec.toNat_ofNat, Nat.mod_eq_of_lt h]
  simp only [asIdx, hb]
  simp [PType.isInt, PType.isFloat]

theorem comp_ofValidity (v : Validity) : CompV env.toEnv leafRows (ofValidity (L := L) v) ∧ RegularV env.toEnv leafRows true (ofValidity (L := L) v) := by
  cases v <;> exact ⟨by simp [ofValidity, CompV, Comp, NiceV], by simp [ofValidity, RegularV, Regular]⟩

theorem run_dict (hl : LeafLaws env.toEnv leafRows okIn) (lb : LeafBulk env leafRows okIn) {rec : Ctx → Arr L → Option CTree → Res (Out L)}
    (hr : Sound env leafRows okIn ok rec) (ctx : Ctx) (a : Arr L) (like : Option CTree)
    (b : Arr L) (t : Option CTree) (h : runDict env rec ctx a like = .ok (b, t)) (hg : Good env.toEnv leafRows okIn a) :
    SameData env.toEnv leafRows ok a b := by
  unfold runDict at h
  split at h
  · rename_i k vals v
    simp only [Res.bind_eq_ok] at h
    obtain ⟨_, h0, lv, h1, _, h2, l0, _, cs, h3, l1, _, vs, h4, x, h5, h6⟩ := h
    simp only [Res.ok.injEq, Prod.mk.injEq] at h6
    obtain ⟨rfl, _⟩ := h6
    obtain ⟨m1, m2, m3⟩ := readV_ok hl lb hg h1
    have hrs : optRows vals lv = Spec.rows vals (maskOf env.toEnv leafRows v vals.length) := by rw [← m1]; rfl
    have hnn : v.nullable = false → none ∉ optRows vals lv := by
      intro hv hmem
      rw [hrs] at hmem
      cases v <;> simp [TVal.nullable] at hv
      obtain ⟨i, hi, he⟩ := List.mem_iff_getElem.mp hmem
      simp [Spec.rows, maskOf] at he
    obtain ⟨hdw, hdl, hdr⟩ := Dict.C14_encode k.dflt v.nullable (optRows vals lv) hnn
    have hvals := dict_vals (zero := k.dflt) (nullable := v.nullable) (optRows vals lv)
    have hnul : (Dict.encode k.dflt v.nullable (optRows vals lv)).values.validity.nullable = v.nullable := by
      simp only [Dict.encode]
      cases v.nullable
      · rfl
      · exact ofVec_nullable _
    generalize Dict.encode k.dflt v.nullable (optRows vals lv) = d at *
    have h2' : d.values.vals.length ≤ 2 ^ 64 := by
      by_contra hc
      simp only [Res.assert, hc, decide_false] at h2
      cases h2
    -- codes
    have hcodes : ∀ x ∈ d.codes.map (fun c => (SV.prim ⟨.u64, BitVec.ofNat 64 c⟩ : SV)), (Kind.prim .u64).has x = true := by
      intro x hx; obtain ⟨c, _, rfl⟩ := List.mem_map.mp hx; rfl
    obtain ⟨hcg, hcr⟩ := good_plain (env := env) (leafRows := leafRows) (okIn := okIn) hcodes (.inl rfl)
    have hcs := hr _ _ _ _ _ h3 hcg
    have hcrows := exact_flat rfl hcg hcs
    rw [hcr] at hcrows
    -- values
    have hvk : ∀ x ∈ d.values.vals, k.has x = true := by
      intro x hx
      rcases hvals x hx with rfl | h
      · exact dflt_has k
      · rw [hrs] at h
        obtain ⟨i, hi, he⟩ := List.mem_iff_getElem.mp h
        simp only [Spec.rows, List.getElem_zipWith] at he
        split at he
        · simp only [Option.some.injEq] at he; subst he; exact hg.wf.1 _ (List.getElem_mem _)
        · cases he
    obtain ⟨q1, q2, q3, _, _, q6⟩ := maskOf_ofValidity (env := env) (leafRows := leafRows) (ok := okIn) d.values.validity d.values.vals.length hdw.values
    have hvg : Good env.toEnv leafRows okIn (.flat k d.values.vals (ofValidity d.values.validity)) :=
      ⟨⟨hvk, q2⟩, (comp_ofValidity _).2, q3, (comp_ofValidity _).1⟩
    have hvs := hr _ _ _ _ _ h4 hvg
    have hvr : rows env.toEnv leafRows (.flat k d.values.vals (ofValidity d.values.validity)) = d.values.rows.map (fun o => o.elim .null id) := by
      rw [flat_rows, q1]
      show _ = (Spec.rows _ _).map _
      rw [rows_masked, List.map_id]
    have hvl : (rows env.toEnv leafRows vs.1).length = d.values.len := by
      rw [sd_length hvs, hvr, List.length_map, PArr.rows_len hdw.values]
    -- the dictionary
    have hcd : dtype env.toEnv cs.1 = .prim .u64 false := by rw [hcs.dtype]; rfl
    have hx : x = .dict cs.1 vs.1 := by
      simp [mkDict, hcd, isUnsigned] at h5
      exact h5.symm
    subst hx
    have hlt : ∀ c ∈ d.codes, asIdx (.prim ⟨.u64, BitVec.ofNat 64 c⟩) = some c := by
      intro c hc
      exact asIdx_u64 (Nat.lt_of_lt_of_le (hdw.codes c hc) h2')
    refine ⟨⟨hcs.wf, hvs.wf, ⟨.u64, hcd, rfl⟩, ?_⟩, ?_, ?_⟩
    · rw [hcrows]
      intro r hr'
      obtain ⟨c, hc, rfl⟩ := List.mem_map.mp hr'
      exact ⟨c, hlt c hc, by rw [hvl]; exact hdw.codes c hc⟩
    · simp only [dtype]
      rw [hvs.dtype]
      simp only [dtype, q6, hnul]
    · simp only [rows, hcrows]
      rw [List.map_map, List.map_map, masked_norm]
      have e1 : masked vals (maskOf env.toEnv leafRows v vals.length) = d.rows.map (fun o => o.elim .null id) := by
        rw [hdr, hrs, rows_masked, List.map_id]
      rw [← masked_norm, e1, Dict.rows]
      have hb : ∀ c ∈ d.codes, c < d.values.rows.length := by
        intro c hc; rw [PArr.rows_len hdw.values]; exact hdw.codes c hc
      have e2 : ∀ (cs : List Nat), (∀ c ∈ cs, c < d.values.rows.length) → (∀ c ∈ cs, asIdx (.prim ⟨.u64, BitVec.ofNat 64 c⟩) = some c) →
          cs.map (norm ∘ deref (rows env.toEnv leafRows vs.1) ∘ fun c => (SV.prim ⟨.u64, BitVec.ofNat 64 c⟩ : SV)) =
          ((Spec.take d.values.rows cs).map (fun o => o.elim .null id)).map norm := by
        intro cs hb hlt
        induction cs with
        | nil => simp [Spec.take]
        | cons c cs ih =>
          have hc := hb c (by simp)
          have e3 : Spec.take d.values.rows (c :: cs) = d.values.rows[c] :: Spec.take d.values.rows cs := by
            simp [Spec.take, List.getElem?_eq_getElem hc]
          rw [e3, List.map_cons, List.map_cons, List.map_cons, ih (fun c hc => hb c (by simp [hc])) (fun c hc => hlt c (by simp [hc]))]
          congr 1
          simp only [Function.comp]
          rw [deref_norm, hvs.rows, hvr, ← deref_norm]
          simp [deref, hlt c (by simp), List.getElem?_eq_getElem hc]
      exact e2 d.codes hb hlt
  · simp at h

/-! ### Validity children and run-end -/

theorem compressV_ok {rec : Ctx → Arr L → Option CTree → Res (Out L)} (hr : Sound env leafRows okIn ok rec) {ctx : Ctx} {v v' : TVal (Arr L)} {n : Nat}
    (h : compressV rec ctx v = .ok v') (hw : WFV env.toEnv leafRows okIn v n) (hg : RegularV env.toEnv leafRows true v) (hc : CompV env.toEnv leafRows v) :
    WFV env.toEnv leafRows ok v' n ∧ v'.nullable = v.nullable ∧ maskOf env.toEnv leafRows v' n = maskOf env.toEnv leafRows v n := by
  cases v with
  | array a =>
    simp only [compressV, Res.bind_eq_ok] at h
    obtain ⟨r, h1, h2⟩ := h
    simp only [Res.ok.injEq] at h2
    subst h2
    simp only [WFV] at hw
    have hd := hr _ _ _ _ _ h1 ⟨hw.1, hg, hc⟩
    have hrows : rows env.toEnv leafRows r.1 = rows env.toEnv leafRows a :=
      exact_rows hd.rows (fun x hx => by obtain ⟨b, rfl⟩ := hw.2.2.2 x hx; exact .inr (.inl ⟨b, rfl⟩))
    refine ⟨?_, rfl, by simp only [maskOf, hrows]⟩
    simp only [WFV, hrows]
    exact ⟨hd.wf, hd.dtype.trans hw.2.1, hw.2.2⟩
  | _ => simp only [compressV, Res.ok.injEq] at h; subst h; simp only [WFV, true_and]

theorem encodeLoop_mem (ne : α → α → Bool) (xs : List α) (last : α) (stop : Nat) : ∀ y ∈ (RunEnd.encodeLoop ne xs last stop).2, y = last ∨ y ∈ xs := by
  induction xs generalizing last stop with
  | nil => intro y hy; simp [RunEnd.encodeLoop] at hy; exact .inl hy
  | cons x xs ih =>
    intro y hy
    simp only [RunEnd.encodeLoop] at hy
    split at hy
    · simp only [List.mem_cons] at hy
      rcases hy with rfl | hy
      · exact .inl rfl
      · rcases ih x _ y hy with rfl | h
        · exact .inr (by simp)
        · exact .inr (by simp [h])
    · rcases ih x _ y hy with rfl | h
      · exact .inr (by simp)
      · exact .inr (by simp [h])

theorem encodePrimitive_mem (ne : α → α → Bool) (xs : List α) : ∀ y ∈ (RunEnd.encodePrimitive ne xs).2, y ∈ xs := by
  cases xs with
  | nil => simp [RunEnd.encodePrimitive]
  | cons x xs => intro y hy; simpa using encodeLoop_mem ne xs x 1 y hy

theorem valNe_norm {x y : SV} (h : valNe x y = false) : norm x = norm y := by
  cases x <;> cases y <;> simp [valNe] at h
  simp [norm, h.2]

theorem valNe_trans (a b c : SV) (h1 : valNe a b = false) (h2 : valNe b c = false) : valNe a c = false := by
  cases a <;> cases b <;> simp [valNe] at h1
  cases c <;> simp [valNe] at h2
  simp [valNe, h1.1.1, h2.1.2, h1.2, h2.2]

theorem expand_norm (vals : List SV) :
    Spec.expand (RunEnd.encodePrimitive valNe vals).1 ((RunEnd.encodePrimitive valNe vals).2.map norm) = vals.map norm := by
  obtain ⟨h1, h2⟩ := RunEnd.encode_expand valNe valNe_trans vals
  rw [← expand_map]
  apply List.ext_getElem?
  intro i
  rw [List.getElem?_map, List.getElem?_map]
  by_cases hi : i < vals.length
  · obtain ⟨y, hy, hc⟩ := h2 i hi
    rw [hy, List.getElem?_eq_getElem hi]
    rcases hc with rfl | hc
    · rfl
    · simp [valNe_norm hc]
  · rw [List.getElem?_eq_none (by rw [h1]; omega), List.getElem?_eq_none (by omega)]

theorem run_runEnd {rec : Ctx → Arr L → Option CTree → Res (Out L)}
    (hr : Sound env leafRows okIn ok rec) (ctx : Ctx) (a : Arr L) (like : Option CTree)
    (b : Arr L) (t : Option CTree) (h : runRunEnd env rec ctx a like = .ok (b, t)) (hg : Good env.toEnv leafRows okIn a) :
    SameData env.toEnv leafRows ok a b := by
  unfold runRunEnd at h
  split at h
  · rename_i p vals v
    simp only [Res.bind_eq_ok] at h
    obtain ⟨l0, _, l1, _, vs, h1, v', h2, x, h3, h4⟩ := h
    simp only [Res.ok.injEq, Prod.mk.injEq] at h4
    obtain ⟨rfl, _⟩ := h4
    obtain ⟨hr1, hr2, hr3, hr4⟩ := RunEnd.C15_runs valNe vals
    have hmem := encodePrimitive_mem valNe vals
    have hexp := expand_norm vals
    generalize RunEnd.encodePrimitive valNe vals = r at *
    have hvk : ∀ x ∈ r.2, (Kind.prim p).has x = true := fun x hx => hg.wf.1 x (hmem x hx)
    obtain ⟨hvg, hvr⟩ := good_plain (env := env) (leafRows := leafRows) (okIn := okIn) (v := if v.nullable then .allValid else .nonNullable) hvk (by
      cases v.nullable <;> simp)
    have hvs := hr _ _ _ _ _ h1 hvg
    obtain ⟨hw', hn', hm'⟩ := compressV_ok hr h2 hg.wf.2 hg.regular hg.comp.2
    have hx : x = .runEnd r.1 vs.1 v' 0 (r.1.getLast?.getD 0) := by
      simp only [mkRunEnd, Res.bind_eq_ok] at h3
      obtain ⟨_, _, _, _, _, _, _, _, h3⟩ := h3
      simpa using h3.symm
    subst hx
    have hnul : (dtype env.toEnv (Arr.flat (.prim p) r.2 (if v.nullable then .allValid else .nonNullable) : Arr L)) = .prim p v.nullable := by
      simp only [dtype, Kind.dtype]
      cases v.nullable <;> rfl
    refine ⟨⟨hvs.wf, by rw [hr4]; exact hw', ?_, hr2, ?_, .inl rfl, by simp, ?_⟩, ?_, ?_⟩
    · rw [hvs.dtype, hnul, hn']; rfl
    · rw [sd_length hvs, hvr]; exact hr1
    · intro y hy
      obtain ⟨z, hz, he⟩ := mem_norm hvs.rows hy
      rw [hvr] at hz
      rw [← norm_isNull, he, norm_isNull]
      exact has_nonnull (hvk z hz)
    · simp only [dtype]
      rw [hvs.dtype, hnul]
      rfl
    · simp only [rows]
      rw [masked_norm, masked_norm, ← Spec.slice_map, expand_map, hvs.rows, hvr, hexp, hr4, hm']
      congr 1
      rw [Nat.zero_add, Spec.slice, List.drop_zero, List.take_of_length_le (by simp)]
  · simp at h

/-! ### Constant, sparse, other encodings -/

theorem run_constant (hl : LeafLaws env.toEnv leafRows okIn) (hc : ChoiceLaws env.toEnv leafRows okIn ok ch) (a : Arr L)
    (b : Arr L) (t : Option CTree) (h : runConstant env a = .ok (b, t)) (hg : Good env.toEnv leafRows okIn a) (hcan : ch.can .constant a = true) :
    SameData env.toEnv leafRows ok a b := by
  simp only [runConstant, Res.bind_eq_ok] at h
  obtain ⟨x, h1, h2⟩ := h
  simp only [Res.ok.injEq, Prod.mk.injEq] at h2
  obtain ⟨rfl, _⟩ := h2
  rw [C03_scalar_at_partial hl a hg.wf hg.regular] at h1
  obtain ⟨g1, g2⟩ := hc.constant a hg.wf hcan
  cases h0 : (rows env.toEnv leafRows a)[0]? with
  | none => rw [h0] at h1; cases h1
  | some r =>
    rw [h0] at h1
    simp only [Res.ok.injEq] at h1
    subst h1
    have hm := List.mem_of_getElem? h0
    refine ⟨g1 r hm, rfl, ?_⟩
    simp only [rows]
    rw [len_eq hl a hg.wf, List.map_replicate]
    symm
    rw [List.eq_replicate_iff]
    refine ⟨by simp, ?_⟩
    intro y hy
    obtain ⟨z, hz, rfl⟩ := List.mem_map.mp hy
    exact g2 z hz r hm

theorem run_sparse {rec : Ctx → Arr L → Option CTree → Res (Out L)}
    (hr : Sound env leafRows okIn ok rec) (ctx : Ctx) (a : Arr L) (like : Option CTree)
    (b : Arr L) (t : Option CTree) (h : runSparse env rec ctx a like = .ok (b, t)) (hg : Good env.toEnv leafRows okIn a) :
    SameData env.toEnv leafRows ok a b := by
  unfold runSparse at h
  split at h
  · rename_i is values n off fill
    simp only [Res.bind_eq_ok] at h
    obtain ⟨l0, _, r, h1, x, h2, h3⟩ := h
    simp only [Res.ok.injEq, Prod.mk.injEq] at h3
    obtain ⟨rfl, _⟩ := h3
    obtain ⟨w1, w2, w3, w4, w5⟩ := hg.wf
    obtain ⟨c1, c2⟩ := hg.comp
    subst c1
    have hs := hr _ _ _ _ _ h1 ⟨w1, hg.regular.1, c2⟩
    have hx : x = .sparse is r.1 n 0 fill := by
      simp only [mkSparse, Res.bind_eq_ok] at h2
      obtain ⟨_, _, _, _, _, _, h2⟩ := h2
      simpa using h2.symm
    subst hx
    refine ⟨⟨hs.wf, by rw [hs.dtype]; exact w2, by rw [sd_length hs]; exact w3, w4, w5⟩, ?_, ?_⟩
    · simp only [dtype]; exact hs.dtype
    · simp only [rows]
      rw [← patched_map norm, ← patched_map norm, hs.rows]
  · simp at h

theorem run_leaf (hs : ∀ l, okIn l → ok l) (hc : ChoiceLaws env.toEnv leafRows okIn ok ch) (i : CId) (a : Arr L) (like : Option CTree)
    (b : Arr L) (t : Option CTree) (h : runLeaf ch i a like = .ok (b, t)) (hg : Good env.toEnv leafRows okIn a) (hcan : ch.can i a = true) :
    SameData env.toEnv leafRows ok a b := by
  simp only [runLeaf, Res.bind_eq_ok] at h
  obtain ⟨r, h1, h2⟩ := h
  cases r with
  | some l =>
    simp only [Res.ok.injEq, Prod.mk.injEq] at h2
    obtain ⟨rfl, _⟩ := h2
    exact hc.leafEnc i a like l hg hcan h1
  | none =>
    simp only [Res.ok.injEq, Prod.mk.injEq] at h2
    obtain ⟨rfl, _⟩ := h2
    exact .refl (WF_mono hs _ hg.wf)

/-! ### Structs -/

theorem runFields_ok {rec : Ctx → Arr L → Option CTree → Res (Out L)} (hr : Sound env leafRows okIn ok rec) {ctx : Ctx} :
    ∀ (fs : List (Arr L)) (ts : List (Option CTree)) (rs : List (Out L)), runFields rec ctx fs ts = .ok rs → (∀ f ∈ fs, Good env.toEnv leafRows okIn f) →
      List.Forall₂ (fun f (r : Out L) => SameData env.toEnv leafRows ok f r.1) fs rs
  | [], [], rs, h, _ => by simp only [runFields, Res.ok.injEq] at h; subst h; exact .nil
  | f :: fs, t :: ts, rs, h, hg => by
    simp only [runFields, Res.bind_eq_ok] at h
    obtain ⟨r, h1, rs', h2, h3⟩ := h
    simp only [Res.ok.injEq] at h3
    subst h3
    exact .cons (hr _ _ _ _ _ h1 (hg f (by simp))) (runFields_ok hr fs ts rs' h2 (fun f hf => hg f (by simp [hf])))
  | [], _ :: _, rs, h, _ => by simp [runFields] at h
  | _ :: _, [], rs, h, _ => by simp [runFields] at h

theorem forall₂_map {R : Arr L → Out L → Prop} {g : Arr L → γ} (h : ∀ f r, R f r → g r.1 = g f) {fs : List (Arr L)} {rs : List (Out L)}
    (hf : List.Forall₂ R fs rs) : (rs.map (·.1)).map g = fs.map g := by
  induction hf with
  | nil => rfl
  | cons h' _ ih => simp only [List.map_cons, h _ _ h']; rw [ih]

theorem run_struct (hl : LeafLaws env.toEnv leafRows okIn) {rec : Ctx → Arr L → Option CTree → Res (Out L)}
    (hr : Sound env leafRows okIn ok rec) (ctx : Ctx) (a : Arr L) (like : Option CTree)
    (b : Arr L) (t : Option CTree) (h : runStruct env rec ctx a like = .ok (b, t)) (hg : Good env.toEnv leafRows okIn a) :
    SameData env.toEnv leafRows ok a b := by
  unfold runStruct at h
  split at h
  · rename_i names fs n v
    simp only [Res.bind_eq_ok] at h
    obtain ⟨v', h1, rs, h2, x, h3, h4⟩ := h
    simp only [Res.ok.injEq, Prod.mk.injEq] at h4
    obtain ⟨rfl, _⟩ := h4
    obtain ⟨w1, w2, w3, w4⟩ := hg.wf
    obtain ⟨c1, c2⟩ := hg.comp
    obtain ⟨r1, r2⟩ := hg.regular
    obtain ⟨q1, q2, q3⟩ := compressV_ok hr h1 w4 r2 c2
    have hf := runFields_ok hr fs _ rs h2 (fun f hf => ⟨(WFs_iff fs).mp w2 f hf, (Regulars_iff fs).mp r1 f hf, (Comps_iff fs).mp c1 f hf⟩)
    have hx : x = .struct names (rs.map (·.1)) n v' := by
      simp only [mkStruct, Res.bind_eq_ok] at h3
      obtain ⟨_, _, _, _, _, _, h3⟩ := h3
      simpa using h3.symm
    subst hx
    have hlen : rs.length = fs.length := hf.length_eq.symm
    have hdt : dtypes env.toEnv (rs.map (·.1)) = dtypes env.toEnv fs := by
      rw [dtypes_eq, dtypes_eq]
      exact forall₂_map (fun _ _ h => h.dtype) hf
    have hrows : (rowsEach env.toEnv leafRows (rs.map (·.1))).map (List.map norm) = (rowsEach env.toEnv leafRows fs).map (List.map norm) := by
      rw [rowsEach_eq, rowsEach_eq]
      simpa [Function.comp_def] using forall₂_map (g := fun a => (rows env.toEnv leafRows a).map norm) (fun _ _ h => h.rows) hf
    refine ⟨⟨by simpa [hlen] using w1, ?_, ?_, q1⟩, ?_, ?_⟩
    · rw [WFs_iff]
      intro c hc
      obtain ⟨r, hr', rfl⟩ := List.mem_map.mp hc
      obtain ⟨i, hi, rfl⟩ := List.mem_iff_getElem.mp hr'
      have := hf.get (i := i) (by omega) hi
      exact this.wf
    · intro c hc
      have : (c.map norm) ∈ (rowsEach env.toEnv leafRows fs).map (List.map norm) := by rw [← hrows]; exact List.mem_map_of_mem hc
      obtain ⟨d, hd, he⟩ := List.mem_map.mp this
      have h5 := congrArg List.length he
      simp only [List.length_map] at h5
      rw [← h5]; exact w3 d hd
    · simp only [dtype, hdt, q2]
    · simp only [rows]
      rw [structRows_norm, structRows_norm, hrows, q3]
  · simp at h

/-! ### ALP -/

theorem atomic_has {k : Kind} {x : SV} (h : k.has x = true) : atomic x = true := by
  cases k <;> cases x <;> simp [Kind.has, atomic] at h ⊢

theorem patches_good {p : PType} {vals xs : List SV} {exc : List Nat} (hv : ∀ x ∈ vals, (Kind.prim p).has x = true)
    (hx : Res.mapM (fun i => Res.unwrap vals[i]?) exc = .ok xs) (hs : exc.Pairwise (· < ·)) (hb : ∀ i ∈ exc, i < vals.length) :
    Good env.toEnv leafRows okIn (.sparse exc (.flat (.prim p) xs .allValid) vals.length 0 .null) ∧
    ∀ i, i < vals.length → (rows env.toEnv leafRows (.sparse exc (.flat (.prim p) xs .allValid) vals.length 0 .null))[i]? =
      some (if i ∈ exc then (vals[i]?).getD .null else .null) := by
  have hlen := Res.mapM_eq_ok_length hx
  have hget : ∀ (k i : Nat), exc[k]? = some i → xs[k]? = vals[i]? := by
    intro k i hk
    obtain ⟨x, h1, h2⟩ := Res.mapM_eq_ok_getElem? hx hk
    rw [h1]
    cases hvi : vals[i]? with
    | none => rw [hvi] at h2; cases h2
    | some y => rw [hvi] at h2; simpa using h2.symm
  have hxk : ∀ x ∈ xs, (Kind.prim p).has x = true := by
    intro x hx'
    obtain ⟨k, hk, rfl⟩ := List.mem_iff_getElem.mp hx'
    have hk' : k < exc.length := by omega
    have := hget k exc[k] (List.getElem?_eq_getElem hk')
    rw [List.getElem?_eq_getElem hk] at this
    exact hv _ (List.mem_of_getElem? this.symm)
  obtain ⟨hg, hr⟩ := good_plain (env := env) (leafRows := leafRows) (okIn := okIn) hxk (.inr rfl)
  refine ⟨⟨⟨hg.wf, rfl, by rw [hr]; omega, hs, fun i hi => ⟨by omega, by have := hb i hi; omega⟩⟩, ⟨hg.regular, rfl, ?_⟩, rfl, hg.comp⟩, ?_⟩
  · intro _ r hr'
    rw [hr] at hr'
    exact .inr (atomic_has (hxk r hr'))
  · intro i hi
    simp only [rows]
    have hr2 : masked xs (maskOf env.toEnv leafRows .allValid xs.length) = xs := by rw [← flat_rows (k := .prim p)]; exact hr
    rw [hr2]
    simp only [patched, List.getElem?_map, List.getElem?_range hi, Option.map_some, Nat.zero_add]
    congr 1
    by_cases he : i ∈ exc
    · obtain ⟨k, hk, rfl⟩ := List.mem_iff_getElem.mp he
      rw [if_pos he]
      have h1 := hget k exc[k] (List.getElem?_eq_getElem hk)
      rw [List.getElem?_eq_getElem hi] at h1 ⊢
      exact patchOr_mem hs (List.getElem?_eq_getElem hk) h1
    · rw [if_neg he, patchOr_not_mem he]

theorem eqIgnore_prim (p : PType) (n : Bool) : DType.eqIgnoreNullability (.prim p true) (.prim p n) = true := by
  cases p <;> cases n <;> rfl

theorem run_alp (hc : ChoiceLaws env.toEnv leafRows okIn ok ch) {rec : Ctx → Arr L → Option CTree → Res (Out L)}
    (hr : Sound env leafRows okIn ok rec) (ctx : Ctx) (a : Arr L) (like : Option CTree)
    (b : Arr L) (t : Option CTree) (h : runAlp env ch rec ctx a like = .ok (b, t)) (hg : Good env.toEnv leafRows okIn a) :
    SameData env.toEnv leafRows ok a b := by
  unfold runAlp at h
  split at h
  · rename_i p vals v
    simp only [Res.bind_eq_ok] at h
    obtain ⟨ip, h0, x, h1, l0, _, en, h2, pt, h3, h4⟩ := h
    obtain ⟨e, f, enc, exc⟩ := x
    have hip : p = .f32 ∧ ip = .i32 ∨ p = .f64 ∧ ip = .i64 := by
      unfold alpInt at h0
      split at h0
      · simp only [Res.ok.injEq] at h0; exact .inl ⟨rfl, h0.symm⟩
      · simp only [Res.ok.injEq] at h0; exact .inr ⟨rfl, h0.symm⟩
      · cases h0
    obtain ⟨a1, a2, a3, a4, a5⟩ := hc.alpEnc p ip vals e f enc exc hip hg.wf.1 h1
    simp only at h2 h3 h4
    have heg : Good env.toEnv leafRows okIn (.flat (.prim ip) enc v) := good_flat hg a1 a2
    have hes := hr _ _ _ _ _ h2 heg
    have hfl : floatParts ip = none := by rcases hip with ⟨_, rfl⟩ | ⟨_, rfl⟩ <;> rfl
    have herows := exact_flat hfl heg hes
    have hout : (Codec.alp e f).outType (dtype env.toEnv en.1) = some (.prim p v.nullable) := by
      rw [hes.dtype]
      rcases hip with ⟨rfl, rfl⟩ | ⟨rfl, rfl⟩ <;> rfl
    have hml := maskOf_length hg.wf.2
    unfold runPatches at h3
    split at h3
    · rename_i hemp
      simp only [Res.ok.injEq] at h3
      subst h3
      simp only [Res.bind_eq_ok] at h4
      obtain ⟨x, h5, h6⟩ := h4
      simp only [Res.ok.injEq, Prod.mk.injEq] at h6
      obtain ⟨rfl, _⟩ := h6
      simp only [mkMapped, hout, Res.ok.injEq] at h5
      subst h5
      refine ⟨⟨hes.wf, by rw [hout]; rfl, by rw [herows]; exact flat_shape heg.wf⟩, by simp [dtype, hout, Kind.dtype], ?_⟩
      rw [mapped_rows, herows, flat_rows, flat_rows, masked_map _ rfl, masked_norm, masked_norm, a1]
      congr 1
      apply List.ext_getElem?
      intro i
      by_cases hi : i < vals.length
      · have hi' : i < enc.length := by omega
        have h7 := a5 i _ _ (by rw [List.isEmpty_iff.mp hemp]; simp) (List.getElem?_eq_getElem hi) (List.getElem?_eq_getElem hi')
        simp only [List.getElem?_map, List.getElem?_eq_getElem hi, List.getElem?_eq_getElem hi', Option.map_some]
        rw [h7]
      · rw [List.getElem?_eq_none (by simp; omega), List.getElem?_eq_none (by simp; omega)]
    · simp only [Res.bind_eq_ok] at h3
      obtain ⟨l1, _, xs, h5, s, h6, r, h7, h8⟩ := h3
      simp only [Res.ok.injEq] at h8
      subst h8
      simp only [Res.bind_eq_ok] at h4
      obtain ⟨x, h9, h10⟩ := h4
      simp only [Res.ok.injEq, Prod.mk.injEq] at h10
      obtain ⟨rfl, _⟩ := h10
      have hs : s = .sparse exc (.flat (.prim p) xs .allValid) vals.length 0 .null := by
        simp only [mkSparse, Res.bind_eq_ok] at h6
        obtain ⟨_, _, _, _, _, _, h6⟩ := h6
        simpa using h6.symm
      subst hs
      obtain ⟨hpg, hpr⟩ := patches_good (env := env) (leafRows := leafRows) (okIn := okIn) hg.wf.1 h5 a3 a4
      have hps := hr _ _ _ _ _ h7 hpg
      have hx : x = .alpP e f en.1 r.1 := by
        simp only [mkAlpP, hout] at h9
        split at h9
        · cases h9
        · split at h9
          · cases h9
          · simpa using h9.symm
      subst hx
      have hpd : dtype env.toEnv r.1 = .prim p true := by rw [hps.dtype]; rfl
      have hpl : (rows env.toEnv leafRows r.1).length = vals.length := by rw [sd_length hps]; simp [rows, patched]
      have hel : (rows env.toEnv leafRows en.1).length = vals.length := by
        rw [herows, flat_rows_len heg.wf, a1]
      refine ⟨⟨hes.wf, hps.wf, by rw [hpl, hel], ⟨_, hout, ?_⟩, by rw [hpd]; rfl, by rw [herows]; exact flat_shape heg.wf, ?_⟩, ?_, ?_⟩
      · rw [hpd]; exact eqIgnore_prim p _
      · intro y hy
        obtain ⟨z, hz, he⟩ := mem_norm hps.rows hy
        obtain ⟨i, hi, rfl⟩ := List.mem_iff_getElem.mp hz
        have hi' : i < vals.length := by rw [← sd_length hps] at hi; omega
        have h11 := hpr i hi'
        rw [List.getElem?_eq_getElem hi] at h11
        refine norm_shape he ?_
        simp only [Option.some.injEq] at h11
        rw [h11]
        split
        · rw [List.getElem?_eq_getElem hi', Option.getD_some]
          obtain ⟨b, hb⟩ := has_prim (hg.wf.1 _ (List.getElem_mem hi'))
          exact .inr ⟨_, hb⟩
        · exact .inl rfl
      · simp [dtype, hout, Kind.dtype]
      · simp only [rows]
        rw [herows, flat_rows]
        have hml' : (maskOf env.toEnv leafRows v enc.length).length = vals.length := by rw [a1]; exact hml
        apply List.ext_getElem?
        intro i
        by_cases hi : i < vals.length
        · have hi' : i < enc.length := by omega
          have hir : i < (rows env.toEnv leafRows r.1).length := by omega
          have him : i < (maskOf env.toEnv leafRows v vals.length).length := by omega
          have hm := masked_getElem? enc (maskOf env.toEnv leafRows v enc.length) i _ _ (List.getElem?_eq_getElem hi') (by rw [a1]; exact List.getElem?_eq_getElem him)
          have hm2 := masked_getElem? vals (maskOf env.toEnv leafRows v vals.length) i _ _ (List.getElem?_eq_getElem hi) (List.getElem?_eq_getElem him)
          have hq : norm (rows env.toEnv leafRows r.1)[i] = norm (if i ∈ exc then vals[i] else .null) := by
            have h11 := congrArg (fun l => l[i]?) hps.rows
            simp only [List.getElem?_map, hpr i hi, List.getElem?_eq_getElem hir, Option.map_some, Option.some.injEq, List.getElem?_eq_getElem hi, Option.getD_some] at h11
            exact h11
          rw [List.getElem?_map, List.getElem?_map, List.getElem?_zipWith, hm, hm2, List.getElem?_eq_getElem hir]
          simp only [Option.map_some]
          congr 1
          have hen := has_nonnull (a2 _ (List.getElem_mem hi'))
          cases hmi : (maskOf env.toEnv leafRows v vals.length)[i] with
          | false => simp [patchRow, SV.isNull]
          | true =>
            simp only [if_true, patchRow, hen, Bool.false_eq_true, if_false]
            by_cases hex : i ∈ exc
            · rw [if_pos hex] at hq
              have : (rows env.toEnv leafRows r.1)[i].isNull = false := by
                rw [← norm_isNull, hq, norm_isNull]; exact has_nonnull (hg.wf.1 _ (List.getElem_mem hi))
              rw [this]
              simpa using hq
            · rw [if_neg hex] at hq
              have : (rows env.toEnv leafRows r.1)[i].isNull = true := by
                rw [← norm_isNull, hq]; rfl
              rw [this]
              simpa using a5 i _ _ hex (List.getElem?_eq_getElem hi) (List.getElem?_eq_getElem hi')
        · rw [List.getElem?_eq_none (by simp; omega), List.getElem?_eq_none (by simp; omega)]
  · simp at h

end Vx.Tree
