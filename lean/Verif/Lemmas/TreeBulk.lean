import Verif.Spec.TreeBulk
import Verif.Lemmas.TreeSlice
import Verif.Props.C22Filter
import Verif.Props.C23
/-! # Facts about decoding, taking and filtering trees -/
namespace Vx.Tree
open Vx.Spec (InBounds FitsLen)

variable {L : Type} {env : BEnv L} {leafRows : L → List SV} {ok : L → Prop}

/-! ### Rows -/

theorem take_zipWith (f : α → β → γ) (xs : List α) (ys : List β) (is : List Nat) (hl : xs.length = ys.length) (h : ∀ i ∈ is, i < xs.length) :
    Spec.take (List.zipWith f xs ys) is = List.zipWith f (Spec.take xs is) (Spec.take ys is) := by
  induction is with
  | nil => rfl
  | cons i is ih =>
    have hi := h i (by simp)
    rw [Spec.take_cons (by simp only [List.length_zipWith]; omega), Spec.take_cons hi, Spec.take_cons (by omega),
      ih (fun j hj => h j (by simp [hj]))]
    simp

theorem take_replicate (n : Nat) (a : α) (is : List Nat) (h : ∀ i ∈ is, i < n) :
    Spec.take (List.replicate n a) is = List.replicate is.length a := by
  rw [List.eq_replicate_iff]
  refine ⟨Spec.take_length (by simpa using h), ?_⟩
  intro c hc
  simp only [Spec.take, List.mem_filterMap] at hc
  obtain ⟨i, hi, hc⟩ := hc
  rw [List.getElem?_replicate] at hc
  split at hc <;> simp_all

theorem mem_take {xs : List α} {is : List Nat} {x : α} (h : x ∈ Spec.take xs is) : x ∈ xs := by
  simp only [Spec.take, List.mem_filterMap] at h
  obtain ⟨i, _, hi⟩ := h
  exact List.mem_iff_getElem?.mpr ⟨i, hi⟩

theorem mem_filter' {xs : List α} {bs : List Bool} {x : α} (h : x ∈ Spec.filter xs bs) : x ∈ xs := by
  induction xs generalizing bs with
  | nil => simp at h
  | cons y ys ih =>
    cases bs with
    | nil => simp at h
    | cons b bs =>
      cases b with
      | true => simp at h; rcases h with rfl | h; simp; simp [ih h]
      | false => simp at h; simp [ih h]

theorem pick_eq (xs : List α) (m : List Bool) : pick xs m = Spec.filter xs m := zip_filter_eq xs m

theorem masked_take (vals : List SV) (m : List Bool) (is : List Nat) (hl : vals.length = m.length) (h : ∀ i ∈ is, i < vals.length) :
    Spec.take (masked vals m) is = masked (Spec.take vals is) (Spec.take m is) := take_zipWith _ _ _ _ hl h

theorem masked_filter (vals : List SV) (m bs : List Bool) (hl : vals.length = m.length) :
    Spec.filter (masked vals m) bs = masked (Spec.filter vals bs) (Spec.filter m bs) := Spec.filter_zipWith _ _ _ _ hl

theorem masked_replicate_true (vals : List SV) : masked vals (List.replicate vals.length true) = vals := by
  induction vals with
  | nil => rfl
  | cons x xs ih => simpa [masked, List.replicate_succ] using ih

theorem masked_replicate_false (vals : List SV) : masked vals (List.replicate vals.length false) = List.replicate vals.length .null := by
  induction vals with
  | nil => rfl
  | cons x xs ih => simpa [masked, List.replicate_succ] using ih

theorem masked_append (v w : List SV) (m n : List Bool) (h : v.length = m.length) :
    masked (v ++ w) (m ++ n) = masked v m ++ masked w n := by
  simp [masked, List.zipWith_append h]

theorem nonNulls_masked (vals : List SV) (m : List Bool) (hl : vals.length = m.length) (hv : ∀ x ∈ vals, x.isNull = false) :
    nonNulls (masked vals m) = m := by
  induction vals generalizing m with
  | nil => cases m <;> simp_all [masked, nonNulls]
  | cons x xs ih =>
    cases m with
    | nil => simp at hl
    | cons b m =>
      have h1 := hv x (by simp)
      have h2 := ih m (by simpa using hl) (fun y hy => hv y (by simp [hy]))
      simp only [masked, nonNulls, List.zipWith_cons_cons, List.map_cons] at h2 ⊢
      rw [h2]
      cases b with
      | true => simp [h1]
      | false => simp [SV.isNull]

/-- A plain array without null rows holds exactly its rows. -/
theorem masked_nonnull (vals : List SV) (m : List Bool) (hl : vals.length = m.length) (h : ∀ r ∈ masked vals m, r.isNull = false) :
    masked vals m = vals := by
  induction vals generalizing m with
  | nil => cases m <;> simp [masked]
  | cons x xs ih =>
    cases m with
    | nil => simp at hl
    | cons b m =>
      have h1 := h (if b then x else .null) (by simp [masked])
      have h2 := ih m (by simpa using hl) (fun r hr => h r (by simp only [masked, List.zipWith_cons_cons, List.mem_cons] at hr ⊢; exact Or.inr hr))
      cases b with
      | false => simp [SV.isNull] at h1
      | true => simpa [masked] using h2

theorem Nices_iff (cs : List (Arr L)) : Nices env.toEnv leafRows cs ↔ ∀ c ∈ cs, Nice env.toEnv leafRows c := by
  induction cs with
  | nil => simp [Nices]
  | cons c cs ih => simp [Nices, ih]

theorem BulkAll_iff {tm : Str → Option (List UInt8) → Option (PType × Option (List UInt8))} {f : Bool} (cs : List (Arr L)) :
    BulkAll env.toEnv leafRows tm f cs ↔ ∀ c ∈ cs, Bulk env.toEnv leafRows tm f c := by
  induction cs with
  | nil => simp [BulkAll]
  | cons c cs ih => simp [BulkAll, ih]

theorem chunkFrees_iff (cs : List (Arr L)) : chunkFrees cs = true ↔ ∀ c ∈ cs, chunkFree c = true := by
  induction cs with
  | nil => simp [chunkFrees]
  | cons c cs ih => simp [chunkFrees, ih]

mutual
theorem Nice.bulk {tm : Str → Option (List UInt8) → Option (PType × Option (List UInt8))} {f : Bool} : ∀ (a : Arr L),
    Nice env.toEnv leafRows a → Bulk env.toEnv leafRows tm f a
  | .leaf _, _ => by simp [Bulk]
  | .flat _ _ _, h => by simpa only [Nice, Bulk] using h
  | .null _, h => by simp [Nice] at h
  | .const _ _ _, _ => by simp [Bulk]
  | .chunked _ cs, h => by simp only [Nice] at h; simp only [Bulk]; exact Nices.bulk cs h.2
  | .struct _ _ _ _, h => by simp [Nice] at h
  | .ext _ _ _, h => by simp [Nice] at h
  | .sparse _ values _ _ _, h => by simp only [Nice] at h; simp only [Bulk]; exact ⟨Nice.bulk values h.1, h.2.1⟩
  | .dict codes _, h => by simp only [Nice] at h; simp only [Bulk]; exact Nice.bulk codes h.1
  | .runEnd _ _ _ _ _, h => by simpa only [Nice, Bulk] using h
  | .mapped c enc, h => by
    simp only [Nice] at h
    cases c with
    | zigzag => simpa only [Bulk] using h
    | «for» p r s => simp only [Bulk]; exact Nice.bulk enc h
    | alp e g => simp only [Bulk]; exact Nice.bulk enc h
  | .alpP _ _ enc patches, h => by simp only [Nice] at h; simp only [Bulk]; exact ⟨Nice.bulk enc h.1, Nice.bulk patches h.2.1⟩
theorem Nices.bulk {tm : Str → Option (List UInt8) → Option (PType × Option (List UInt8))} {f : Bool} : ∀ (cs : List (Arr L)),
    Nices env.toEnv leafRows cs → BulkAll env.toEnv leafRows tm f cs
  | [], _ => by simp [BulkAll]
  | c :: cs, h => by simp only [Nices] at h; simp only [BulkAll]; exact ⟨Nice.bulk c h.1, Nices.bulk cs h.2⟩
end

/-! ### What the children's entry points are assumed to do -/

variable (env leafRows ok)

structure BLaws (o : Bulks L) (d : Nat) : Prop where
  canon : ∀ a, WF env.toEnv leafRows ok a → Nice env.toEnv leafRows a → depth a ≤ d →
    ∃ k vals v, o.canon a = .ok (.flat k vals v) ∧ WF env.toEnv leafRows ok (.flat k vals v) ∧ Keep env leafRows (.flat k vals v) a ∧
      rows env.toEnv leafRows (.flat k vals v) = rows env.toEnv leafRows a
  valid : ∀ a, WF env.toEnv leafRows ok a → Nice env.toEnv leafRows a → depth a ≤ d → (dtype env.toEnv a).isNullable = true →
    ∃ lv, o.valid a = .ok lv ∧ lv.intoBools = nonNulls (rows env.toEnv leafRows a)
  take : ∀ f a is, WF env.toEnv leafRows ok a → Bulk env.toEnv leafRows env.temporal f a → depth a ≤ d →
    (∀ i ∈ is, i < (rows env.toEnv leafRows a).length) → (is ≠ [] ∨ chunkFree a = true) →
    ∃ b, o.take a is = .ok b ∧ WF env.toEnv leafRows ok b ∧ Bulk env.toEnv leafRows env.temporal f b ∧ Keep env leafRows b a ∧
      (isPatches a = true → isPatches b = true) ∧ rows env.toEnv leafRows b = Spec.take (rows env.toEnv leafRows a) is
  filter : ∀ a m, WF env.toEnv leafRows ok a → Bulk env.toEnv leafRows env.temporal true a → depth a ≤ d →
    m.length = (rows env.toEnv leafRows a).length →
    ∃ b, o.filter a m = .ok b ∧ WF env.toEnv leafRows ok b ∧ Bulk env.toEnv leafRows env.temporal true b ∧ Keep env leafRows b a ∧
      (isPatches a = true → isPatches b = true) ∧ rows env.toEnv leafRows b = Spec.filter (rows env.toEnv leafRows a) m

variable {env leafRows ok}

/-- A well-formed plain array of a kind: its stored values are not null. -/
theorem WF.stored {k : Kind} {vals : List SV} {v : TVal (Arr L)} (h : WF env.toEnv leafRows ok (.flat k vals v)) :
    ∀ x ∈ vals, x.isNull = false := by
  simp only [WF] at h
  exact fun x hx => has_nonnull (h.1 x hx)

theorem flat_len {k : Kind} {vals : List SV} {v : TVal (Arr L)} (h : WF env.toEnv leafRows ok (.flat k vals v)) :
    vals.length = (maskOf env.toEnv leafRows v vals.length).length := by
  simp only [WF] at h
  exact (maskOf_length h.2).symm

theorem flat_rows_len {k : Kind} {vals : List SV} {v : TVal (Arr L)} (h : WF env.toEnv leafRows ok (.flat k vals v)) :
    (rows env.toEnv leafRows (.flat k vals v)).length = vals.length := by
  have := flat_len h
  simp only [rows, masked_length]; omega

/-- The stored values of a plain array without null rows are its rows. -/
theorem flat_rows_nonnull {k : Kind} {vals : List SV} {v : TVal (Arr L)} (h : WF env.toEnv leafRows ok (.flat k vals v))
    (hn : ∀ r ∈ rows env.toEnv leafRows (.flat k vals v), r.isNull = false) : rows env.toEnv leafRows (.flat k vals v) = vals := by
  simp only [rows] at hn ⊢
  exact masked_nonnull _ _ (flat_len h) hn

theorem kind_of_dtype {k : Kind} {n : Bool} {d : DType} (h : k.dtype n = d) : kindOf d = some k ∧ d.isNullable = n := by
  subst h
  cases k <;> simp [Kind.dtype, kindOf, DType.isNullable]

theorem bitsOf_ok {o : Bulks L} {d : Nat} (H : BLaws env leafRows ok o d) {a : Arr L} (hw : WF env.toEnv leafRows ok a)
    (hn : Nice env.toEnv leafRows a) (hd : depth a ≤ d) (ht : dtype env.toEnv a = .bool false)
    (hr : ∀ r ∈ rows env.toEnv leafRows a, ∃ b, r = .bool b) :
    bitsOf o a = .ok ((rows env.toEnv leafRows a).map isTrue) := by
  obtain ⟨k, vals, v, h1, h2, h3, h4⟩ := H.canon a hw hn hd
  have hk := h3.dtype
  simp only [dtype, ht] at hk
  obtain ⟨hk, _⟩ := kind_of_dtype hk
  simp only [kindOf, Option.some.injEq] at hk
  have hvals := flat_rows_nonnull h2 (by
    rw [h4]
    intro r hr'
    obtain ⟨b, rfl⟩ := hr r hr'
    rfl)
  simp only [bitsOf, h1, Res.ok_bind, asFlat, ← hk, if_true]
  rw [← h4, hvals]

theorem maskOf_array (a : Arr L) (n : Nat) : maskOf env.toEnv leafRows (.array a) n = (rows env.toEnv leafRows a).map isTrue := by
  simp only [maskOf]
  apply List.map_congr_left
  intro x _
  cases x <;> rfl

theorem toLogical_bools (bits : List Bool) (n : Nat) (h : bits.length = n) : ((Validity.array bits).toLogical n).intoBools = bits := by
  have := (C23_to_logical (.array bits) n (by simp [FitsLen, Spec.mask, h])).1
  simpa [Spec.mask] using this

theorem logicalV_ok {o : Bulks L} {d : Nat} (H : BLaws env leafRows ok o d) {v : TVal (Arr L)} {n : Nat} (hw : WFV env.toEnv leafRows ok v n)
    (hn : NiceV env.toEnv leafRows v) (hd : depthV v ≤ d) :
    ∃ lv, logicalV o v n = .ok lv ∧ lv.intoBools = maskOf env.toEnv leafRows v n := by
  cases v with
  | nonNullable => exact ⟨_, rfl, by simp [LogicalValidity.intoBools, maskOf]⟩
  | allValid => exact ⟨_, rfl, by simp [LogicalValidity.intoBools, maskOf]⟩
  | allInvalid => exact ⟨_, rfl, by simp [LogicalValidity.intoBools, maskOf]⟩
  | array a =>
    simp only [WFV] at hw
    simp only [NiceV] at hn
    simp only [depthV] at hd
    refine ⟨_, by simp only [logicalV, bitsOf_ok H hw.1 hn hd hw.2.1 hw.2.2.2, Res.ok_bind]; rfl, ?_⟩
    rw [toLogical_bools _ _ (by simpa using hw.2.2.1), maskOf_array]

/-! ### Plain arrays -/

theorem maskOf_ofValidity (v : Validity) (n : Nat) (h : FitsLen v n) :
    maskOf env.toEnv leafRows (ofValidity v) n = Spec.mask n v ∧ WFV env.toEnv leafRows ok (ofValidity v) n ∧
      NiceV env.toEnv leafRows (ofValidity (L := L) v) ∧ depthV (ofValidity (L := L) v) ≤ 1 ∧
      chunkFreeV (ofValidity (L := L) v) = true ∧ (ofValidity (L := L) v).nullable = v.nullable := by
  cases v with
  | array bits =>
    have hr : rows env.toEnv leafRows (.flat .bool (bits.map SV.bool) .nonNullable) = bits.map SV.bool := by
      simp only [rows, maskOf]
      exact masked_replicate_true _
    have hl : bits.length = n := by simpa [FitsLen, Spec.mask] using h
    refine ⟨?_, ?_, ?_, ?_, ?_, rfl⟩
    · simp only [ofValidity, maskOf_array, hr, Spec.mask, List.map_map]
      simp [Function.comp_def, isTrue]
    · simp only [ofValidity, WFV, WF, hr]
      refine ⟨⟨?_, trivial⟩, rfl, by simpa using hl, ?_⟩
      · intro x hx; obtain ⟨b, _, rfl⟩ := List.mem_map.mp hx; rfl
      · intro x hx; obtain ⟨b, _, rfl⟩ := List.mem_map.mp hx; exact ⟨b, rfl⟩
    · simp [ofValidity, NiceV, Nice]
    · simp [ofValidity, depthV, depth]
    · simp [ofValidity, chunkFreeV, chunkFree]
  | _ => simp [ofValidity, maskOf, Spec.mask, WFV, NiceV, depthV, chunkFreeV, TVal.nullable, Validity.nullable]

theorem takeV_ok {o : Bulks L} {d : Nat} (H : BLaws env leafRows ok o d) {v : TVal (Arr L)} {n : Nat} {is : List Nat}
    (hw : WFV env.toEnv leafRows ok v n) (hn : NiceV env.toEnv leafRows v) (hd : depthV v ≤ d) (hb : ∀ i ∈ is, i < n)
    (hc : is ≠ [] ∨ chunkFreeV v = true) :
    ∃ w, takeV o v is = .ok w ∧ WFV env.toEnv leafRows ok w is.length ∧ NiceV env.toEnv leafRows w ∧ depthV w ≤ depthV v ∧
      w.nullable = v.nullable ∧ (chunkFreeV v = true → chunkFreeV w = true) ∧
      maskOf env.toEnv leafRows w is.length = Spec.take (maskOf env.toEnv leafRows v n) is := by
  cases v with
  | nonNullable => exact ⟨_, rfl, trivial, trivial, Nat.le_refl _, rfl, fun h => h, by simp [maskOf, take_replicate _ _ _ hb]⟩
  | allValid => exact ⟨_, rfl, trivial, trivial, Nat.le_refl _, rfl, fun h => h, by simp [maskOf, take_replicate _ _ _ hb]⟩
  | allInvalid => exact ⟨_, rfl, trivial, trivial, Nat.le_refl _, rfl, fun h => h, by simp [maskOf, take_replicate _ _ _ hb]⟩
  | array a =>
    simp only [WFV] at hw
    obtain ⟨h1, h2, h3, h4⟩ := hw
    simp only [NiceV] at hn
    obtain ⟨b, hb1, hb2, _, hb4, _, hb5⟩ := H.take false a is h1 (Nice.bulk a hn) hd (by rw [h3]; exact hb) hc
    refine ⟨.array b, by simp [takeV, hb1], ?_, hb4.nice hn, hb4.depth, rfl, hb4.chunkFree, ?_⟩
    · refine ⟨hb2, by rw [hb4.dtype, h2], by rw [hb5, Spec.take_length (by rw [h3]; exact hb)], ?_⟩
      intro r hr'
      rw [hb5] at hr'
      exact h4 r (mem_take hr')
    · simp only [maskOf_array, hb5, Spec.take_map]

theorem takeFlat_ok {o : Bulks L} {d : Nat} (H : BLaws env leafRows ok o d) {k : Kind} {vals : List SV} {v : TVal (Arr L)} {is : List Nat}
    (hw : WF env.toEnv leafRows ok (.flat k vals v)) (hn : NiceV env.toEnv leafRows v) (hd : depthV v ≤ d) (hb : ∀ i ∈ is, i < vals.length)
    (hc : is ≠ [] ∨ chunkFreeV v = true) :
    ∃ w, takeFlat o k vals v is = .ok (.flat k (Spec.take vals is) w) ∧ WF env.toEnv leafRows ok (.flat k (Spec.take vals is) w) ∧
      Keep env leafRows (.flat k (Spec.take vals is) w) (.flat k vals v) ∧ NiceV env.toEnv leafRows w ∧
      rows env.toEnv leafRows (.flat k (Spec.take vals is) w) = Spec.take (rows env.toEnv leafRows (.flat k vals v)) is := by
  have hw' := hw
  simp only [WF] at hw'
  obtain ⟨w, h1, h2, h3, h4, h5, h6, h7⟩ := takeV_ok H hw'.2 hn hd hb hc
  have hl : (Spec.take vals is).length = is.length := Spec.take_length hb
  refine ⟨w, by simp [takeFlat, takeList_ok hb, h1], ?_, ⟨?_, ?_, ?_, ?_⟩, h3, ?_⟩
  · simp only [WF, hl]
    exact ⟨fun x hx => hw'.1 x (mem_take hx), h2⟩
  · simp only [depth]; omega
  · simp only [dtype, h5]
  · simpa only [chunkFree] using h6
  · simpa only [Nice] using fun _ => h3
  · simp only [rows, hl, h7]
    exact (masked_take _ _ _ (flat_len hw) hb).symm

theorem count_filter_mask {bits m : List Bool} (h : bits.length = m.length) : (Spec.filter bits m).length = m.count true :=
  Spec.filter_length h

theorem filterFlat_ok {o : Bulks L} {d : Nat} (H : BLaws env leafRows ok o d) {k : Kind} {vals : List SV} {v : TVal (Arr L)} {m : List Bool}
    (hw : WF env.toEnv leafRows ok (.flat k vals v)) (hn : NiceV env.toEnv leafRows v) (hd : depthV v ≤ d) (hm : m.length = vals.length) :
    ∃ w, filterFlat o k vals v v.nullable m = .ok (.flat k (Spec.filter vals m) w) ∧ WF env.toEnv leafRows ok (.flat k (Spec.filter vals m) w) ∧
      Keep env leafRows (.flat k (Spec.filter vals m) w) (.flat k vals v) ∧ NiceV env.toEnv leafRows w ∧
      rows env.toEnv leafRows (.flat k (Spec.filter vals m) w) = Spec.filter (rows env.toEnv leafRows (.flat k vals v)) m ∧
      depthV w ≤ 1 ∧ chunkFreeV w = true ∧ w.nullable = v.nullable := by
  have hw' := hw
  simp only [WF] at hw'
  obtain ⟨lv, h1, h2⟩ := logicalV_ok H hw'.2 hn hd
  have hfl : (Spec.filter vals m).length = m.count true := Spec.filter_length hm.symm
  have hml := maskOf_length hw'.2
  have hbl : (Spec.filter (maskOf env.toEnv leafRows v vals.length) m).length = m.count true := Spec.filter_length (by omega)
  have key : ∃ w : TVal (Arr L), arrowNulls v.nullable (Spec.filter (maskOf env.toEnv leafRows v vals.length) m) = .ok w ∧
      WFV env.toEnv leafRows ok w (m.count true) ∧ NiceV env.toEnv leafRows w ∧ depthV w ≤ depthV v ∧ depthV w ≤ 1 ∧ chunkFreeV w = true ∧
      w.nullable = v.nullable ∧
      maskOf env.toEnv leafRows w (m.count true) = Spec.filter (maskOf env.toEnv leafRows v vals.length) m := by
    generalize hbits : Spec.filter (maskOf env.toEnv leafRows v vals.length) m = bits at *
    cases hnull : v.nullable with
    | false =>
      have hv : v = .nonNullable := by cases v <;> simp_all [TVal.nullable]
      subst hv
      simp only [maskOf, Spec.filter_replicate _ _ _ hm] at hbits
      refine ⟨.nonNullable, ?_, trivial, trivial, Nat.zero_le _, Nat.zero_le _, rfl, rfl, by simp only [maskOf, hbits]⟩
      simp [arrowNulls, ← hbits]
    | true =>
      have hf : FitsLen (Validity.ofBooleanBuffer bits) bits.length := by
        simp [FitsLen, mask_ofBooleanBuffer]
      obtain ⟨g1, g2, g3, g4, g5, g6⟩ := maskOf_ofValidity (env := env) (leafRows := leafRows) (ok := ok) _ _ hf
      rw [hbl] at g1 g2
      refine ⟨_, rfl, g2, g3, ?_, g4, g5, ?_, ?_⟩
      · cases v with
        | array a => exact Nat.le_trans g4 (depth_pos a)
        | nonNullable => simp [TVal.nullable] at hnull
        | allValid =>
          simp only [maskOf, Spec.filter_replicate _ _ _ hm] at hbits
          simp [← hbits, Validity.ofBooleanBuffer, ofValidity, depthV]
        | allInvalid =>
          simp only [maskOf, Spec.filter_replicate _ _ _ hm] at hbits
          have : (ofValidity (Validity.ofBooleanBuffer bits) : TVal (Arr L)) = .allValid ∨
              (ofValidity (Validity.ofBooleanBuffer bits) : TVal (Arr L)) = .allInvalid := by
            have hc : bits.count true = 0 := by
              rw [← hbits, List.count_eq_zero]
              intro h
              exact absurd (List.eq_of_mem_replicate h) (by decide)
            unfold Validity.ofBooleanBuffer
            by_cases he : bits.count true = bits.length
            · rw [if_pos he]; exact Or.inl rfl
            · rw [if_neg he, if_pos hc]; exact Or.inr rfl
          rcases this with h | h <;> rw [h] <;> simp [depthV]
      · rw [g6]
        unfold Validity.ofBooleanBuffer
        split
        · rfl
        · split <;> rfl
      · rw [g1, ← hbl, mask_ofBooleanBuffer]
  obtain ⟨w, k1, k2, k3, k4, k4', k5, k6, k7⟩ := key
  refine ⟨w, ?_, ?_, ⟨?_, ?_, ?_, ?_⟩, k3, ?_, k4', k5, k6⟩
  · simp only [filterFlat, h1, Res.ok_bind, pick_eq, h2, k1]
  · simp only [WF, hfl]
    exact ⟨fun x hx => hw'.1 x (mem_filter' hx), k2⟩
  · simp only [depth]; omega
  · simp only [dtype, k6]
  · intro _; simpa only [chunkFree] using k5
  · simpa only [Nice] using fun _ => k3
  · simp only [rows, hfl, k7]
    exact (masked_filter _ _ _ (flat_len hw)).symm

theorem filterV_ok {o : Bulks L} {d : Nat} (H : BLaws env leafRows ok o d) {v : TVal (Arr L)} {n : Nat} {m : List Bool}
    (hw : WFV env.toEnv leafRows ok v n) (hn : NiceV env.toEnv leafRows v) (hd : depthV v ≤ d) (hm : m.length = n) :
    ∃ w, filterV o v m = .ok w ∧ WFV env.toEnv leafRows ok w (m.count true) ∧ NiceV env.toEnv leafRows w ∧ depthV w ≤ depthV v ∧
      w.nullable = v.nullable ∧ (chunkFreeV v = true → chunkFreeV w = true) ∧
      maskOf env.toEnv leafRows w (m.count true) = Spec.filter (maskOf env.toEnv leafRows v n) m := by
  cases v with
  | nonNullable => exact ⟨_, rfl, trivial, trivial, Nat.le_refl _, rfl, fun h => h, by simp [maskOf, Spec.filter_replicate _ _ _ hm]⟩
  | allValid => exact ⟨_, rfl, trivial, trivial, Nat.le_refl _, rfl, fun h => h, by simp [maskOf, Spec.filter_replicate _ _ _ hm]⟩
  | allInvalid => exact ⟨_, rfl, trivial, trivial, Nat.le_refl _, rfl, fun h => h, by simp [maskOf, Spec.filter_replicate _ _ _ hm]⟩
  | array a =>
    simp only [WFV] at hw
    obtain ⟨h1, h2, h3, h4⟩ := hw
    simp only [NiceV] at hn
    obtain ⟨b, hb1, hb2, _, hb4, _, hb5⟩ := H.filter a m h1 (Nice.bulk a hn) hd (by omega)
    refine ⟨.array b, by simp [filterV, hb1], ?_, hb4.nice hn, hb4.depth, rfl, hb4.chunkFree, ?_⟩
    · refine ⟨hb2, by rw [hb4.dtype, h2], by rw [hb5, Spec.filter_length (by omega)], ?_⟩
      intro r hr'
      rw [hb5] at hr'
      exact h4 r (mem_filter' hr')
    · simp only [maskOf_array, hb5, Spec.filter_map]

end Vx.Tree
