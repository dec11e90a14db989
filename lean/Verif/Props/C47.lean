import Verif.Model.Temporal
/-!
# C47: temporal metadata survives in an extension type
-/
namespace Vx.Temporal

theorem utf8_inj {s t : String} (h : utf8 s = utf8 t) : s = t := by
  apply String.toByteArray_inj.mp
  apply ByteArray.ext
  apply Array.toList_inj.mp h

/-- `lossy` satisfies the contract, so the theorems below are not vacuous. -/
theorem lossy_ok : LossyOk lossy := by
  intro s
  have e : ByteArray.mk (utf8 s).toArray = s.toByteArray := by simp [utf8]
  unfold lossy
  rw [dif_pos (by rw [e]; exact s.isValidUTF8)]
  apply String.toByteArray_inj.mp
  simp only [String.fromUTF8]
  exact e

theorem utf8_eq_nil {s : String} (h : utf8 s = []) : s = "" := utf8_inj (by rw [h]; rfl)

theorem ofTag_tag (u : TimeUnit) : TimeUnit.ofTag u.tag = .ok u := by cases u <;> rfl

theorem ofTag_ok {b : UInt8} {u : TimeUnit} (h : TimeUnit.ofTag b = .ok u) : b = u.tag := by
  unfold TimeUnit.ofTag at h
  split at h
  · rename_i e; cases h; exact e
  split at h
  · rename_i e; cases h; exact e
  split at h
  · rename_i e; cases h; exact e
  split at h
  · rename_i e; cases h; exact e
  split at h
  · rename_i e; cases h; exact e
  · simp at h

theorem ofLe16_le16 {n : Nat} (h : n < 65536) : ofLe16 (UInt8.ofNat n) (UInt8.ofNat (n / 256)) = n := by
  simp only [ofLe16, UInt8.toNat_ofNat']
  omega

theorem le16_ofLe16 (a b : UInt8) : le16 (ofLe16 a b) = [a, b] := by
  have ha := a.toNat_lt
  have hb := b.toNat_lt
  simp only [le16, ofLe16, List.cons.injEq, and_true]
  constructor
  · apply UInt8.toNat_inj.mp; simp only [UInt8.toNat_ofNat']; omega
  · apply UInt8.toNat_inj.mp; simp only [UInt8.toNat_ofNat']; omega

@[simp] theorem timeId_ne_dateId : timeId ≠ dateId := by decide
@[simp] theorem dateId_ne_timeId : dateId ≠ timeId := by decide
@[simp] theorem timestampId_ne_timeId : timestampId ≠ timeId := by decide
@[simp] theorem timestampId_ne_dateId : timestampId ≠ dateId := by decide

/-- Which metadata comes back: an empty zone name is read as "no zone". -/
def Meta.norm : Meta → Meta
  | .timestamp u (some tz) => if tz = "" then .timestamp u none else .timestamp u (some tz)
  | m => m

/-- **C47 round trip.** Whatever metadata is written into an extension type is what is read back: same kind, unit and zone. The only
exception is a timestamp with an empty zone name, which comes back with no zone. -/
theorem C47_round_trip (lossy : List UInt8 → String) (hl : LossyOk lossy) (m : Meta) (b : List UInt8) (h : m.encode = .ok b) :
    decode lossy m.id (some b) = .ok m.norm := by
  cases m with
  | time u => cases h; simp [decode, Meta.id, decodeUnit, ofTag_tag, Meta.norm]
  | date u => cases h; simp [decode, Meta.id, decodeUnit, ofTag_tag, Meta.norm]
  | timestamp u tz =>
    cases tz with
    | none =>
      cases h
      simp [decode, Meta.id, decodeUnit, ofTag_tag, Meta.norm, decodeZone, le16, ofLe16]
    | some tz =>
      simp only [Meta.encode] at h
      split at h
      · rename_i hlen
        cases h
        have hz : decodeZone lossy (u.tag :: (le16 (utf8 tz).length ++ utf8 tz)) = .ok (if tz = "" then none else some tz) := by
          have e := ofLe16_le16 hlen
          simp only [decodeZone, le16, List.cons_append, List.nil_append, List.getElem?_cons_succ, List.getElem?_cons_zero, e]
          by_cases h0 : (utf8 tz).length = 0
          · have : tz = "" := utf8_eq_nil (List.length_eq_zero_iff.mp h0)
            rw [if_pos h0, if_pos this]
          · have hne : tz ≠ "" := by
              rintro rfl; exact h0 rfl
            rw [if_neg h0, if_pos (by simp; omega), if_neg hne]
            simp [hl tz]
        simp only [decode, Res.ofOption_some, Res.ok_bind, Meta.id, timestampId_ne_timeId, timestampId_ne_dateId, if_false, if_true, hz]
        simp only [decodeUnit, List.getElem?_cons_zero, Res.unwrap_some, Res.ok_bind, ofTag_tag, Meta.norm]
        split <;> rfl
      · simp at h

/-- **C47 writing.** Metadata can be written unless the zone name is over 65535 bytes of UTF-8; then writing panics. -/
theorem C47_encode_defined (m : Meta) :
    (∃ b, m.encode = .ok b) ∨ (m.encode = .panic ∧ ∃ u tz, m = .timestamp u (some tz) ∧ 65536 ≤ (utf8 tz).length) := by
  cases m with
  | time u => exact .inl ⟨_, rfl⟩
  | date u => exact .inl ⟨_, rfl⟩
  | timestamp u tz =>
    cases tz with
    | none => exact .inl ⟨_, rfl⟩
    | some tz =>
      by_cases h : (utf8 tz).length < 65536
      · exact .inl ⟨u.tag :: (le16 (utf8 tz).length ++ utf8 tz), by simp only [Meta.encode, if_pos h]⟩
      · exact .inr ⟨by simp only [Meta.encode, if_neg h], u, tz, rfl, by omega⟩

/-- Two different metadata values of the same kind are never written as the same bytes, empty zone name aside. -/
theorem C47_encode_injective (m k : Meta) (hm : m.norm = m) (hk : k.norm = k) (hid : m.id = k.id) (b : List UInt8)
    (h₁ : m.encode = .ok b) (h₂ : k.encode = .ok b) : m = k := by
  have a := C47_round_trip lossy lossy_ok m b h₁
  have c := C47_round_trip lossy lossy_ok k b h₂
  rw [hid, c, hm, hk] at a
  injection a with a; exact a.symm

theorem decodeUnit_ok {b : List UInt8} {u : TimeUnit} (h : decodeUnit b = .ok u) : b[0]? = some u.tag := by
  unfold decodeUnit at h
  cases e : b[0]? with
  | none => rw [e] at h; simp at h
  | some x => rw [e] at h; simp at h; rw [ofTag_ok h]

/-- **C47 reading.** What is read is determined by the id and the bytes as documented: the first byte is the unit, and for a timestamp the
next two bytes are the length of the zone name, which follows. -/
theorem C47_decode_sound (lossy : List UInt8 → String) (id : Str) (md : Option (List UInt8)) (m : Meta)
    (h : decode lossy id md = .ok m) :
    ∃ b, md = some b ∧ id = m.id ∧ isTemporal id = true ∧ b[0]? = some m.unit.tag ∧
      (id = timestampId → ∃ l₀ l₁ : UInt8, b[1]? = some l₀ ∧ b[2]? = some l₁ ∧
        (if l₀.toNat + 256 * l₁.toNat = 0 then m.zone = none
         else 3 + (l₀.toNat + 256 * l₁.toNat) ≤ b.length ∧
           m.zone = some (lossy ((b.drop 3).take (l₀.toNat + 256 * l₁.toNat))))) := by
  unfold decode at h
  cases md with
  | none => simp at h
  | some b =>
    simp only [Res.ofOption_some, Res.ok_bind] at h
    split at h
    · rename_i e
      obtain ⟨u, hu, h⟩ := Res.bind_eq_ok.mp h
      cases h
      exact ⟨b, rfl, e, by rw [e]; decide, decodeUnit_ok hu, by intro h'; rw [e] at h'; exact absurd h' (by decide)⟩
    split at h
    · rename_i e
      obtain ⟨u, hu, h⟩ := Res.bind_eq_ok.mp h
      cases h
      exact ⟨b, rfl, e, by rw [e]; decide, decodeUnit_ok hu, by intro h'; rw [e] at h'; exact absurd h' (by decide)⟩
    split at h
    · rename_i e
      obtain ⟨u, hu, h⟩ := Res.bind_eq_ok.mp h
      obtain ⟨tz, hz, h⟩ := Res.bind_eq_ok.mp h
      cases h
      refine ⟨b, rfl, e, by rw [e]; decide, decodeUnit_ok hu, fun _ => ?_⟩
      unfold decodeZone at hz
      split at hz
      · rename_i l₀ l₁ h₀ h₁
        refine ⟨l₀, l₁, h₀, h₁, ?_⟩
        dsimp only at hz
        by_cases hzero : ofLe16 l₀ l₁ = 0
        · rw [if_pos hzero] at hz; cases hz; rw [if_pos (show l₀.toNat + 256 * l₁.toNat = 0 from hzero)]; rfl
        · rw [if_neg hzero] at hz
          rw [if_neg (show ¬ l₀.toNat + 256 * l₁.toNat = 0 from hzero)]
          by_cases hle : 3 + ofLe16 l₀ l₁ ≤ b.length
          · rw [if_pos hle] at hz; cases hz; exact ⟨hle, rfl⟩
          · rw [if_neg hle] at hz; simp at hz
      · simp at hz
    · simp at h

/-- An extension type that is not temporal, or has no metadata, is refused with an error, not a panic. -/
theorem C47_decode_refuses (lossy : List UInt8 → String) (id : Str) (md : Option (List UInt8))
    (h : isTemporal id = false ∨ md = none) : decode lossy id md = .err := by
  unfold decode
  cases md with
  | none => rfl
  | some b =>
    simp only [reduceCtorEq, or_false] at h
    simp [isTemporal] at h
    simp [h]

/-- Full statement wanted: bad metadata bytes are reported as an error. False: metadata that is too short panics. -/
theorem C47_short_metadata_panics (lossy : List UInt8 → String) :
    decode lossy timeId (some []) = .panic ∧ decode lossy timestampId (some [0]) = .panic ∧
    decode lossy timestampId (some [0, 3, 0, 85]) = .panic := by
  refine ⟨rfl, rfl, rfl⟩

/-- **C47 bad bytes.** Metadata of sufficient length never panics: it is decoded, or an unknown unit number gives an error. -/
theorem C47_decode_no_panic_partial (lossy : List UInt8 → String) (id : Str) (b : List UInt8) (h0 : 1 ≤ b.length)
    (ht : id = timestampId → ∃ l₀ l₁ : UInt8, b[1]? = some l₀ ∧ b[2]? = some l₁ ∧ 3 + (l₀.toNat + 256 * l₁.toNat) ≤ b.length) :
    decode lossy id (some b) ≠ .panic := by
  have hu : decodeUnit b ≠ .panic := by
    unfold decodeUnit
    rw [List.getElem?_eq_getElem (by omega)]
    simp only [Res.unwrap_some, Res.ok_bind, TimeUnit.ofTag]
    repeat' split
    all_goals simp
  unfold decode
  simp only [Res.ofOption_some, Res.ok_bind]
  cases e : decodeUnit b with
  | panic => exact absurd e hu
  | err => repeat' split
           all_goals simp
  | ok u =>
    simp only [Res.ok_bind]
    split
    · simp
    split
    · simp
    split
    · rename_i hid
      obtain ⟨l₀, l₁, h₀, h₁, hl⟩ := ht hid
      have : ∃ z, decodeZone lossy b = .ok z := by
        unfold decodeZone
        rw [h₀, h₁]
        dsimp only
        by_cases hzero : ofLe16 l₀ l₁ = 0
        · rw [if_pos hzero]; exact ⟨_, rfl⟩
        · rw [if_neg hzero, if_pos (show 3 + ofLe16 l₀ l₁ ≤ b.length from hl)]; exact ⟨_, rfl⟩
      obtain ⟨z, hz⟩ := this
      simp [hz]
    · simp

/-- **C47 constructors.** A temporal array can be built exactly when the storage is a primitive array of the width the unit calls for and
the zone name fits; its dtype then identifies the metadata it was built with and keeps the nullability of the storage. -/
theorem C47_construct (lossy : List UInt8 → String) (hl : LossyOk lossy) (m : Meta) (values : DType) (d : DType)
    (h : construct m values = .ok d) :
    ∃ p n, values = .prim p n ∧ storage m = some p ∧ d.isNullable = n ∧ ofDType lossy d = .ok m.norm := by
  unfold construct at h
  split at h
  · rename_i p n q hq
    split at h
    · rename_i hpq
      obtain ⟨b, hb, h⟩ := Res.bind_eq_ok.mp h
      cases h
      exact ⟨p, n, rfl, by rw [hq, hpq], rfl, C47_round_trip lossy hl m b hb⟩
    · simp at h
  · simp at h

/-- The converse of `C47_construct`; anything else panics. -/
theorem C47_construct_defined (m : Meta) (p : PType) (n : Bool) (b : List UInt8) (hs : storage m = some p) (hb : m.encode = .ok b) :
    construct m (.prim p n) = .ok (.ext m.id (some b) n) := by
  unfold construct
  rw [hs]
  simp [hb]

/-- The widths, in words: dates are i32 days or i64 milliseconds; times of day are i32 seconds or milliseconds, i64 micro- or nanoseconds;
timestamps are always i64. -/
theorem C47_widths (m : Meta) (p : PType) (h : storage m = some p) :
    (p = .i32 ∧ (m = .date .d ∨ m = .time .s ∨ m = .time .ms)) ∨
    (p = .i64 ∧ (m = .date .ms ∨ m = .time .us ∨ m = .time .ns ∨ ∃ u tz, m = .timestamp u tz)) := by
  cases m with
  | date u => cases u <;> simp_all [storage]
  | time u => cases u <;> simp_all [storage]
  | timestamp u tz => simp_all [storage]

/-- A date or time whose unit is accepted when it is built can always be shown as a calendar value (unit-wise). -/
theorem C47_construct_unit (m : Meta) (values d : DType) (h : construct m values = .ok d) (hd : ∀ tz, m ≠ .timestamp .d tz) :
    jiffUnitOk m = true := by
  unfold construct at h
  cases m with
  | date u => cases u <;> simp_all [storage, jiffUnitOk]
  | time u => cases u <;> simp_all [storage, jiffUnitOk]
  | timestamp u tz => cases u <;> simp_all [jiffUnitOk]

/-- The exception is real: `new_timestamp` accepts days, which nothing downstream accepts. -/
theorem C47_timestamp_days_accepted :
    ∃ d, construct (.timestamp .d none) (.prim .i64 false) = .ok d ∧ jiffUnitOk (.timestamp .d none) = false :=
  ⟨_, rfl, rfl⟩

/-! Non-vacuity -/

example : (Meta.timestamp .us (some "UTC")).encode = .ok [1, 3, 0, 85, 84, 67] := by decide
example : decode lossy timestampId (some [1, 3, 0, 85, 84, 67]) = .ok (.timestamp .us (some "UTC")) :=
  C47_round_trip lossy lossy_ok (.timestamp .us (some "UTC")) _ (by decide)
example : decode lossy dateId (some [4]) = .ok (.date .d) := rfl
example : decode lossy dateId (some [9]) = .err := rfl
/-- The exception of the round trip. -/
example : decode lossy timestampId (some [0, 0, 0]) = .ok (.timestamp .ns none) ∧
    (Meta.timestamp .ns (some "")).encode = .ok [0, 0, 0] := ⟨rfl, by decide⟩
example : construct (.timestamp .ms (some "UTC")) (.prim .i64 true) = .ok (.ext timestampId (some [2, 3, 0, 85, 84, 67]) true) := by
  decide
example : construct (.date .d) (.prim .i64 true) = .panic := by decide

end Vx.Temporal
