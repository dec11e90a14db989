import Verif.Spec.Arrow
import Verif.Props.C47
/-!
# C48: Arrow types and schemas convert without losing anything
-/
namespace Vx.Arrow
open Temporal Vx.Spec.Arrow

theorem isTemporal_id (m : Meta) : isTemporal m.id = true := by cases m <;> rfl

theorem norm_of_arrowMeta {m : Meta} (h : ArrowMeta m) : m.norm = m := by
  cases m with
  | time u => rfl
  | date u => rfl
  | timestamp u tz =>
    cases tz with
    | none => rfl
    | some z =>
      have : z ≠ "" := by rintro rfl; exact h.2 rfl
      simp [Meta.norm, this]

/-- The Arrow type of a metadata value that has one. -/
theorem arrowTemporal_spec (lossy : List UInt8 → String) (hl : LossyOk lossy) {m : Meta} {b : List UInt8} (hm : ArrowMeta m)
    (hb : m.encode = .ok b) : ∃ t, arrowTemporal lossy m.id (some b) = .ok t ∧ temporalMeta t = some m := by
  have e := C47_round_trip lossy hl m b hb
  rw [norm_of_arrowMeta hm] at e
  unfold arrowTemporal
  rw [e]
  cases m with
  | date u => cases u <;> simp_all [ArrowMeta, temporalMeta]
  | time u => cases u <;> simp_all [ArrowMeta, temporalMeta, AUnit.toUnit]
  | timestamp u tz => cases u <;> simp_all [ArrowMeta, temporalMeta, AUnit.toUnit]

theorem fromArrow_temporal {t : AType} {m : Meta} (h : temporalMeta t = some m) (n : Bool) : fromArrow t n = extOf m n := by
  cases t <;> simp_all [temporalMeta, fromArrow]

mutual
/-- **C48 dtype → Arrow → dtype.** Every dtype without lists and foreign extension types converts to an Arrow type, and that Arrow type,
with the same nullability, converts back to exactly the dtype: names, order, nesting, units, zones and nullability of every field. -/
theorem C48_dtype_round_trip (lossy : List UInt8 → String) (hl : LossyOk lossy) :
    ∀ d : DType, HasArrow d → ∃ t, inferType lossy d = .ok t ∧ fromArrow t d.isNullable = .ok d
  | .null, _ => ⟨.null, by simp only [inferType], by simp [fromArrow]⟩
  | .bool n, _ => ⟨.boolean, by simp only [inferType], by simp [fromArrow, DType.isNullable]⟩
  | .prim p n, _ => ⟨.prim p, by simp only [inferType], by simp [fromArrow, DType.isNullable]⟩
  | .utf8 n, _ => ⟨.utf8View, by simp only [inferType], by simp [fromArrow, DType.isNullable]⟩
  | .binary n, _ => ⟨.binaryView, by simp only [inferType], by simp [fromArrow, DType.isNullable]⟩
  | .list e n, h => by cases h
  | .ext id md n, h => by
    cases h with
    | ext m b _ hm hb =>
      obtain ⟨t, ht, htm⟩ := arrowTemporal_spec lossy hl hm hb
      refine ⟨t, by simp only [inferType, isTemporal_id, if_true, ht], ?_⟩
      rw [fromArrow_temporal htm]
      simp [extOf, hb, DType.isNullable]
  | .struct names ds n, h => by
    cases h with
    | struct _ _ _ hf =>
      obtain ⟨fs, h₁, h₂⟩ := fields_round_trip lossy hl names ds hf
      exact ⟨.struct fs, by simp [inferType, h₁], by simp [fromArrow, h₂, DType.isNullable]⟩
/-- The same for a list of fields. -/
theorem fields_round_trip (lossy : List UInt8 → String) (hl : LossyOk lossy) :
    ∀ (names : List Str) (ds : List DType), HasArrowFields names ds →
      ∃ fs, inferFields lossy names ds = .ok fs ∧ fromFields fs = .ok (names, ds)
  | names, [], h => by
    cases h
    exact ⟨.nil, by simp [inferFields], by simp [fromFields]⟩
  | names, d :: ds, h => by
    cases h with
    | cons name _ names' _ hd hs =>
      obtain ⟨t, h₁, h₂⟩ := C48_dtype_round_trip lossy hl d hd
      obtain ⟨fs, h₃, h₄⟩ := fields_round_trip lossy hl names' ds hs
      exact ⟨.cons name t d.isNullable fs, by simp [inferFields, h₁, h₃], by simp [fromFields, h₂, h₄]⟩
end

/-- **C48 schemas.** A non-nullable struct dtype with Arrow-representable fields becomes a schema and comes back as the same dtype. -/
theorem C48_schema_round_trip (lossy : List UInt8 → String) (hl : LossyOk lossy) (names : List Str) (ds : List DType)
    (h : HasArrowFields names ds) :
    ∃ fs, inferSchema lossy (.struct names ds false) = .ok fs ∧ fromSchema fs = .ok (.struct names ds false) := by
  obtain ⟨fs, h₁, h₂⟩ := fields_round_trip lossy hl names ds h
  exact ⟨fs, by simp [inferSchema, h₁], by simp [fromSchema, h₂]⟩

/-- Only a non-nullable struct is a schema; anything else is an error. -/
theorem C48_schema_refuses (lossy : List UInt8 → String) (d : DType) (h : ∀ names ds, d ≠ .struct names ds false) :
    inferSchema lossy d = .err := by
  cases d with
  | struct names ds n =>
    cases n with
    | false => exact absurd rfl (h names ds)
    | true => rfl
  | _ => rfl

theorem encode_ok_of_short {u : TimeUnit} {tz : Option String}
    (h : ∀ z, tz = some z → z ≠ "" ∧ z.toByteArray.data.toList.length < 65536) : ∃ b, (Meta.timestamp u tz).encode = .ok b := by
  cases tz with
  | none => exact ⟨_, rfl⟩
  | some z =>
    have : (utf8 z).length < 65536 := (h z rfl).2
    exact ⟨u.tag :: (le16 (utf8 z).length ++ utf8 z), by simp only [Meta.encode, if_pos this]⟩

/-- A temporal Arrow type that Arrow allows has the metadata it came from. -/
theorem plain_temporal (lossy : List UInt8 → String) (hl : LossyOk lossy) {t : AType} {m : Meta} (hp : Plain t)
    (ht : temporalMeta t = some m) (n : Bool) :
    ∃ b, fromArrow t n = .ok (.ext m.id (some b) n) ∧ arrowTemporal lossy m.id (some b) = .ok t := by
  have key : ∃ b, m.encode = .ok b := by
    cases t <;> simp only [temporalMeta, Option.some.injEq, reduceCtorEq] at ht <;> subst ht
    all_goals first | exact ⟨_, rfl⟩ | skip
    exact encode_ok_of_short (by simpa only [Plain] using hp)
  obtain ⟨b, hb⟩ := key
  refine ⟨b, by rw [fromArrow_temporal ht]; simp [extOf, hb], ?_⟩
  have e := C47_round_trip lossy hl m b hb
  unfold arrowTemporal
  rw [e]
  cases t <;> simp only [temporalMeta, Option.some.injEq, reduceCtorEq] at ht <;> subst ht
  · rfl
  · rfl
  · rename_i u; simp only [Plain] at hp; cases u <;> simp_all [AUnit.toUnit, Meta.norm]
  · rename_i u; simp only [Plain] at hp; cases u <;> simp_all [AUnit.toUnit, Meta.norm]
  · rename_i u tz
    simp only [Plain] at hp
    have : (Meta.timestamp u.toUnit tz).norm = .timestamp u.toUnit tz := by
      cases tz with
      | none => rfl
      | some z => simp [Meta.norm, (hp z rfl).1]
    rw [this]
    cases u <;> rfl

mutual
/-- **C48 Arrow → dtype → Arrow.** Importing an Arrow type and exporting it again gives the same Arrow type, except that strings and bytes
come out in their view layout; and the dtype has the field's nullability (a `Null` field always counts as nullable). -/
theorem C48_arrow_round_trip (lossy : List UInt8 → String) (hl : LossyOk lossy) :
    ∀ (t : AType) (n : Bool), Plain t → ∃ d, fromArrow t n = .ok d ∧ inferType lossy d = .ok (viewed t) ∧
      (t ≠ .null → d.isNullable = n)
  | .null, n, _ => ⟨.null, by simp only [fromArrow], by simp [inferType, viewed], by simp⟩
  | .boolean, n, _ => ⟨.bool n, by simp only [fromArrow], by simp [inferType, viewed], by simp [DType.isNullable]⟩
  | .prim p, n, _ => ⟨.prim p n, by simp only [fromArrow], by simp [inferType, viewed], by simp [DType.isNullable]⟩
  | .utf8, n, _ => ⟨.utf8 n, by simp only [fromArrow], by simp [inferType, viewed], by simp [DType.isNullable]⟩
  | .largeUtf8, n, _ => ⟨.utf8 n, by simp only [fromArrow], by simp [inferType, viewed], by simp [DType.isNullable]⟩
  | .utf8View, n, _ => ⟨.utf8 n, by simp only [fromArrow], by simp [inferType, viewed], by simp [DType.isNullable]⟩
  | .binary, n, _ => ⟨.binary n, by simp only [fromArrow], by simp [inferType, viewed], by simp [DType.isNullable]⟩
  | .largeBinary, n, _ => ⟨.binary n, by simp only [fromArrow], by simp [inferType, viewed], by simp [DType.isNullable]⟩
  | .binaryView, n, _ => ⟨.binary n, by simp only [fromArrow], by simp [inferType, viewed], by simp [DType.isNullable]⟩
  | .date32, n, h => by
    obtain ⟨b, h₁, h₂⟩ := plain_temporal lossy hl h rfl n
    exact ⟨_, h₁, by simp [inferType, isTemporal_id, h₂, viewed], by simp [DType.isNullable]⟩
  | .date64, n, h => by
    obtain ⟨b, h₁, h₂⟩ := plain_temporal lossy hl h rfl n
    exact ⟨_, h₁, by simp [inferType, isTemporal_id, h₂, viewed], by simp [DType.isNullable]⟩
  | .time32 u, n, h => by
    obtain ⟨b, h₁, h₂⟩ := plain_temporal lossy hl h rfl n
    exact ⟨_, h₁, by simp [inferType, isTemporal_id, h₂, viewed], by simp [DType.isNullable]⟩
  | .time64 u, n, h => by
    obtain ⟨b, h₁, h₂⟩ := plain_temporal lossy hl h rfl n
    exact ⟨_, h₁, by simp [inferType, isTemporal_id, h₂, viewed], by simp [DType.isNullable]⟩
  | .timestamp u tz, n, h => by
    obtain ⟨b, h₁, h₂⟩ := plain_temporal lossy hl h rfl n
    exact ⟨_, h₁, by simp [inferType, isTemporal_id, h₂, viewed], by simp [DType.isNullable]⟩
  | .list _ _ _, _, h => by simp [Plain] at h
  | .largeList _ _ _, _, h => by simp [Plain] at h
  | .other _, _, h => by simp [Plain] at h
  | .struct fs, n, h => by
    obtain ⟨r, h₁, h₂⟩ := arrow_fields_round_trip lossy hl fs (by simpa only [Plain] using h)
    exact ⟨.struct r.1 r.2 n, by simp [fromArrow, h₁], by simp [inferType, h₂, viewed], by simp [DType.isNullable]⟩
theorem arrow_fields_round_trip (lossy : List UInt8 → String) (hl : LossyOk lossy) :
    ∀ fs : AFields, PlainFields fs → ∃ r : List Str × List DType, fromFields fs = .ok r ∧ inferFields lossy r.1 r.2 = .ok (viewedFields fs)
  | .nil, _ => ⟨([], []), by simp [fromFields], by simp [inferFields, viewedFields]⟩
  | .cons name t n rest, h => by
    simp only [PlainFields] at h
    obtain ⟨ht, hn, hr⟩ := h
    obtain ⟨d, h₁, h₂, h₃⟩ := C48_arrow_round_trip lossy hl t n ht
    obtain ⟨r, h₄, h₅⟩ := arrow_fields_round_trip lossy hl rest hr
    have hnull : d.isNullable = n := by
      by_cases e : t = .null
      · subst e; simp only [fromArrow] at h₁; cases h₁; rw [hn rfl]; rfl
      · exact h₃ e
    exact ⟨(name :: r.1, d :: r.2), by simp [fromFields, h₁, h₄], by simp [inferFields, h₂, h₅, viewedFields, hnull]⟩
end

mutual
/-- **C48 refusals.** Whatever converts to Arrow is free of lists and foreign extension types at every depth: those are never turned into
some other type. -/
theorem C48_infer_sound (lossy : List UInt8 → String) : ∀ (d : DType) (t : AType), inferType lossy d = .ok t → Exportable lossy d
  | .null, t, _ => .null
  | .bool _, t, _ => .bool _
  | .prim _ _, t, _ => .prim _ _
  | .utf8 _, t, _ => .utf8 _
  | .binary _, t, _ => .binary _
  | .struct ns ds n, t, h => by
    simp only [inferType] at h
    obtain ⟨fs, hf, _⟩ := Res.bind_eq_ok.mp h
    exact .struct ns ds n (infer_fields_sound lossy ns ds fs hf)
  | .list _ _, t, h => by simp [inferType] at h
  | .ext id md n, t, h => by
    simp only [inferType] at h
    split at h
    · rename_i ht
      unfold arrowTemporal at h
      cases e : decode lossy id md with
      | err => rw [e] at h; simp at h
      | panic => rw [e] at h; simp at h
      | ok m =>
        rw [e] at h
        refine .ext id md n m e ?_
        cases m with
        | date u => cases u <;> simp_all
        | time u => cases u <;> simp_all
        | timestamp u tz => cases u <;> simp_all
    · simp at h
theorem infer_fields_sound (lossy : List UInt8 → String) : ∀ (ns : List Str) (ds : List DType) (fs : AFields),
    inferFields lossy ns ds = .ok fs → ExportableFields lossy ns ds
  | ns, [], fs, _ => by cases ns <;> constructor
  | [], d :: ds, fs, _ => by constructor
  | n :: ns, d :: ds, fs, h => by
    simp only [inferFields] at h
    obtain ⟨t, ht, h⟩ := Res.bind_eq_ok.mp h
    obtain ⟨r, hr, h⟩ := Res.bind_eq_ok.mp h
    exact .cons n ns d ds (C48_infer_sound lossy d t ht) (infer_fields_sound lossy ns ds r hr)
end

mutual
/-- The converse: everything exportable is exported. -/
theorem C48_infer_complete (lossy : List UInt8 → String) : ∀ (d : DType), Exportable lossy d → ∃ t, inferType lossy d = .ok t
  | .null, _ => ⟨.null, by simp only [inferType]⟩
  | .bool _, _ => ⟨.boolean, by simp only [inferType]⟩
  | .prim p _, _ => ⟨.prim p, by simp only [inferType]⟩
  | .utf8 _, _ => ⟨.utf8View, by simp only [inferType]⟩
  | .binary _, _ => ⟨.binaryView, by simp only [inferType]⟩
  | .list _ _, h => by cases h
  | .struct ns ds n, h => by
    cases h with
    | struct _ _ _ hf =>
      obtain ⟨fs, h₁⟩ := infer_fields_complete lossy ns ds hf
      exact ⟨.struct fs, by simp [inferType, h₁]⟩
  | .ext id md n, h => by
    cases h with
    | ext _ _ _ m hd hu =>
      have hid : isTemporal id = true := by
        obtain ⟨_, _, _, h, _⟩ := C47_decode_sound lossy id md m hd
        exact h
      simp only [inferType, hid, if_true, arrowTemporal, hd]
      cases m with
      | date u => cases u <;> simp_all
      | time u => cases u <;> simp_all
      | timestamp u tz => cases u <;> simp_all
theorem infer_fields_complete (lossy : List UInt8 → String) : ∀ (ns : List Str) (ds : List DType), ExportableFields lossy ns ds →
    ∃ fs, inferFields lossy ns ds = .ok fs
  | ns, [], _ => ⟨.nil, by cases ns <;> simp [inferFields]⟩
  | [], d :: ds, _ => ⟨.nil, by simp [inferFields]⟩
  | n :: ns, d :: ds, h => by
    cases h with
    | cons _ _ _ _ hd hs =>
      obtain ⟨t, h₁⟩ := C48_infer_complete lossy d hd
      obtain ⟨fs, h₂⟩ := infer_fields_complete lossy ns ds hs
      exact ⟨.cons n t d.isNullable fs, by simp [inferFields, h₁, h₂]⟩
end

theorem extOf_timestamp (u : TimeUnit) (tz : Option String) (n : Bool) :
    ((∃ z, tz = some z ∧ 65536 ≤ z.toByteArray.data.toList.length) ∧ extOf (.timestamp u tz) n = .panic) ∨
    ((¬ ∃ z, tz = some z ∧ 65536 ≤ z.toByteArray.data.toList.length) ∧ ∃ d, extOf (.timestamp u tz) n = .ok d) := by
  rcases C47_encode_defined (.timestamp u tz) with ⟨b, hb⟩ | ⟨hp, u', z, e, hz⟩
  · refine .inr ⟨?_, .ext timestampId (some b) n, by simp [extOf, hb, Meta.id]⟩
    rintro ⟨z, rfl, hz⟩
    have : ¬ (utf8 z).length < 65536 := by unfold utf8; omega
    simp only [Meta.encode, if_neg this] at hb
    simp at hb
  · injection e with _ e
    exact .inl ⟨⟨z, e, hz⟩, by simp [extOf, hp]⟩

mutual
/-- **C48 imports.** An Arrow type is imported unless it contains, at some depth, a type vortex does not have (or an absurdly long zone
name); then the import panics, and never yields some other dtype. -/
theorem C48_import_unsupported : ∀ (t : AType) (n : Bool),
    (Unsupported t ∧ fromArrow t n = .panic) ∨ (¬ Unsupported t ∧ ∃ d, fromArrow t n = .ok d)
  | .null, n => .inr (by simp [Unsupported, fromArrow])
  | .boolean, n => .inr (by simp [Unsupported, fromArrow])
  | .prim p, n => .inr (by simp [Unsupported, fromArrow])
  | .utf8, n => .inr (by simp [Unsupported, fromArrow])
  | .largeUtf8, n => .inr (by simp [Unsupported, fromArrow])
  | .utf8View, n => .inr (by simp [Unsupported, fromArrow])
  | .binary, n => .inr (by simp [Unsupported, fromArrow])
  | .largeBinary, n => .inr (by simp [Unsupported, fromArrow])
  | .binaryView, n => .inr (by simp [Unsupported, fromArrow])
  | .date32, n => .inr (by simp [Unsupported, fromArrow, extOf, Meta.encode])
  | .date64, n => .inr (by simp [Unsupported, fromArrow, extOf, Meta.encode])
  | .time32 u, n => .inr (by simp [Unsupported, fromArrow, extOf, Meta.encode])
  | .time64 u, n => .inr (by simp [Unsupported, fromArrow, extOf, Meta.encode])
  | .timestamp u tz, n => by simp only [Unsupported, fromArrow]; exact extOf_timestamp _ _ _
  | .other k, n => .inl (by simp [Unsupported, fromArrow])
  | .list _ e m, n => by
    simp only [Unsupported, fromArrow]
    rcases C48_import_unsupported e m with ⟨h₁, h₂⟩ | ⟨h₁, d, h₂⟩
    · exact .inl ⟨h₁, by simp [h₂]⟩
    · exact .inr ⟨h₁, by simp [h₂]⟩
  | .largeList _ e m, n => by
    simp only [Unsupported, fromArrow]
    rcases C48_import_unsupported e m with ⟨h₁, h₂⟩ | ⟨h₁, d, h₂⟩
    · exact .inl ⟨h₁, by simp [h₂]⟩
    · exact .inr ⟨h₁, by simp [h₂]⟩
  | .struct fs, n => by
    simp only [Unsupported, fromArrow]
    rcases import_fields_unsupported fs with ⟨h₁, h₂⟩ | ⟨h₁, d, h₂⟩
    · exact .inl ⟨h₁, by simp [h₂]⟩
    · exact .inr ⟨h₁, by simp [h₂]⟩
theorem import_fields_unsupported : ∀ (fs : AFields),
    (UnsupportedFields fs ∧ fromFields fs = .panic) ∨ (¬ UnsupportedFields fs ∧ ∃ r, fromFields fs = .ok r)
  | .nil => .inr (by simp [UnsupportedFields, fromFields])
  | .cons name t n rest => by
    simp only [UnsupportedFields, fromFields]
    rcases C48_import_unsupported t n with ⟨h₁, h₂⟩ | ⟨h₁, d, h₂⟩
    · exact .inl ⟨.inl h₁, by simp [h₂]⟩
    · rcases import_fields_unsupported rest with ⟨h₃, h₄⟩ | ⟨h₃, r, h₄⟩
      · exact .inl ⟨.inr h₃, by simp [h₂, h₄]⟩
      · exact .inr ⟨by simp [h₁, h₃], by simp [h₂, h₄]⟩
end

/-- Full statement wanted: a dtype that has no Arrow counterpart gives an error. False: bad temporal metadata panics. -/
theorem C48_bad_metadata_panics (lossy : List UInt8 → String) :
    inferType lossy (.ext dateId none false) = .panic ∧ inferType lossy (.ext dateId (some [3]) false) = .panic := by
  constructor <;> simp only [inferType] <;> rfl

/-- Full statement wanted: Arrow → dtype → Arrow keeps every field's nullability. False for a non-nullable `Null` field. -/
theorem C48_null_field_nullability (lossy : List UInt8 → String) :
    ∃ d, fromSchema (.cons "x".toList .null false .nil) = .ok d ∧
      inferSchema lossy d = .ok (.cons "x".toList .null true .nil) :=
  ⟨.struct ["x".toList] [.null] false, by simp [fromSchema, fromFields, fromArrow],
   by simp [inferSchema, inferFields, inferType, DType.isNullable]⟩

/-- An empty zone name is lost. -/
theorem C48_empty_zone_lost (lossy : List UInt8 → String) (n : Bool) :
    ∃ d, fromArrow (.timestamp .milli (some "")) n = .ok d ∧ inferType lossy d = .ok (.timestamp .milli none) :=
  ⟨.ext timestampId (some [2, 0, 0]) n, by simp only [fromArrow]; rfl, by simp only [inferType]; rfl⟩

/-! Non-vacuity: a schema with a nested struct, a zoned timestamp, a nullable date and a string -/

def exDType : DType := .struct ["a".toList, "b".toList, "c".toList]
  [.struct ["t".toList] [.ext timestampId (some [1, 3, 0, 85, 84, 67]) true] true, .ext dateId (some [4]) true, .utf8 false] false

example : HasArrow exDType := by
  refine .struct _ _ _ (.cons _ _ _ _ (.struct _ _ _ (.cons _ _ _ _ ?_ .nil)) (.cons _ _ _ _ ?_ (.cons _ _ _ _ (.utf8 _) .nil)))
  · exact .ext (.timestamp .us (some "UTC")) _ true ⟨by decide, by decide⟩ (by decide)
  · exact .ext (.date .d) _ true (.inl rfl) (by decide)

example : Plain (.struct (.cons "a".toList .largeUtf8 true (.cons "t".toList (.timestamp .nano (some "Europe/Paris")) false .nil))) := by
  simp only [Plain, PlainFields]
  exact ⟨trivial, by simp, fun z hz => by cases hz; exact ⟨by decide, by decide⟩, by simp, trivial⟩

example : inferType lossy (.list (.utf8 false) true) = .err := by simp [inferType]
example : inferType lossy (.struct ["x".toList] [.list (.utf8 false) true] false) = .err := by simp [inferType, inferFields]
example : inferType lossy (.ext "uuid".toList none true) = .err := by simp only [inferType]; rfl

end Vx.Arrow
