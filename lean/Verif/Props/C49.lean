import Verif.Spec.ArrowArray
import Verif.Props.C48
import Verif.Props.C23
/-!
# C49: Arrow arrays and record batches convert row for row
-/
namespace Vx.Arrow
open Temporal Vx.Spec Vx.Spec.Arrow

theorem count_false_eq_length {m : List Bool} (h : m.count false = m.length) : m = List.replicate m.length false := by
  rw [List.count_eq_length] at h
  exact List.eq_replicate_iff.mpr ⟨rfl, fun b hb => (h b hb).symm⟩

/-- `nulls` keeps the mask. -/
theorem nulls_spec {b : Option (List Bool)} {nullable : Bool} {v : Validity} (h : nulls b nullable = .ok v) (len : Nat)
    (hb : NullsFit len b) : mask len v = nullMask len b ∧ v.nullable = nullable ∧ FitsLen v len := by
  unfold nulls at h
  cases nullable with
  | true =>
    cases b with
    | none => cases h; exact ⟨rfl, rfl, by simp [FitsLen, mask]⟩
    | some m =>
      simp only [NullsFit] at hb
      subst hb
      simp only [if_true] at h
      split at h
      · rename_i hc
        cases h
        exact ⟨(count_false_eq_length hc).symm, rfl, by simp [FitsLen, mask]⟩
      · cases h
        have := (C23_from_bools m).2.1
        refine ⟨this, ?_, by rw [FitsLen, this]⟩
        unfold Validity.ofBooleanBuffer
        split
        · rfl
        · split <;> rfl
  | false =>
    cases b with
    | none => cases h; exact ⟨rfl, rfl, by simp [FitsLen, mask]⟩
    | some m => simp at h

theorem nulls_ok_iff (b : Option (List Bool)) (nullable : Bool) :
    (NullsOk nullable b ∧ ∃ v, nulls b nullable = .ok v) ∨ (¬ NullsOk nullable b ∧ nulls b nullable = .panic) := by
  unfold nulls NullsOk
  cases nullable with
  | true =>
    refine .inl ⟨.inl rfl, ?_⟩
    cases b with
    | none => exact ⟨_, rfl⟩
    | some m =>
      simp only [if_true]
      split
      · exact ⟨_, rfl⟩
      · exact ⟨_, rfl⟩
  | false =>
    cases b with
    | none => exact .inl ⟨.inr rfl, _, rfl⟩
    | some m => exact .inr ⟨by simp, by simp⟩

theorem wrapTemporal_ok {m : Meta} {arr v : VArr} (h : wrapTemporal m arr = .ok v) :
    ∃ b n, construct m arr.dtype = .ok (.ext m.id (some b) n) ∧ m.encode = .ok b ∧ n = arr.dtype.isNullable ∧ v = .ext m.id (some b) arr := by
  unfold wrapTemporal at h
  split at h
  · rename_i id md n hc
    cases h
    have := hc
    unfold construct at hc
    split at hc
    · rename_i p k q hd hq
      split at hc
      · obtain ⟨b, hb, e⟩ := Res.bind_eq_ok.mp hc
        cases e
        exact ⟨b, _, this, hb, by rw [hd]; rfl, rfl⟩
      · simp at hc
    · simp at hc
  all_goals simp at h

theorem wrapTemporal_def {m : Meta} {p : PType} {b : List UInt8} {vals : List Nat} {v : Validity} (hs : storage m = some p)
    (hb : m.encode = .ok b) : wrapTemporal m (.prim p vals v) = .ok (.ext m.id (some b) (.prim p vals v)) := by
  unfold wrapTemporal
  rw [VArr.dtype, C47_construct_defined m p _ b hs hb]

/-- Everything about importing a fixed-width array. -/
theorem fromFixed_spec (t : AType) (vals : List Nat) (b : Option (List Bool)) (nullable : Bool) :
    ((NullsOk nullable b ∧ FixedOk t) ∧ ∃ p v, nulls b nullable = .ok v ∧
      (fromFixed t vals b nullable = .ok (.prim p vals v) ∧ t = .prim p ∨
       ∃ id bs, fromFixed t vals b nullable = .ok (.ext id (some bs) (.prim p vals v)) ∧
         fromArrow (noZone t) nullable = .ok (.ext id (some bs) nullable))) ∨
    (¬ (NullsOk nullable b ∧ FixedOk t) ∧ fromFixed t vals b nullable = .panic) := by
  rcases nulls_ok_iff b nullable with ⟨hok, v, hv⟩ | ⟨hok, hv⟩
  · have e : ∀ (m : Meta) (p : PType) (bs : List UInt8), storage m = some p → m.encode = .ok bs →
        wrapTemporal m (.prim p vals v) = .ok (.ext m.id (some bs) (.prim p vals v)) := fun m p bs => wrapTemporal_def
    cases t with
    | prim p => exact .inl ⟨⟨hok, trivial⟩, p, v, hv, .inl ⟨by simp [fromFixed, hv], rfl⟩⟩
    | timestamp u tz =>
      refine .inl ⟨⟨hok, trivial⟩, .i64, v, hv, .inr ⟨timestampId, u.toUnit.tag :: le16 0, ?_, ?_⟩⟩
      · simp only [fromFixed, hv, Res.ok_bind]; exact e _ _ _ rfl rfl
      · simp [noZone, fromArrow, extOf, Meta.encode, Meta.id]
    | date32 =>
      refine .inl ⟨⟨hok, trivial⟩, .i32, v, hv, .inr ⟨dateId, [4], ?_, ?_⟩⟩
      · simp only [fromFixed, hv, Res.ok_bind]; exact e (.date .d) _ _ rfl rfl
      · simp [noZone, fromArrow, extOf, Meta.encode, Meta.id, TimeUnit.tag]
    | date64 =>
      refine .inl ⟨⟨hok, trivial⟩, .i64, v, hv, .inr ⟨dateId, [2], ?_, ?_⟩⟩
      · simp only [fromFixed, hv, Res.ok_bind]; exact e (.date .ms) _ _ rfl rfl
      · simp [noZone, fromArrow, extOf, Meta.encode, Meta.id, TimeUnit.tag]
    | time32 u =>
      cases u with
      | second =>
        refine .inl ⟨⟨hok, .inl rfl⟩, .i32, v, hv, .inr ⟨timeId, [3], ?_, ?_⟩⟩
        · simp only [fromFixed, hv, Res.ok_bind]; exact e (.time .s) _ _ rfl rfl
        · simp [noZone, fromArrow, extOf, Meta.encode, Meta.id, TimeUnit.tag, AUnit.toUnit]
      | milli =>
        refine .inl ⟨⟨hok, .inr rfl⟩, .i32, v, hv, .inr ⟨timeId, [2], ?_, ?_⟩⟩
        · simp only [fromFixed, hv, Res.ok_bind]; exact e (.time .ms) _ _ rfl rfl
        · simp [noZone, fromArrow, extOf, Meta.encode, Meta.id, TimeUnit.tag, AUnit.toUnit]
      | micro => exact .inr ⟨by simp [FixedOk], by simp [fromFixed, hv]⟩
      | nano => exact .inr ⟨by simp [FixedOk], by simp [fromFixed, hv]⟩
    | time64 u =>
      cases u with
      | micro =>
        refine .inl ⟨⟨hok, .inl rfl⟩, .i64, v, hv, .inr ⟨timeId, [1], ?_, ?_⟩⟩
        · simp only [fromFixed, hv, Res.ok_bind]; exact e (.time .us) _ _ rfl rfl
        · simp [noZone, fromArrow, extOf, Meta.encode, Meta.id, TimeUnit.tag, AUnit.toUnit]
      | nano =>
        refine .inl ⟨⟨hok, .inr rfl⟩, .i64, v, hv, .inr ⟨timeId, [0], ?_, ?_⟩⟩
        · simp only [fromFixed, hv, Res.ok_bind]; exact e (.time .ns) _ _ rfl rfl
        · simp [noZone, fromArrow, extOf, Meta.encode, Meta.id, TimeUnit.tag, AUnit.toUnit]
      | second => exact .inr ⟨by simp [FixedOk], by simp [fromFixed, hv]⟩
      | milli => exact .inr ⟨by simp [FixedOk], by simp [fromFixed, hv]⟩
    | _ => exact .inr ⟨by simp [FixedOk], by simp [fromFixed, hv]⟩
  · exact .inr ⟨fun h => hok h.1, by simp [fromFixed, hv]⟩

theorem fromBytes_spec (t : AType) (vals : List (List UInt8)) (b : Option (List Bool)) (nullable : Bool) :
    ((NullsOk nullable b ∧ BytesOk t) ∧ ∃ k o v, nulls b nullable = .ok v ∧ fromBytes t vals b nullable = .ok (.bytes k o vals v) ∧
      fromArrow (noZone t) nullable = .ok (if k then .utf8 nullable else .binary nullable)) ∨
    (¬ (NullsOk nullable b ∧ BytesOk t) ∧ fromBytes t vals b nullable = .panic) := by
  rcases nulls_ok_iff b nullable with ⟨hok, v, hv⟩ | ⟨hok, hv⟩
  · cases t with
    | utf8 => exact .inl ⟨⟨hok, trivial⟩, true, true, v, hv, by simp [fromBytes, hv], by simp [noZone, fromArrow]⟩
    | largeUtf8 => exact .inl ⟨⟨hok, trivial⟩, true, true, v, hv, by simp [fromBytes, hv], by simp [noZone, fromArrow]⟩
    | utf8View => exact .inl ⟨⟨hok, trivial⟩, true, false, v, hv, by simp [fromBytes, hv], by simp [noZone, fromArrow]⟩
    | binary => exact .inl ⟨⟨hok, trivial⟩, false, true, v, hv, by simp [fromBytes, hv], by simp [noZone, fromArrow]⟩
    | largeBinary => exact .inl ⟨⟨hok, trivial⟩, false, true, v, hv, by simp [fromBytes, hv], by simp [noZone, fromArrow]⟩
    | binaryView => exact .inl ⟨⟨hok, trivial⟩, false, false, v, hv, by simp [fromBytes, hv], by simp [noZone, fromArrow]⟩
    | _ => exact .inr ⟨by simp [BytesOk], by simp [fromBytes, hv]⟩
  · exact .inr ⟨fun h => hok h.1, by simp [fromBytes, hv]⟩

/-- What importing one array gives. -/
structure Imported (a : AArr) (nullable : Bool) (v : VArr) : Prop where
  eq : fromArr a nullable = .ok v
  len : v.len = a.len
  wf : VWF v
  row : ∀ i, vrow v i = arow a i
  dtype : fromArrow (noZone a.type) nullable = .ok v.dtype

structure ImportedCols (cols : ACols) (cs : VCols) : Prop where
  eq : fromCols cols = .ok cs
  lens : cs.lens = cols.lens
  wf : ∀ len, AWFCols len cols → VWFCols len cs
  row : ∀ i, vrowCols cs i = arowCols cols i
  dtype : fromFields (noZoneFields cols.fields) = .ok (cs.names, cs.dtypes)

theorem lens_of_wf : ∀ (cols : ACols) (len : Nat), AWFCols len cols → cols.lens.all (fun l => l = len) = true
  | .nil, len, _ => rfl
  | .cons _ _ a rest, len, h => by
    simp only [AWFCols] at h
    simp only [ACols.lens, List.all_cons, decide_eq_true h.2.1, Bool.true_and]
    exact lens_of_wf rest len h.2.2

theorem checkLen_of_fits {v : Validity} {n : Nat} (h : FitsLen v n) : v.checkLen n = .ok () := by
  cases v with
  | array a => simp only [FitsLen, mask] at h; simp [Validity.checkLen, h]
  | _ => rfl

theorem cell_eq {f : α → Val} {vals : List α} {m k : List Bool} (h : m = k) (i : Nat) : cell f vals m i = cell f vals k i := by rw [h]

mutual
/-- Importing either succeeds with the same rows, or panics, according to `ImportOk`. -/
theorem import_spec : ∀ (a : AArr) (nullable : Bool), AWF a →
    (ImportOk a nullable ∧ ∃ v, Imported a nullable v) ∨ (¬ ImportOk a nullable ∧ fromArr a nullable = .panic)
  | .null n, nullable, _ => by
    cases nullable with
    | true =>
      exact .inl ⟨rfl, .null n, by simp [fromArr], rfl, trivial, fun _ => by simp only [vrow, arow], by simp [AArr.type, noZone, fromArrow, VArr.dtype]⟩
    | false => exact .inr ⟨by simp [ImportOk], by simp [fromArr]⟩
  | .other n l, nullable, _ => .inr ⟨by simp [ImportOk], by simp [fromArr]⟩
  | .bool vals b, nullable, hw => by
    simp only [AWF] at hw
    rcases nulls_ok_iff b nullable with ⟨hok, v, hv⟩ | ⟨hok, hv⟩
    · obtain ⟨h₁, h₂, h₃⟩ := nulls_spec hv vals.length hw
      refine .inl ⟨hok, .bool vals v, by simp [fromArr, hv], rfl, by simpa only [VWF] using h₃, fun i => ?_, ?_⟩
      · simp only [vrow, arow]; exact cell_eq h₁ i
      · simp [AArr.type, noZone, fromArrow, VArr.dtype, h₂]
    · exact .inr ⟨hok, by simp [fromArr, hv]⟩
  | .fixed t vals b, nullable, hw => by
    simp only [AWF] at hw
    rcases fromFixed_spec t vals b nullable with ⟨hok, p, v, hv, h⟩ | ⟨hok, h⟩
    · obtain ⟨h₁, h₂, h₃⟩ := nulls_spec hv vals.length hw
      refine .inl ⟨hok, ?_⟩
      rcases h with ⟨h, rfl⟩ | ⟨id, bs, h, ht⟩
      · refine ⟨.prim p vals v, by simp [fromArr, h], rfl, by simpa only [VWF] using h₃, fun i => ?_, ?_⟩
        · simp only [vrow, arow]; exact cell_eq h₁ i
        · simp [AArr.type, noZone, fromArrow, VArr.dtype, h₂]
      · refine ⟨.ext id (some bs) (.prim p vals v), by simp [fromArr, h], rfl, by simpa only [VWF] using h₃, fun i => ?_, ?_⟩
        · simp only [vrow, arow]; exact cell_eq h₁ i
        · simp only [AArr.type, ht, VArr.dtype, DType.isNullable, h₂]
    · exact .inr ⟨hok, by simp [fromArr, h]⟩
  | .bytes t vals b, nullable, hw => by
    simp only [AWF] at hw
    rcases fromBytes_spec t vals b nullable with ⟨hok, k, o, v, hv, h, ht⟩ | ⟨hok, h⟩
    · obtain ⟨h₁, h₂, h₃⟩ := nulls_spec hv vals.length hw
      refine .inl ⟨hok, .bytes k o vals v, by simp [fromArr, h], rfl, by simpa only [VWF] using h₃, fun i => ?_, ?_⟩
      · simp only [vrow, arow]; exact cell_eq h₁ i
      · simp only [AArr.type, ht, VArr.dtype, h₂]
    · exact .inr ⟨hok, by simp [fromArr, h]⟩
  | .struct cols len b, nullable, hw => by
    simp only [AWF] at hw
    rcases import_cols_spec cols len hw.2 with ⟨hc, cs, hcs⟩ | ⟨hc, hp⟩
    · rcases nulls_ok_iff b nullable with ⟨hok, v, hv⟩ | ⟨hok, hv⟩
      · obtain ⟨h₁, h₂, h₃⟩ := nulls_spec hv len hw.1
        have hl := lens_of_wf cols len hw.2
        rw [← hcs.lens] at hl
        have hs : structNew cs len v = .ok (.struct cs len v) := by
          unfold structNew; rw [if_pos hl, checkLen_of_fits h₃]; rfl
        refine .inl ⟨⟨hok, hc⟩, .struct cs len v, ?_, rfl, ?_, fun i => ?_, ?_⟩
        · simp [fromArr, hcs.eq, hv, hs, expect]
        · simp only [VWF]; exact ⟨h₃, hcs.wf len hw.2⟩
        · simp only [vrow, arow, h₁, hcs.row i]
        · simp [AArr.type, noZone, fromArrow, VArr.dtype, hcs.dtype, h₂]
      · exact .inr ⟨fun h => hok h.1, by simp [fromArr, hcs.eq, hv]⟩
    · exact .inr ⟨fun h => hc h.2, by simp [fromArr, hp]⟩
theorem import_cols_spec : ∀ (cols : ACols) (len : Nat), AWFCols len cols →
    (ImportOkCols cols ∧ ∃ cs, ImportedCols cols cs) ∨ (¬ ImportOkCols cols ∧ fromCols cols = .panic)
  | .nil, _, _ => .inl ⟨trivial, .nil, by simp [fromCols], rfl, fun _ _ => trivial, fun _ => by simp only [vrowCols, arowCols],
      by simp [ACols.fields, noZoneFields, fromFields, VCols.names, VCols.dtypes]⟩
  | .cons name nullable a rest, len, hw => by
    simp only [AWFCols] at hw
    rcases import_spec a nullable hw.1 with ⟨hok, v, hv⟩ | ⟨hok, hp⟩
    · rcases import_cols_spec rest len hw.2.2 with ⟨hok', cs, hcs⟩ | ⟨hok', hp⟩
      · refine .inl ⟨⟨hok, hok'⟩, .cons name v cs, by simp [fromCols, hv.eq, hcs.eq], ?_, ?_, fun i => ?_, ?_⟩
        · simp [VCols.lens, ACols.lens, hv.len, hcs.lens]
        · intro len' hw'
          simp only [AWFCols] at hw'
          simp only [VWFCols]
          exact ⟨hv.wf, by rw [hv.len]; exact hw'.2.1, hcs.wf len' hw'.2.2⟩
        · simp only [vrowCols, arowCols, hv.row i, hcs.row i]
        · simp [ACols.fields, noZoneFields, fromFields, hv.dtype, hcs.dtype, VCols.names, VCols.dtypes]
      · exact .inr ⟨fun h => hok' h.2, by simp [fromCols, hv.eq, hp]⟩
    · exact .inr ⟨fun h => hok h.1, by simp [fromCols, hp]⟩
end

/-- **C49 import.** An imported Arrow array has the same rows (nulls included, at every nesting level) and, time zones aside, the dtype that
the Arrow type converts to. -/
theorem C49_import_rows (a : AArr) (nullable : Bool) (v : VArr) (hw : AWF a) (h : fromArr a nullable = .ok v) :
    vrows v = arows a ∧ VWF v ∧ fromArrow (noZone a.type) nullable = .ok v.dtype := by
  rcases import_spec a nullable hw with ⟨_, v', hv⟩ | ⟨_, hp⟩
  · have : v' = v := by have := hv.eq; rw [h] at this; injection this with this; exact this.symm
    subst this
    refine ⟨?_, hv.wf, hv.dtype⟩
    simp only [vrows, arows, hv.len]
    exact List.map_congr_left (fun i _ => hv.row i)
  · rw [h] at hp; simp at hp

/-- **C49 import is defined** exactly for the supported types with null buffers only in nullable fields; otherwise it panics. -/
theorem C49_import_defined (a : AArr) (nullable : Bool) (hw : AWF a) :
    (ImportOk a nullable ↔ ∃ v, fromArr a nullable = .ok v) ∧ (¬ ImportOk a nullable ↔ fromArr a nullable = .panic) := by
  rcases import_spec a nullable hw with ⟨hok, v, hv⟩ | ⟨hok, hp⟩
  · exact ⟨⟨fun _ => ⟨v, hv.eq⟩, fun _ => hok⟩, ⟨fun h => absurd hok h, fun h => by rw [hv.eq] at h; simp at h⟩⟩
  · exact ⟨⟨fun h => absurd h hok, fun ⟨v, h⟩ => by rw [hp] at h; simp at h⟩, ⟨fun _ => hp, fun _ => hok⟩⟩

/-! ## Export -/

theorem toNulls_spec {v : Validity} {n : Nat} (h : FitsLen v n) : nullMask n (toNulls v n) = mask n v ∧ NullsFit n (toNulls v n) ∧
    (v = .nonNullable → toNulls v n = none) := by
  have := C23_to_logical v n h
  unfold toNulls
  cases e : v.toLogical n with
  | allValid k =>
    rw [e] at this
    simp only [LogicalValidity.len] at this
    obtain ⟨h₁, _, rfl⟩ := this
    exact ⟨h₁, trivial, fun _ => rfl⟩
  | allInvalid k =>
    rw [e] at this
    simp only [LogicalValidity.len] at this
    obtain ⟨h₁, _, rfl⟩ := this
    exact ⟨h₁, by simp [NullsFit], by rintro rfl; simp [Validity.toLogical] at e⟩
  | array a =>
    rw [e] at this
    obtain ⟨h₁, _, h₃⟩ := this
    simp only [LogicalValidity.len] at h₃
    exact ⟨h₁, h₃, by rintro rfl; simp [Validity.toLogical] at e⟩

/-- What exporting one array gives. -/
structure Exported (c : Ctx) (v : VArr) (a : AArr) (t : AType) : Prop where
  eq : intoArr c v = .ok a
  ty : inferType c.lossy v.dtype = .ok t
  len : a.len = v.len
  wf : AWF a
  row : ∀ i, arow a i = vrow v i
  type : a.type = noZone t

structure ExportedCols (c : Ctx) (vs : VCols) (cs : ACols) (fs : AFields) : Prop where
  eq : intoCols c vs = .ok cs
  ty : inferFields c.lossy vs.names vs.dtypes = .ok fs
  lens : cs.lens = vs.lens
  wf : ∀ len, VWFCols len vs → AWFCols len cs
  row : ∀ i, arowCols cs i = vrowCols vs i
  type : cs.fields = noZoneFields fs

theorem arrowTemporal_target {lossy : List UInt8 → String} {id : Str} {md : Option (List UInt8)} {m : Meta} {p : PType}
    (hd : decode lossy id md = .ok m) (hs : storage m = some p) :
    (∃ t, arrowTemporal lossy id md = .ok t ∧ temporalTarget m = .ok (p, noZone t)) ∨
    (arrowTemporal lossy id md = .panic ∧ temporalTarget m = .err) := by
  unfold arrowTemporal
  rw [hd]
  cases m with
  | date u => cases u <;> simp_all [storage, temporalTarget, noZone]
  | time u => cases u <;> simp_all [storage, temporalTarget, noZone]
  | timestamp u tz => cases u <;> simp_all [storage, temporalTarget, noZone]

theorem vlens_of_wf : ∀ (cols : VCols) (len : Nat), VWFCols len cols → cols.lens.all (fun l => l = len) = true
  | .nil, len, _ => rfl
  | .cons _ a rest, len, h => by
    simp only [VWFCols] at h
    simp only [VCols.lens, List.all_cons, decide_eq_true h.2.1, Bool.true_and]
    exact vlens_of_wf rest len h.2.2

theorem head_of_wf {cols : VCols} {len : Nat} (hw : VWFCols len cols) (hc : cols = .nil → len = 0) : cols.lens.head?.getD 0 = len := by
  cases cols with
  | nil => simp [VCols.lens, hc rfl]
  | cons n a r => simp only [VWFCols] at hw; simp [VCols.lens, hw.2.1]

theorem canonBytes_spec (c : Ctx) (utf8 offs : Bool) (vals : List (List UInt8)) (v : Validity) (hx : utf8 = true ∨ offs = false)
    (hw : FitsLen v vals.length) : ∃ w, canonBytes c utf8 offs vals v = .ok (utf8, vals, w) ∧ FitsLen w vals.length ∧
      mask vals.length w = mask vals.length v := by
  obtain ⟨h₁, h₂, h₃⟩ := toNulls_spec hw
  have hf : (offs && !utf8) = false := by rcases hx with rfl | rfl <;> simp
  rcases nulls_ok_iff (toNulls v vals.length) v.nullable with ⟨_, w, hn⟩ | ⟨hno, _⟩
  · obtain ⟨g₁, _, g₃⟩ := nulls_spec hn vals.length h₂
    exact ⟨w, by simp [canonBytes, hf, hn], g₃, by rw [g₁, h₁]⟩
  · refine absurd ?_ hno
    cases v with
    | nonNullable => exact .inr (h₃ rfl)
    | _ => exact .inl rfl

mutual
/-- Exporting succeeds exactly when the dtype has an Arrow type, with the same rows. -/
theorem export_spec (c : Ctx) : ∀ (v : VArr), VWF v → CanExport v → Stored c.lossy v →
    (∃ a t, Exported c v a t) ∨ ((∀ t, inferType c.lossy v.dtype ≠ .ok t) ∧ intoArr c v = .err)
  | .null n, _, _, _ => .inl ⟨.null n, .null, by simp [intoArr], by simp [VArr.dtype, inferType], rfl, trivial,
      fun _ => by simp only [vrow, arow], by simp [AArr.type, noZone]⟩
  | .bool vals v, hw, _, _ => by
    simp only [VWF] at hw
    obtain ⟨h₁, h₂, _⟩ := toNulls_spec hw
    exact .inl ⟨.bool vals (toNulls v vals.length), .boolean, by simp [intoArr], by simp [VArr.dtype, inferType], rfl,
      by simpa only [AWF] using h₂, fun i => by simp only [vrow, arow]; exact cell_eq h₁ i, by simp [AArr.type, noZone]⟩
  | .prim p vals v, hw, _, _ => by
    simp only [VWF] at hw
    obtain ⟨h₁, h₂, _⟩ := toNulls_spec hw
    exact .inl ⟨.fixed (.prim p) vals (toNulls v vals.length), .prim p, by simp [intoArr], by simp [VArr.dtype, inferType], rfl,
      by simpa only [AWF] using h₂, fun i => by simp only [vrow, arow]; exact cell_eq h₁ i, by simp [AArr.type, noZone]⟩
  | .bytes utf8 offs vals v, hw, hx, _ => by
    simp only [VWF] at hw
    simp only [CanExport] at hx
    obtain ⟨w, g₁, g₂, g₃⟩ := canonBytes_spec c utf8 offs vals v hx hw
    obtain ⟨h₁, h₂, _⟩ := toNulls_spec g₂
    rw [g₃] at h₁
    exact .inl ⟨.bytes (if utf8 then .utf8View else .binaryView) vals (toNulls w vals.length), if utf8 then .utf8View else .binaryView,
      by simp [intoArr, g₁], by cases utf8 <;> simp [VArr.dtype, inferType], rfl,
      by simpa only [AWF] using h₂, fun i => by simp only [vrow, arow]; exact cell_eq h₁ i, by cases utf8 <;> simp [AArr.type, noZone]⟩
  | .ext id md s, hw, _, hst => by
    simp only [Stored] at hst
    cases ht : isTemporal id with
    | false =>
      exact .inr ⟨fun t => by simp [VArr.dtype, inferType, ht], by simp [intoArr, ht]⟩
    | true =>
      obtain ⟨m, p, vals, v, hd, hs, rfl⟩ := hst ht
      simp only [VWF] at hw
      obtain ⟨h₁, h₂, _⟩ := toNulls_spec hw
      rcases arrowTemporal_target hd hs with ⟨t, h₃, h₄⟩ | ⟨h₃, h₄⟩
      · refine .inl ⟨.fixed (noZone t) vals (toNulls v vals.length), t, ?_, ?_, rfl, by simpa only [AWF] using h₂,
          fun i => by simp only [vrow, arow]; exact cell_eq h₁ i, by simp only [AArr.type]⟩
        · simp [intoArr, ht, temporalOut, hd, h₄, castStorage]
        · simp [VArr.dtype, inferType, ht, h₃]
      · exact .inr ⟨fun t => by simp [VArr.dtype, inferType, ht, h₃], by simp [intoArr, ht, temporalOut, hd, h₄]⟩
  | .struct cols len v, hw, hc, hst => by
    simp only [VWF] at hw
    simp only [CanExport] at hc
    simp only [Stored] at hst
    rcases export_cols_spec c cols len hw.2 hc.2 hst with ⟨cs, fs, h⟩ | ⟨h₁, h₂⟩
    · obtain ⟨h₁, h₂, _⟩ := toNulls_spec hw.1
      refine .inl ⟨.struct cs len (toNulls v len), .struct fs, ?_, by simp [VArr.dtype, inferType, h.ty], rfl,
        by simp only [AWF]; exact ⟨h₂, h.wf len hw.2⟩, fun i => by simp only [vrow, arow, h₁, h.row i], by simp [AArr.type, noZone, h.type]⟩
      simp only [intoArr, h.eq, Res.ok_bind, arrowStructNew, h.lens, head_of_wf hw.2 hc.1, vlens_of_wf cols len hw.2, Bool.and_true]
      rw [if_pos]
      cases e : toNulls v len with
      | none => rfl
      | some m => rw [e] at h₂; simp only [NullsFit] at h₂; simp [h₂]
    · refine .inr ⟨fun t ht => ?_, by simp [intoArr, h₂]⟩
      simp only [VArr.dtype, inferType] at ht
      obtain ⟨fs, hfs, _⟩ := Res.bind_eq_ok.mp ht
      exact h₁ fs hfs
theorem export_cols_spec (c : Ctx) : ∀ (vs : VCols) (len : Nat), VWFCols len vs → CanExportAll vs → StoredAll c.lossy vs →
    (∃ cs fs, ExportedCols c vs cs fs) ∨ ((∀ fs, inferFields c.lossy vs.names vs.dtypes ≠ .ok fs) ∧ intoCols c vs = .err)
  | .nil, _, _, _, _ => .inl ⟨.nil, .nil, by simp [intoCols], by simp [VCols.names, VCols.dtypes, inferFields], rfl, fun _ _ => trivial,
      fun _ => by simp only [vrowCols, arowCols], by simp [ACols.fields, noZoneFields]⟩
  | .cons name v rest, len, hw, hc, hst => by
    simp only [VWFCols] at hw
    simp only [CanExportAll] at hc
    simp only [StoredAll] at hst
    rcases export_spec c v hw.1 hc.1 hst.1 with ⟨a, t, h⟩ | ⟨h₁, h₂⟩
    · rcases export_cols_spec c rest len hw.2.2 hc.2 hst.2 with ⟨cs, fs, hcs⟩ | ⟨h₁, h₂⟩
      · refine .inl ⟨.cons name v.dtype.isNullable a cs, .cons name t v.dtype.isNullable fs, by simp [intoCols, h.eq, hcs.eq],
          by simp [VCols.names, VCols.dtypes, inferFields, h.ty, hcs.ty], by simp [VCols.lens, ACols.lens, h.len, hcs.lens], ?_,
          fun i => by simp only [vrowCols, arowCols, h.row i, hcs.row i], by simp [ACols.fields, noZoneFields, h.type, hcs.type]⟩
        intro len' hw'
        simp only [VWFCols] at hw'
        simp only [AWFCols]
        exact ⟨h.wf, by rw [h.len]; exact hw'.2.1, hcs.wf len' hw'.2.2⟩
      · refine .inr ⟨fun fs hfs => ?_, by simp [intoCols, h.eq, h₂]⟩
        simp only [VCols.names, VCols.dtypes, inferFields] at hfs
        obtain ⟨_, _, hfs⟩ := Res.bind_eq_ok.mp hfs
        obtain ⟨fs', hfs', _⟩ := Res.bind_eq_ok.mp hfs
        exact h₁ fs' hfs'
    · refine .inr ⟨fun fs hfs => ?_, by simp [intoCols, h₂]⟩
      simp only [VCols.names, VCols.dtypes, inferFields] at hfs
      obtain ⟨t, ht, _⟩ := Res.bind_eq_ok.mp hfs
      exact h₁ t ht
end

/-- **C49 export.** A canonical array whose dtype has an Arrow type is exported, with the same rows and, zones aside, that Arrow type; any
other array is refused with an error. (`_partial`: a struct array without columns is excluded, see `C49_empty_struct_loses_rows`, so are columns of
bytes held with offsets, see `C49_binary_becomes_text`, and temporal arrays whose storage has another width than their unit calls for, which the constructors do not build.) -/
theorem C49_export_partial (c : Ctx) (v : VArr) (hw : VWF v) (hc : CanExport v) (hs : Stored c.lossy v) :
    (∃ a t, intoArr c v = .ok a ∧ inferType c.lossy v.dtype = .ok t ∧ arows a = vrows v ∧ a.type = noZone t ∧ AWF a) ∨
    ((∀ t, inferType c.lossy v.dtype ≠ .ok t) ∧ intoArr c v = .err) := by
  rcases export_spec c v hw hc hs with ⟨a, t, h⟩ | h
  · refine .inl ⟨a, t, h.eq, h.ty, ?_, h.type, h.wf⟩
    simp only [vrows, arows, h.len]
    exact List.map_congr_left (fun i _ => h.row i)
  · exact .inr h

/-- A struct array without columns has rows but exports to an Arrow array of length 0. -/
theorem C49_empty_struct_loses_rows (c : Ctx) :
    VWF (.struct .nil 3 .nonNullable) ∧ intoArr c (.struct .nil 3 .nonNullable) = .ok (.struct .nil 0 none) := by
  refine ⟨by simp only [VWF, VWFCols, and_true]; rfl, ?_⟩
  simp [intoArr, intoCols, toNulls, Validity.toLogical, arrowStructNew, ACols.lens]

/-- A zoned timestamp array loses its zone on import… -/
theorem C49_zone_lost_on_import (vals : List Nat) :
    ∃ v, fromArr (.fixed (.timestamp .micro (some "UTC")) vals none) false = .ok v ∧ v.dtype = .ext timestampId (some [1, 0, 0]) false ∧
      fromArrow (.timestamp .micro (some "UTC")) false = .ok (.ext timestampId (some [1, 3, 0, 85, 84, 67]) false) := by
  refine ⟨.ext timestampId (some [1, 0, 0]) (.prim .i64 vals .nonNullable), ?_, ?_, ?_⟩
  · simp only [fromArr, fromFixed]; rfl
  · simp only [VArr.dtype]; rfl
  · simp only [fromArrow]; decide

/-- …and on export: the exported array's type is not the one announced by the schema. -/
theorem C49_zone_lost_on_export (c : Ctx) (hl : LossyOk c.lossy) (vals : List Nat) :
    let v := VArr.ext timestampId (some [1, 3, 0, 85, 84, 67]) (.prim .i64 vals .nonNullable)
    inferType c.lossy v.dtype = .ok (.timestamp .micro (some "UTC")) ∧
    intoArr c v = .ok (.fixed (.timestamp .micro none) vals none) := by
  have hd : decode c.lossy timestampId (some [1, 3, 0, 85, 84, 67]) = .ok (.timestamp .us (some "UTC")) :=
    C47_round_trip c.lossy hl (.timestamp .us (some "UTC")) _ (by decide)
  have ht : isTemporal timestampId = true := by decide
  refine ⟨?_, ?_⟩
  · simp [VArr.dtype, inferType, ht, arrowTemporal, hd]
  · simp [intoArr, ht, temporalOut, hd, temporalTarget, castStorage, toNulls, Validity.toLogical]

/-- Arrow allows a null buffer without nulls in a non-nullable field; importing such an array panics. -/
theorem C49_empty_null_buffer_panics :
    AWF (.bool [true, false] (some [true, true])) ∧ fromArr (.bool [true, false] (some [true, true])) false = .panic := by
  refine ⟨by simp only [AWF]; rfl, by simp [fromArr, nulls]⟩

/-! ## There and back -/

theorem construct_stored (lossy : List UInt8 → String) (hl : LossyOk lossy) {m : Meta} {p : PType} {b : List UInt8} (vals : List Nat)
    (v : Validity) (hn : m.norm = m) (hs : storage m = some p) (hb : m.encode = .ok b) : Stored lossy (.ext m.id (some b) (.prim p vals v)) := by
  simp only [Stored]
  intro _
  exact ⟨m, p, vals, v, by rw [C47_round_trip lossy hl m b hb, hn], hs, rfl⟩

theorem fromFixed_stored (lossy : List UInt8 → String) (hl : LossyOk lossy) {t : AType} {vals : List Nat} {b : Option (List Bool)}
    {nullable : Bool} {v : VArr} (h : fromFixed t vals b nullable = .ok v) : Stored lossy v ∧ CanExport v := by
  have key : ∀ (m : Meta) (p : PType) (w : Validity), m.norm = m → storage m = some p → wrapTemporal m (.prim p vals w) = .ok v →
      Stored lossy v ∧ CanExport v := by
    intro m p w hn hs hw
    obtain ⟨bs, _, _, hb, _, rfl⟩ := wrapTemporal_ok hw
    exact ⟨construct_stored lossy hl vals w hn hs hb, by simp [CanExport]⟩
  unfold fromFixed at h
  obtain ⟨w, _, h⟩ := Res.bind_eq_ok.mp h
  split at h
  · cases h; exact ⟨by simp [Stored], by simp [CanExport]⟩
  · exact key _ _ w rfl rfl h
  · exact key _ _ w rfl rfl h
  · exact key _ _ w rfl rfl h
  · exact key _ _ w rfl rfl h
  · exact key _ _ w rfl rfl h
  · exact key _ _ w rfl rfl h
  · exact key _ _ w rfl rfl h
  · simp at h

mutual
theorem import_stored (lossy : List UInt8 → String) (hl : LossyOk lossy) : ∀ (a : AArr) (nullable : Bool) (v : VArr),
    fromArr a nullable = .ok v → ACanExport a → Stored lossy v ∧ CanExport v
  | .null n, nullable, v, h, _ => by
    simp only [fromArr] at h
    split at h
    · cases h; exact ⟨by simp [Stored], by simp [CanExport]⟩
    · simp at h
  | .other _ _, _, v, h, _ => by simp [fromArr] at h
  | .bool _ _, _, v, h, _ => by
    simp only [fromArr] at h
    obtain ⟨_, _, h⟩ := Res.bind_eq_ok.mp h
    cases h; exact ⟨by simp [Stored], by simp [CanExport]⟩
  | .fixed t vals b, nullable, v, h, _ => by
    simp only [fromArr] at h
    exact fromFixed_stored lossy hl h
  | .bytes _ _ _, _, v, h, hc => by
    simp only [fromArr, fromBytes] at h
    simp only [ACanExport] at hc
    obtain ⟨_, _, h⟩ := Res.bind_eq_ok.mp h
    split at h
    all_goals first
      | (cases h; exact ⟨by simp [Stored], by simp_all [CanExport]⟩)
      | simp at h
  | .struct cols len b, nullable, v, h, hc => by
    simp only [fromArr] at h
    simp only [ACanExport] at hc
    obtain ⟨cs, hcs, h⟩ := Res.bind_eq_ok.mp h
    obtain ⟨w, _, h⟩ := Res.bind_eq_ok.mp h
    have := import_cols_stored lossy hl cols cs hcs hc.2
    unfold structNew at h
    split at h
    · cases e : w.checkLen len with
      | ok u =>
        rw [e] at h
        simp only [Res.ok_bind, expect] at h
        cases h
        exact ⟨by simp only [Stored]; exact this.1, by simp only [CanExport]; exact ⟨fun hn => hc.1 (this.2.2 hn), this.2.1⟩⟩
      | err => rw [e] at h; simp [expect] at h
      | panic => rw [e] at h; simp [expect] at h
    · simp [expect] at h
theorem import_cols_stored (lossy : List UInt8 → String) (hl : LossyOk lossy) : ∀ (cols : ACols) (cs : VCols), fromCols cols = .ok cs →
    ACanExportAll cols → StoredAll lossy cs ∧ CanExportAll cs ∧ (cs = .nil → cols = .nil)
  | .nil, cs, h, _ => by
    simp only [fromCols] at h
    cases h
    exact ⟨trivial, trivial, fun _ => rfl⟩
  | .cons name nullable a rest, cs, h, hc => by
    simp only [fromCols] at h
    simp only [ACanExportAll] at hc
    obtain ⟨v, hv, h⟩ := Res.bind_eq_ok.mp h
    obtain ⟨r, hr, h⟩ := Res.bind_eq_ok.mp h
    cases h
    have h₁ := import_stored lossy hl a nullable v hv hc.1
    have h₂ := import_cols_stored lossy hl rest r hr hc.2
    exact ⟨by simp only [StoredAll]; exact ⟨h₁.1, h₂.1⟩, by simp only [CanExportAll]; exact ⟨h₁.2, h₂.2.1⟩, by simp⟩
end

mutual
theorem plain_of_import : ∀ (a : AArr) (nullable : Bool), ImportOk a nullable → Plain (noZone a.type) ∧ (noZone a.type = .null → nullable = true)
  | .null _, nullable, h => ⟨by simp [AArr.type, noZone, Plain], fun _ => h⟩
  | .other _ _, _, h => by simp [ImportOk] at h
  | .bool _ _, _, _ => by simp [AArr.type, noZone, Plain]
  | .fixed t _ _, nullable, h => by
    simp only [ImportOk] at h
    simp only [AArr.type]
    cases t <;> simp_all [FixedOk, noZone, Plain]
  | .bytes t _ _, nullable, h => by
    simp only [ImportOk] at h
    simp only [AArr.type]
    cases t <;> simp_all [BytesOk, noZone, Plain]
  | .struct cols _ _, nullable, h => by
    simp only [ImportOk] at h
    exact ⟨by simp only [AArr.type, noZone, Plain]; exact plain_of_import_cols cols h.2, by simp [AArr.type, noZone]⟩
theorem plain_of_import_cols : ∀ (cols : ACols), ImportOkCols cols → PlainFields (noZoneFields cols.fields)
  | .nil, _ => by simp [ACols.fields, noZoneFields, PlainFields]
  | .cons name nullable a rest, h => by
    simp only [ImportOkCols] at h
    have := plain_of_import a nullable h.1
    simp only [ACols.fields, noZoneFields, PlainFields]
    exact ⟨this.1, this.2, plain_of_import_cols rest h.2⟩
end

mutual
theorem noZone_viewed : ∀ t : AType, noZone (viewed (noZone t)) = viewed (noZone t)
  | .null | .boolean | .prim _ | .utf8 | .largeUtf8 | .utf8View | .binary | .largeBinary | .binaryView | .date32 | .date64 => by
    simp [noZone, viewed]
  | .time32 _ | .time64 _ | .timestamp _ _ | .other _ => by simp [noZone, viewed]
  | .list _ e _ => by simp [noZone, viewed, noZone_idem e]
  | .largeList _ e _ => by simp [noZone, viewed, noZone_idem e]
  | .struct fs => by simp [noZone, viewed, noZone_viewed_fields fs]
theorem noZone_viewed_fields : ∀ fs : AFields, noZoneFields (viewedFields (noZoneFields fs)) = viewedFields (noZoneFields fs)
  | .nil => by simp [noZoneFields, viewedFields]
  | .cons _ t _ r => by simp [noZoneFields, viewedFields, noZone_viewed t, noZone_viewed_fields r]
theorem noZone_idem : ∀ t : AType, noZone (noZone t) = noZone t
  | .null | .boolean | .prim _ | .utf8 | .largeUtf8 | .utf8View | .binary | .largeBinary | .binaryView | .date32 | .date64 => by
    simp [noZone]
  | .time32 _ | .time64 _ | .timestamp _ _ | .other _ => by simp [noZone]
  | .list _ e _ => by simp [noZone, noZone_idem e]
  | .largeList _ e _ => by simp [noZone, noZone_idem e]
  | .struct fs => by simp [noZone, noZone_idem_fields fs]
theorem noZone_idem_fields : ∀ fs : AFields, noZoneFields (noZoneFields fs) = noZoneFields fs
  | .nil => by simp [noZoneFields]
  | .cons _ t _ r => by simp [noZoneFields, noZone_idem t, noZone_idem_fields r]
end

/-- **C49 there and back.** Importing an Arrow array and exporting the result gives an Arrow array with the same rows and the same type, up
to the view layout of strings and lost time zones. (`_partial`: struct arrays without columns and byte arrays with offsets are excluded, and zones are lost.) -/
theorem C49_round_trip_partial (c : Ctx) (hl : LossyOk c.lossy) (a : AArr) (nullable : Bool) (hw : AWF a) (hi : ImportOk a nullable)
    (hc : ACanExport a) :
    ∃ v a', fromArr a nullable = .ok v ∧ intoArr c v = .ok a' ∧ arows a' = arows a ∧ a'.type = viewed (noZone a.type) := by
  obtain ⟨v, hv⟩ := (C49_import_defined a nullable hw).1.mp hi
  obtain ⟨h₁, h₂, h₃⟩ := C49_import_rows a nullable v hw hv
  obtain ⟨h₄, h₅⟩ := import_stored c.lossy hl a nullable v hv hc
  obtain ⟨d, h₆, h₇, _⟩ := C48_arrow_round_trip c.lossy hl (noZone a.type) nullable (plain_of_import a nullable hi).1
  have hd : d = v.dtype := by rw [h₃] at h₆; injection h₆ with h₆; exact h₆.symm
  subst hd
  rcases C49_export_partial c v h₂ h₅ h₄ with ⟨a', t, e₁, e₂, e₃, e₄, _⟩ | ⟨h, _⟩
  · refine ⟨v, a', hv, e₁, by rw [e₃, h₁], ?_⟩
    rw [h₇] at e₂
    injection e₂ with e₂
    rw [e₄, ← e₂, noZone_viewed]
  · exact absurd h₇ (h _)

/-- Importing a byte array with offsets and exporting it never gives a byte array back: the result, if there is one, is a text array,
whatever Arrow's cast does with the bytes. -/
theorem C49_binary_becomes_text (c : Ctx) (t : AType) (ht : t = .binary ∨ t = .largeBinary) (vals : List (List UInt8)) (b : Option (List Bool))
    (nullable : Bool) (v : VArr) (a : AArr) (hi : fromArr (.bytes t vals b) nullable = .ok v) (ho : intoArr c v = .ok a) :
    v.dtype = .binary nullable ∧ a.type = .utf8View := by
  simp only [fromArr, fromBytes] at hi
  obtain ⟨w, hw, hi⟩ := Res.bind_eq_ok.mp hi
  have hv : v = .bytes false true vals w := by rcases ht with rfl | rfl <;> (cases hi; rfl)
  subst hv
  have hn : w.nullable = nullable := by
    unfold nulls at hw
    cases nullable with
    | true =>
      cases b with
      | none => cases hw; rfl
      | some m =>
        simp only [if_true] at hw
        split at hw
        · cases hw; rfl
        · cases hw
          unfold Validity.ofBooleanBuffer
          split
          · rfl
          · split <;> rfl
    | false =>
      cases b with
      | none => cases hw; rfl
      | some m => cases hw
  refine ⟨by simp [VArr.dtype, hn], ?_⟩
  simp only [intoArr] at ho
  obtain ⟨r, hr, ho⟩ := Res.bind_eq_ok.mp ho
  simp only [canonBytes, Bool.not_false, Bool.and_true, if_true] at hr
  obtain ⟨x, _, hr⟩ := Res.bind_eq_ok.mp hr
  obtain ⟨y, _, hr⟩ := Res.bind_eq_ok.mp hr
  cases hr
  cases ho
  rfl

/-! ## Record batches -/

/-- **C49 record batches in.** A record batch whose columns can be imported becomes a non-nullable struct array with the same columns in the
same order, as many rows, and each row the tuple of the columns' rows; its dtype is that of the schema, zones aside. -/
theorem C49_batch_import (b : Batch) (hw : AWFCols b.rows b.cols) (hi : ImportOkCols b.cols) :
    ∃ v, fromBatch b = .ok v ∧ VWF v ∧ vrows v = (List.range b.rows).map (fun i => .tuple (arowCols b.cols i)) ∧
      fromSchema (noZoneFields b.cols.fields) = .ok v.dtype := by
  rcases import_cols_spec b.cols b.rows hw with ⟨_, cs, h⟩ | ⟨h, _⟩
  · have hl := lens_of_wf b.cols b.rows hw
    rw [← h.lens] at hl
    refine ⟨.struct cs b.rows .nonNullable, ?_, ?_, ?_, ?_⟩
    · simp only [fromBatch, h.eq, Res.ok_bind, structNew, if_pos hl]; rfl
    · simp only [VWF]; exact ⟨by simp [FitsLen, mask], h.wf _ hw⟩
    · simp only [vrows, VArr.len]
      apply List.map_congr_left
      intro i hi
      simp only [List.mem_range] at hi
      simp [vrow, mask, hi, h.row i]
    · simp [fromSchema, h.dtype, VArr.dtype, Validity.nullable]
  · exact absurd hi h

theorem count_false_zero {m : List Bool} (h : m.count false = 0) : m = List.replicate m.length true := by
  refine List.eq_replicate_iff.mpr ⟨rfl, fun b hb => ?_⟩
  cases b with
  | true => rfl
  | false => exact absurd hb (List.count_eq_zero.mp h)

/-- **C49 record batches out.** A struct array converts to a record batch with the same rows when none of its rows is null; if some row is
null the conversion panics. -/
theorem C49_batch_export_partial (c : Ctx) (cols : VCols) (len : Nat) (v : Validity) (hw : VWF (.struct cols len v))
    (hc : CanExport (.struct cols len v)) (hs : Stored c.lossy (.struct cols len v)) (fs : AFields)
    (ht : inferFields c.lossy cols.names cols.dtypes = .ok fs) :
    if mask len v = List.replicate len true then
      ∃ b, intoBatch c (.struct cols len v) = .ok b ∧ b.rows = len ∧ AWFCols len b.cols ∧ b.cols.fields = noZoneFields fs ∧
        vrows (.struct cols len v) = (List.range len).map (fun i => .tuple (arowCols b.cols i))
    else intoBatch c (.struct cols len v) = .panic := by
  rcases export_spec c _ hw hc hs with ⟨a, t, h⟩ | ⟨h, _⟩
  · simp only [VWF] at hw
    obtain ⟨h₁, h₂, _⟩ := toNulls_spec hw.1
    obtain ⟨cs, hcs, ha⟩ := Res.bind_eq_ok.mp (show (intoCols c cols >>= fun cs => arrowStructNew cs (toNulls v len)) = .ok a by
      have := h.eq; simpa only [intoArr] using this)
    simp only [arrowStructNew] at ha
    split at ha
    · cases ha
      have hl : cs.lens.head?.getD 0 = len := h.len
      have hrow := h.row
      have hwf := h.wf
      have htype := h.type
      have heq := h.eq
      rw [hl] at hrow hwf htype heq
      simp only [AWF] at hwf
      have hi : intoBatch c (.struct cols len v) =
          if (((toNulls v len).map (fun m => m.count false)).getD 0) = 0 then .ok ⟨cs, len⟩ else .panic := by
        simp only [intoBatch, heq, Res.ok_bind]
      rw [hi]
      have hty : t = .struct fs := by
        have := h.ty; simp [VArr.dtype, inferType, ht] at this; exact this.symm
      subst hty
      by_cases hm : mask len v = List.replicate len true
      · rw [if_pos hm]
        have hz : (((toNulls v len).map (fun m => m.count false)).getD 0) = 0 := by
          cases e : toNulls v len with
          | none => rfl
          | some m =>
            rw [e] at h₁
            simp only [nullMask] at h₁
            simp only [Option.map_some, Option.getD_some]
            rw [h₁, hm]
            simp [List.count_replicate]
        rw [if_pos hz]
        refine ⟨_, rfl, rfl, hwf.2, ?_, ?_⟩
        · simpa [AArr.type, noZone] using htype
        · simp only [vrows, VArr.len]
          apply List.map_congr_left
          intro i hi
          simp only [List.mem_range] at hi
          rw [← hrow i]
          simp [arow, h₁, hm, hi]
      · rw [if_neg hm, if_neg]
        intro hz
        apply hm
        cases e : toNulls v len with
        | none => rw [e] at h₁; exact h₁.symm
        | some m =>
          rw [e] at h₁ h₂ hz
          simp only [nullMask] at h₁
          simp only [NullsFit] at h₂
          simp only [Option.map_some, Option.getD_some] at hz
          rw [← h₁, count_false_zero hz, h₂]
    · simp at ha
  · exact absurd (by simp [VArr.dtype, inferType, ht]) (h (.struct fs))

/-! ## Bits and offsets -/

theorem bitAt_drop (bytes : List UInt8) (k i : Nat) : bitAt (bytes.drop k) i = bitAt bytes (8 * k + i) := by
  unfold bitAt
  have h₁ : (8 * k + i) / 8 = k + i / 8 := by omega
  have h₂ : (8 * k + i) % 8 = i % 8 := by omega
  rw [List.getElem?_drop, h₁, h₂]

/-- **C49 bits.** A boolean buffer at any bit offset, wrapped in a `BoolArray` and read back, holds the same bits; also after slicing. -/
theorem C49_bool_bits (b : BitBuf) (i : Nat) : (boolBuffer (boolTryNew b)).get i = b.get i := by
  have e : bitAt (b.bytes.drop ((b.offset - b.offset % 8) / 8)) (b.offset % 8 + i) = bitAt b.bytes (b.offset + i) := by
    rw [bitAt_drop]
    have : 8 * ((b.offset - b.offset % 8) / 8) + (b.offset % 8 + i) = b.offset + i := by omega
    rw [this]
  simp only [boolBuffer, boolTryNew, BitBuf.get, e]

theorem C49_bool_slice_bits (b : BitBuf) (start len i : Nat) (h : start + len ≤ b.len) (hi : i < len) :
    (boolBuffer (boolTryNew ((boolBuffer (boolTryNew b)).slice start len))).get i = b.get (start + i) := by
  rw [C49_bool_bits, ← C49_bool_bits b (start + i)]
  have h₁ : start + i < b.len := by omega
  simp only [BitBuf.get, BitBuf.slice, boolBuffer, boolTryNew, hi, h₁, if_true, Nat.add_assoc]

/-- Imported offsets are marked strictly sorted, which is wrong as soon as the array holds an empty string. -/
theorem C49_offsets_strict_wrong :
    ∃ offsets : List Int, offsets.Pairwise (· ≤ ·) ∧ (offsetStats offsets).2 = true ∧ ¬ offsets.Pairwise (· < ·) :=
  ⟨[0, 2, 2], by decide, rfl, by decide⟩

example : (boolBuffer (boolTryNew ⟨[0xFF, 0b10100000, 0b1], 13, 5⟩)).get 2 = some true := by decide
example : boolTryNew ⟨[0xFF, 0b10100000, 0b1], 13, 5⟩ = ⟨[0b10100000, 0b1], 5, 5⟩ := by rfl

/-! Non-vacuity: a nullable struct column with a null row, holding a date column and a string column -/

def exCols : ACols := .cons "d".toList true (.fixed .date32 [19000, 0, 19002] (some [true, false, true]))
  (.cons "s".toList false (.bytes .largeUtf8 [[104, 105], [], [33]] none) .nil)
def exArr : AArr := .struct exCols 3 (some [true, true, false])

example : AWF exArr := by simp [exArr, exCols, AWF, AWFCols, NullsFit, AArr.len]
example : ImportOk exArr true := by simp [exArr, exCols, ImportOk, ImportOkCols, NullsOk, FixedOk, BytesOk]
example : ACanExport exArr := by simp [exArr, exCols, ACanExport, ACanExportAll]
example : arows exArr = [.tuple [.bits 19000, .bytes [104, 105]], .tuple [.null, .bytes []], .null] := rfl
example : fromArr exArr true = .ok (.struct
    (.cons "d".toList (.ext dateId (some [4]) (.prim .i32 [19000, 0, 19002] (.array [true, false, true])))
      (.cons "s".toList (.bytes true true [[104, 105], [], [33]] .nonNullable) .nil)) 3 (.array [true, true, false])) := rfl
example : AWFCols 3 exCols ∧ ImportOkCols exCols := by
  simp [exCols, AWFCols, AWF, NullsFit, AArr.len, ImportOkCols, ImportOk, NullsOk, FixedOk, BytesOk]
/-- A context for the export. -/
def exCtx : Ctx := ⟨lossy, fun _ _ vs v => .ok (vs, v), fun vs b => .ok (vs, b)⟩
example : (do let v ← fromArr (.bytes .binary [[0xff], [1]] none) false; intoArr exCtx v) = .ok (.bytes .utf8View [[0xff], [1]] none) := rfl
example : LossyOk exCtx.lossy := lossy_ok

end Vx.Arrow
