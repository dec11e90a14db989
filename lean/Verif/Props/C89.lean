import Verif.Model.ScalarConv
import Verif.Props.C47
import Verif.Lemmas.Scalar
/-!
# C89: scalars to and from DataFusion and Arrow
-/
namespace Vx.ScalarConv
open Vx.Temporal Vx.Arrow

/-- What a scalar says, whoever holds it. -/
inductive Mean where
  | null
  | bool (b : Bool)
  | num (p : PType) (v : BitVec p.bits)
  | text (bs : List UInt8)
  | bytes (bs : List UInt8)
  /-- a date, time or timestamp: its kind, unit and zone, and the number of units -/
  | temporal (m : Meta) (v : Int)

/-- … of a Vortex scalar. Numbers are read at the type of the scalar. -/
inductive Says (F : FloatOps) (lossy : List UInt8 → String) (ok8 : List UInt8 → Bool) : Scalar → Mean → Prop where
  | null (d : DType) : Says F lossy ok8 ⟨d, .null⟩ .null
  | bool (n b : Bool) : Says F lossy ok8 ⟨.bool n, .bool b⟩ (.bool b)
  | num (p : PType) (n : Bool) (x : PValue) (v : BitVec p.bits) (h : x.readAs F p = some ⟨p, v⟩) : Says F lossy ok8 ⟨.prim p n, .prim x⟩ (.num p v)
  | text (n : Bool) (bs : List UInt8) : Says F lossy ok8 ⟨.utf8 n, .str bs⟩ (.text bs)
  | textBuf (n : Bool) (bs : List UInt8) (h : ok8 bs = true) : Says F lossy ok8 ⟨.utf8 n, .buffer bs⟩ (.text bs)
  | bytes (n : Bool) (bs : List UInt8) : Says F lossy ok8 ⟨.binary n, .buffer bs⟩ (.bytes bs)
  | temporal (id : Str) (md : Option (List UInt8)) (n : Bool) (m : Meta) (x : PValue) (hm : decode lossy id md = .ok m) (hx : x.pt.isFloat = false) :
      Says F lossy ok8 ⟨.ext id md n, .prim x⟩ (.temporal m x.toInt)

/-- … of a DataFusion scalar: `Date32`, `Date64`, `Time32`, `Time64`, `Timestamp` are counts of days, milliseconds, … -/
def T32.meta : T32 → Meta
  | .date32 => .date .d
  | .time32s => .time .s
  | .time32ms => .time .ms
def T64.meta : T64 → Meta
  | .date64 => .date .ms
  | .time64us => .time .us
  | .time64ns => .time .ns
  | .timestamp .second tz => .timestamp .s tz
  | .timestamp .milli tz => .timestamp .ms tz
  | .timestamp .micro tz => .timestamp .us tz
  | .timestamp .nano tz => .timestamp .ns tz

def DV.says : DV → Option Mean
  | .null => some .null
  | .boolean v => some (v.elim .null .bool)
  | .prim p v => some (v.elim .null (.num p))
  | .str _ v => some (v.elim .null .text)
  | .bin _ v => some (v.elim .null .bytes)
  | .t32 k v => some (v.elim .null (fun b => .temporal k.meta b.toInt))
  | .t64 k v => some (v.elim .null (fun b => .temporal k.meta b.toInt))
  | .other _ => none

/-- The number is held with the width of its type: true of every scalar that was not read from metadata or from a message (C85). -/
def Proper (lossy : List UInt8 → String) (s : Scalar) : Prop :=
  match s.dtype, s.value with
  | .prim p _, .prim x => x.pt = p
  | .ext id md _, .prim x => ∀ m, decode lossy id md = .ok m → storage m = some x.pt
  | _, _ => True

variable {F : FloatOps} {lossy : List UInt8 → String} {ok8 : List UInt8 → Bool}

theorem decode_temporal {id : Str} {md : Option (List UInt8)} {m : Meta} (h : decode lossy id md = .ok m) : isTemporal id = true := by
  obtain ⟨_, _, _, h, _⟩ := C47_decode_sound lossy id md m h
  exact h

theorem readAs_self (q : PType) (b : BitVec q.bits) : (PValue.mk q b).readAs F q = some ⟨q, b⟩ := by
  cases hf : q.isFloat with
  | false => rw [PValue.readAs_int F ⟨q, b⟩ q hf hf]; exact PValue.intCast_self ⟨q, b⟩
  | true => cases q <;> first | (cases hf; done) | rfl

/-- **C89 (to DataFusion).** A scalar whose number has the width of its type becomes a DataFusion scalar that says the same. -/
theorem C89_to_df_partial (s : Scalar) (m : Mean) (h : Says F lossy ok8 s m) (hp : Proper lossy s)
    (hd : ∀ md v, m = .temporal md v → jiffUnitOk md = true) (hn : m = .null → ∃ d, toDF lossy ok8 s = .ok d) :
    ∃ d, toDF lossy ok8 s = .ok d ∧ d.says = some m := by
  cases h with
  | null d =>
    obtain ⟨r, hr⟩ := hn rfl
    refine ⟨r, hr, ?_⟩
    cases d with
    | null => cases hr; rfl
    | bool n => cases hr; rfl
    | prim p n => cases hr; rfl
    | utf8 n => cases hr; rfl
    | binary n => cases hr; rfl
    | struct _ _ _ => cases hr
    | list _ _ => cases hr
    | ext id md n =>
      simp only [toDF] at hr
      split at hr
      · cases hdec : decode lossy id md with
        | err => rw [hdec] at hr; cases hr
        | panic => rw [hdec] at hr; cases hr
        | ok m =>
        simp only [hdec, asPValue, Res.bind] at hr
        rcases m with u | u | ⟨u, tz⟩ <;> cases u <;> simp only [temporalDF, Option.bind_none, Res.ok.injEq, reduceCtorEq] at hr <;> rw [← hr] <;> rfl
      · cases hr
  | bool n b => exact ⟨_, rfl, rfl⟩
  | num p n x v h =>
    obtain ⟨q, b⟩ := x
    have : q = p := hp
    subst this
    rw [readAs_self] at h
    cases h
    exact ⟨_, rfl, rfl⟩
  | text n bs => exact ⟨_, rfl, rfl⟩
  | textBuf n bs h => exact ⟨.str .utf8 (some bs), by simp [toDF, asStr, h, Res.bind], rfl⟩
  | bytes n bs => exact ⟨_, rfl, rfl⟩
  | temporal id md n m x hm hx =>
    obtain ⟨q, b⟩ := x
    have hs : storage m = some q := hp m hm
    have hj := hd m _ rfl
    simp only [toDF, decode_temporal hm, if_true, hm, Res.bind, asPValue]
    rcases m with u | u | ⟨u, tz⟩ <;> cases u <;> simp only [storage, Option.some.injEq, reduceCtorEq] at hs <;>
      first
        | (subst hs; exact ⟨_, rfl, rfl⟩)
        | (cases hj)

/-- An empty zone is no zone (C47). -/
def Mean.norm : Mean → Mean
  | .temporal m v => .temporal m.norm v
  | m => m

/-- Zone names that fit the two-byte length field. -/
def DV.fits : DV → Prop
  | .t64 (.timestamp _ (some tz)) (some _) => (utf8 tz).length < 65536
  | .other _ => False
  | _ => True

theorem T32.meta_ok (k : T32) : temporalMeta k.aType = some k.meta := by cases k <;> rfl
theorem T64.meta_ok (k : T64) : temporalMeta k.aType = some k.meta := by
  cases k <;> first | rfl | (rename_i u tz; cases u <;> rfl)

theorem ofTemporal_says (hl : LossyOk lossy) {t : AType} {m : Meta} (ht : temporalMeta t = some m) (x : PValue) (hx : x.pt.isFloat = false)
    {s : Scalar} (h : ofTemporal t x = .ok s) : Says F lossy ok8 s (.temporal m.norm x.toInt) := by
  simp only [ofTemporal, ht, extOf] at h
  cases hb : m.encode with
  | err => rw [hb] at h; cases h
  | panic => rw [hb] at h; cases h
  | ok b =>
    rw [hb] at h
    cases h
    exact Says.temporal _ _ _ _ _ (C47_round_trip lossy hl m b hb) hx

/-- **C89 (from DataFusion).** Every DataFusion scalar of a converted variant becomes a scalar that says the same (an empty time zone is no
zone), and is refused (a panic) only if the variant is not handled or the zone's name is 65536 bytes or more. -/
theorem C89_from_df (hl : LossyOk lossy) (d : DV) :
    (d.fits → ∃ s m, fromDF d = .ok s ∧ d.says = some m ∧ Says F lossy ok8 s m.norm) ∧ (¬ d.fits → fromDF d = .panic) := by
  have key : ∀ (t : AType) (m : Meta) (x : PValue), temporalMeta t = some m → x.pt.isFloat = false → (∃ b, m.encode = .ok b) →
      ∃ s, ofTemporal t x = .ok s ∧ Says F lossy ok8 s (.temporal m.norm x.toInt) := by
    intro t m x ht hx ⟨b, hb⟩
    have : ofTemporal t x = .ok ⟨.ext m.id (some b) true, .prim x⟩ := by simp only [ofTemporal, ht, extOf, hb]; rfl
    exact ⟨_, this, ofTemporal_says hl ht x hx this⟩
  cases d with
  | null => exact ⟨fun _ => ⟨_, _, rfl, rfl, Says.null _⟩, fun h => absurd trivial h⟩
  | boolean v =>
    refine ⟨fun _ => ?_, fun h => absurd trivial h⟩
    cases v with
    | none => exact ⟨_, _, rfl, rfl, Says.null _⟩
    | some b => exact ⟨_, _, rfl, rfl, Says.bool _ _⟩
  | prim p v =>
    refine ⟨fun _ => ?_, fun h => absurd trivial h⟩
    cases v with
    | none => exact ⟨_, _, rfl, rfl, Says.null _⟩
    | some b => exact ⟨_, _, rfl, rfl, Says.num _ _ _ _ (readAs_self p b)⟩
  | str k v =>
    refine ⟨fun _ => ?_, fun h => absurd trivial h⟩
    cases v with
    | none => exact ⟨_, _, rfl, rfl, Says.null _⟩
    | some b => exact ⟨_, _, rfl, rfl, Says.text _ _⟩
  | bin k v =>
    refine ⟨fun _ => ?_, fun h => absurd trivial h⟩
    cases v with
    | none => exact ⟨_, _, rfl, rfl, Says.null _⟩
    | some b => exact ⟨_, _, rfl, rfl, Says.bytes _ _⟩
  | t32 k v =>
    refine ⟨fun _ => ?_, fun h => absurd trivial h⟩
    cases v with
    | none => exact ⟨_, _, rfl, rfl, Says.null _⟩
    | some b =>
      obtain ⟨s, hs, h⟩ := key k.aType k.meta ⟨.i32, b⟩ k.meta_ok rfl (by cases k <;> exact ⟨_, rfl⟩)
      exact ⟨s, _, hs, rfl, h⟩
  | t64 k v =>
    cases v with
    | none => exact ⟨fun _ => ⟨_, _, rfl, rfl, Says.null _⟩, fun h => absurd (by cases k <;> first | trivial | (rename_i u tz; cases tz <;> trivial)) h⟩
    | some b =>
      rcases C47_encode_defined k.meta with hb | ⟨hb, u, tz, hm, hlen⟩
      · constructor
        · intro _
          obtain ⟨s, hs, h⟩ := key k.aType k.meta ⟨.i64, b⟩ k.meta_ok rfl hb
          exact ⟨s, _, hs, rfl, h⟩
        · intro h
          exfalso
          apply h
          cases k with
          | date64 => trivial
          | time64us => trivial
          | time64ns => trivial
          | timestamp u tz =>
            cases tz with
            | none => trivial
            | some tz =>
              obtain ⟨b', hb⟩ := hb
              show (utf8 tz).length < 65536
              by_contra hc
              cases u <;> simp [T64.meta, Meta.encode, hc] at hb
      · constructor
        · intro h
          exfalso
          cases k with
          | date64 => cases hm
          | time64us => cases hm
          | time64ns => cases hm
          | timestamp u' tz' =>
            have : tz' = some tz := by cases u' <;> (cases hm; rfl)
            subst this
            exact absurd h (Nat.not_lt.mpr hlen)
        · intro _
          simp only [fromDF, ofTemporal, k.meta_ok, extOf, hb]
          rfl
  | other n => exact ⟨fun h => h.elim, fun _ => rfl⟩

/-- **C89 (nullability).** A null becomes a null of the nullable null type; a boolean, number or text that is there gets a type that admits no
null; bytes and temporal values get a nullable type. In each case the value belongs to the type. -/
theorem C89_from_df_nullability (d : DV) (s : Scalar) (h : fromDF d = .ok s) :
    (s.value = .null ↔ d.says = some .null) ∧ (s.value = .null → s.dtype = .null) ∧
    (s.dtype.isNullable = false ↔ (∃ b, d = .boolean (some b)) ∨ (∃ p b, d = .prim p (some b)) ∨ ∃ k b, d = .str k (some b)) := by
  have ht : ∀ {t : AType} {x : PValue}, ofTemporal t x = .ok s → s.value = .prim x ∧ s.dtype.isNullable = true := by
    intro t x ht
    simp only [ofTemporal] at ht
    split at ht
    · cases ht
    · rename_i m _
      cases he : m.encode with
      | ok b => simp only [extOf, he, Res.bind, Res.ok_bind, Res.ok.injEq] at ht; subst ht; exact ⟨rfl, rfl⟩
      | err => simp only [extOf, he] at ht; cases ht
      | panic => simp only [extOf, he] at ht; cases ht
  cases d with
  | null => cases h; simp [nullScalar, DV.says, DType.isNullable]
  | boolean v => cases v <;> cases h <;> simp [nullScalar, DV.says, DType.isNullable]
  | prim p v => cases v <;> cases h <;> simp [nullScalar, DV.says, DType.isNullable]
  | str k v => cases v <;> cases h <;> simp [nullScalar, DV.says, DType.isNullable]
  | bin k v => cases v <;> cases h <;> simp [nullScalar, DV.says, DType.isNullable]
  | other n => cases h
  | t32 k v =>
    cases v with
    | none => cases h; simp [nullScalar, DV.says, DType.isNullable]
    | some b => obtain ⟨h1, h2⟩ := ht h; simp [h1, h2, DV.says]
  | t64 k v =>
    cases v with
    | none => cases h; simp [nullScalar, DV.says, DType.isNullable]
    | some b => obtain ⟨h1, h2⟩ := ht h; simp [h1, h2, DV.says]

/-- **C89 (there and back).** A DataFusion scalar taken into Vortex and given back says the same thing (an empty zone is no zone). -/
theorem C89_round_trip (hl : LossyOk lossy) (d : DV) (hf : d.fits) :
    ∃ s d' m, fromDF d = .ok s ∧ toDF lossy ok8 s = .ok d' ∧ d.says = some m ∧ d'.says = some m.norm := by
  obtain ⟨s, m, hs, hm, hsay⟩ := (C89_from_df (F := ⟨fun _ _ _ => 0, fun _ _ => 0, fun _ _ => none⟩) (ok8 := ok8) hl d).1 hf
  have hp : Proper lossy s := by
    cases d with
    | null => cases hs; trivial
    | boolean v => cases v <;> (cases hs; trivial)
    | prim p v => cases v <;> (cases hs; first | trivial | exact rfl)
    | str k v => cases v <;> (cases hs; trivial)
    | bin k v => cases v <;> (cases hs; trivial)
    | other n => cases hs
    | t32 k v =>
      cases v with
      | none => cases hs; trivial
      | some b =>
        simp only [fromDF, ofTemporal, k.meta_ok, extOf] at hs
        cases hb : k.meta.encode with
        | err => rw [hb] at hs; cases hs
        | panic => rw [hb] at hs; cases hs
        | ok b =>
          rw [hb] at hs; cases hs
          intro m hm
          rw [C47_round_trip lossy hl _ _ hb] at hm
          cases hm
          cases k <;> rfl
    | t64 k v =>
      cases v with
      | none => cases hs; trivial
      | some b =>
        simp only [fromDF, ofTemporal, k.meta_ok, extOf] at hs
        cases hb : k.meta.encode with
        | err => rw [hb] at hs; cases hs
        | panic => rw [hb] at hs; cases hs
        | ok b =>
          rw [hb] at hs; cases hs
          intro m hm
          rw [C47_round_trip lossy hl _ _ hb] at hm
          cases hm
          cases k <;> first | rfl | skip
          rename_i u tz
          cases u <;> (cases tz <;> first | rfl | (simp only [T64.meta, Meta.norm]; split <;> rfl))
  obtain ⟨d', hd, h'⟩ := C89_to_df_partial s m.norm hsay hp
    (by
      intro md v hmd
      cases d with
      | null => cases hm; cases hmd
      | boolean v => cases v <;> (cases hm; cases hmd)
      | prim p v => cases v <;> (cases hm; cases hmd)
      | str k v => cases v <;> (cases hm; cases hmd)
      | bin k v => cases v <;> (cases hm; cases hmd)
      | other n => cases hm
      | t32 k v => cases v with
        | none => cases hm; cases hmd
        | some b => cases hm; cases hmd; cases k <;> rfl
      | t64 k v => cases v with
        | none => cases hm; cases hmd
        | some b =>
          cases hm; cases hmd
          cases k <;> first | rfl | skip
          rename_i u tz
          cases u <;> (cases tz <;> first | rfl | (simp only [T64.meta, Meta.norm]; split <;> rfl)))
    (by
      intro hn
      have : s = nullScalar := by
        cases d with
        | null => cases hs; rfl
        | boolean v => cases v <;> first | (cases hs; rfl) | (cases hm; cases hn)
        | prim p v => cases v <;> first | (cases hs; rfl) | (cases hm; cases hn)
        | str k v => cases v <;> first | (cases hs; rfl) | (cases hm; cases hn)
        | bin k v => cases v <;> first | (cases hs; rfl) | (cases hm; cases hn)
        | other n => cases hm
        | t32 k v => cases v <;> first | (cases hs; rfl) | (cases hm; cases hn)
        | t64 k v => cases v <;> first | (cases hs; rfl) | (cases hm; cases hn)
      rw [this]
      exact ⟨_, rfl⟩)
  exact ⟨s, d', m, hs, hd, hm, h'⟩

/-- What a one-row Arrow array says. -/
def Datum.says (d : Datum) : Option Mean :=
  if d.null then some .null else
  match d.ty with
  | .boolean => some (.bool (decide (d.bits = 1)))
  | .prim p => some (.num p (BitVec.ofNat p.bits d.bits))
  | .utf8View => some (.text d.bytes)
  | .binaryView => some (.bytes d.bytes)
  | .date32 => some (.temporal (.date .d) (BitVec.ofNat 32 d.bits).toInt)
  | .date64 => some (.temporal (.date .ms) (BitVec.ofNat 64 d.bits).toInt)
  | .time32 .second => some (.temporal (.time .s) (BitVec.ofNat 32 d.bits).toInt)
  | .time32 .milli => some (.temporal (.time .ms) (BitVec.ofNat 32 d.bits).toInt)
  | .time64 .micro => some (.temporal (.time .us) (BitVec.ofNat 64 d.bits).toInt)
  | .time64 .nano => some (.temporal (.time .ns) (BitVec.ofNat 64 d.bits).toInt)
  | .timestamp u tz => some (.temporal (T64.timestamp u tz).meta (BitVec.ofNat 64 d.bits).toInt)
  | _ => Option.none

def dropZone : Meta → Meta
  | .timestamp u _ => .timestamp u none
  | m => m
def Mean.dropZone : Mean → Mean
  | .temporal m v => .temporal (ScalarConv.dropZone m) v
  | m => m

theorem ofNat_toNat64 (b : BitVec 64) : BitVec.ofNat 64 b.toNat = b := by simp
theorem ofNat_toNat32 (b : BitVec 32) : BitVec.ofNat 32 b.toNat = b := by simp

/-- **C89 (to Arrow).** A scalar whose number has the width of its type becomes a one-row Arrow array that says the same, except that a
timestamp loses its time zone. -/
theorem C89_to_arrow_partial (s : Scalar) (m : Mean) (h : Says F lossy ok8 s m) (hp : Proper lossy s)
    (hd : ∀ md v, m = .temporal md v → jiffUnitOk md = true) (hn : m = .null → ∃ d, toDatum lossy ok8 s = .ok d) :
    ∃ d, toDatum lossy ok8 s = .ok d ∧ d.says = some m.dropZone := by
  cases h with
  | null d =>
    obtain ⟨r, hr⟩ := hn rfl
    refine ⟨r, hr, ?_⟩
    cases d with
    | null => cases hr; rfl
    | bool n => cases hr; rfl
    | prim p n => cases hr; rfl
    | utf8 n => cases hr; rfl
    | binary n => cases hr; rfl
    | struct _ _ _ => cases hr
    | list _ _ => cases hr
    | ext id md n =>
      simp only [toDatum] at hr
      split at hr
      · cases hdec : decode lossy id md with
        | err => rw [hdec] at hr; cases hr
        | panic => rw [hdec] at hr; cases hr
        | ok m =>
        simp only [hdec, asPValue, Res.bind] at hr
        rcases m with u | u | ⟨u, tz⟩ <;> cases u <;> simp only [temporalDatum, Option.bind_none, Res.ok.injEq, reduceCtorEq] at hr <;> rw [← hr] <;> rfl
      · cases hr
  | bool n b => exact ⟨_, rfl, by cases b <;> rfl⟩
  | num p n x v h =>
    obtain ⟨q, b⟩ := x
    have : q = p := hp
    subst this
    rw [readAs_self] at h
    cases h
    refine ⟨_, rfl, ?_⟩
    simp [Datum.says, Datum.num, Mean.dropZone]
  | text n bs => exact ⟨_, rfl, rfl⟩
  | textBuf n bs h => exact ⟨.ofBytes .utf8View (some bs), by simp [toDatum, asStr, h, Res.bind], rfl⟩
  | bytes n bs => exact ⟨_, rfl, rfl⟩
  | temporal id md n m x hm hx =>
    obtain ⟨q, b⟩ := x
    have hs : storage m = some q := hp m hm
    have hj := hd m _ rfl
    simp only [toDatum, decode_temporal hm, if_true, hm, Res.bind, asPValue]
    rcases m with u | u | ⟨u, tz⟩ <;> cases u <;> simp only [storage, Option.some.injEq, reduceCtorEq] at hs <;>
      first
        | (subst hs
           exact ⟨_, rfl, (congrArg (fun z : BitVec 64 => some (Mean.temporal _ z.toInt)) (ofNat_toNat64 b)).trans rfl⟩)
        | (subst hs
           exact ⟨_, rfl, (congrArg (fun z : BitVec 32 => some (Mean.temporal _ z.toInt)) (ofNat_toNat32 b)).trans rfl⟩)
        | (cases hj; done)

/-- Arrow's types for text and bytes that differ only in layout. -/
def plain : AType → AType
  | .utf8View => .utf8
  | .binaryView => .binary
  | t => t

/-- **C89 (type).** The DataFusion scalar has the type an exported column of the same dtype has, up to the text and binary layouts
(`Utf8`/`Utf8View`) — also for a typed null. -/
theorem C89_to_df_type (s : Scalar) (d : DV) (hp : Proper lossy s) (h : toDF lossy ok8 s = .ok d) :
    ∃ t, inferType lossy s.dtype = .ok t ∧ d.dataType = plain t := by
  obtain ⟨dt, v⟩ := s
  cases dt with
  | null => cases h; exact ⟨_, by rw [inferType], rfl⟩
  | bool n => cases v <;> cases h <;> exact ⟨_, by rw [inferType], rfl⟩
  | prim p n =>
    cases v with
    | null => cases h; exact ⟨_, by rw [inferType], rfl⟩
    | prim x =>
      obtain ⟨q, b⟩ := x
      have : q = p := hp
      subst this
      cases h; exact ⟨_, by rw [inferType], rfl⟩
    | _ => cases h
  | utf8 n =>
    cases v with
    | null => cases h; exact ⟨_, by rw [inferType], rfl⟩
    | str b => cases h; exact ⟨_, by rw [inferType], rfl⟩
    | buffer b =>
      simp only [toDF, asStr] at h
      split at h
      · cases h; exact ⟨_, by rw [inferType], rfl⟩
      · cases h
    | _ => cases h
  | binary n =>
    cases v with
    | null => cases h; exact ⟨_, by rw [inferType], rfl⟩
    | buffer b => cases h; exact ⟨_, by rw [inferType], rfl⟩
    | _ => cases h
  | struct _ _ _ => cases h
  | list _ _ => cases h
  | ext id md n =>
    simp only [toDF] at h
    split at h
    · rename_i hid
      cases hdec : decode lossy id md with
      | err => rw [hdec] at h; cases h
      | panic => rw [hdec] at h; cases h
      | ok m =>
      simp only [hdec, Res.bind] at h
      simp only [inferType, hid, if_true, arrowTemporal, hdec]
      cases hv : asPValue v with
      | err => rw [hv] at h; cases h
      | panic => rw [hv] at h; cases h
      | ok pv =>
      simp only [hv] at h
      rcases m with u | u | ⟨u, tz⟩ <;> cases u <;> simp only [temporalDF, Res.ok.injEq, reduceCtorEq] at h <;> rw [← h] <;> exact ⟨_, rfl, rfl⟩
    · cases h

/-- **C89 (type, Arrow).** The one-row Arrow array has the type of an exported column of the same dtype, except that a timestamp has no zone. -/
theorem C89_to_arrow_type_partial (s : Scalar) (d : Datum) (hp : Proper lossy s) (h : toDatum lossy ok8 s = .ok d) :
    ∃ t, inferType lossy s.dtype = .ok t ∧ (d.ty = t ∨ ∃ u tz, t = .timestamp u (some tz) ∧ d.ty = .timestamp u none) := by
  have hnum : ∀ (t : AType) (w : Nat) (x : Option (BitVec w)), (Datum.num t x).ty = t := by intro t w x; cases x <;> rfl
  have hby : ∀ (t : AType) (x : Option (List UInt8)), (Datum.ofBytes t x).ty = t := by intro t x; cases x <;> rfl
  obtain ⟨dt, v⟩ := s
  cases dt with
  | null => cases h; exact ⟨_, by rw [inferType]; rfl, .inl rfl⟩
  | bool n => cases v <;> cases h <;> exact ⟨_, by rw [inferType]; rfl, .inl rfl⟩
  | prim p n =>
    cases v with
    | null => cases h; exact ⟨_, by rw [inferType]; rfl, .inl rfl⟩
    | prim x =>
      obtain ⟨q, b⟩ := x
      have : q = p := hp
      subst this
      cases h; exact ⟨_, by rw [inferType]; rfl, .inl rfl⟩
    | _ => cases h
  | utf8 n =>
    cases v with
    | null => cases h; exact ⟨_, by rw [inferType]; rfl, .inl rfl⟩
    | str b => cases h; exact ⟨_, by rw [inferType]; rfl, .inl rfl⟩
    | buffer b =>
      simp only [toDatum, asStr] at h
      split at h
      · cases h; exact ⟨_, by rw [inferType]; rfl, .inl rfl⟩
      · cases h
    | _ => cases h
  | binary n =>
    cases v with
    | null => cases h; exact ⟨_, by rw [inferType]; rfl, .inl rfl⟩
    | buffer b => cases h; exact ⟨_, by rw [inferType]; rfl, .inl rfl⟩
    | _ => cases h
  | struct _ _ _ => cases h
  | list _ _ => cases h
  | ext id md n =>
    simp only [toDatum] at h
    split at h
    · rename_i hid
      cases hdec : decode lossy id md with
      | err => rw [hdec] at h; cases h
      | panic => rw [hdec] at h; cases h
      | ok m =>
      simp only [hdec, Res.bind] at h
      simp only [inferType, hid, if_true, arrowTemporal, hdec]
      cases hv : asPValue v with
      | err => rw [hv] at h; cases h
      | panic => rw [hv] at h; cases h
      | ok pv =>
      simp only [hv] at h
      rcases m with u | u | ⟨u, tz⟩ <;> cases u <;> simp only [temporalDatum, Res.ok.injEq, reduceCtorEq] at h <;> rw [← h, hnum] <;>
        first
          | exact ⟨_, rfl, .inl rfl⟩
          | (cases tz <;> first | exact ⟨_, rfl, .inl rfl⟩ | exact ⟨_, rfl, .inr ⟨_, _, rfl, rfl⟩⟩)
    · cases h

/-- **C89 (refusals).** Struct and list scalars, and scalars of an extension type that is not temporal, panic in both directions out of
Vortex whatever they hold, null included. -/
theorem C89_refused (d : DType) (v : SV)
    (h : (∃ a b n, d = .struct a b n) ∨ (∃ e n, d = .list e n) ∨ (∃ id md n, d = .ext id md n ∧ isTemporal id = false)) :
    toDF lossy ok8 ⟨d, v⟩ = .panic ∧ toDatum lossy ok8 ⟨d, v⟩ = .panic := by
  rcases h with ⟨a, b, n, rfl⟩ | ⟨e, n, rfl⟩ | ⟨id, md, n, rfl, hid⟩
  · exact ⟨rfl, rfl⟩
  · exact ⟨rfl, rfl⟩
  · simp [toDF, toDatum, hid]

/-- What is wrong in the code (each is why a statement above is `_partial`). A typed null taken from DataFusion loses its type. -/
theorem C89_typed_null_loses_type (p : PType) : fromDF (.prim p none) = .ok ⟨.null, .null⟩ ∧ toDF lossy ok8 ⟨.null, .null⟩ = .ok .null :=
  ⟨rfl, rfl⟩

/-- A number that metadata or a message narrowed (C85) changes its type: a `u16` scalar becomes `UInt8`. -/
theorem C89_narrowed_changes_type :
    toDF lossy ok8 ⟨.prim .u16 false, .prim ⟨.u8, 5⟩⟩ = .ok (.prim .u8 (some 5)) ∧ (DV.prim .u8 (some (5 : BitVec 8))).dataType ≠ .prim .u16 :=
  ⟨rfl, by intro h; cases h⟩

/-- A temporal value so narrowed becomes null: the timestamp 5 s after the epoch, held as `I8(5)`. -/
theorem C89_narrowed_timestamp_is_null (md : List UInt8) (n : Bool) (hm : decode lossy timestampId (some md) = .ok (.timestamp .s none)) :
    Says F lossy ok8 ⟨.ext timestampId (some md) n, .prim ⟨.i8, 5⟩⟩ (.temporal (.timestamp .s none) 5) ∧
    toDF lossy ok8 ⟨.ext timestampId (some md) n, .prim ⟨.i8, 5⟩⟩ = .ok (.t64 (.timestamp .second none) none) := by
  refine ⟨Says.temporal _ _ _ _ ⟨.i8, 5⟩ hm rfl, ?_⟩
  simp only [toDF, decode_temporal hm, if_true, hm, Res.bind, asPValue, temporalDF]
  rfl

/-- A timestamp counted in days, which the temporal array accepts (C47), panics on its way to DataFusion. -/
theorem C89_timestamp_days_panics (md : List UInt8) (n : Bool) (v : BitVec 64) (tz : Option String)
    (hm : decode lossy timestampId (some md) = .ok (.timestamp .d tz)) :
    toDF lossy ok8 ⟨.ext timestampId (some md) n, .prim ⟨.i64, v⟩⟩ = .panic := by
  simp only [toDF, decode_temporal hm, if_true, hm, Res.bind, asPValue, temporalDF]

/-- A timestamp with a zone becomes an Arrow array without one, so its type is not that of the exported column. -/
theorem C89_arrow_drops_zone (md : List UInt8) (n : Bool) (v : BitVec 64) (tz : String)
    (hm : decode lossy timestampId (some md) = .ok (.timestamp .s (some tz))) :
    (∃ d, toDatum lossy ok8 ⟨.ext timestampId (some md) n, .prim ⟨.i64, v⟩⟩ = .ok d ∧ d.ty = .timestamp .second none) ∧
    inferType lossy (.ext timestampId (some md) n) = .ok (.timestamp .second (some tz)) := by
  constructor
  · simp only [toDatum, decode_temporal hm, if_true, hm, Res.bind, asPValue, temporalDatum]
    exact ⟨_, rfl, rfl⟩
  · simp only [inferType, decode_temporal hm, if_true, arrowTemporal, hm]

/-! ### Non-vacuity -/

/-- A `Timestamp(s, "UTC")` of 7 from DataFusion. -/
example : DV.fits (.t64 (.timestamp .second (some "UTC")) (some 7)) := by
  have : (utf8 "UTC").length = 3 := by decide +kernel
  simp only [DV.fits, this]
  omega
example : ¬ DV.fits (.other 3) := fun h => h
example : Says F lossy ok8 ⟨.prim .i32 true, .prim ⟨.i32, 7⟩⟩ (.num .i32 7) := Says.num _ _ _ _ (readAs_self .i32 7)
example : Proper lossy ⟨.prim .i32 true, .prim ⟨.i32, 7⟩⟩ := rfl
/-- A narrowed scalar says its number at the type of the scalar. -/
example : Says F lossy ok8 ⟨.prim .u16 true, .prim ⟨.u8, 5⟩⟩ (.num .u16 5) :=
  Says.num _ _ _ _ (by rw [PValue.readAs_int F _ _ rfl rfl]; decide +kernel)
example : ∃ md, decode lossy timestampId (some md) = .ok (.timestamp .s none) := by
  refine ⟨[TimeUnit.s.tag, 0, 0], ?_⟩
  rfl
example (hl : LossyOk lossy) : ∃ md, decode lossy timestampId (some md) = .ok (.timestamp .s (some "UTC")) := by
  have h3 : (utf8 "UTC").length < 65536 := by
    have : (utf8 "UTC").length = 3 := by decide +kernel
    omega
  exact ⟨_, C47_round_trip lossy hl (.timestamp .s (some "UTC")) _ (by simp only [Meta.encode]; rw [if_pos h3])⟩
example : LossyOk Temporal.lossy := lossy_ok

end Vx.ScalarConv
