import Verif.Model.Flex
import Verif.Lemmas.Scalar
import Verif.Spec.Scalar
/-! # C85: scalar values stored in flatbuffers and in encoding metadata -/

namespace Vx
open Spec Flex

/-- What is assumed of the conversions between `f32` and `f64`: widening then narrowing gives the same number back, and a 64-bit number
that equals its narrowing has the very same bits (signs of zeros are kept). -/
structure ExactFloats (F : FloatOps) : Prop where
  narrow_widen : ∀ x : BitVec 32, f32.isNaN x = false → F.f2f .f64 .f32 (F.f2f .f32 .f64 x) = x
  exact : ∀ b : BitVec 64, f64.eq (F.f2f .f32 .f64 (F.f2f .f64 .f32 b)) b = true → F.f2f .f32 .f64 (F.f2f .f64 .f32 b) = b

/-- The width given to the elements of a vector holds each of them. -/
def WideEnough (F : FloatOps) (W : List Val → Width) : Prop := ∀ vs, ∀ v ∈ vs, (v.width F).bits ≤ (W vs).bits

mutual
/-- Values that contain no binary data, no `f16`, no `f32` NaN and no extension values. -/
def Storable (d : DType) (v : SV) : Prop :=
  match v with
  | .null => True
  | .bool _ => True
  | .prim p => (∃ q n, d = .prim q n) ∧ p.pt ≠ .f16 ∧ (∀ x : BitVec 32, p = ⟨.f32, x⟩ → f32.isNaN x = false)
  | .buffer _ => False
  | .str _ => True
  | .list vs => match d with
    | .struct _ ds _ => AllStorable ds vs
    | .list e _ => EachStorable e vs
    | _ => False
def AllStorable (ds : List DType) (vs : List SV) : Prop :=
  match vs with
  | [] => True
  | v :: vs => match ds with
    | [] => False
    | d :: ds => Storable d v ∧ AllStorable ds vs
def EachStorable (d : DType) (vs : List SV) : Prop :=
  match vs with
  | [] => True
  | v :: vs => Storable d v ∧ EachStorable d vs
end

theorem uWidth_spec {v : Nat} {w : Width} (hv : v < 2 ^ 64) (h : (uWidth v).bits ≤ w.bits) : v < 2 ^ w.bits := by
  unfold uWidth at h
  split at h
  · cases w <;> simp_all [Width.bits] <;> omega
  split at h
  · cases w <;> simp_all [Width.bits] <;> omega
  split at h
  · cases w <;> simp_all [Width.bits] <;> omega
  · cases w <;> simp_all [Width.bits]

theorem iWidth_spec {v : Int} {w : Width} (hv : -2 ^ 63 ≤ v ∧ v < 2 ^ 63) (h : (iWidth v).bits ≤ w.bits) :
    -2 ^ (w.bits - 1) ≤ v ∧ v < 2 ^ (w.bits - 1) := by
  unfold iWidth at h
  split at h
  · cases w <;> simp_all [Width.bits] <;> omega
  split at h
  · cases w <;> simp_all [Width.bits] <;> omega
  split at h
  · cases w <;> simp_all [Width.bits] <;> omega
  · cases w <;> simp_all [Width.bits]

theorem readUInt_toInt {v : Nat} {w : Width} (h : v < 2 ^ w.bits) :
    (readUInt w v).pt.isFloat = false ∧ (readUInt w v).toInt = (v : Int) := by
  cases w <;> simp [readUInt, PValue.toInt, PType.isFloat, PType.isSigned, Width.bits, PType.bits] at h ⊢ <;> omega

theorem readInt_toInt {v : Int} {w : Width} (h : -2 ^ (w.bits - 1) ≤ v ∧ v < 2 ^ (w.bits - 1)) :
    (readInt w v).pt.isFloat = false ∧ (readInt w v).toInt = v := by
  have key : ∀ k : Nat, 0 < k → -2 ^ (k - 1) ≤ v ∧ v < 2 ^ (k - 1) → (BitVec.ofInt k v).toInt = v := by
    intro k hk hv
    rw [BitVec.toInt_ofInt]
    have : (2 : Nat) ^ k = 2 * 2 ^ (k - 1) := by rw [← Nat.pow_succ']; congr 1; omega
    have h2 : ((2 ^ (k - 1) : Nat) : Int) = 2 ^ (k - 1) := by norm_cast
    apply Int.bmod_eq_of_le <;> rw [this] <;> omega
  cases w with
  | w8 => exact ⟨rfl, key 8 (by omega) h⟩
  | w16 => exact ⟨rfl, key 16 (by omega) h⟩
  | w32 => exact ⟨rfl, key 32 (by omega) h⟩
  | w64 => exact ⟨rfl, key 64 (by omega) h⟩

theorem readUInt_readAs (F : FloatOps) {v : Nat} {w : Width} (h : v < 2 ^ w.bits) {p : PValue} (hp : p.pt.isFloat = false)
    (hv : p.toInt = (v : Int)) : (readUInt w v).readAs F p.pt = some p := by
  obtain ⟨h1, h2⟩ := readUInt_toInt h
  rw [PValue.readAs_int F _ _ h1 hp, h2, ← hv, PValue.intCast_self]

theorem readInt_readAs (F : FloatOps) {v : Int} {w : Width} (h : -2 ^ (w.bits - 1) ≤ v ∧ v < 2 ^ (w.bits - 1)) {p : PValue}
    (hp : p.pt.isFloat = false) (hv : p.toInt = v) : (readInt w v).readAs F p.pt = some p := by
  obtain ⟨h1, h2⟩ := readInt_toInt h
  rw [PValue.readAs_int F _ _ h1 hp, h2, ← hv, PValue.intCast_self]

theorem toInt_bounds64 {k : Nat} (hk : k ≤ 64) (hk0 : 0 < k) (b : BitVec k) : -2 ^ 63 ≤ b.toInt ∧ b.toInt < 2 ^ 63 := by
  have h1 := b.le_toInt
  have h2 := b.toInt_lt
  have h3 : (2 : Int) ^ (k - 1) ≤ 2 ^ 63 := by
    have : (2 : Nat) ^ (k - 1) ≤ 2 ^ 63 := Nat.pow_le_pow_right (by omega) (by omega)
    exact_mod_cast this
  omega

theorem toNat_lt64 {k : Nat} (hk : k ≤ 64) (b : BitVec k) : b.toNat < 2 ^ 64 := by
  have h1 := b.isLt
  have : (2 : Nat) ^ k ≤ 2 ^ 64 := Nat.pow_le_pow_right (by omega) hk
  omega

/-- One number: stored with any sufficient width and read at its type. -/
theorem C85_number {F : FloatOps} (hF : ExactFloats F) (p : PValue) (w : Width) (hw : ((ofPValue F p).width F).bits ≤ w.bits)
    (h16 : p.pt ≠ .f16) (hn : ∀ x : BitVec 32, p = ⟨.f32, x⟩ → f32.isNaN x = false) (W : List Val → Width) :
    ∃ q, toSV F W w (ofPValue F p) = .prim q ∧ q.readAs F p.pt = some p := by
  obtain ⟨pt, b⟩ := p
  cases pt with
  | u8 => exact ⟨_, rfl, readUInt_readAs F (uWidth_spec (toNat_lt64 (k := 8) (by omega) b) hw) rfl rfl⟩
  | u16 => exact ⟨_, rfl, readUInt_readAs F (uWidth_spec (toNat_lt64 (k := 16) (by omega) b) hw) rfl rfl⟩
  | u32 => exact ⟨_, rfl, readUInt_readAs F (uWidth_spec (toNat_lt64 (k := 32) (by omega) b) hw) rfl rfl⟩
  | u64 => exact ⟨_, rfl, readUInt_readAs F (uWidth_spec (toNat_lt64 (k := 64) (by omega) b) hw) rfl rfl⟩
  | i8 => exact ⟨_, rfl, readInt_readAs F (iWidth_spec (toInt_bounds64 (k := 8) (by omega) (by omega) b) hw) rfl rfl⟩
  | i16 => exact ⟨_, rfl, readInt_readAs F (iWidth_spec (toInt_bounds64 (k := 16) (by omega) (by omega) b) hw) rfl rfl⟩
  | i32 => exact ⟨_, rfl, readInt_readAs F (iWidth_spec (toInt_bounds64 (k := 32) (by omega) (by omega) b) hw) rfl rfl⟩
  | i64 => exact ⟨_, rfl, readInt_readAs F (iWidth_spec (toInt_bounds64 (k := 64) (by omega) (by omega) b) hw) rfl rfl⟩
  | f16 => exact absurd rfl h16
  | f32 =>
    have hb := hF.narrow_widen b (hn b rfl)
    refine ⟨_, rfl, ?_⟩
    cases w <;> simp [readFloat, PValue.readAs, PType.isFloat, PValue.numCast, hb]
  | f64 =>
    refine ⟨_, rfl, ?_⟩
    have hc : fWidth F b = .w64 ∨ F.f2f .f32 .f64 (F.f2f .f64 .f32 b) = b := by
      unfold fWidth
      split
      · exact .inr (hF.exact b ‹_›)
      · exact .inl rfl
    rcases hc with hc | hc
    · have : w = .w64 := by
        have h' : (fWidth F b).bits ≤ w.bits := hw
        rw [hc] at h'
        cases w <;> simp [Width.bits] at h' ⊢
      subst this
      simp [readFloat, PValue.readAs, PType.isFloat, PValue.numCast]
    · cases w <;> simp [readFloat, PValue.readAs, PType.isFloat, PValue.numCast, hc]

mutual
/-- **C85, whole values**: a value of a type, stored with any sufficient width and read at its type, is the value stored. -/
theorem C85_field_partial {F : FloatOps} (hF : ExactFloats F) {W : List Val → Width} (hW : WideEnough F W) :
    ∀ (v : SV) (d : DType) (w : Width), ((ofSV F v).width F).bits ≤ w.bits → HasType d v → Storable d v →
      readAt F d (storeField F W w v) = .ok v
  | .null, d, w, _, _, _ => rfl
  | .bool b, d, w, _, h, _ => by
    cases d <;> simp [HasType] at h <;> rfl
  | .prim p, d, w, hw, h, hs => by
    simp only [Storable] at hs
    obtain ⟨⟨q, n, rfl⟩, h16, hn⟩ := hs
    have hpt : p.pt = q := by simpa [HasType] using h
    subst hpt
    obtain ⟨x, h1, h2⟩ := C85_number hF p w (by simpa [ofSV] using hw) h16 hn W
    simp only [storeField, ofSV, h1, readAt, h2]; rfl
  | .buffer bs, d, w, _, _, hs => by simp [Storable] at hs
  | .str bs, d, w, _, h, _ => by
    cases d <;> simp [HasType] at h <;> rfl
  | .list vs, d, w, _, h, hs => by
    have hin : ∀ v ∈ ofSVs F vs, (v.width F).bits ≤ (W (ofSVs F vs)).bits := fun v hv => hW _ v hv
    cases d with
    | struct ns ds n =>
      simp only [HasType] at h
      simp only [Storable] at hs
      simp only [storeField, ofSV, toSV, readAt, fields_stored hF hW vs ds _ hin h hs]; rfl
    | list e n =>
      simp only [HasType] at h
      simp only [Storable] at hs
      simp only [storeField, ofSV, toSV, readAt, elems_stored hF hW vs e _ hin h hs]; rfl
    | _ => simp [HasType] at h
theorem fields_stored {F : FloatOps} (hF : ExactFloats F) {W : List Val → Width} (hW : WideEnough F W) :
    ∀ (vs : List SV) (ds : List DType) (w : Width), (∀ v ∈ ofSVs F vs, (v.width F).bits ≤ w.bits) → HaveTypes ds vs →
      AllStorable ds vs → readFields F ds (toSVs F W w (ofSVs F vs)) = .ok vs
  | [], _, _, _, _, _ => rfl
  | v :: vs, [], _, _, h, _ => by simp [HaveTypes] at h
  | v :: vs, d :: ds, w, hw, h, hs => by
    simp only [HaveTypes] at h
    simp only [AllStorable] at hs
    have h1 := C85_field_partial hF hW v d w (hw _ (by simp [ofSVs])) h.1 hs.1
    have h2 := fields_stored hF hW vs ds w (fun x hx => hw x (by simp [ofSVs, hx])) h.2 hs.2
    rw [storeField] at h1
    simp only [ofSVs, toSVs, readFields, h1, h2]; rfl
theorem elems_stored {F : FloatOps} (hF : ExactFloats F) {W : List Val → Width} (hW : WideEnough F W) :
    ∀ (vs : List SV) (d : DType) (w : Width), (∀ v ∈ ofSVs F vs, (v.width F).bits ≤ w.bits) → AllHaveType d vs →
      EachStorable d vs → readElems F d (toSVs F W w (ofSVs F vs)) = .ok vs
  | [], _, _, _, _, _ => rfl
  | v :: vs, d, w, hw, h, hs => by
    simp only [AllHaveType] at h
    simp only [EachStorable] at hs
    have h1 := C85_field_partial hF hW v d w (hw _ (by simp [ofSVs])) h.1 hs.1
    have h2 := elems_stored hF hW vs d w (fun x hx => hw x (by simp [ofSVs, hx])) h.2 hs.2
    rw [storeField] at h1
    simp only [ofSVs, toSVs, readElems, h1, h2]; rfl
end

/-- **C85, scalars and statistics in flatbuffers**: the same at the root, where the least width is used. -/
theorem C85_root_partial {F : FloatOps} (hF : ExactFloats F) {W : List Val → Width} (hW : WideEnough F W) (d : DType) (v : SV)
    (h : HasType d v) (hs : Storable d v) : readAt F d (storeRoot F W v) = .ok v :=
  C85_field_partial hF hW v d _ (Nat.le_refl _) h hs

/-- Null-ness survives whatever the type. -/
theorem C85_null (F : FloatOps) (W : List Val → Width) (w : Width) (v : SV) : (storeField F W w v).isNull = v.isNull := by
  cases v with
  | prim p => obtain ⟨pt, b⟩ := p; cases pt <;> rfl
  | _ => rfl

/-! ### where the code does not do this -/

/-- A struct value with more entries than its type has fields is refused, not truncated. -/
theorem C85_extra_fields_refused (F : FloatOps) (ns : List Str) (ds : List DType) (n : Bool) (vs : List SV) (h : ds.length < vs.length) :
    ¬ ∃ v, readAt F (.struct ns ds n) (.list vs) = .ok v := by
  have key : ∀ (vs : List SV) (ds : List DType), ds.length < vs.length → ∀ xs, readFields F ds vs ≠ .ok xs := by
    intro vs
    induction vs with
    | nil => intro ds h; simp at h
    | cons v vs ih =>
      intro ds h xs
      cases ds with
      | nil => simp only [readFields]; intro h; cases h
      | cons d ds =>
        simp only [readFields]
        cases readAt F d v with
        | err => intro h; cases h
        | panic => intro h; cases h
        | ok x =>
          cases hr : readFields F ds vs with
          | err => intro h; cases h
          | panic => intro h; cases h
          | ok ys => exact absurd hr (ih ds (by simpa using h) ys)
  rintro ⟨v, hv⟩
  simp only [readAt] at hv
  cases hr : readFields F ds vs with
  | err => rw [hr] at hv; cases hv
  | panic => rw [hr] at hv; cases hv
  | ok ys => exact key vs ds h ys hr

/-- Binary scalars are written as a sequence of numbers and come back as a list, which no binary scalar can be read from. -/
theorem C85_binary_unreadable (F : FloatOps) (W : List Val → Width) (w : Width) (bs : List UInt8) (n : Bool) :
    readAt F (.binary n) (storeField F W w (.buffer bs)) = .err := rfl

/-- An `f16` scalar on its own can be read back exactly when its bit pattern does not fit in a byte; zero, for one, is lost. -/
theorem C85_f16_root (F : FloatOps) (W : List Val → Width) (b : BitVec 16) (n : Bool) :
    readAt F (.prim .f16 n) (storeRoot F W (.prim ⟨.f16, b⟩)) = (if 256 ≤ b.toNat then .ok (.prim ⟨.f16, b⟩) else .err) := by
  have hb : b.toNat < 65536 := b.isLt
  have he : (ofSV F (.prim ⟨.f16, b⟩)) = .uint b.toNat := rfl
  by_cases h : 256 ≤ b.toNat
  · have hw : uWidth b.toNat = .w16 := by
      unfold uWidth; rw [if_neg (by omega), if_pos (by omega)]
    have hx : BitVec.ofNat 16 b.toNat = b := by simp
    simp only [storeRoot, he, Val.width, hw, toSV, readUInt, readAt, PValue.readAs, if_pos h, hx]; rfl
  · have hw : uWidth b.toNat = .w8 := by
      unfold uWidth; rw [if_pos (by omega)]
    simp only [storeRoot, he, Val.width, hw, toSV, readUInt, readAt, PValue.readAs, if_neg h]; rfl

/-- In metadata it is readable only when the fields happen to take 16 bits each. -/
theorem C85_f16_field (F : FloatOps) (W : List Val → Width) (w : Width) (b : BitVec 16) (n : Bool) (hw : w ≠ .w16) :
    readAt F (.prim .f16 n) (storeField F W w (.prim ⟨.f16, b⟩)) = .err := by
  cases w with
  | w16 => exact absurd rfl hw
  | _ => rfl

/-- Decoding a constant `f16` array whose value cannot be read gives zeros instead of an error: the data is lost silently. -/
theorem C85_constant_f16_zeroed (F : FloatOps) (W : List Val → Width) (w : Width) (b : BitVec 16) (n : Nat) (hw : w ≠ .w16) :
    constantCanon F .f16 (storeField F W w (.prim ⟨.f16, b⟩)) n = List.replicate n 0 := by
  cases w with
  | w16 => exact absurd rfl hw
  | _ => rfl

/-- Any other constant decodes to the value stored. -/
theorem C85_constant_partial {F : FloatOps} (hF : ExactFloats F) (W : List Val → Width) (w : Width) (p : PValue) (n : Nat)
    (hw : ((ofPValue F p).width F).bits ≤ w.bits) (h16 : p.pt ≠ .f16) (hn : ∀ x : BitVec 32, p = ⟨.f32, x⟩ → f32.isNaN x = false) :
    constantCanon F p.pt (storeField F W w (.prim p)) n = List.replicate n p.bits := by
  obtain ⟨q, h1, h2⟩ := C85_number hF p w hw h16 hn W
  simp [storeField, ofSV, h1, constantCanon, h2]

/-- The stored width is not the type's: a `u32` below 2¹⁶ comes back as a narrower number, not equal to the scalar written, and not
accepted as an instance of its own type — a sparse array with such a fill value cannot be sliced after it was read from a message. -/
theorem C85_width_lost (F : FloatOps) (W : List Val → Width) (b : BitVec 32) (n : Bool) (hb : b.toNat < 65536) :
    ((⟨.prim .u32 n, storeRoot F W (.prim ⟨.u32, b⟩)⟩ : Scalar).eq ⟨.prim .u32 n, .prim ⟨.u32, b⟩⟩) = false ∧
      isInstanceOf (storeRoot F W (.prim ⟨.u32, b⟩)) (.prim .u32 n) = false := by
  have he : (ofSV F (.prim ⟨.u32, b⟩)) = .uint b.toNat := rfl
  by_cases h : b.toNat < 256
  · have hw : uWidth b.toNat = .w8 := by unfold uWidth; rw [if_pos (by omega)]
    simp only [storeRoot, he, Val.width, hw, toSV, readUInt, isInstanceOf, Scalar.eq, SV.eq]
    refine ⟨?_, rfl⟩
    simp only [PValue.eq, Bool.and_eq_false_iff, decide_eq_false_iff_not]
    exact .inr (fun h => by have := congrArg PValue.pt h; simp at this)
  · have hw : uWidth b.toNat = .w16 := by unfold uWidth; rw [if_neg (by omega), if_pos (by omega)]
    simp only [storeRoot, he, Val.width, hw, toSV, readUInt, isInstanceOf, Scalar.eq, SV.eq]
    refine ⟨?_, rfl⟩
    simp only [PValue.eq, Bool.and_eq_false_iff, decide_eq_false_iff_not]
    exact .inr (fun h => by have := congrArg PValue.pt h; simp at this)

mutual
/-- Struct values have one value per field of their type, at every depth, and the type contains no extension type. -/
def Plain (d : DType) (v : SV) : Prop :=
  match v with
  | .list vs => match d with
    | .struct _ ds _ => PlainFields ds vs
    | .list e _ => PlainElems e vs
    | _ => True
  | _ => ∀ i m n, d ≠ .ext i m n
def PlainFields (ds : List DType) (vs : List SV) : Prop :=
  match vs with
  | [] => ds = []
  | v :: vs => match ds with
    | [] => False
    | d :: ds => Plain d v ∧ PlainFields ds vs
def PlainElems (d : DType) (vs : List SV) : Prop :=
  match vs with
  | [] => True
  | v :: vs => Plain d v ∧ PlainElems d vs
end

mutual
/-- Whether a value is accepted for a type — the test a sparse array makes of its fill value — is decided correctly for types without
extensions, if the value has as many struct fields as the type. -/
theorem C85_instance_partial (d : DType) (v : SV) (h : Plain d v) : isInstanceOf v d = true ↔ HasType d v := by
  match v with
  | .null => simp [isInstanceOf, HasType]
  | .bool b => cases d <;> simp_all [isInstanceOf, HasType, Plain]
  | .prim p => cases d <;> simp_all [isInstanceOf, HasType, Plain]
  | .buffer bs => cases d <;> simp_all [isInstanceOf, HasType, Plain]
  | .str bs => cases d <;> simp_all [isInstanceOf, HasType, Plain]
  | .list vs =>
    match d with
    | .struct ns ds n =>
      simp only [Plain] at h
      simpa only [isInstanceOf, HasType] using instance_fields ds vs h
    | .list e n =>
      simp only [Plain] at h
      simpa only [isInstanceOf, HasType] using instance_elems e vs h
    | .null => simp [isInstanceOf, HasType]
    | .bool _ => simp [isInstanceOf, HasType]
    | .prim _ _ => simp [isInstanceOf, HasType]
    | .utf8 _ => simp [isInstanceOf, HasType]
    | .binary _ => simp [isInstanceOf, HasType]
    | .ext _ _ _ => simp [isInstanceOf, HasType]
theorem instance_fields (ds : List DType) (vs : List SV) (h : PlainFields ds vs) :
    zipInstances vs ds = true ↔ HaveTypes ds vs := by
  match vs with
  | [] => simp only [PlainFields] at h; simp [zipInstances, HaveTypes, h]
  | v :: vs =>
    match ds with
    | [] => simp [PlainFields] at h
    | d :: ds =>
      simp only [PlainFields] at h
      simp only [zipInstances, HaveTypes, Bool.and_eq_true, C85_instance_partial d v h.1, instance_fields ds vs h.2]
theorem instance_elems (d : DType) (vs : List SV) (h : PlainElems d vs) :
    allInstances vs d = true ↔ AllHaveType d vs := by
  match vs with
  | [] => simp [allInstances, AllHaveType]
  | v :: vs =>
    simp only [PlainElems] at h
    simp only [allInstances, AllHaveType, Bool.and_eq_true, C85_instance_partial d v h.1, instance_elems d vs h.2]
end

/-- No value but null is accepted for an extension type, whatever its storage. -/
theorem C85_instance_extension (i : Str) (m : Option (List UInt8)) (n : Bool) (v : SV) :
    isInstanceOf v (.ext i m n) = true ↔ v = .null ∧ n = true := by
  cases v <;> simp [isInstanceOf, DType.isNullable]

/-- A struct value with too few fields is accepted: the empty list of values is an instance of every struct type. -/
theorem C85_instance_short_struct (ns : List Str) (ds : List DType) (n : Bool) (h : ds ≠ []) :
    isInstanceOf (.list []) (.struct ns ds n) = true ∧ ¬ HasType (.struct ns ds n) (.list []) := by
  simp [isInstanceOf, zipInstances, HasType, HaveTypes, h]

/-- Numbers read back with different widths do not compare, so merging the minima of two chunks read from messages can keep the larger
one: 300 and 5 give 300. -/
theorem C85_merged_minimum_wrong (F : FloatOps) (W : List Val → Width) :
    let stored := fun b : BitVec 32 => (⟨.prim .u32 false, storeRoot F W (.prim ⟨.u32, b⟩)⟩ : Scalar)
    mergeMin (stored 300) (stored 5) = stored 300 ∧ readAt F (.prim .u32 false) (stored 300).value = .ok (.prim ⟨.u32, 300⟩) :=
  ⟨rfl, rfl⟩

/-- When both minima take the same width, the merge is the smaller number. -/
theorem C85_merged_minimum_partial (F : FloatOps) (W : List Val → Width) (a b : BitVec 32) (n : Bool)
    (hw : uWidth a.toNat = uWidth b.toNat) :
    readAt F (.prim .u32 n) (mergeMin ⟨.prim .u32 n, storeRoot F W (.prim ⟨.u32, a⟩)⟩ ⟨.prim .u32 n, storeRoot F W (.prim ⟨.u32, b⟩)⟩).value
      = .ok (.prim (if b.toNat < a.toNat then ⟨.u32, b⟩ else ⟨.u32, a⟩)) := by
  have ha : a.toNat < 2 ^ (uWidth a.toNat).bits := uWidth_spec (toNat_lt64 (k := 32) (by omega) a) (Nat.le_refl _)
  have hb : b.toNat < 2 ^ (uWidth a.toNat).bits := hw ▸ uWidth_spec (toNat_lt64 (k := 32) (by omega) b) (Nat.le_refl _)
  have ea : storeRoot F W (.prim ⟨.u32, a⟩) = .prim (readUInt (uWidth a.toNat) a.toNat) := rfl
  have eb : storeRoot F W (.prim ⟨.u32, b⟩) = .prim (readUInt (uWidth a.toNat) b.toNat) := by rw [hw]; rfl
  have ra : (readUInt (uWidth a.toNat) a.toNat).readAs F .u32 = some ⟨.u32, a⟩ := readUInt_readAs F ha (p := ⟨.u32, a⟩) rfl rfl
  have rb : (readUInt (uWidth a.toNat) b.toNat).readAs F .u32 = some ⟨.u32, b⟩ := readUInt_readAs F hb (p := ⟨.u32, b⟩) rfl rfl
  have hc : ((⟨.prim .u32 n, .prim (readUInt (uWidth a.toNat) b.toNat)⟩ : Scalar).partialCmp
      ⟨.prim .u32 n, .prim (readUInt (uWidth a.toNat) a.toNat)⟩ = some .lt) ↔ b.toNat < a.toNat := by
    have h1 : (readUInt (uWidth a.toNat) b.toNat).pt = (readUInt (uWidth a.toNat) a.toNat).pt := by
      cases uWidth a.toNat <;> rfl
    have h2 := readUInt_toInt hb
    have h3 := readUInt_toInt ha
    simp [Scalar.partialCmp, DType.eqIgnoreNullability, SV.cmp, PValue.partialCmp, h1, PValue.key, h2, h3, (DType.beq_eq _ _).mpr rfl]
    rw [Int.compare_eq_lt]; omega
  rw [ea, eb, mergeMin]
  by_cases h : b.toNat < a.toNat
  · rw [if_pos (hc.mpr h), if_pos h]
    simp only [readAt, rb]; rfl
  · rw [if_neg (fun hh => h (hc.mp hh)), if_neg h]
    simp only [readAt, ra]; rfl

/-! ### non-vacuity -/

/-- A 32-bit number widened by appending zero bits on the left, NaN to NaN. -/
def exWiden (x : BitVec 32) : BitVec 64 := if f32.isNaN x then 0x7ff8000000000000#64 else BitVec.setWidth 64 x

/-- … and back, a NaN for anything that is not the image of a 32-bit number. -/
def exNarrow (b : BitVec 64) : BitVec 32 := if b.toNat < 2 ^ 32 then BitVec.setWidth 32 b else 0x7fc00000#32

theorem exNarrow_exWiden (x : BitVec 32) (hx : f32.isNaN x = false) : exNarrow (exWiden x) = x := by
  have hlt : x.toNat < 2 ^ 32 := x.isLt
  have h : (BitVec.setWidth 64 x).toNat = x.toNat := by rw [BitVec.toNat_setWidth]; omega
  simp only [exWiden, hx, exNarrow, Bool.false_eq_true, if_false, h, hlt, if_true]
  apply BitVec.eq_of_toNat_eq
  simp only [BitVec.toNat_setWidth]; omega

theorem exWiden_exNarrow (b : BitVec 64) (hb : f64.eq (exWiden (exNarrow b)) b = true) : exWiden (exNarrow b) = b := by
  have hnan : ∀ c, f64.eq 0x7ff8000000000000#64 c = true → False := by
    intro c hc
    simp [Fmt.eq, show f64.isNaN 0x7ff8000000000000#64 = true from by decide] at hc
  by_cases h : b.toNat < 2 ^ 32
  · have e : exNarrow b = BitVec.setWidth 32 b := by simp only [exNarrow, h, if_true]
    rw [e] at hb ⊢
    by_cases hn : f32.isNaN (BitVec.setWidth 32 b) = true
    · simp only [exWiden, hn, if_true] at hb
      exact (hnan _ hb).elim
    · simp only [exWiden, hn]
      apply BitVec.eq_of_toNat_eq
      simp only [Bool.false_eq_true, if_false, BitVec.toNat_setWidth]
      omega
  · have e : exNarrow b = 0x7fc00000#32 := by simp only [exNarrow, h, if_false]
    rw [e] at hb
    simp only [exWiden, show f32.isNaN 0x7fc00000#32 = true from by decide, if_true] at hb
    exact (hnan _ hb).elim

/-- Conversions that satisfy the assumptions (not the IEEE ones). -/
def exFloats : FloatOps where
  f2f := fun p q => match p, q with
    | .f32, .f64 => exWiden
    | .f64, .f32 => exNarrow
    | _, q => fun _ => 0
  i2f := fun _ _ => 0
  trunc := fun _ _ => none

theorem exFloats_exact : ExactFloats exFloats where
  narrow_widen := exNarrow_exWiden
  exact := exWiden_exNarrow

/-- The least common width. -/
def exWidth (vs : List Val) : Width := .w64

example : WideEnough exFloats exWidth := by
  intro vs v _
  cases (v.width exFloats) <;> simp [exWidth, Width.bits]

/-- A struct of a nullable list of `f64`, a string and a negative number. -/
def exStored : SV := .list [.list [.prim ⟨.f64, 0x3ff0000000000000#64⟩, .null], .str [104, 105], .prim ⟨.i32, 0xffffff38#32⟩]
def exStoredType : DType := .struct [['a'], ['b'], ['c']] [.list (.prim .f64 true) true, .utf8 false, .prim .i32 false] false
example : HasType exStoredType exStored ∧ Storable exStoredType exStored := by
  simp [exStored, exStoredType, HasType, HaveTypes, AllHaveType, Storable, AllStorable, EachStorable, DType.isNullable]
  exact ⟨fun x hx => (nomatch congrArg PValue.pt hx), fun x hx => (nomatch congrArg PValue.pt hx)⟩
example : storeRoot exFloats exWidth (.prim ⟨.i32, 0xffffff38#32⟩) = .prim ⟨.i16, 0xff38#16⟩ := rfl
example : Plain exStoredType exStored ∧ isInstanceOf exStored exStoredType = true := by
  simp [exStored, exStoredType, Plain, PlainFields, PlainElems, isInstanceOf, zipInstances, allInstances, DType.isNullable]
example : isInstanceOf (.list [.str [104], .str [105]]) exStoredType = false := by
  simp [exStoredType, isInstanceOf, zipInstances]
example : uWidth (300#32).toNat = uWidth (7000#32).toNat := by decide

end Vx
