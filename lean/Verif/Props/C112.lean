import Verif.Lemmas.Display
import Verif.Props.C47
/-!
# C112: printing a scalar
`to_string` ends with a text, and the text tells the value.
-/
namespace Vx
open Display Spec

theorem fmt_ok {r : Res Out} {t : Out} : Display.fmt r = .ok t ↔ r = .ok t := by
  cases r <;> simp [Display.fmt]

mutual
theorem scalar_prints (E : Env) : ∀ (v : SV) (d : DType), NoListOrExt d → HasType d v → ∃ t, scalar E d v = .ok t
  | .list vs, d, hd, hv => by
    cases d <;> simp only [HasType, NoListOrExt] at hv hd
    rename_i ns ds n
    obtain ⟨fs, hfs⟩ := fields_print E vs ns ds hd.1 hd.2 hv
    exact ⟨_, by unfold scalar; simp only [hfs, Res.ok_bind]; rfl⟩
  | .null, d, hd, hv => by cases d <;> simp_all [scalar, NoListOrExt, value]
  | .bool b, d, hd, hv => by cases d <;> simp_all [scalar, NoListOrExt, HasType, value]
  | .prim p, d, hd, hv => by cases d <;> simp_all [scalar, NoListOrExt, HasType, value]
  | .buffer p, d, hd, hv => by cases d <;> simp_all [scalar, NoListOrExt, HasType, value]
  | .str p, d, hd, hv => by cases d <;> simp_all [scalar, NoListOrExt, HasType, value]
theorem fields_print (E : Env) : ∀ (vs : List SV) (ns : List Str) (ds : List DType), ns.length = ds.length → NoListOrExts ds → HaveTypes ds vs →
    ∃ fs, fields E ns ds vs = .ok fs
  | [], ns, ds, _, _, _ => ⟨_, by unfold fields; rfl⟩
  | v :: vs, ns, ds, hl, hd, hv => by
    cases ds with
    | nil => simp [HaveTypes] at hv
    | cons d ds =>
      cases ns with
      | nil => simp at hl
      | cons n ns =>
        simp only [HaveTypes, NoListOrExts] at hv hd
        obtain ⟨t, ht⟩ := scalar_prints E v d hd.1 hv.1
        obtain ⟨fs, hfs⟩ := fields_print E vs ns ds (by simpa using hl) hd.2 hv.2
        exact ⟨_, by unfold fields; simp only [ht, hfs, Display.fmt, Res.ok_bind]; rfl⟩
end

/-- **C112, printing ends.** Every scalar of a type built from nulls, booleans, numbers, strings and bytes with structs has a text. -/
theorem C112_prints_partial (E : Env) (s : Scalar) (hd : NoListOrExt s.dtype) (hv : HasType s.dtype s.value) : ∃ t, toText E s = .ok t := by
  obtain ⟨t, ht⟩ := scalar_prints E s.value s.dtype hd hv
  exact ⟨t, fmt_ok.mpr ht⟩

/-- The text of a leaf that is not a string. -/
theorem leaf_inj {E : Env} (hE : FloatText E.float) {v w : SV} {d : DType} (hd : NoText d) (hs : ∀ ns ds n, d ≠ .struct ns ds n)
    (hv : HasType d v) (hw : HasType d w) (nv : NaNFree v) {s t : Out} (h1 : scalar E d v = .ok s) (h2 : scalar E d w = .ok t) :
    Quiet s ∧ Quiet t ∧ (s = t → v = w) := by
  have qn : Quiet (asc "null") := by unfold Quiet; decide
  have qt : Quiet (asc "true") := by unfold Quiet; decide
  have qf : Quiet (asc "false") := by unfold Quiet; decide
  have qh : ∀ bs : List UInt8, Quiet (join (asc ",") (bs.map (fun b => digits 16 b.toNat))) := by
    intro bs
    apply quiet_join
    intro a ha
    obtain ⟨b, _, rfl⟩ := List.mem_map.mp ha
    exact quiet_digits (by omega) (by omega)
  cases d with
  | utf8 n => simp [NoText] at hd
  | list e n => simp [NoText] at hd
  | ext i m n => simp [NoText] at hd
  | struct ns ds n => exact absurd rfl (hs ns ds n)
  | null =>
    cases v <;> simp only [HasType] at hv
    cases w <;> simp only [HasType] at hw
    simp only [scalar, value, Res.ok.injEq] at h1 h2
    subst h1; subst h2
    exact ⟨qn, qn, fun _ => rfl⟩
  | bool n =>
    have hb : ∀ b : Bool, Quiet (asc (if b then "true" else "false")) := by intro b; cases b <;> assumption
    cases v <;> simp only [HasType] at hv <;> cases w <;> simp only [HasType] at hw <;>
      simp only [scalar, value, Res.ok.injEq] at h1 h2 <;> subst h1 <;> subst h2
    · rename_i a b
      exact ⟨hb a, hb b, fun h => by revert h; cases a <;> cases b <;> first | exact fun _ => rfl | (intro h; exact absurd h (by decide))⟩
    · rename_i a
      exact ⟨hb a, qn, fun h => absurd h (by cases a <;> decide)⟩
    · rename_i a
      exact ⟨qn, hb a, fun h => absurd h (by cases a <;> decide)⟩
    · exact ⟨qn, qn, fun _ => rfl⟩
  | prim p n =>
    cases v <;> simp only [HasType] at hv <;> cases w <;> simp only [HasType] at hw <;>
      simp only [scalar, value, Res.ok.injEq] at h1 h2 <;> subst h1 <;> subst h2
    · rename_i a b
      exact ⟨quiet_pvalue hE a, quiet_pvalue hE b, fun h => by rw [pvalue_inj hE (hv.trans hw.symm) nv h]⟩
    · rename_i a
      exact ⟨quiet_pvalue hE a, qn, fun h => absurd h (pvalue_ne_null E a)⟩
    · rename_i a
      exact ⟨qn, quiet_pvalue hE a, fun h => absurd h.symm (pvalue_ne_null E a)⟩
    · exact ⟨qn, qn, fun _ => rfl⟩
  | binary n =>
    cases v <;> simp only [HasType] at hv <;> cases w <;> simp only [HasType] at hw <;>
      simp only [scalar, Res.ok.injEq] at h1 h2 <;> subst h1 <;> subst h2
    · exact ⟨qh _, qh _, fun h => by rw [hexlist_inj _ _ h]⟩
    · exact ⟨qh _, qn, fun h => absurd h (hexlist_ne_null _)⟩
    · exact ⟨qn, qh _, fun h => absurd h.symm (hexlist_ne_null _)⟩
    · exact ⟨qn, qn, fun _ => rfl⟩

mutual
theorem scalar_reads {E : Env} (hE : FloatText E.float) : ∀ (v w : SV) (d : DType), NoText d → HasType d v → HasType d w → NaNFree v → NaNFree w →
    ∀ {s t x y : Out}, scalar E d v = .ok s → scalar E d w = .ok t → Stop x y → s ++ x = t ++ y → v = w ∧ s = t
  | v, w, d, hd, hv, hw, nv, nw, s, t, x, y, h1, h2, hx, h => by
    by_cases hs : ∀ ns ds n, d ≠ .struct ns ds n
    · obtain ⟨q1, q2, inj⟩ := leaf_inj hE hd hs hv hw nv h1 h2
      have e := quiet_stop q1 q2 hx h
      exact ⟨inj e, e⟩
    · cases d with
      | struct ns ds n =>
        have hb : asc "{" = [123] := by decide
        have hnull : asc "null" = [110, 117, 108, 108] := by decide
        simp only [NoText] at hd
        cases v <;> simp only [HasType] at hv <;> cases w <;> simp only [HasType] at hw
        · rename_i vs ws
          simp only [scalar, Res.bind_eq_ok, Res.ok.injEq] at h1 h2
          obtain ⟨fs, hfs, rfl⟩ := h1
          obtain ⟨gs, hgs, rfl⟩ := h2
          simp only [List.append_assoc] at h
          have h := List.append_cancel_left h
          obtain ⟨e1, e2⟩ := fields_read hE vs ws ns ds hd.1 hd.2 hv hw (by simpa [NaNFree] using nv) (by simpa [NaNFree] using nw) hfs hgs h
          exact ⟨by rw [e1], by rw [e2]⟩
        · simp only [scalar, Res.bind_eq_ok, Res.ok.injEq] at h1 h2
          obtain ⟨fs, hfs, rfl⟩ := h1
          subst h2
          simp [hb, hnull] at h
        · simp only [scalar, Res.bind_eq_ok, Res.ok.injEq] at h1 h2
          obtain ⟨fs, hfs, rfl⟩ := h2
          subst h1
          simp [hb, hnull] at h
        · simp only [scalar, Res.ok.injEq] at h1 h2
          subst h1; subst h2
          exact ⟨rfl, rfl⟩
      | _ => exact absurd (by intro ns ds n h; cases h) hs
theorem fields_read {E : Env} (hE : FloatText E.float) : ∀ (vs ws : List SV) (ns : List Str) (ds : List DType), ns.length = ds.length →
    NoTexts ds → HaveTypes ds vs → HaveTypes ds ws → NaNFrees vs → NaNFrees ws →
    ∀ {fs gs : List Out} {x y : Out}, fields E ns ds vs = .ok fs → fields E ns ds ws = .ok gs →
    join (asc ",") fs ++ (asc "}" ++ x) = join (asc ",") gs ++ (asc "}" ++ y) → vs = ws ∧ fs = gs
  | [], ws, ns, ds, hl, _, hv, hw, _, _, fs, gs, x, y, h1, h2, _ => by
    simp only [HaveTypes] at hv
    subst hv
    cases ws with
    | nil => rw [h1] at h2; exact ⟨rfl, by simpa using h2⟩
    | cons w ws => simp [HaveTypes] at hw
  | v :: vs, [], ns, ds, hl, _, hv, hw, _, _, fs, gs, x, y, h1, h2, _ => by
    simp only [HaveTypes] at hw
    subst hw
    simp [HaveTypes] at hv
  | v :: vs, w :: ws, ns, ds, hl, hd, hv, hw, nv, nw, fs, gs, x, y, h1, h2, h => by
    cases ds with
    | nil => simp [HaveTypes] at hv
    | cons d ds =>
      cases ns with
      | nil => simp at hl
      | cons n ns =>
        simp only [HaveTypes, NoTexts, NaNFrees] at hv hw hd nv nw
        simp only [fields, Res.bind_eq_ok, Res.ok.injEq] at h1 h2
        obtain ⟨s, hs, fs', hfs, rfl⟩ := h1
        obtain ⟨t, ht, gs', hgs, rfl⟩ := h2
        have hs := fmt_ok.mp hs
        have ht := fmt_ok.mp ht
        have hc : asc "," = [44] := by decide
        have hbr : asc "}" = [125] := by decide
        have hl' : ns.length = ds.length := by simpa using hl
        cases ds with
        | nil =>
          have e1 : vs = [] := by cases vs with
            | nil => rfl
            | cons a b => simp [HaveTypes] at hv
          have e2 : ws = [] := by cases ws with
            | nil => rfl
            | cons a b => simp [HaveTypes] at hw
          have e3 : ns = [] := List.eq_nil_of_length_eq_zero (by simpa using hl')
          subst e1; subst e2; subst e3
          simp only [fields, List.map_nil, Res.ok.injEq] at hfs hgs
          subst hfs; subst hgs
          simp only [join, List.append_assoc] at h
          have h := List.append_cancel_left h
          obtain ⟨a, b⟩ := scalar_reads hE v w d hd.1 hv.1 hw.1 nv.1 nw.1 hs ht
            (Or.inr (Or.inl ⟨x, y, by simp [hbr], by simp [hbr]⟩)) h
          exact ⟨by rw [a], by rw [b]⟩
        | cons d' ds' =>
          obtain ⟨m, ms, rfl⟩ : ∃ m ms, ns = m :: ms := by cases ns with
            | nil => simp at hl'
            | cons m ms => exact ⟨m, ms, rfl⟩
          cases vs with
          | nil => simp [HaveTypes] at hv
          | cons v' vs' =>
            cases ws with
            | nil => simp [HaveTypes] at hw
            | cons w' ws' =>
              have hfs0 := hfs
              have hgs0 := hgs
              simp only [fields, Res.bind_eq_ok, Res.ok.injEq] at hfs hgs
              obtain ⟨s', hs', fs'', hfs', rfl⟩ := hfs
              obtain ⟨t', ht', gs'', hgs', rfl⟩ := hgs
              have shape : ∀ (a b : Out) l, join (asc ",") (a :: b :: l) = a ++ asc "," ++ join (asc ",") (b :: l) := fun _ _ _ => rfl
              have jl : ∀ (a b : Out) (l : List Out), ∃ z, ∀ u : Out, join (asc ",") ((a ++ b) :: l) ++ u = a ++ (z ++ u) := by
                intro a b l
                cases l with
                | nil => exact ⟨b, fun u => by simp [join]⟩
                | cons c l => exact ⟨b ++ asc "," ++ join (asc ",") (c :: l), fun u => by simp [join]⟩
              simp only [shape, List.append_assoc] at h
              have h := List.append_cancel_left h
              obtain ⟨z1, hz1⟩ := jl (label m) s' fs''
              obtain ⟨z2, hz2⟩ := jl (label m) t' gs''
              have hstop : Stop (asc "," ++ (join (asc ",") ((label m ++ s') :: fs'') ++ (asc "}" ++ x)))
                  (asc "," ++ (join (asc ",") ((label m ++ t') :: gs'') ++ (asc "}" ++ y))) := by
                rw [hz1, hz2]
                have hcol : asc ":" = [58] := by decide
                exact Or.inr (Or.inr ⟨_, _, _, by simp [label, hc, hcol]; rfl, by simp [label, hc, hcol]; rfl⟩)
              obtain ⟨a, b⟩ := scalar_reads hE v w d hd.1 hv.1 hw.1 nv.1 nw.1 hs ht hstop h
              rw [b] at h
              have h := List.append_cancel_left (List.append_cancel_left h)
              obtain ⟨a2, b2⟩ := fields_read hE (v' :: vs') (w' :: ws') (m :: ms) (d' :: ds') hl' hd.2 hv.2 hw.2 nv.2 nw.2 hfs0 hgs0 h
              exact ⟨by rw [a, a2], by rw [b, b2]⟩
end

/-- **C112, the text tells the value.** For types without strings, lists and extensions — structs included, whatever the field names — two
NaN-free scalars of one type that print alike are the same. -/
theorem C112_text_determines_partial (E : Env) (hE : FloatText E.float) (d : DType) (hd : NoText d) (v w : SV) (hv : HasType d v)
    (hw : HasType d w) (nv : NaNFree v) (nw : NaNFree w) (h : toText E ⟨d, v⟩ = toText E ⟨d, w⟩) : v = w := by
  have up : ∀ d, NoText d → NoListOrExt d := by
    intro d
    have : (∀ d, NoText d → NoListOrExt d) := fun d => by
      refine DType.rec (motive_1 := fun d => NoText d → NoListOrExt d) (motive_2 := fun ds => NoTexts ds → NoListOrExts ds)
        ?_ ?_ ?_ ?_ ?_ ?_ ?_ ?_ ?_ ?_ d <;> simp_all [NoText, NoListOrExt, NoTexts, NoListOrExts]
    exact this d
  obtain ⟨s, hs⟩ := scalar_prints E v d (up d hd) hv
  obtain ⟨t, ht⟩ := scalar_prints E w d (up d hd) hw
  have e : s = t := by
    have h1 : toText E ⟨d, v⟩ = .ok s := fmt_ok.mpr hs
    have h2 : toText E ⟨d, w⟩ = .ok t := fmt_ok.mpr ht
    rw [h1, h2] at h
    simpa using h
  exact (scalar_reads hE v w d hd hv hw nv nw hs ht (Or.inl ⟨rfl, rfl⟩) (by rw [e])).1

/-- An integer prints in decimal, with its type after an underscore. -/
theorem C112_integer (E : Env) (p : PValue) (n : Bool) (h : p.pt.isFloat = false) :
    toText E ⟨.prim p.pt n, .prim p⟩ = .ok (Spec.text (toString (if p.pt.isSigned then p.bits.toInt else (p.bits.toNat : Int)) ++ "_" ++
      (match p.pt with
        | .u8 => "u8" | .u16 => "u16" | .u32 => "u32" | .u64 => "u64" | .i8 => "i8" | .i16 => "i16" | .i32 => "i32" | .i64 => "i64"
        | .f16 => "f16" | .f32 => "f32" | .f64 => "f64"))) := by
  have e : ∀ a b : String, Spec.text (a ++ b) = Spec.text a ++ Spec.text b := by intro a b; simp [Spec.text]
  obtain ⟨pt, b⟩ := p
  simp only at h
  simp only [toText, scalar, value, Display.fmt, pvalue, h, e, int_text, PValue.toInt, List.append_assoc]
  cases pt <;> first | rfl | simp [PType.isFloat] at h

/-- Bytes print in hexadecimal without leading zeros, separated by commas. -/
theorem C112_binary (E : Env) (bs : List UInt8) (n : Bool) :
    toText E ⟨.binary n, .buffer bs⟩ = .ok (Spec.text (String.ofList (List.intercalate [','] (bs.map (fun b => Nat.toDigits 16 b.toNat))))) := by
  have key : ∀ bs : List UInt8, join (asc ",") (bs.map (fun b => digits 16 b.toNat)) =
      (List.intercalate [','] (bs.map (fun b => Nat.toDigits 16 b.toNat))).map (fun c => UInt8.ofNat c.toNat) := by
    intro bs
    induction bs with
    | nil => rfl
    | cons a bs ih =>
      cases bs with
      | nil => simp [join, List.intercalate, digits_eq]
      | cons b bs =>
        simp only [List.map_cons] at ih ⊢
        unfold join
        rw [ih, digits_eq (by omega) (by omega)]
        simp [List.intercalate, List.intersperse, asc]
  simp only [toText, scalar, Display.fmt, key, Spec.text]
  simp

/-- A date, time or timestamp prints as `jiff` prints it; a unit that `to_jiff` refuses, or a value that `jiff` cannot represent, aborts the
program in `to_string`. -/
theorem C112_temporal (E : Env) (hl : Temporal.LossyOk E.lossy) (m : Temporal.Meta) (hm : m.norm = m) (md : List UInt8)
    (h : m.encode = .ok md) (n : Bool) (b : BitVec 64) : toText E ⟨.ext m.id (some md) n, .prim ⟨.i64, b⟩⟩ =
      (if Temporal.jiffUnitOk m = true then (match E.jiff m b.toInt with | some t => .ok t | none => .panic) else .panic) := by
  have hid : Temporal.isTemporal m.id = true := by cases m <;> simp [Temporal.isTemporal, Temporal.Meta.id]
  have hd := Temporal.C47_round_trip E.lossy hl m md h
  rw [hm] at hd
  simp only [toText, scalar, hid, if_true, temporal, hd, Res.ok_bind]
  split
  · show Display.fmt (Res.ofOption (E.jiff m (BitVec.toInt (n := 64) b))) = _
    generalize E.jiff m (BitVec.toInt (n := 64) b) = r
    cases r <;> rfl
  · rfl

theorem C112_temporal32 (E : Env) (hl : Temporal.LossyOk E.lossy) (m : Temporal.Meta) (hm : m.norm = m) (md : List UInt8)
    (h : m.encode = .ok md) (n : Bool) (b : BitVec 32) : toText E ⟨.ext m.id (some md) n, .prim ⟨.i32, b⟩⟩ =
      (if Temporal.jiffUnitOk m = true then (match E.jiff m b.toInt with | some t => .ok t | none => .panic) else .panic) := by
  have hid : Temporal.isTemporal m.id = true := by cases m <;> simp [Temporal.isTemporal, Temporal.Meta.id]
  have hd := Temporal.C47_round_trip E.lossy hl m md h
  rw [hm] at hd
  simp only [toText, scalar, hid, if_true, temporal, hd, Res.ok_bind]
  split
  · show Display.fmt (Res.ofOption (E.jiff m (BitVec.toInt (n := 32) b))) = _
    generalize E.jiff m (BitVec.toInt (n := 32) b) = r
    cases r <;> rfl
  · rfl

/-- A null date, time or timestamp prints as `null`. -/
theorem C112_temporal_null (E : Env) (hl : Temporal.LossyOk E.lossy) (m : Temporal.Meta) (md : List UInt8)
    (h : m.encode = .ok md) : toText E ⟨.ext m.id (some md) true, .null⟩ = .ok (Spec.text "null") := by
  have hid : Temporal.isTemporal m.id = true := by cases m <;> simp [Temporal.isTemporal, Temporal.Meta.id]
  have hd := Temporal.C47_round_trip E.lossy hl m md h
  simp only [toText, scalar, hid, if_true, temporal, hd, Res.ok_bind]
  rfl

/-- A string prints as itself. -/
theorem C112_string (E : Env) (bs : List UInt8) (n : Bool) : toText E ⟨.utf8 n, .str bs⟩ = .ok bs := by
  simp [toText, scalar, Display.fmt]

/-- A null prints as `null`, whatever its type, unless the type is a list or an extension. -/
theorem C112_null (E : Env) (d : DType) (hd : NoListOrExt d) : toText E ⟨d, .null⟩ = .ok (Spec.text "null") := by
  cases d <;> simp_all [toText, scalar, Display.fmt, value, NoListOrExt] <;> rfl

/-- Printing a list scalar aborts, null or not. -/
theorem C112_list_aborts (E : Env) (e : DType) (n : Bool) (v : SV) : toText E ⟨.list e n, v⟩ = .panic := by
  cases v <;> simp [toText, scalar, Display.fmt]

/-- So does printing a scalar of an extension type that is not a date, a time or a timestamp. -/
theorem C112_extension_aborts (E : Env) (id : Str) (md : Option (List UInt8)) (n : Bool) (v : SV) (h : Temporal.isTemporal id = false) :
    toText E ⟨.ext id md n, v⟩ = .panic := by
  cases v <;> simp [toText, scalar, Display.fmt, h]

/-- And a struct with one such field. -/
theorem C112_list_field_aborts (E : Env) (name : Str) (e : DType) (a b : Bool) (v : SV) :
    toText E ⟨.struct [name] [.list e a] b, .list [v]⟩ = .panic := by
  unfold toText
  simp only [scalar, fields]
  cases v <;> rfl

/-- Two strings of one type, one of them null, that print alike; and two structs of strings. -/
theorem C112_null_string (E : Env) : toText E ⟨.utf8 true, .null⟩ = toText E ⟨.utf8 true, .str (Spec.text "null")⟩ := by
  simp [toText, scalar, Display.fmt]; rfl

theorem C112_strings_in_structs (E : Env) : ∃ v w : SV, v ≠ w ∧
    HasType (.struct ["a".toList, "b".toList] [.utf8 false, .utf8 false] false) v ∧
    HasType (.struct ["a".toList, "b".toList] [.utf8 false, .utf8 false] false) w ∧
    toText E ⟨.struct ["a".toList, "b".toList] [.utf8 false, .utf8 false] false, v⟩ =
      toText E ⟨.struct ["a".toList, "b".toList] [.utf8 false, .utf8 false] false, w⟩ := by
  refine ⟨.list [.str (Spec.text "1,b:2"), .str (Spec.text "3")], .list [.str (Spec.text "1"), .str (Spec.text "2,b:3")], ?_, ?_, ?_, ?_⟩
  · intro h
    injection h with h
    injection h with h
    injection h with h
    revert h
    decide
  · simp [HasType, HaveTypes]
  · simp [HasType, HaveTypes]
  · simp only [toText, scalar, fields, Display.fmt, Res.ok_bind, List.map_nil]
    decide +kernel

/-- `Display` of a bare value cuts long strings in the middle of a character, and aborts: "abcdé 12345". -/
theorem C112_value_cut_aborts (E : Env) : value E (.str (Temporal.utf8 "abcdé 12345")) = .panic := by
  have : value E (.str (Temporal.utf8 "abcdé 12345")) = value ⟨fun _ _ => [], fun _ _ => none, fun _ => "", fun _ => true⟩
      (.str (Temporal.utf8 "abcdé 12345")) := rfl
  rw [this]
  have h : (match value ⟨fun _ _ => [], fun _ _ => none, fun _ => "", fun _ => true⟩ (.str (Temporal.utf8 "abcdé 12345")) with
    | .panic => true | _ => false) = true := by decide +kernel
  revert h
  cases value ⟨fun _ _ => [], fun _ _ => none, fun _ => "", fun _ => true⟩ (.str (Temporal.utf8 "abcdé 12345")) <;> simp

/-- The layout of a struct: braces, fields in order as `name:value`, commas between. -/
theorem C112_struct (E : Env) (ns : List Str) (ds : List DType) (vs : List SV) (n : Bool) (ts : List (List UInt8)) (hn : ns.length = vs.length)
    (hd : ds.length = vs.length) (ht : ∀ (i : Nat) d v, ds[i]? = some d → vs[i]? = some v → ∃ t, ts[i]? = some t ∧ toText E ⟨d, v⟩ = .ok t)
    (hl : ts.length = vs.length) : toText E ⟨.struct ns ds n, .list vs⟩ = .ok (Spec.text "{" ++
      List.intercalate (Spec.text ",") (List.zipWith (fun n t => (String.ofList n).toByteArray.data.toList ++ Spec.text ":" ++ t) ns ts) ++ Spec.text "}") := by
  have jo : ∀ l : List Out, join (asc ",") l = List.intercalate (Spec.text ",") l := by
    intro l
    induction l with
    | nil => rfl
    | cons a l ih =>
      cases l with
      | nil => simp [join, List.intercalate]
      | cons b l =>
        unfold join
        rw [ih]
        simp [List.intercalate, List.intersperse, asc, Spec.text]
  have hf : ∀ (vs : List SV) (ns : List Str) (ds : List DType) (ts : List Out), ns.length = vs.length → ds.length = vs.length → ts.length = vs.length →
      (∀ (i : Nat) d v, ds[i]? = some d → vs[i]? = some v → ∃ t, ts[i]? = some t ∧ toText E ⟨d, v⟩ = .ok t) →
      fields E ns ds vs = .ok (List.zipWith (fun n t => (String.ofList n).toByteArray.data.toList ++ Spec.text ":" ++ t) ns ts) := by
    intro vs
    induction vs with
    | nil =>
      intro ns ds ts h1 _ _ _
      rw [List.eq_nil_of_length_eq_zero h1]
      simp [fields]
    | cons v vs ih =>
      intro ns ds ts h1 h2 h3 h
      cases ns with
      | nil => simp at h1
      | cons n ns =>
      cases ds with
      | nil => simp at h2
      | cons d ds =>
      cases ts with
      | nil => simp at h3
      | cons t ts =>
        obtain ⟨t', e, h0⟩ := h 0 d v rfl rfl
        simp only [List.getElem?_cons_zero, Option.some.injEq] at e
        subst e
        have hr := ih ns ds ts (by simpa using h1) (by simpa using h2) (by simpa using h3) (fun i d v a b => h (i + 1) d v (by simpa using a) (by simpa using b))
        unfold toText at h0
        simp only at h0
        simp only [fields, h0, hr, Res.ok_bind]
        rfl
  simp only [toText, scalar, hf vs ns ds ts hn hd hl ht, Res.ok_bind, Display.fmt, jo]
  rfl

/-! ## The hypotheses are met -/

/-- A way of printing floats that satisfies the contract. -/
def demoEnv : Env := ⟨fun _ b => digits 10 b.toNat, fun _ i => if i < 86400 then some (Spec.text "00:00:00") else none, Temporal.lossy, fun _ => true⟩

theorem demoEnv_ok : FloatText demoEnv.float where
  plain := by
    intro p b c hc
    obtain ⟨d, hd, rfl⟩ := digits_mem (by omega) hc
    have h10 : ∀ d, d < 10 → 48 ≤ digit d ∧ digit d ≤ 57 := by decide
    exact Or.inl (h10 d hd)
  inj := by
    intro p a b _ h
    exact Or.inl (BitVec.eq_of_toNat_eq (digits_inj (by omega) (by omega) h))

/-- `{a:-3_i8,b:{c:1,ff,d:null}}`: nested structs with bytes and nulls meet the hypotheses. -/
example : toText demoEnv ⟨.struct ["a".toList, "b".toList] [.prim .i8 false, .struct ["c".toList, "d".toList] [.binary false, .bool true] true] false,
    .list [.prim ⟨.i8, 0xfd#8⟩, .list [.buffer [1, 255], .null]]⟩ = .ok (Spec.text "{a:-3_i8,b:{c:1,ff,d:null}}") := by
  have : (match toText demoEnv ⟨.struct ["a".toList, "b".toList] [.prim .i8 false, .struct ["c".toList, "d".toList] [.binary false, .bool true] true] false,
    .list [.prim ⟨.i8, 0xfd#8⟩, .list [.buffer [1, 255], .null]]⟩ with | .ok t => t == Spec.text "{a:-3_i8,b:{c:1,ff,d:null}}" | _ => false) = true := by
    decide +kernel
  revert this
  cases toText demoEnv ⟨.struct ["a".toList, "b".toList] [.prim .i8 false, .struct ["c".toList, "d".toList] [.binary false, .bool true] true] false,
    .list [.prim ⟨.i8, 0xfd#8⟩, .list [.buffer [1, 255], .null]]⟩ <;> simp

example : NoText (.struct ["a".toList, "b".toList] [.prim .i8 false, .struct ["c".toList, "d".toList] [.binary false, .bool true] true] false) := by
  simp [NoText, NoTexts]
example : HasType (.struct ["a".toList, "b".toList] [.prim .i8 false, .struct ["c".toList, "d".toList] [.binary false, .bool true] true] false)
    (.list [.prim ⟨.i8, 0xfd#8⟩, .list [.buffer [1, 255], .null]]) := by
  simp [HasType, HaveTypes, DType.isNullable]

/-- A time of day past midnight cannot be printed: the program aborts. -/
example : toText demoEnv ⟨.ext Temporal.timeId (some [3]) false, .prim ⟨.i32, 86400#32⟩⟩ = .panic := by
  have := C112_temporal32 demoEnv Temporal.lossy_ok (.time .s) rfl [3] rfl false 86400#32
  simpa [demoEnv, Temporal.jiffUnitOk, Temporal.Meta.id] using this

end Vx
