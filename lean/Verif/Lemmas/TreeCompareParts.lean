import Verif.Lemmas.TreeCompare
/-! # Comparing trees: the kernels -/
namespace Vx.Tree
open Spec

variable {L : Type} {env : CEnv L} {leafRows : L → List SV} {ok : L → Prop}

/-! ### Boolean results -/

/-- A boolean array made from answers. -/
theorem flatBool_ok {bits : List Bool} {w : TVal (Arr L)} {rs : List SV} (hw : WFV env.toEnv leafRows ok w bits.length)
    (hn : NiceV env.toEnv leafRows w) (hnl : w.nullable = true)
    (hr : masked (bits.map SV.bool) (maskOf env.toEnv leafRows w bits.length) = rs) :
    rows env.toEnv leafRows (.flat .bool (bits.map SV.bool) w) = rs ∧ WF env.toEnv leafRows ok (.flat .bool (bits.map SV.bool) w) ∧
      Nice env.toEnv leafRows (.flat .bool (bits.map SV.bool) w) ∧ dtype env.toEnv (.flat .bool (bits.map SV.bool) w) = .bool true := by
  refine ⟨by simpa only [rows, List.length_map] using hr, ?_, by simpa only [Nice] using hn, by simp [dtype, Kind.dtype, hnl]⟩
  simp only [WF, List.length_map]
  refine ⟨?_, hw⟩
  intro x hx
  obtain ⟨b, _, rfl⟩ := List.mem_map.mp hx
  rfl

/-- Rows that are booleans or null come back from arrow. -/
theorem fromArrowBools_ok (rs : List SV) (hb : ∀ r ∈ rs, r = .null ∨ ∃ b, r = .bool b) :
    ∃ b, fromArrowBools rs = .ok b ∧ rows env.toEnv leafRows b = rs ∧ WF env.toEnv leafRows ok b ∧ Nice env.toEnv leafRows b ∧
      dtype env.toEnv b = .bool true := by
  have hf : FitsLen (Validity.ofBooleanBuffer (rs.map (fun r => !r.isNull))) (rs.map (fun r => !r.isNull)).length := by
    simp only [FitsLen, mask_ofBooleanBuffer]
  obtain ⟨g1, g2, g3, g4, g5, g6⟩ := maskOf_ofValidity (env := env.toBEnv) (leafRows := leafRows) (ok := ok) _ _ hf
  rw [mask_ofBooleanBuffer] at g1
  have hlen : (rs.map (fun r => !r.isNull)).length = (rs.map isTrue).length := by simp
  rw [hlen] at g1 g2
  have hnull : (ofValidity (Validity.ofBooleanBuffer (rs.map (fun r => !r.isNull))) : TVal (Arr L)).nullable = true := by
    rw [g6]
    unfold Validity.ofBooleanBuffer
    split
    · rfl
    · split <;> rfl
  have hrows : masked ((rs.map isTrue).map SV.bool) (maskOf env.toEnv leafRows (ofValidity (Validity.ofBooleanBuffer (rs.map (fun r => !r.isNull)))) (rs.map isTrue).length) = rs := by
    rw [g1]
    clear g1 g2 g3 g4 g5 g6 hf hlen hnull
    induction rs with
    | nil => rfl
    | cons r rs ih =>
      simp only [masked, List.map_cons, List.zipWith_cons_cons]
      congr 1
      · rcases hb r List.mem_cons_self with rfl | ⟨b, rfl⟩ <;> simp [SV.isNull, isTrue]
      · exact ih (fun r h => hb r (List.mem_cons_of_mem _ h))
  obtain ⟨f1, f2, f3, f4⟩ := flatBool_ok g2 g3 hnull hrows
  refine ⟨_, ?_, f1, f2, f3, f4⟩
  simp only [fromArrowBools, arrowNulls, if_true, Res.ok_bind, List.map_map]
  rfl

theorem opRow_bool (op : Op) (x y : SV) : opRow op x y = .null ∨ ∃ b, opRow op x y = .bool b := by
  rw [opRow_eq]
  split
  · exact .inl rfl
  · exact .inr ⟨_, rfl⟩

theorem zip_opRow_bool (op : Op) (xs ys : List SV) : ∀ r ∈ List.zipWith (opRow op) xs ys, r = .null ∨ ∃ b, r = .bool b := by
  intro r hr
  rw [List.mem_iff_getElem] at hr
  obtain ⟨i, hi, rfl⟩ := hr
  rw [List.getElem_zipWith]
  exact opRow_bool op _ _

/-! ### Validities -/

theorem intoNullable_ok {v : TVal (Arr L)} {n : Nat} (hw : WFV env.toEnv leafRows ok v n) (hn : NiceV env.toEnv leafRows v) :
    WFV env.toEnv leafRows ok (intoNullable v) n ∧ NiceV env.toEnv leafRows (intoNullable v) ∧ (intoNullable v).nullable = true ∧
      maskOf env.toEnv leafRows (intoNullable v) n = maskOf env.toEnv leafRows v n := by
  cases v <;> simp_all [intoNullable, WFV, NiceV, TVal.nullable, maskOf]

theorem plainBits_eq {a : Arr L} {n : Nat} {x : List Bool} (hw : WFV env.toEnv leafRows ok (.array a) n) (h : plainBits a = .ok x) :
    maskOf env.toEnv leafRows (.array a) n = x := by
  cases a with
  | flat k vals v =>
    cases k with
    | bool =>
      simp only [plainBits] at h
      injection h with h
      simp only [WFV] at hw
      have : rows env.toEnv leafRows (.flat .bool vals v) = vals := flat_rows_nonnull (env := env.toBEnv) hw.1 (by
        intro r hr
        obtain ⟨b, rfl⟩ := hw.2.2.2 r hr
        rfl)
      rw [maskOf_array (env := env.toBEnv), this, h]
    | _ => simp [plainBits] at h
  | _ => simp [plainBits] at h

theorem replicate_and_left (n : Nat) (m : List Bool) (h : m.length = n) : List.zipWith (· && ·) (List.replicate n true) m = m := by
  induction m generalizing n with
  | nil => simp
  | cons b m ih => subst h; simp [List.replicate_succ]; simpa using ih m.length rfl

theorem replicate_and_right (n : Nat) (m : List Bool) (h : m.length = n) : List.zipWith (· && ·) m (List.replicate n true) = m := by
  rw [List.zipWith_comm]
  simpa [Bool.and_comm] using replicate_and_left n m h

theorem false_and_left (n : Nat) (m : List Bool) (h : m.length = n) :
    List.zipWith (· && ·) (List.replicate n false) m = List.replicate n false := by
  induction m generalizing n with
  | nil => simp at h; subst h; rfl
  | cons b m ih => subst h; simp [List.replicate_succ]; simpa using ih m.length rfl

theorem false_and_right (n : Nat) (m : List Bool) (h : m.length = n) :
    List.zipWith (· && ·) m (List.replicate n false) = List.replicate n false := by
  rw [List.zipWith_comm]
  simpa [Bool.and_comm] using false_and_left n m h

theorem andV_sound {v w u : TVal (Arr L)} {n : Nat} (hv : WFV env.toEnv leafRows ok v n) (hw : WFV env.toEnv leafRows ok w n)
    (nv : NiceV env.toEnv leafRows v) (nw : NiceV env.toEnv leafRows w) (h : andV v w = .ok u) :
    WFV env.toEnv leafRows ok u n ∧ NiceV env.toEnv leafRows u ∧
      maskOf env.toEnv leafRows u n = List.zipWith (· && ·) (maskOf env.toEnv leafRows v n) (maskOf env.toEnv leafRows w n) := by
  have lv := maskOf_length hv
  have lw := maskOf_length hw
  cases v with
  | nonNullable =>
    cases w <;> simp only [andV] at h <;> injection h with h <;> subst h
    · exact ⟨trivial, trivial, by simp [maskOf]⟩
    · exact ⟨trivial, trivial, by simp [maskOf]⟩
    · exact ⟨trivial, trivial, by simp [maskOf]⟩
    · exact ⟨hw, nw, by simp only [maskOf] at lw ⊢; rw [replicate_and_left _ _ lw]⟩
  | allValid =>
    cases w <;> simp only [andV] at h <;> injection h with h <;> subst h
    · exact ⟨trivial, trivial, by simp [maskOf]⟩
    · exact ⟨trivial, trivial, by simp [maskOf]⟩
    · exact ⟨trivial, trivial, by simp [maskOf]⟩
    · exact ⟨hw, nw, by simp only [maskOf] at lw ⊢; rw [replicate_and_left _ _ lw]⟩
  | allInvalid =>
    simp only [andV] at h; injection h with h; subst h
    refine ⟨trivial, trivial, ?_⟩
    rw [show maskOf env.toEnv leafRows .allInvalid n = List.replicate n false from by simp [maskOf], false_and_left _ _ lw]
  | array a =>
    cases w with
    | nonNullable =>
      simp only [andV] at h; injection h with h; subst h
      exact ⟨hv, nv, by rw [show maskOf env.toEnv leafRows .nonNullable n = List.replicate n true from by simp [maskOf], replicate_and_right _ _ lv]⟩
    | allValid =>
      simp only [andV] at h; injection h with h; subst h
      exact ⟨hv, nv, by rw [show maskOf env.toEnv leafRows .allValid n = List.replicate n true from by simp [maskOf], replicate_and_right _ _ lv]⟩
    | allInvalid =>
      simp only [andV] at h; injection h with h; subst h
      exact ⟨trivial, trivial, by rw [show maskOf env.toEnv leafRows .allInvalid n = List.replicate n false from by simp [maskOf], false_and_right _ _ lv]⟩
    | array b =>
      simp only [andV, Res.bind_eq_ok] at h
      obtain ⟨x, hx, y, hy, h⟩ := h
      injection h with h; subst h
      rw [plainBits_eq hv hx] at lv ⊢
      rw [plainBits_eq hw hy] at lw ⊢
      have hlen : (List.zipWith (· && ·) x y).length = n := by simp [lv, lw]
      have hf : FitsLen (Validity.ofBooleanBuffer (List.zipWith (· && ·) x y)) n := by
        rw [← hlen]; simp only [FitsLen, mask_ofBooleanBuffer]
      obtain ⟨g1, g2, g3, g4, g5, g6⟩ := maskOf_ofValidity (env := env.toBEnv) (leafRows := leafRows) (ok := ok) _ _ hf
      refine ⟨g2, g3, ?_⟩
      rw [g1, ← hlen, mask_ofBooleanBuffer]

theorem andV_total {v w : TVal (Arr L)} (h : plainV v = true ∧ plainV w = true) : ∃ u, andV v w = .ok u := by
  cases v with
  | array a =>
    cases w with
    | array b =>
      cases a with
      | flat k vals u =>
        cases b with
        | flat k' vals' u' => cases k <;> cases k' <;> simp [plainV] at h <;> exact ⟨_, rfl⟩
        | _ => simp [plainV] at h
      | _ => simp [plainV] at h
    | _ => exact ⟨_, rfl⟩
  | _ => cases w <;> exact ⟨_, rfl⟩

/-! ### Number kernels -/

theorem masked_op {p : PType} (op : Op) : ∀ (vals ws : List SV) (m1 m2 : List Bool), vals.length = m1.length → ws.length = m2.length →
    vals.length = ws.length → (∀ x ∈ vals, (Kind.prim p).has x = true) → (∀ x ∈ ws, (Kind.prim p).has x = true) →
    (∀ x ∈ masked vals m1, ordinary x = true) → (∀ x ∈ masked ws m2, ordinary x = true) →
    masked ((List.zipWith (nativeOp op) vals ws).map SV.bool) (List.zipWith (· && ·) m1 m2) =
      List.zipWith (opRow op) (masked vals m1) (masked ws m2)
  | [], _, _, _, _, _, _, _, _, _, _ => by simp [masked]
  | _ :: _, [], _, _, _, _, h, _, _, _, _ => by simp at h
  | _ :: _, _, [], _, h, _, _, _, _, _, _ => by simp at h
  | _ :: _, _ :: _, _ :: _, [], _, h, _, _, _, _, _ => by simp at h
  | x :: vals, y :: ws, a :: m1, b :: m2, h1, h2, h3, hx, hy, ox, oy => by
    have ih := masked_op op vals ws m1 m2 (by simpa using h1) (by simpa using h2) (by simpa using h3)
      (fun z hz => hx z (List.mem_cons_of_mem _ hz)) (fun z hz => hy z (List.mem_cons_of_mem _ hz))
      (fun z hz => ox z (by simp only [masked, List.zipWith_cons_cons]; exact List.mem_cons_of_mem _ hz))
      (fun z hz => oy z (by simp only [masked, List.zipWith_cons_cons]; exact List.mem_cons_of_mem _ hz))
    simp only [masked, List.zipWith_cons_cons, List.map_cons] at ih ⊢
    congr 1
    have ox' := ox (if a then x else .null) (by simp [masked])
    have oy' := oy (if b then y else .null) (by simp [masked])
    have kx := hx x List.mem_cons_self
    have ky := hy y List.mem_cons_self
    cases x <;> simp [Kind.has] at kx
    cases y <;> simp [Kind.has] at ky
    rename_i q r
    cases a <;> cases b <;> simp [opRow_eq, SV.isNull] at ox' oy' ⊢
    simp only [nativeOp]
    rw [native_eq ox' oy' (by rw [kx, ky])]

theorem mkBool_ok (hl : LeafLaws env.toEnv leafRows ok) {bits : List Bool} {v : TVal (Arr L)} (hw : WFV env.toEnv leafRows ok v bits.length) :
    mkBool env bits v = .ok (.flat .bool (bits.map SV.bool) v) := by
  simp [mkBool, checkV_ok hl hw]

theorem primPrim_ok (hl : LeafLaws env.toEnv leafRows ok) {p : PType} {op : Op} {vals ws : List SV} {v w : TVal (Arr L)}
    (h1 : WF env.toEnv leafRows ok (.flat (.prim p) vals v)) (h2 : WF env.toEnv leafRows ok (.flat (.prim p) ws w))
    (n1 : NiceV env.toEnv leafRows v) (n2 : NiceV env.toEnv leafRows w) (hlen : vals.length = ws.length)
    (o1 : ∀ x ∈ rows env.toEnv leafRows (.flat (.prim p) vals v), ordinary x = true)
    (o2 : ∀ x ∈ rows env.toEnv leafRows (.flat (.prim p) ws w), ordinary x = true) {u : TVal (Arr L)} (hu : andV v w = .ok u) :
    ∃ b, primPrim env op vals v ws w = .ok b ∧ Answer env leafRows ok op (.flat (.prim p) vals v) (.flat (.prim p) ws w) b := by
  have l1 := flat_len (env := env.toBEnv) h1
  have l2 := flat_len (env := env.toBEnv) h2
  simp only [WF] at h1 h2
  rw [← hlen] at h2 l2
  simp only [rows] at o1 o2
  rw [← hlen] at o2
  obtain ⟨a1, a2, a3⟩ := andV_sound h1.2 h2.2 n1 n2 hu
  obtain ⟨i1, i2, i3, i4⟩ := intoNullable_ok a1 a2
  have hz : (List.zipWith (nativeOp op) vals ws).length = vals.length := by simp; omega
  rw [← hz] at i1
  obtain ⟨f1, f2, f3, f4⟩ := flatBool_ok i1 i2 i3 rfl
  refine ⟨_, ?_, ⟨f1.trans ?_, f2, f3, .inl f4⟩⟩
  · simp only [primPrim, Compare.C24_apply_predicate _ _ _ hlen, Res.ok_bind, hu, mkBool_ok hl i1]
  · simp only [rows]
    rw [hz, i4, a3, ← hlen]
    exact masked_op op vals ws _ _ l1 (by omega) hlen h1.1 h2.1 o1 o2

theorem masked_allTrue (n : Nat) (x : SV) : masked (List.replicate n x) (List.replicate n true) = List.replicate n x := by
  simpa using masked_replicate_true (List.replicate n x)

theorem map_zip_replicate (f : α → β → γ) (xs : List α) (y : β) : xs.map (fun x => f x y) = List.zipWith f xs (List.replicate xs.length y) := by
  induction xs with
  | nil => rfl
  | cons x xs ih => simp [List.replicate_succ, ih]

theorem primConst_ok (hl : LeafLaws env.toEnv leafRows ok) {p : PType} {op : Op} {vals : List SV} {v : TVal (Arr L)} {dt : DType} {q : PValue}
    (h1 : WF env.toEnv leafRows ok (.flat (.prim p) vals v)) (hq : q.pt = p) (n1 : NiceV env.toEnv leafRows v)
    (o1 : ∀ x ∈ rows env.toEnv leafRows (.flat (.prim p) vals v), ordinary x = true)
    (o2 : ∀ x ∈ rows env.toEnv leafRows (.const dt (.prim q) vals.length : Arr L), ordinary x = true) :
    ∃ b, primConst env op vals v (.prim q) = .ok b ∧
      Answer env leafRows ok op (.flat (.prim p) vals v) (.const dt (.prim q) vals.length) b := by
  have l1 := flat_len (env := env.toBEnv) h1
  simp only [WF] at h1
  simp only [rows] at o1 o2
  obtain ⟨i1, i2, i3, i4⟩ := intoNullable_ok h1.2 n1
  have hmap : vals.map (fun y => nativeOp op y (.prim q)) = List.zipWith (nativeOp op) vals (List.replicate vals.length (.prim q)) := by
    exact map_zip_replicate _ _ _
  have hz : (vals.map (fun y => nativeOp op y (.prim q))).length = vals.length := by simp
  rw [← hz] at i1
  obtain ⟨f1, f2, f3, f4⟩ := flatBool_ok i1 i2 i3 rfl
  refine ⟨_, ?_, ⟨f1.trans ?_, f2, f3, .inl f4⟩⟩
  · simp only [primConst, mkBool_ok hl i1]
  · simp only [rows]
    rw [hz, i4, hmap]
    have := masked_op (p := p) op vals (List.replicate vals.length (.prim q)) _ (List.replicate vals.length true) l1 (by simp) (by simp) h1.1
      (by intro x hx; rw [List.eq_of_mem_replicate hx]; simp [Kind.has, hq]) o1 (by rw [masked_allTrue]; exact o2)
    rw [masked_allTrue, replicate_and_right _ _ l1.symm] at this
    exact this

/-! ### Arrow -/

theorem arrowRows_nice (hl : LeafLaws env.toEnv leafRows ok) (lb : LeafBulk env.toBEnv leafRows ok) {a : Arr L}
    (hw : WF env.toEnv leafRows ok a) (hn : Nice env.toEnv leafRows a) :
    arrowRows env (bulks env.toBEnv (depth a)) a = .ok (rows env.toEnv leafRows a) := by
  have H := blaws hl lb (depth a)
  obtain ⟨k, vals, v, h1, h2, h3, h4⟩ := H.canon a hw hn (Nat.le_refl _)
  have hnv : NiceV env.toEnv leafRows v := by simpa only [Nice] using h3.nice hn
  have hd : depthV v ≤ depth a := by have := h3.depth; simp only [depth] at this; omega
  have h2' := h2
  simp only [WF] at h2'
  obtain ⟨lv, g1, g2⟩ := logicalV_ok H h2'.2 hnv hd
  simp only [arrowRows, h1, Res.ok_bind, g1]
  rw [← h4]
  simp only [rows, g2]
  rfl

/-- What arrow sees, when it sees something. -/
theorem arrowRows_sound (hl : LeafLaws env.toEnv leafRows ok) (lb : LeafBulk env.toBEnv leafRows ok) {a : Arr L} {xs : List SV}
    (hw : WF env.toEnv leafRows ok a) (hs : Shape env leafRows a) (hc : ∀ dt cs, a ≠ .chunked dt cs)
    (h : arrowRows env (bulks env.toBEnv (depth a)) a = .ok xs) : xs = rows env.toEnv leafRows a := by
  have nice : Nice env.toEnv leafRows a → xs = rows env.toEnv leafRows a := by
    intro hn
    rw [arrowRows_nice hl lb hw hn] at h
    injection h with h
    exact h.symm
  cases a with
  | null n =>
    simp only [arrowRows, depth, bulks, bstep, canonFn, Res.ok_bind] at h
    injection h with h
    simp only [rows, ← h]
  | struct names fs n v =>
    have : (bulks env.toBEnv (depth (.struct names fs n v))).canon (.struct names fs n v) = .ok (.struct names fs n v) := by
      simp only [depth]
      rw [Nat.add_comm]
      simp [bulks, bstep, canonFn]
    simp only [arrowRows, this, Res.ok_bind] at h
    cases h
  | ext id m s =>
    have hd : depth (.ext id m s) = depth s + 1 := by simp only [depth]; omega
    have : (bulks env.toBEnv (depth (.ext id m s))).canon (.ext id m s) = .ok (.ext id m s) := by
      rw [hd]
      simp [bulks, bstep, canonFn]
    simp only [arrowRows, this, Res.ok_bind] at h
    split at h
    · cases h
    · rename_i p _ _
      simp only [WF] at hw
      simp only [Shape, Path] at hs
      have H := blaws hl lb (depth (.ext id m s))
      obtain ⟨k, vals, v, h1, h2, h3, h4⟩ := H.canon s hw hs.1 (by omega)
      have hnv : NiceV env.toEnv leafRows v := by simpa only [Nice] using h3.nice hs.1
      have hdv : depthV v ≤ depth (.ext id m s) := by have := h3.depth; simp only [depth] at this ⊢; omega
      have h2' := h2
      simp only [WF] at h2'
      obtain ⟨lv, g1, g2⟩ := logicalV_ok H h2'.2 hnv hdv
      simp only [h1, Res.ok_bind, asFlat, g1] at h
      split at h
      · injection h with h
        simp only [rows]
        rw [← h4, ← h]
        simp only [rows, g2]
        rfl
      · cases h
  | chunked dt cs => exact absurd rfl (hc dt cs)
  | leaf l => exact nice ((Path_end rfl).mp hs |>.resolve_left (by simp [isNullOrStruct]))
  | flat k vals v => exact nice ((Path_end rfl).mp hs |>.resolve_left (by simp [isNullOrStruct]))
  | const dt x n => exact nice ((Path_end rfl).mp hs |>.resolve_left (by simp [isNullOrStruct]))
  | sparse is vs n off fill => exact nice ((Path_end rfl).mp hs |>.resolve_left (by simp [isNullOrStruct]))
  | dict codes vs => exact nice ((Path_end rfl).mp hs |>.resolve_left (by simp [isNullOrStruct]))
  | runEnd ends vs v off n => exact nice ((Path_end rfl).mp hs |>.resolve_left (by simp [isNullOrStruct]))
  | mapped c enc => exact nice ((Path_end rfl).mp hs |>.resolve_left (by simp [isNullOrStruct]))
  | alpP e f enc patches => exact nice ((Path_end rfl).mp hs |>.resolve_left (by simp [isNullOrStruct]))

end Vx.Tree
