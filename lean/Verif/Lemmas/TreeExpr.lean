import Verif.Spec.TreeExpr
import Verif.Lemmas.TreeCompareSound
/-! # Boolean operators, expressions and row filters over encoded arrays -/
namespace Vx.Tree
open Spec
open RowExpr (Field)

variable {L : Type} {env : CEnv L} {leafRows : L → List SV} {ok : L → Prop}

/-- What a boolean operator must give. -/
structure BoolAnswer (env : CEnv L) (leafRows : L → List SV) (ok : L → Prop) (both : Bool) (l r b : Arr L) : Prop where
  rows : rows env.toEnv leafRows b = List.zipWith (boolRow both) (rows env.toEnv leafRows l) (rows env.toEnv leafRows r)
  wf : WF env.toEnv leafRows ok b
  nice : Nice env.toEnv leafRows b
  dtype : dtype env.toEnv b = .bool true

/-- What is required of the cached `IsConstant` statistic besides its truth: the array can be read. -/
def Readable (env : CEnv L) (leafRows : L → List SV) : Prop := ∀ a, env.isConst a = true → Regular env.toEnv leafRows true a

theorem boolType {d : DType} (h : isBooleanType d = true) : ∃ n, d = .bool n := by
  cases d <;> simp [isBooleanType] at h
  exact ⟨_, rfl⟩

/-- A decodable boolean array decodes to a plain boolean array. -/
theorem canon_bool (hl : LeafLaws env.toEnv leafRows ok) (lb : LeafBulk env.toBEnv leafRows ok) {a : Arr L}
    (hw : WF env.toEnv leafRows ok a) (hn : Nice env.toEnv leafRows a) (hd : isBooleanType (dtype env.toEnv a) = true) :
    ∃ vals v, (bulks env.toBEnv (depth a)).canon a = .ok (.flat .bool vals v) ∧ WF env.toEnv leafRows ok (.flat .bool vals v) ∧
      NiceV env.toEnv leafRows v ∧ rows env.toEnv leafRows (.flat .bool vals v) = rows env.toEnv leafRows a := by
  obtain ⟨k, vals, v, h1, h2, h3, h4⟩ := (blaws hl lb (depth a)).canon a hw hn (Nat.le_refl _)
  obtain ⟨n, hn'⟩ := boolType hd
  have hk := h3.dtype
  simp only [dtype, hn'] at hk
  have : k = .bool := by
    have := (kind_of_dtype hk).1
    simp only [kindOf, Option.some.injEq] at this
    exact this.symm
  subst this
  exact ⟨vals, v, h1, h2, by simpa only [Nice] using h3.nice hn, h4⟩

theorem has_boolean {x : SV} (h : Kind.bool.has x = true) : ∃ b, x = .bool b := by
  cases x <;> simp [Kind.has] at h
  exact ⟨_, rfl⟩

theorem masked_mem : ∀ (vals : List SV) (m : List Bool), ∀ r ∈ masked vals m, r = .null ∨ r ∈ vals
  | [], _, _, h => by simp [masked] at h
  | _ :: _, [], _, h => by simp [masked] at h
  | x :: xs, b :: bs, r, h => by
    simp only [masked, List.zipWith_cons_cons, List.mem_cons] at h
    rcases h with h | h
    · cases b
      · exact .inl (by simpa using h)
      · exact .inr (by simp at h; subst h; exact List.mem_cons_self)
    · rcases masked_mem xs bs r h with h | h
      · exact .inl h
      · exact .inr (List.mem_cons_of_mem _ h)

/-- The rows of a decodable boolean array are booleans and nulls. -/
theorem rows_bool (hl : LeafLaws env.toEnv leafRows ok) (lb : LeafBulk env.toBEnv leafRows ok) {a : Arr L}
    (hw : WF env.toEnv leafRows ok a) (hn : Nice env.toEnv leafRows a) (hd : isBooleanType (dtype env.toEnv a) = true) :
    ∀ r ∈ rows env.toEnv leafRows a, r = .null ∨ ∃ b, r = .bool b := by
  obtain ⟨vals, v, _, h2, _, h4⟩ := canon_bool hl lb hw hn hd
  intro r hr
  rw [← h4] at hr
  simp only [rows] at hr
  simp only [WF] at h2
  rcases masked_mem _ _ r hr with h | h
  · exact .inl h
  · exact .inr (has_boolean (h2.1 r h))

theorem arrowBool_eq (both : Bool) {x y : SV} (hx : x = .null ∨ ∃ b, x = .bool b) (hy : y = .null ∨ ∃ b, y = .bool b) :
    arrowBool both x y = boolRow both x y := by
  rcases hx with rfl | ⟨a, rfl⟩ <;> rcases hy with rfl | ⟨b, rfl⟩ <;> simp [arrowBool, boolRow, SV.isNull, isTrue]

theorem zip_arrowBool (both : Bool) : ∀ (xs ys : List SV), (∀ r ∈ xs, r = .null ∨ ∃ b, r = .bool b) → (∀ r ∈ ys, r = .null ∨ ∃ b, r = .bool b) →
    List.zipWith (arrowBool both) xs ys = List.zipWith (boolRow both) xs ys
  | [], _, _, _ => by simp
  | _ :: _, [], _, _ => by simp
  | x :: xs, y :: ys, hx, hy => by
    simp only [List.zipWith_cons_cons]
    rw [arrowBool_eq both (hx x List.mem_cons_self) (hy y List.mem_cons_self),
      zip_arrowBool both xs ys (fun r h => hx r (List.mem_cons_of_mem _ h)) (fun r h => hy r (List.mem_cons_of_mem _ h))]

theorem boolRow_bool (both : Bool) (x y : SV) : boolRow both x y = .null ∨ ∃ b, boolRow both x y = .bool b := by
  cases x <;> cases y <;> simp [boolRow]

theorem zip_boolRow_bool (both : Bool) (xs ys : List SV) : ∀ r ∈ List.zipWith (boolRow both) xs ys, r = .null ∨ ∃ b, r = .bool b := by
  intro r hr
  rw [List.mem_iff_getElem] at hr
  obtain ⟨i, hi, rfl⟩ := hr
  rw [List.getElem_zipWith]
  exact boolRow_bool both _ _

theorem boolRow_comm (both : Bool) (x y : SV) : boolRow both x y = boolRow both y x := by
  cases x <;> cases y <;> simp [boolRow]
  cases both <;> simp [Bool.and_comm, Bool.or_comm]

theorem BoolAnswer.swap {both : Bool} {l r b : Arr L} (h : BoolAnswer env leafRows ok both l r b) : BoolAnswer env leafRows ok both r l b where
  rows := by
    rw [h.rows, List.zipWith_comm]
    congr 1
    funext x y
    exact boolRow_comm both y x
  wf := h.wf
  nice := h.nice
  dtype := h.dtype

theorem boolImpl_ok (hl : LeafLaws env.toEnv leafRows ok) (lb : LeafBulk env.toBEnv leafRows ok) {both : Bool} {l r : Arr L}
    (hw : WF env.toEnv leafRows ok l) (hn : Nice env.toEnv leafRows l) (hd : isBooleanType (dtype env.toEnv l) = true)
    (hw' : WF env.toEnv leafRows ok r) (hn' : Nice env.toEnv leafRows r) (hd' : isBooleanType (dtype env.toEnv r) = true) :
    ∃ b, boolImpl env both l r = .ok b ∧ BoolAnswer env leafRows ok both l r b := by
  simp only [boolImpl, arrowRows_nice hl lb hw hn, arrowRows_nice hl lb hw' hn', Res.ok_bind,
    zip_arrowBool both _ _ (rows_bool hl lb hw hn hd) (rows_bool hl lb hw' hn' hd')]
  obtain ⟨b, b1, b2, b3, b4, b5⟩ := fromArrowBools_ok (env := env) (leafRows := leafRows) (ok := ok) _ (zip_boolRow_bool both
    (rows env.toEnv leafRows l) (rows env.toEnv leafRows r))
  exact ⟨b, b1, b2, b3, b4, b5⟩

/-- The row an optional boolean stands for. -/
def optRow : Option Bool → SV
  | some b => .bool b
  | none => .null

theorem asBool_ok {x : SV} {o : Option Bool} (h : asBool x = .ok o) : x = optRow o := by
  cases x <;> simp [asBool] at h <;> subst h <;> rfl

theorem first_read (hl : LeafLaws env.toEnv leafRows ok) {r : Arr L} {y : SV} (hw : WF env.toEnv leafRows ok r)
    (hg : Regular env.toEnv leafRows true r) (hs : Arr.scalarAt env.toEnv r 0 = .ok y) : (rows env.toEnv leafRows r)[0]? = some y := by
  have hlen := len_eq hl r hw
  have hpos : 0 < len env.toEnv r := by
    rcases Nat.eq_zero_or_pos (len env.toEnv r) with h0 | h0
    · simp only [Arr.scalarAt] at hs
      have := depth_pos r
      obtain ⟨d, hd⟩ : ∃ d, depth r = d + 1 := ⟨depth r - 1, by omega⟩
      rw [hd] at hs
      simp only [ops, step, scalarAt, h0, ge_iff_le, Nat.le_refl, if_true] at hs
      cases hs
    · exact h0
  obtain ⟨z, hz⟩ : ∃ z, (rows env.toEnv leafRows r)[0]? = some z := by
    rw [hlen] at hpos
    exact ⟨_, List.getElem?_eq_getElem hpos⟩
  have := (laws hl (depth r)).scalarAt r 0 z hw hg (Nat.le_refl _) hz
  simp only [Arr.scalarAt, this] at hs
  injection hs with hs
  rw [hz, hs]

theorem constBools_answer {both : Bool} {dt : DType} {n : Nat} {r : Arr L} {a b : Option Bool} (hd : isBooleanType dt = true)
    (hr : rows env.toEnv leafRows r = List.replicate n (optRow b)) :
    BoolAnswer env leafRows ok both (.const dt (optRow a) n) r (constBools both dt n a b) := by
  obtain ⟨nl, rfl⟩ := boolType hd
  cases a <;> cases b <;> refine ⟨?_, ?_, ?_, ?_⟩ <;>
    simp [constBools, rows, hr, WF, Nice, kindOf, inst, dtype, DType.withNullability, boolRow, List.zipWith_replicate, optRow, DType.isNullable]

theorem constImpl_sound (hl : LeafLaws env.toEnv leafRows ok) (lb : LeafBulk env.toBEnv leafRows ok) (lc : LeafCompare env leafRows ok)
    (hr : Readable env leafRows) {both : Bool} {dt : DType} {x : SV} {n : Nat} {r b : Arr L}
    (hw : WF env.toEnv leafRows ok (.const dt x n : Arr L)) (hd : isBooleanType dt = true)
    (hw' : WF env.toEnv leafRows ok r) (hn' : Nice env.toEnv leafRows r) (hd' : isBooleanType (dtype env.toEnv r) = true)
    (hlen : n = (rows env.toEnv leafRows r).length)
    (h : constImpl env both dt x n r = .ok b) : BoolAnswer env leafRows ok both (.const dt x n) r b := by
  unfold constImpl at h
  split at h
  · rename_i hk
    simp only [Res.bind_eq_ok] at h
    obtain ⟨a, ha, y, hy, c, hc, h⟩ := h
    injection h with h; subst h
    have hg : Regular env.toEnv leafRows true r := by
      cases r with
      | const => trivial
      | _ => exact hr _ hk
    have hfirst := first_read hl hw' hg hy
    have hymem : y ∈ rows env.toEnv leafRows r := List.mem_of_getElem? hfirst
    have hrows : rows env.toEnv leafRows r = List.replicate n y := by
      rw [List.eq_replicate_iff]
      exact ⟨hlen.symm, fun z hz => known_rows lc hk z hz y hymem⟩
    rw [asBool_ok ha]
    rw [asBool_ok hc] at hrows
    exact constBools_answer hd hrows
  · split at h
    · rename_i vals v _
      obtain ⟨nl, rfl⟩ := boolType hd
      obtain ⟨b', h1, h2⟩ := boolImpl_ok (both := both) hl lb hw' hn' hd' hw (by simp [Nice, kindOf]) (by simpa only [dtype] using hd)
      rw [h] at h1; injection h1 with h1; subst h1
      exact h2.swap
    · cases h

theorem ownBool_sound (hl : LeafLaws env.toEnv leafRows ok) (lb : LeafBulk env.toBEnv leafRows ok) (lc : LeafCompare env leafRows ok)
    (hr : Readable env leafRows) {both : Bool} {l r b : Arr L}
    (hw : WF env.toEnv leafRows ok l) (hn : Nice env.toEnv leafRows l) (hd : isBooleanType (dtype env.toEnv l) = true)
    (hw' : WF env.toEnv leafRows ok r) (hn' : Nice env.toEnv leafRows r) (hd' : isBooleanType (dtype env.toEnv r) = true)
    (hlen : (rows env.toEnv leafRows l).length = (rows env.toEnv leafRows r).length)
    (h : ownBool env both l r = some (.ok b)) : BoolAnswer env leafRows ok both l r b := by
  unfold ownBool at h
  split at h
  · injection h with h
    obtain ⟨b', h1, h2⟩ := boolImpl_ok (both := both) hl lb hw hn hd hw' hn' hd'
    rw [h] at h1; injection h1 with h1; subst h1
    exact h2
  · injection h with h
    exact constImpl_sound hl lb lc hr hw (by simpa only [dtype] using hd) hw' hn' hd' (by simpa [rows] using hlen) h
  · cases h

theorem boolOp_sound (hl : LeafLaws env.toEnv leafRows ok) (lb : LeafBulk env.toBEnv leafRows ok) (lc : LeafCompare env leafRows ok)
    (hr : Readable env leafRows) {both : Bool} {l r b : Arr L}
    (hw : WF env.toEnv leafRows ok l) (hn : Nice env.toEnv leafRows l) (hw' : WF env.toEnv leafRows ok r) (hn' : Nice env.toEnv leafRows r)
    (h : Arr.boolOp env both l r = .ok b) : BoolAnswer env leafRows ok both l r b ∧
      (rows env.toEnv leafRows l).length = (rows env.toEnv leafRows r).length := by
  unfold Arr.boolOp at h
  split at h
  · cases h
  rename_i hlen
  have hlen : (rows env.toEnv leafRows l).length = (rows env.toEnv leafRows r).length := by
    rw [← len_eq hl l hw, ← len_eq hl r hw', Decidable.not_not.mp hlen]
  split at h
  · cases h
  rename_i hd
  simp only [Bool.or_eq_true, Bool.not_eq_true', not_or, Bool.not_eq_false] at hd
  refine ⟨?_, hlen⟩
  split at h
  · rename_i res hown
    subst h
    exact ownBool_sound hl lb lc hr hw hn hd.1 hw' hn' hd.2 hlen hown
  · split at h
    · rename_i res hown
      subst h
      exact (ownBool_sound hl lb lc hr hw' hn' hd.2 hw hn hd.1 hlen.symm hown).swap
    · unfold decodeBool at h
      obtain ⟨vals, v, h1, h2, h3, h4⟩ := canon_bool hl lb hw hn hd.1
      simp only [h1, Res.ok_bind] at h
      obtain ⟨b', g1, g2⟩ := boolImpl_ok (both := both) hl lb h2 (by simpa only [Nice] using h3) rfl hw' hn' hd.2
      rw [h] at g1; injection g1 with g1; subst g1
      exact ⟨by rw [g2.rows, h4], g2.wf, g2.nice, g2.dtype⟩

/-! ### Expressions -/

theorem zip_map (f : SV → SV → SV) (g h : Nat → SV) : ∀ xs : List Nat, List.zipWith f (xs.map g) (xs.map h) = xs.map (fun i => f (g i) (h i))
  | [] => rfl
  | x :: xs => by simp [zip_map f g h xs]

theorem evalColumn_pick {f : Field} {names : List Str} {fs : List (Arr L)} {n : Nat} {v : TVal (Arr L)} {a : Arr L}
    (h : evalColumn f (.struct names fs n v) = .ok a) : pickCol names fs f = some a := by
  cases f with
  | name m =>
    simp only [evalColumn] at h
    simp only [pickCol]
    cases h' : (DType.findName names m).bind (fun i => fs[i]?) <;> rw [h'] at h <;> simp_all [Res.ofOption]
  | index i =>
    simp only [evalColumn] at h
    simp only [pickCol]
    cases h' : fs[i]? <;> rw [h'] at h <;> simp_all [Res.ofOption]

theorem pickCol_mem {f : Field} {names : List Str} {fs : List α} {a : α} (h : pickCol names fs f = some a) : a ∈ fs := by
  cases f with
  | name m =>
    simp only [pickCol, Option.bind_eq_some_iff] at h
    obtain ⟨i, _, h⟩ := h
    exact List.mem_of_getElem? h
  | index i => exact List.mem_of_getElem? h

theorem list_range_map (xs : List SV) : xs = (List.range xs.length).map (fun i => (xs[i]?).getD .null) := by
  apply List.ext_getElem?
  intro i
  by_cases h : i < xs.length
  · simp [h]
  · simp [h]

theorem rowsEach_mem {c : Arr L} : ∀ {fs : List (Arr L)}, c ∈ fs → rows env.toEnv leafRows c ∈ rowsEach env.toEnv leafRows fs
  | _ :: _, h => by
    rcases List.mem_cons.mp h with rfl | h
    · exact List.mem_cons_self
    · exact List.mem_cons_of_mem _ (rowsEach_mem h)

theorem atom_rows {names : List Str} {fs : List (Arr L)} {n : Nat} {v : TVal (Arr L)} (hw : WF env.toEnv leafRows ok (.struct names fs n v))
    {e : TExpr} (he : e.atom = true) {a : Arr L} (h : e.eval env (.struct names fs n v) = .ok a) :
    rows env.toEnv leafRows a = (List.range n).map (fun i => e.value (cell env leafRows names fs i)) := by
  cases e with
  | bin => cases he
  | lit dt x =>
    simp only [TExpr.eval, Tree.len] at h
    injection h with h; subst h
    simp [rows, TExpr.value, List.map_const']
  | col f =>
    have hp := evalColumn_pick h
    simp only [WF] at hw
    have hn := hw.2.2.1 _ (rowsEach_mem (pickCol_mem hp))
    simp only [TExpr.value, cell, hp]
    conv => lhs; rw [list_range_map (rows env.toEnv leafRows a), hn]

theorem opValue_cmp {op : RowExpr.Op} {o : Op} (h : cmpOp op = some o) (x y : SV) : opValue op x y = opRow o x y := by
  cases op <;> simp [cmpOp] at h <;> subst h <;> rfl

theorem opValue_bool {op : RowExpr.Op} (h : cmpOp op = none) (x y : SV) : opValue op x y = boolRow (decide (op = .and)) x y := by
  cases op <;> simp [cmpOp] at h <;> rfl

theorem eval_sound (hl : LeafLaws env.toEnv leafRows ok) (lb : LeafBulk env.toBEnv leafRows ok) (lc : LeafCompare env leafRows ok)
    (hr : Readable env leafRows) {names : List Str} {fs : List (Arr L)} {n : Nat} {v : TVal (Arr L)}
    (hw : WF env.toEnv leafRows ok (.struct names fs n v)) : ∀ (e : TExpr) (a : Arr L),
    Claimed env leafRows ok (.struct names fs n v) e → e.eval env (.struct names fs n v) = .ok a →
    rows env.toEnv leafRows a = (List.range n).map (fun i => e.value (cell env leafRows names fs i)) ∧
      WF env.toEnv leafRows ok a ∧ Nice env.toEnv leafRows a
  | .col f, a, hc, h => ⟨atom_rows hw rfl h, hc a h⟩
  | .lit dt x, a, hc, h => ⟨atom_rows hw rfl h, hc a h⟩
  | .bin l op r, b, hc, h => by
    have h0 := h
    simp only [TExpr.eval, Res.bind_eq_ok] at h
    obtain ⟨x, hx, y, hy, h⟩ := h
    unfold applyOp at h
    unfold Claimed at hc
    cases ho : cmpOp op with
    | some o =>
      rw [ho] at h hc
      simp only at h hc
      have ans := compareF_sound hl lb lc _ o x y b h (hc.2.2 x y hx hy)
      refine ⟨?_, ans.wf, ans.nice⟩
      rw [ans.rows, atom_rows hw hc.1 hx, atom_rows hw hc.2.1 hy, zip_map]
      simp only [TExpr.value, opValue_cmp ho]
    | none =>
      rw [ho] at h hc
      simp only at h hc
      obtain ⟨x1, x2, x3⟩ := eval_sound hl lb lc hr hw l x hc.1 hx
      obtain ⟨y1, y2, y3⟩ := eval_sound hl lb lc hr hw r y hc.2 hy
      obtain ⟨ans, _⟩ := boolOp_sound hl lb lc hr x2 x3 y2 y3 h
      refine ⟨?_, ans.wf, ans.nice⟩
      rw [ans.rows, x1, y1, zip_map]
      simp only [TExpr.value, opValue_bool ho]

/-! ### Conjunctions -/

theorem split_ne : ∀ e : TExpr, e.split ≠ []
  | .col _ => by simp [TExpr.split]
  | .lit _ _ => by simp [TExpr.split]
  | .bin l op r => by
    simp only [TExpr.split]
    split
    · simp [split_ne l]
    · simp

theorem isTrue_boolRow (x y : SV) : isTrue (boolRow true x y) = (isTrue x && isTrue y) := by
  cases x <;> cases y <;> simp [boolRow, isTrue]

theorem holds_isTrue (get : Field → SV) (e : TExpr) : e.holds get = isTrue (e.value get) := by
  unfold TExpr.holds
  cases e.value get with
  | bool b => cases b <;> rfl
  | _ => rfl

theorem split_holds (get : Field → SV) : ∀ e : TExpr, e.split.all (fun c => c.holds get) = e.holds get
  | .col _ => by simp [TExpr.split]
  | .lit _ _ => by simp [TExpr.split]
  | .bin l op r => by
    simp only [TExpr.split]
    split
    · rename_i h
      subst h
      rw [List.all_append, split_holds get l, split_holds get r, holds_isTrue, holds_isTrue, holds_isTrue]
      simp only [TExpr.value, opValue, isTrue_boolRow]
    · simp

theorem split_claimed {batch : Arr L} : ∀ e : TExpr, Claimed env leafRows ok batch e → ∀ c ∈ e.split, Claimed env leafRows ok batch c
  | .col _, h, c, hc => by simp [TExpr.split] at hc; subst hc; exact h
  | .lit _ _, h, c, hc => by simp [TExpr.split] at hc; subst hc; exact h
  | .bin l op r, h, c, hc => by
    simp only [TExpr.split] at hc
    split at hc
    · rename_i ho
      subst ho
      simp only [Claimed, cmpOp] at h
      rcases List.mem_append.mp hc with hc | hc
      · exact split_claimed l h.1 c hc
      · exact split_claimed r h.2 c hc
    · simp at hc; subst hc; exact h

/-! ### True counts -/

theorem count_masked : ∀ (vals : List SV) (m : List Bool),
    (List.zipWith (fun x b => isTrue x && b) vals m).count true = (masked vals m).countP isTrue
  | [], _ => by simp [masked]
  | _ :: _, [] => by simp [masked]
  | x :: xs, b :: bs => by
    have ih := count_masked xs bs
    simp only [masked, List.zipWith_cons_cons, List.count_cons, List.countP_cons] at ih ⊢
    rw [ih]
    cases b <;> simp [isTrue]

theorem plainCount_eq (hl : LeafLaws env.toEnv leafRows ok) (lb : LeafBulk env.toBEnv leafRows ok) {vals : List SV} {v : TVal (Arr L)}
    (hw : WF env.toEnv leafRows ok (.flat .bool vals v)) (hn : NiceV env.toEnv leafRows v) :
    plainCount env vals v = if vals.length = 0 then none else some ((rows env.toEnv leafRows (.flat .bool vals v)).countP isTrue) := by
  unfold plainCount
  split
  · rfl
  simp only [WF] at hw
  obtain ⟨lv, g1, g2⟩ := logicalV_ok (blaws hl lb (depthV v)) hw.2 hn (Nat.le_refl _)
  rw [g1]
  simp only [rows, g2, count_masked]

theorem plainCount_true (hl : LeafLaws env.toEnv leafRows ok) (lb : LeafBulk env.toBEnv leafRows ok) {vals : List SV} {v : TVal (Arr L)} {n : Nat}
    (hw : WF env.toEnv leafRows ok (.flat .bool vals v)) (hn : NiceV env.toEnv leafRows v) (h : plainCount env vals v = some n) :
    n = (rows env.toEnv leafRows (.flat .bool vals v)).countP isTrue := by
  rw [plainCount_eq hl lb hw hn] at h
  split at h
  · cases h
  · injection h with h; exact h.symm

section
variable {cached : Arr L → Option Nat}

mutual
theorem tcount_true (hl : LeafLaws env.toEnv leafRows ok) (lb : LeafBulk env.toBEnv leafRows ok) (hh : HonestCounts env leafRows cached) :
    ∀ (a : Arr L) (n : Nat), WF env.toEnv leafRows ok a → Nice env.toEnv leafRows a → tcount env cached a = some n →
      n = (rows env.toEnv leafRows a).countP isTrue
  | .flat k vals v, n, hw, hn, h => by
    unfold tcount at h
    split at h
    · injection h with h; subst h
      exact hh _ _ (by assumption)
    · cases k with
      | bool => exact plainCount_true hl lb hw (by simpa only [Nice] using hn) h
      | _ => cases h
  | .const dt x m, n, hw, hn, h => by
    unfold tcount at h
    split at h
    · injection h with h; subst h
      exact hh _ _ (by assumption)
    · cases x with
      | bool b =>
        simp only [Option.some.injEq] at h
        subst h
        cases b <;> simp [rows, isTrue, List.countP_replicate]
      | _ => cases h
  | .chunked dt cs, n, hw, hn, h => by
    unfold tcount at h
    split at h
    · injection h with h; subst h
      exact hh _ _ (by assumption)
    · cases cs with
      | nil => cases h
      | cons c cs =>
        simp only at h
        simp only [WF, WFs] at hw
        simp only [Nice, Nices] at hn
        obtain ⟨k, hk, e⟩ := tcounts_true hl lb hh cs (tcount env cached c) n hw.1.2 hn.2.2 h
        have := tcount_true hl lb hh c k hw.1.1 hn.2.1 hk
        simp only [rows, rowsEach, List.flatten_cons, List.countP_append]
        rw [e, this]
  | .leaf l, n, hw, hn, h => by
    unfold tcount at h; split at h
    · injection h with h; subst h; exact hh _ _ (by assumption)
    · cases h
  | .null m, n, hw, hn, h => by cases hn
  | .struct _ _ _ _, n, hw, hn, h => by cases hn
  | .ext _ _ _, n, hw, hn, h => by cases hn
  | .sparse _ _ _ _ _, n, hw, hn, h => by
    unfold tcount at h; split at h
    · injection h with h; subst h; exact hh _ _ (by assumption)
    · cases h
  | .dict _ _, n, hw, hn, h => by
    unfold tcount at h; split at h
    · injection h with h; subst h; exact hh _ _ (by assumption)
    · cases h
  | .runEnd _ _ _ _ _, n, hw, hn, h => by
    unfold tcount at h; split at h
    · injection h with h; subst h; exact hh _ _ (by assumption)
    · cases h
  | .mapped _ _, n, hw, hn, h => by
    unfold tcount at h; split at h
    · injection h with h; subst h; exact hh _ _ (by assumption)
    · cases h
  | .alpP _ _ _ _, n, hw, hn, h => by
    unfold tcount at h; split at h
    · injection h with h; subst h; exact hh _ _ (by assumption)
    · cases h
theorem tcounts_true (hl : LeafLaws env.toEnv leafRows ok) (lb : LeafBulk env.toBEnv leafRows ok) (hh : HonestCounts env leafRows cached) :
    ∀ (cs : List (Arr L)) (acc : Option Nat) (n : Nat), WFs env.toEnv leafRows ok cs → Nices env.toEnv leafRows cs → tcounts env cached acc cs = some n →
      ∃ k, acc = some k ∧ n = k + (rowsEach env.toEnv leafRows cs).flatten.countP isTrue
  | [], acc, n, _, _, h => ⟨n, by unfold tcounts at h; exact h, by simp [rowsEach]⟩
  | c :: cs, acc, n, hw, hn, h => by
    unfold tcounts at h
    simp only [WFs] at hw
    simp only [Nices] at hn
    obtain ⟨k, hk, e⟩ := tcounts_true hl lb hh cs _ n hw.2 hn.2 h
    cases acc with
    | none => simp [Pred.mergeCount] at hk
    | some a =>
      cases ht : tcount env cached c with
      | none => rw [ht] at hk; simp [Pred.mergeCount] at hk
      | some m =>
        rw [ht] at hk
        simp only [Pred.mergeCount, Option.some.injEq] at hk
        have := tcount_true hl lb hh c m hw.1 hn.1 ht
        refine ⟨a, rfl, ?_⟩
        simp only [rowsEach, List.flatten_cons, List.countP_append]
        omega
end

theorem countP_zero {rs : List SV} (h : rs.countP isTrue = 0) : ∀ r ∈ rs, isTrue r = false := by
  intro r hr
  have := (List.countP_eq_zero.mp h) r hr
  simpa using this

/-- A mask that is a plain or constant array can be counted: if its count is not positive it has no true row. -/
theorem counted (hl : LeafLaws env.toEnv leafRows ok) (lb : LeafBulk env.toBEnv leafRows ok) (hh : HonestCounts env leafRows cached)
    {a : Arr L} (hw : WF env.toEnv leafRows ok a) (hn : Nice env.toEnv leafRows a)
    (hs : (tcount env cached a).isSome = true ∨ ∀ r ∈ rows env.toEnv leafRows a, isTrue r = false)
    (h : (tcount env cached a).getD 0 = 0) : ∀ r ∈ rows env.toEnv leafRows a, isTrue r = false := by
  rcases hs with hs | hs
  · cases ht : tcount env cached a with
    | none => rw [ht] at hs; cases hs
    | some k =>
      rw [ht] at h
      simp only [Option.getD_some] at h
      subst h
      exact countP_zero (tcount_true hl lb hh a 0 hw hn ht).symm
  · exact hs

/-- Plain boolean and constant arrays. -/
def plainMask : Arr L → Bool
  | .flat .bool _ _ => true
  | .const _ _ _ => true
  | _ => false

theorem plain_countable (hl : LeafLaws env.toEnv leafRows ok) (lb : LeafBulk env.toBEnv leafRows ok)
    {a : Arr L} (hw : WF env.toEnv leafRows ok a) (hn : Nice env.toEnv leafRows a) (hp : plainMask a = true) :
    (tcount env cached a).isSome = true ∨ ∀ r ∈ rows env.toEnv leafRows a, isTrue r = false := by
  unfold tcount
  split
  · exact .inl rfl
  cases a with
  | flat k vals v =>
    cases k with
    | bool =>
      simp only
      rw [plainCount_eq hl lb hw (by simpa only [Nice] using hn)]
      split
      · rename_i h0
        right
        intro r hr
        have hr := List.length_pos_of_mem hr
        rw [flat_rows_len hw] at hr
        omega
      · exact .inl rfl
    | _ => cases hp
  | const dt x m =>
    cases x with
    | bool b => exact .inl rfl
    | _ =>
      right
      intro r hr
      simp only [rows] at hr
      rw [List.eq_of_mem_replicate hr]
      rfl
  | _ => cases hp

theorem fromArrowBools_plain {rs : List SV} {b : Arr L} (h : fromArrowBools rs = .ok b) : plainMask b = true := by
  simp only [fromArrowBools, Res.bind_eq_ok] at h
  obtain ⟨w, _, h⟩ := h
  injection h with h; subst h; rfl

theorem boolImpl_plain {both : Bool} {l r b : Arr L} (h : boolImpl env both l r = .ok b) : plainMask b = true := by
  simp only [boolImpl, Res.bind_eq_ok] at h
  obtain ⟨_, _, _, _, h⟩ := h
  exact fromArrowBools_plain h

theorem ownBool_plain {both : Bool} {l r b : Arr L} (h : ownBool env both l r = some (.ok b)) : plainMask b = true := by
  unfold ownBool at h
  split at h
  · injection h with h; exact boolImpl_plain h
  · injection h with h
    unfold constImpl at h
    split at h
    · simp only [Res.bind_eq_ok] at h
      obtain ⟨a, _, _, _, c, _, h⟩ := h
      injection h with h; subst h
      cases a <;> cases c <;> rfl
    · split at h
      · exact boolImpl_plain h
      · cases h
  · cases h

theorem boolOp_plain {both : Bool} {l r b : Arr L} (h : Arr.boolOp env both l r = .ok b) : plainMask b = true := by
  unfold Arr.boolOp at h
  split at h
  · cases h
  split at h
  · cases h
  split at h
  · rename_i hown; subst h; exact ownBool_plain hown
  · split at h
    · rename_i hown; subst h; exact ownBool_plain hown
    · simp only [decodeBool, Res.bind_eq_ok] at h
      obtain ⟨c, _, h⟩ := h
      split at h
      · exact boolImpl_plain h
      · cases h

/-! ### Masks -/

/-- A finished mask: a plain non-nullable boolean array or a constant one, saying `sel` row by row. -/
structure Finished (env : CEnv L) (leafRows : L → List SV) (ok : L → Prop) (sel : List Bool) (m : Arr L) : Prop where
  rows : rows env.toEnv leafRows m = sel.map SV.bool
  wf : WF env.toEnv leafRows ok m
  dtype : dtype env.toEnv m = .bool false
  shape : (∃ vals, m = .flat .bool vals .nonNullable) ∨ (∃ n, m = .const (.bool false) (.bool false) n)

theorem masked_isTrue : ∀ (vals : List SV) (m : List Bool), vals.length = m.length →
    List.zipWith (fun x b => SV.bool (isTrue x && b)) vals m = (masked vals m).map (fun r => .bool (isTrue r))
  | [], _, _ => by simp [masked]
  | _ :: _, [], h => by simp at h
  | x :: xs, b :: bs, h => by
    have ih := masked_isTrue xs bs (by simpa using h)
    simp only [masked, List.zipWith_cons_cons, List.map_cons] at ih ⊢
    rw [ih]
    cases b <;> simp [isTrue]

theorem plainMask_rows {vals : List SV} : rows env.toEnv leafRows (.flat .bool vals .nonNullable : Arr L) = vals := by
  simp only [rows, maskOf]
  exact masked_replicate_true vals

theorem stored_isTrue {vals : List SV} (h : ∀ x ∈ vals, Kind.bool.has x = true) : vals = vals.map (fun r => .bool (isTrue r)) := by
  induction vals with
  | nil => rfl
  | cons x xs ih =>
    simp only [List.map_cons]
    rw [← ih (fun y hy => h y (List.mem_cons_of_mem _ hy))]
    obtain ⟨b, rfl⟩ := has_boolean (h x List.mem_cons_self)
    rfl

theorem finished_plain {bits : List Bool} : Finished env leafRows ok bits (.flat .bool (bits.map SV.bool) .nonNullable) where
  rows := plainMask_rows
  wf := by
    simp only [WF, WFV, and_true]
    intro x hx
    obtain ⟨b, _, rfl⟩ := List.mem_map.mp hx
    rfl
  dtype := rfl
  shape := .inl ⟨_, rfl⟩

theorem finishMask_ok (hl : LeafLaws env.toEnv leafRows ok) (lb : LeafBulk env.toBEnv leafRows ok) {a : Arr L}
    (hw : WF env.toEnv leafRows ok a) (hn : Nice env.toEnv leafRows a) (hd : isBooleanType (dtype env.toEnv a) = true) :
    ∃ m, finishMask env a = .ok m ∧ Finished env leafRows ok ((rows env.toEnv leafRows a).map isTrue) m := by
  obtain ⟨vals, v, h1, h2, h3, h4⟩ := canon_bool hl lb hw hn hd
  simp only [finishMask, h1, Res.ok_bind]
  have hl2 := flat_len h2
  have h2' := h2
  simp only [WF] at h2'
  have key : ∀ out : List SV, out = (masked vals (maskOf env.toEnv leafRows v vals.length)).map (fun r => .bool (isTrue r)) →
      Finished env leafRows ok ((rows env.toEnv leafRows a).map isTrue) (.flat .bool out .nonNullable) := by
    intro out ho
    have : out = ((rows env.toEnv leafRows a).map isTrue).map SV.bool := by
      rw [ho, ← h4]
      simp only [rows, List.map_map, Function.comp_def]
    rw [this]
    exact finished_plain
  cases v with
  | nonNullable =>
    refine ⟨_, rfl, key _ ?_⟩
    simp only [maskOf, masked_replicate_true]
    exact stored_isTrue h2'.1
  | allValid =>
    refine ⟨_, rfl, key _ ?_⟩
    simp only [maskOf, masked_replicate_true]
    exact stored_isTrue h2'.1
  | allInvalid =>
    refine ⟨_, rfl, key _ ?_⟩
    simp only [maskOf]
    rw [← masked_isTrue _ _ (by simp)]
    apply List.ext_getElem
    · simp
    · intro i h1 h2
      simp [List.getElem_zipWith]
  | array w =>
    simp only [WFV] at h2'
    have hb := bitsOf_ok (blaws hl lb (depth w)) h2'.2.1 (by simpa only [NiceV] using h3) (Nat.le_refl _) h2'.2.2.1 h2'.2.2.2.2
    simp only [nullsFalse, hb, Res.ok_bind]
    refine ⟨_, rfl, key _ ?_⟩
    rw [← masked_isTrue _ _ hl2, maskOf_array]

theorem holds_all (p q : Nat → Bool) (n : Nat) (h : ∀ r ∈ (List.range n).map p, r = false) :
    (List.range n).map (fun i => p i && q i) = List.replicate n false := by
  rw [List.eq_replicate_iff]
  refine ⟨by simp, ?_⟩
  intro b hb
  obtain ⟨i, hi, rfl⟩ := List.mem_map.mp hb
  rw [h _ (List.mem_map.mpr ⟨i, hi, rfl⟩)]
  rfl

theorem maskLoop_sound (hl : LeafLaws env.toEnv leafRows ok) (lb : LeafBulk env.toBEnv leafRows ok) (lc : LeafCompare env leafRows ok)
    (hr : Readable env leafRows) (hh : HonestCounts env leafRows cached) {names : List Str} {fs : List (Arr L)} {n : Nat} {v : TVal (Arr L)}
    (hw : WF env.toEnv leafRows ok (.struct names fs n v)) : ∀ (es : List TExpr) (mask m : Arr L) (p : Nat → Bool),
    (∀ c ∈ es, Claimed env leafRows ok (.struct names fs n v) c) → WF env.toEnv leafRows ok mask → Nice env.toEnv leafRows mask →
    (rows env.toEnv leafRows mask).map isTrue = (List.range n).map p →
    (es ≠ [] → (tcount env cached mask).isSome = true ∨ ∀ r ∈ rows env.toEnv leafRows mask, isTrue r = false) →
    maskLoop env cached (.struct names fs n v) mask es = .ok m →
    Finished env leafRows ok ((List.range n).map (fun i => p i && es.all (fun c => c.holds (cell env leafRows names fs i)))) m
  | [], mask, m, p, _, hwm, hnm, hp, _, h => by
    simp only [maskLoop] at h
    simp only [List.all_nil, Bool.and_true]
    have hd : isBooleanType (dtype env.toEnv mask) = true := by
      obtain ⟨k, vals, v, h1, h2, h3, h4⟩ := (blaws hl lb (depth mask)).canon mask hwm hnm (Nat.le_refl _)
      simp only [finishMask, h1, Res.ok_bind] at h
      have hk := h3.dtype
      simp only [dtype] at hk
      cases k with
      | bool => rw [← hk]; rfl
      | _ => cases h
    obtain ⟨m', g1, g2⟩ := finishMask_ok hl lb hwm hnm hd
    rw [h] at g1; injection g1 with g1; subst g1
    rw [hp] at g2
    exact g2
  | e :: es, mask, m, p, hc, hwm, hnm, hp, hct, h => by
    unfold maskLoop at h
    split at h
    · rename_i h0
      have hz := counted hl lb hh hwm hnm (hct (by simp)) h0
      injection h with h; subst h
      rw [holds_all p _ n (by
        intro b hb
        rw [← hp] at hb
        obtain ⟨r, hr, rfl⟩ := List.mem_map.mp hb
        exact hz r hr)]
      refine ⟨by simp [rows, Tree.len], ?_, rfl, .inr ⟨_, rfl⟩⟩
      simp [WF, inst]
    · simp only [Res.bind_eq_ok] at h
      obtain ⟨x, hx, mask', hm, h⟩ := h
      obtain ⟨x1, x2, x3⟩ := eval_sound hl lb lc hr hw e x (hc e List.mem_cons_self) hx
      obtain ⟨ans, hlen⟩ := boolOp_sound hl lb lc hr x2 x3 hwm hnm hm
      have hrows : (rows env.toEnv leafRows mask').map isTrue =
          (List.range n).map (fun i => p i && e.holds (cell env leafRows names fs i)) := by
        rw [ans.rows]
        have : ∀ (xs ys : List SV), (List.zipWith (boolRow true) xs ys).map isTrue = List.zipWith (· && ·) (xs.map isTrue) (ys.map isTrue) := by
          intro xs
          induction xs with
          | nil => simp
          | cons x xs ih => intro ys; cases ys with
            | nil => simp
            | cons y ys => simp [isTrue_boolRow, ih]
        rw [this, hp, x1, List.map_map]
        rw [List.zipWith_map_left, List.zipWith_map_right]
        have : ∀ (f : Nat → Nat → Bool) (xs : List Nat), List.zipWith f xs xs = xs.map (fun i => f i i) := by
          intro f xs
          induction xs with
          | nil => rfl
          | cons x xs ih => simp [ih]
        rw [this]
        apply List.map_congr_left
        intro i _
        simp only [Function.comp, holds_isTrue]
        exact Bool.and_comm _ _
      have := maskLoop_sound hl lb lc hr hh hw es mask' m _ (fun c h => hc c (List.mem_cons_of_mem _ h)) ans.wf ans.nice hrows
        (fun _ => plain_countable hl lb ans.wf ans.nice (boolOp_plain hm)) h
      simp only [List.all_cons, ← Bool.and_assoc]
      exact this

theorem rowFilter_sound (hl : LeafLaws env.toEnv leafRows ok) (lb : LeafBulk env.toBEnv leafRows ok) (lc : LeafCompare env leafRows ok)
    (hr : Readable env leafRows) (hh : HonestCounts env leafRows cached) {names : List Str} {fs : List (Arr L)} {n : Nat} {v : TVal (Arr L)}
    (hw : WF env.toEnv leafRows ok (.struct names fs n v)) {e : TExpr} {m : Arr L} (hc : Claimed env leafRows ok (.struct names fs n v) e)
    (hct : Countable env leafRows cached (.struct names fs n v) e) (h : rowFilter env cached e (.struct names fs n v) = .ok m) :
    Finished env leafRows ok (selected env leafRows names fs n e) m := by
  unfold rowFilter at h
  unfold selected
  have hs : ∀ i, e.holds (cell env leafRows names fs i) = e.split.all (fun c => c.holds (cell env leafRows names fs i)) := fun i => (split_holds _ e).symm
  simp only [hs]
  have hcs := split_claimed e hc
  cases he : e.split with
  | nil => exact absurd he (split_ne e)
  | cons c cs =>
    rw [he] at h hcs
    simp only [evalConjuncts, Res.bind_eq_ok] at h
    obtain ⟨x, hx, h⟩ := h
    obtain ⟨x1, x2, x3⟩ := eval_sound hl lb lc hr hw c x (hcs c List.mem_cons_self) hx
    have := maskLoop_sound hl lb lc hr hh hw cs x m (fun i => c.holds (cell env leafRows names fs i)) (fun d hd => hcs d (List.mem_cons_of_mem _ hd)) x2 x3
      (by rw [x1, List.map_map]; apply List.map_congr_left; intro i _; simp only [Function.comp, holds_isTrue])
      (fun hne => by
        cases cs with
        | nil => exact absurd rfl hne
        | cons d ds => exact hct c d ds x he hx) h
    simpa only [List.all_cons] using this

end
end Vx.Tree
