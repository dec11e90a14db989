import Verif.Spec.FileScan
import Verif.Props.C28
import Verif.Props.C37
/-! # Lemmas about queries over files -/
namespace Vx.FileScan
open Vx.Layout
open Vx.DF (DExpr SqlV Ty Typed)
open Ipc (Bytes)

variable {V : Type}

/-! ## The filter on one batch -/

/-- A column of the given type. -/
def ColHas : Ty → RowExpr.Col V → Prop
  | .prim t, c => ∃ vs, c = .prims (t + 1) vs
  | .bool, c => ∃ bs, c = .bools bs

theorem colOf_typed {τ : Ty} {vs : List (RowExpr.Val V)} (h : ∀ v ∈ vs, Spec.HasTy τ v) :
    ∃ c, colOf τ vs = .ok c ∧ ColHas τ c ∧ c.len = vs.length ∧ ∀ i : Nat, c.at i = vs[i]? := by
  cases τ with
  | prim t =>
    have : ∃ xs : List (Option V), Res.mapM (primOf (t + 1)) vs = .ok xs ∧ vs = xs.map (RowExpr.Val.prim (t + 1)) := by
      induction vs with
      | nil => exact ⟨[], rfl, rfl⟩
      | cons v vs ih =>
        obtain ⟨xs, h1, h2⟩ := ih (fun v hv => h v (by simp [hv]))
        obtain ⟨x, rfl⟩ := h v (by simp)
        exact ⟨x :: xs, by simp only [Res.mapM_cons, primOf, if_true, Res.ok_bind, h1], by simp [h2]⟩
    obtain ⟨xs, h1, h2⟩ := this
    refine ⟨.prims (t + 1) xs, by simp only [colOf, h1, Res.ok_bind], ⟨xs, rfl⟩, by simp [RowExpr.Col.len, h2], ?_⟩
    intro i; rw [h2]; simp [RowExpr.Col.at]
  | bool =>
    have : ∃ xs : List (Option Bool), Res.mapM boolOf vs = .ok xs ∧ vs = xs.map RowExpr.Val.bool := by
      induction vs with
      | nil => exact ⟨[], rfl, rfl⟩
      | cons v vs ih =>
        obtain ⟨xs, h1, h2⟩ := ih (fun v hv => h v (by simp [hv]))
        obtain ⟨x, rfl⟩ := h v (by simp)
        exact ⟨x :: xs, by simp only [Res.mapM_cons, boolOf, Res.ok_bind, h1], by simp [h2]⟩
    obtain ⟨xs, h1, h2⟩ := this
    refine ⟨.bools xs, by simp only [colOf, h1, Res.ok_bind], ⟨xs, rfl⟩, by simp [RowExpr.Col.len, h2], ?_⟩
    intro i; rw [h2]; simp [RowExpr.Col.at]

/-- The values of a struct row of leaves. -/
def valuesOf : Layout.Row (RowExpr.Val V) → List (Str × RowExpr.Val V)
  | .leaf _ => []
  | .struct fs => fs.filterMap fun f => match f.2 with
    | .leaf v => some (f.1, v)
    | .struct _ => none

/-- Field `k` of every row of `g` is a value of type `τ` called `n`. -/
def FieldTyped (g : Rows (RowExpr.Val V)) (k : Nat) (n : Str) (τ : Ty) : Prop :=
  ∀ r ∈ g, ∃ fs v, r = .struct fs ∧ fs[k]? = some (n, .leaf v) ∧ Spec.HasTy τ v

theorem fieldAt_typed {g : Rows (RowExpr.Val V)} {k : Nat} {n : Str} {τ : Ty} (h : FieldTyped g k n τ) :
    ∃ vs, Res.mapM (fieldAt k) g = .ok vs ∧ vs.length = g.length ∧ (∀ v ∈ vs, Spec.HasTy τ v) ∧
      ∀ (i : Nat) (fs : List (Str × Layout.Row (RowExpr.Val V))), g[i]? = some (.struct fs) → fs[k]? = (vs[i]?).map fun v => (n, .leaf v) := by
  induction g with
  | nil => exact ⟨[], rfl, rfl, by simp, by simp⟩
  | cons r g ih =>
    obtain ⟨vs, h1, h2, h3, h4⟩ := ih (fun r hr => h r (by simp [hr]))
    obtain ⟨fs, v, rfl, hf, hv⟩ := h r (by simp)
    refine ⟨v :: vs, by simp only [Res.mapM_cons, fieldAt, hf, Res.ofOption_some, Res.ok_bind, leafOf, h1], by simp [h2], ?_, ?_⟩
    · intro w hw
      simp only [List.mem_cons] at hw
      rcases hw with rfl | hw
      · exact hv
      · exact h3 w hw
    · intro i fs' hi
      cases i with
      | zero => simp only [List.getElem?_cons_zero, Option.some.injEq, Layout.Row.struct.injEq] at hi; subst hi; simp [hf]
      | succ i => simpa using h4 i fs' (by simpa using hi)

theorem drop_eq_cons {β : Type} {l : List β} {k : Nat} {x : β} (h : l[k]? = some x) : l.drop k = x :: l.drop (k + 1) := by
  obtain ⟨hk, rfl⟩ := List.getElem?_eq_some_iff.mp h
  exact List.drop_eq_getElem_cons hk

theorem colsOf_typed {kind : DType → Option Ty} {g : Rows (RowExpr.Val V)} (hlen : ∀ r ∈ g, ∃ fs, r = .struct fs) :
    ∀ (ns : List Str) (ds : List DType) (k : Nat), ns.length = ds.length →
      (∀ r ∈ g, ∀ fs, r = .struct fs → fs.length = k + ns.length) →
      (∀ (j : Nat) (n : Str) (d : DType), ns[j]? = some n → ds[j]? = some d → ∃ τ, kind d = some τ ∧ FieldTyped g (k + j) n τ) →
      ∃ cs, colsOf kind g k ns ds = .ok cs ∧ cs.map (·.1) = ns ∧ (∀ c ∈ cs, c.2.len = g.length) ∧
        (∀ (j : Nat) (d : DType) (τ : Ty) c, ds[j]? = some d → kind d = some τ → cs[j]? = some c → ColHas τ c.2) ∧
        ∀ (i : Nat) (fs : List (Str × Layout.Row (RowExpr.Val V))), g[i]? = some (.struct fs) →
          cs.filterMap (fun c => (c.2.at i).map fun v => (c.1, v)) = valuesOf (.struct (fs.drop k))
  | [], [], k, _, hl, _ => by
    refine ⟨[], rfl, rfl, by simp, by simp, ?_⟩
    intro i fs hi
    have := hl _ (List.mem_of_getElem? hi) fs rfl
    rw [List.drop_eq_nil_of_le (by simpa using Nat.le_of_eq this)]; rfl
  | [], _ :: _, _, h, _, _ => by simp at h
  | _ :: _, [], _, h, _, _ => by simp at h
  | n :: ns, d :: ds, k, h, hl, hc => by
    obtain ⟨τ, hτ, hft⟩ := hc 0 n d rfl rfl
    obtain ⟨vs, v1, v2, v3, v4⟩ := fieldAt_typed hft
    obtain ⟨c, c1, c2, c3, c4⟩ := colOf_typed v3
    obtain ⟨cs, h1, h2, h3, h4, h5⟩ := colsOf_typed hlen ns ds (k + 1) (by simpa using h) (by
        intro r hr fs hfs; have := hl r hr fs hfs; simp only [List.length_cons] at this; omega) (by
        intro j n' d' hn hd
        obtain ⟨τ', g1, g2⟩ := hc (j + 1) n' d' (by simpa using hn) (by simpa using hd)
        exact ⟨τ', g1, by rwa [show k + 1 + j = k + (j + 1) by omega]⟩)
    simp only [Nat.add_zero] at v1 v4
    refine ⟨(n, c) :: cs, by simp only [colsOf, hτ, Res.ofOption_some, Res.ok_bind, v1, c1, h1], by simp [h2], ?_, ?_, ?_⟩
    · intro x hx
      simp only [List.mem_cons] at hx
      rcases hx with rfl | hx
      · simp only [c3, v2]
      · exact h3 x hx
    · intro j d' τ' x hd hk hx
      cases j with
      | zero =>
        simp only [List.getElem?_cons_zero, Option.some.injEq] at hd hx
        subst hd; subst hx
        rw [hτ, Option.some.injEq] at hk; subst hk; exact c2
      | succ j => exact h4 j d' τ' x (by simpa using hd) hk (by simpa using hx)
    · intro i fs hi
      have hf := v4 i fs hi
      have hil : i < vs.length := by rw [v2]; exact (List.getElem?_eq_some_iff.mp hi).1
      rw [List.getElem?_eq_getElem hil, Option.map_some] at hf
      rw [drop_eq_cons hf]
      have := h5 i fs hi
      simp only [valuesOf] at this ⊢
      rw [List.filterMap_cons, c4, List.getElem?_eq_getElem hil, List.filterMap_cons]
      simp only [Option.map_some, this]

theorem findName_getElem {α : Type} {cs : List (Str × α)} {n : Str} {j : Nat} (h : (cs.map (·.1)).findIdx? (· == n) = some j) :
    ∃ c, cs[j]? = some c ∧ RowExpr.findName n cs = some c.2 := by
  induction cs generalizing j with
  | nil => simp at h
  | cons c cs ih =>
    rw [List.map_cons, List.findIdx?_cons] at h
    by_cases hc : c.1 = n
    · rw [if_pos (by simpa using hc)] at h
      simp only [Option.some.injEq] at h; subst h
      exact ⟨c, rfl, by simp [RowExpr.findName, hc]⟩
    · rw [if_neg (by simpa using hc)] at h
      cases hj : (cs.map (·.1)).findIdx? (· == n) with
      | none => rw [hj] at h; simp at h
      | some j' =>
        rw [hj] at h; simp only [Option.map_some, Option.some.injEq] at h; subst h
        obtain ⟨x, h1, h2⟩ := ih hj
        exact ⟨x, by simpa using h1, by simp [RowExpr.findName, hc, h2]⟩

/-- A well-typed expression has a column of its type. -/
theorem typed_eval [LinearOrder V] {Γ : Str → Option Ty} {b : RowExpr.Batch V} (hb : b.WF) {e : DExpr V} {τ : Ty} (h : Typed Γ e τ)
    (hΓ : ∀ n ∈ e.cols, ∀ τ, Γ n = some τ → ∃ c, RowExpr.findName n b.cols = some c ∧ ColHas τ c) :
    ∃ v c, e.convert = .ok v ∧ (toExpr v).eval b = .ok c ∧ ColHas τ c := by
  induction h with
  | col n τ hn =>
    obtain ⟨c, h1, h2⟩ := hΓ n (by simp [DExpr.cols]) τ hn
    exact ⟨_, c, rfl, by simp [toExpr, RowExpr.Expr.eval, RowExpr.lookup, h1], h2⟩
  | litPrim t v => exact ⟨_, _, rfl, rfl, ⟨_, rfl⟩⟩
  | litBool v => exact ⟨_, _, rfl, rfl, ⟨_, rfl⟩⟩
  | cmp l op r τ hop hl hr ihl ihr =>
    obtain ⟨vl, cl, l1, l2, l3⟩ := ihl (fun n hn => hΓ n (by simp [DExpr.cols, hn]))
    obtain ⟨vr, cr, r1, r2, r3⟩ := ihr (fun n hn => hΓ n (by simp [DExpr.cols, hn]))
    obtain ⟨o, ho, hob⟩ : ∃ o, op.convert = .ok o ∧ o.isBool = false := by cases op <;> simp_all [DF.isCmp, DF.DOp.convert, RowExpr.Op.isBool]
    have e1 := (RowExpr.eval_agrees hb _ l2).1
    have e2 := (RowExpr.eval_agrees hb _ r2).1
    have : ∃ bs, RowExpr.evalOp o cl cr = .ok (.bools bs) := by
      unfold RowExpr.evalOp
      rw [if_neg (by rw [e1, e2]; simp), if_neg (by simp [hob])]
      cases τ with
      | prim t =>
        obtain ⟨xs, rfl⟩ := l3; obtain ⟨ys, rfl⟩ := r3
        exact ⟨_, if_pos rfl⟩
      | bool =>
        obtain ⟨xs, rfl⟩ := l3; obtain ⟨ys, rfl⟩ := r3
        exact ⟨_, rfl⟩
    obtain ⟨bs, hbs⟩ := this
    exact ⟨.bin vl o vr, .bools bs, by simp only [DExpr.convert, l1, r1, ho, Res.ok_bind], by simp only [toExpr, RowExpr.Expr.eval, l2, r2, Res.ok_bind, hbs],
      ⟨bs, rfl⟩⟩
  | logic l op r hop hl hr ihl ihr =>
    obtain ⟨vl, cl, l1, l2, xs, rfl⟩ := ihl (fun n hn => hΓ n (by simp [DExpr.cols, hn]))
    obtain ⟨vr, cr, r1, r2, ys, rfl⟩ := ihr (fun n hn => hΓ n (by simp [DExpr.cols, hn]))
    obtain ⟨o, ho, hob⟩ : ∃ o, op.convert = .ok o ∧ o.isBool = true := by
      rcases hop with rfl | rfl
      · exact ⟨.and, rfl, rfl⟩
      · exact ⟨.or, rfl, rfl⟩
    have e1 := (RowExpr.eval_agrees hb _ l2).1
    have e2 := (RowExpr.eval_agrees hb _ r2).1
    refine ⟨.bin vl o vr, .bools (List.zipWith (RowExpr.boolO o) xs ys), by simp only [DExpr.convert, l1, r1, ho, Res.ok_bind], ?_, ⟨_, rfl⟩⟩
    simp only [toExpr, RowExpr.Expr.eval, l2, r2, Res.ok_bind]
    unfold RowExpr.evalOp
    rw [if_neg (by rw [e1, e2]; simp), if_pos hob]

/-- The predicate a filter is on one row. -/
noncomputable def keeps [LinearOrder V] (e : RowExpr.Expr V) (r : Layout.Row (RowExpr.Val V)) : Bool :=
  open Classical in decide (Vx.Spec.Holds (valuesOf r) e)

theorem keeps_iff [LinearOrder V] (e : RowExpr.Expr V) (r : Layout.Row (RowExpr.Val V)) : keeps e r = true ↔ Vx.Spec.Holds (valuesOf r) e := by
  unfold keeps
  exact @decide_eq_true_iff _ (Classical.propDecidable _)

/-- The rows of a batch of the columns `names` of types `dtypes`. -/
structure BatchTyped (kind : DType → Option Ty) (names : List Str) (dtypes : List DType) (g : Rows (RowExpr.Val V)) : Prop where
  len : names.length = dtypes.length
  rows : ∀ r ∈ g, ∃ fs, r = .struct fs ∧ fs.length = names.length
  typed : ∀ (j : Nat) (n : Str) (d : DType), names[j]? = some n → dtypes[j]? = some d → ∃ τ, kind d = some τ ∧ FieldTyped g j n τ

theorem evalBatch_eq [LinearOrder V] {kind : DType → Option Ty} {renv : RowExpr.Env V} (ht : RowExpr.Truthful renv) {schema : FbDType}
    {refs : List RowExpr.Field} {names : List Str} {dtypes : List DType} {nl : Bool}
    (hd : projectedDType schema (.flat refs) = .ok (.struct names dtypes nl)) {g : Rows (RowExpr.Val V)} (hg : BatchTyped kind names dtypes g)
    {Γ : Str → Option Ty} {e : DExpr V} {v : DF.VExpr V} (he : Typed Γ e .bool) (hv : e.convert = .ok v)
    (hΓ : ∀ n ∈ e.cols, ∀ τ, Γ n = some τ → ∃ j d, names.findIdx? (· == n) = some j ∧ dtypes[j]? = some d ∧ kind d = some τ) :
    evalBatch kind renv schema refs (toExpr v) g = .ok (g.map (keeps (toExpr v))) := by
  obtain ⟨cs, h1, h2, h3, h4, h5⟩ := colsOf_typed (kind := kind) (fun r hr => by obtain ⟨fs, h, _⟩ := hg.rows r hr; exact ⟨fs, h⟩) names dtypes 0 hg.len (by
    intro r hr fs hfs
    obtain ⟨fs', rfl, hl⟩ := hg.rows r hr
    cases hfs
    simpa using hl) (by simpa using hg.typed)
  have hb : (⟨g.length, cs⟩ : RowExpr.Batch V).WF := h3
  obtain ⟨v', c, e1, e2, bs, rfl⟩ := typed_eval hb he (by
    intro n hn τ hτ
    obtain ⟨j, d, f1, f2, f3⟩ := hΓ n hn τ hτ
    rw [← h2] at f1
    obtain ⟨c, c1, c2⟩ := findName_getElem f1
    exact ⟨c.2, c2, h4 j d τ c f2 f3 c1⟩)
  rw [hv, Res.ok.injEq] at e1; subst e1
  have hm := RowExpr.C28_filter_eq_whole_expression_partial ht _ hb _ _ e2
  have hlen := (RowExpr.eval_agrees hb _ e2).1
  simp only [RowExpr.Col.len] at hlen
  have hholds := fun i (hi : i < g.length) => (RowExpr.eval_agrees hb _ e2).holds_iff (i := i) hi
  simp only [evalBatch, hd, Res.ok_bind, batchOf, h1, hm]
  congr 1
  apply List.ext_getElem (by simp [hlen])
  intro i hi hi'
  simp only [List.length_map] at hi hi'
  simp only [List.getElem_map]
  have hr : Vx.Spec.row (⟨g.length, cs⟩ : RowExpr.Batch V) i = valuesOf g[i] := by
    obtain ⟨fs, hfs, _⟩ := hg.rows g[i] (List.getElem_mem hi')
    have := h5 i fs (by rw [List.getElem?_eq_getElem hi', hfs])
    simp only [List.drop_zero] at this
    rw [hfs, ← this]; rfl
  have := hholds i hi'
  simp only [RowExpr.Col.at, List.getElem?_eq_getElem hi, Option.map_some, Option.some.injEq, RowExpr.Val.bool.injEq] at this
  rw [Bool.eq_iff_iff, keeps_iff, ← hr, this]
  cases hx : bs[i] with
  | none => simp
  | some y => cases y <;> simp

theorem emitted_congr {α : Type} {eval eval' : Rows α → Res (List Bool)} : ∀ (D : List (Rows α)) (f : Bool) (F : List (Rows α)),
    (∀ g ∈ F, eval g = eval' g) → emitted eval D f F = emitted eval' D f F
  | _, false, [], _ => by simp [emitted]
  | [], false, g :: F, h => by simp only [emitted, h g (by simp)]
  | d :: D, false, g :: F, h => by
    simp only [emitted, h g (by simp), emitted_congr D true F (fun g hg => h g (by simp [hg])), emitted_congr D false F (fun g hg => h g (by simp [hg]))]
  | [], true, _, _ => by simp [emitted]
  | d :: D, true, F, h => by simp only [emitted, emitted_congr D false F h]

/-! ## A written file, opened -/

section
variable {α : Type}

/-- What opening a written file gives. -/
theorem opened {F : FileCodec} (hF : F.Lawful) {metaNode : List Nat → Ipc.Node} {ctx : Nat → Bool} {names : List Str} {dtypes : List DType} {nl : Bool}
    {data : List StructBatch} (h : TableOk F ctx names dtypes data) {file : Bytes} (hw : Spec.IsFileOf F metaNode (.struct names dtypes nl) data file)
    (hsize : file.length < 2 ^ 64) {init : Nat}
    (hinit : ∀ bytes ls, file = fileOf F bytes (.struct names dtypes nl) (.columnL ls) (Spec.rowCount data) →
      tailLength F (.struct names dtypes nl) (.columnL ls) (Spec.rowCount data) ≤ init) :
    ∃ d ls rs, readFooter F init file file.length = .ok d ∧ d.schema F = .ok (DType.struct names dtypes nl).toFb ∧ d.layout F = .ok (.columnL ls) ∧
      Finished F.msgs metaNode file ls (Spec.allColumns dtypes.length data) rs := by
  obtain ⟨w, bytes, ls, rs, h1, h2, h3, h4, h5, h6⟩ := write_finished F metaNode (.struct names dtypes nl) _ data h.shape
  obtain ⟨r1, r2, r3⟩ := written_regular h h3
  obtain ⟨w', g1, g2⟩ := hw
  rw [h1, Res.ok.injEq] at g1; subst g1
  rw [h2, Res.ok.injEq] at g2; subst g2
  obtain ⟨d, o1, o2, o3, _⟩ := C34_open F hF bytes (.struct names dtypes nl) (.columnL ls) (data.map StructBatch.len).sum init h5 r2 hsize (hinit bytes ls rfl)
  obtain ⟨more, hmore⟩ : ∃ more, fileOf F bytes (.struct names dtypes nl) (.columnL ls) (data.map StructBatch.len).sum = bytes ++ more := by
    refine ⟨Ipc.frame F.msgs (Ipc.schemaMsg (.struct names dtypes nl)) ++ (tableFrame (F.encFooter (.columnL ls) (data.map StructBatch.len).sum) ++
      (F.encPs bytes.length (bytes.length + (Ipc.frame F.msgs (Ipc.schemaMsg (.struct names dtypes nl))).length) ++ EOF)), ?_⟩
    simp only [fileOf, List.append_assoc]
  refine ⟨d, ls, rs, o1, o3, o2, ?_⟩
  rw [hmore]; exact h3.mono more

/-- The struct rows of some columns of a written table. -/
def selRows (meaning : DType → Nat → Ipc.Node → Rows α) (names : List Str) (dtypes : List DType) (data : List StructBatch) (sel : List Nat) : Rows α :=
  (List.range (Spec.rowCount data)).map (Spec.outRow meaning names dtypes sel data)

theorem structOf_sel {env : Env α} {F : FileCodec} {ctx : Nat → Bool} {meaning : DType → Nat → Ipc.Node → Rows α} (hE : EnvOk env F ctx meaning)
    {names : List Str} {dtypes : List DType} {data : List StructBatch} (h : TableOk F ctx names dtypes data) {sel : List Nat} (hne : sel ≠ [])
    (hin : ∀ i ∈ sel, i < dtypes.length) :
    Layout.Spec.structOf (sel.map (Layout.Spec.projected meaning names dtypes data)) = some (selRows meaning names dtypes data sel) := by
  have hlen : ∀ i ∈ sel, (Layout.Spec.projected meaning names dtypes data i).2.length = Spec.rowCount data :=
    fun i hi => columnRows_length hE h i (hin i hi) _
  unfold selRows Spec.outRow
  cases sel with
  | nil => exact absurd rfl hne
  | cons i sel =>
    have h0 := hlen i (by simp)
    simp only [List.map_cons, Layout.Spec.structOf, h0]
    rw [if_pos]
    intro c hc
    simp only [List.mem_map] at hc
    obtain ⟨i', hi', rfl⟩ := hc
    exact hlen i' (by simp [hi'])

theorem selects_lt {names : List Str} {proj : Projection} {sel : List Nat} (h : Selects names proj sel) : ∀ i ∈ sel, i < names.length := by
  cases proj with
  | all => simp only [Selects] at h; subst h; simp
  | flat fs =>
    intro i hi
    have : some i ∈ fs.map (Layout.Spec.position names) := by rw [h]; exact List.mem_map.mpr ⟨i, hi, rfl⟩
    obtain ⟨f, _, hf⟩ := List.mem_map.mp this
    cases f with
    | name n => exact (List.findIdx?_eq_some_iff_getElem.mp hf).1
    | index k =>
      simp only [Layout.Spec.position] at hf
      split at hf
      · simp only [Option.some.injEq] at hf; omega
      · simp at hf

theorem selects_of (names : List Str) (projection : Option (List Nat)) (h : ∀ i ∈ selOf names.length projection, i < names.length) :
    Selects names (projectionOf projection) (selOf names.length projection) := by
  cases projection with
  | none => rfl
  | some is =>
    simp only [Selects, projectionOf, selOf] at h ⊢
    rw [List.map_map]
    apply List.map_congr_left
    intro i hi
    simp [Layout.Spec.position, h i hi]

/-- The dtype of the projected columns, and a reader over them. -/
theorem data_reader {env : Env α} {F : FileCodec} {ctx : Nat → Bool} {meaning : DType → Nat → Ipc.Node → Rows α} (hE : EnvOk env F ctx meaning)
    (hF : F.Lawful) {metaNode : List Nat → Ipc.Node} {names : List Str} {dtypes : List DType} {nl : Bool} {data : List StructBatch}
    (h : TableOk F ctx names dtypes data) {file : Bytes} {ls : List FbLayout} {rs : List (Nat × Nat)}
    (hfin : Finished F.msgs metaNode file ls (Spec.allColumns dtypes.length data) rs) {proj : Projection} {sel : List Nat} (hs : Selects names proj sel)
    (hp : sel ≠ []) {batch : Nat} (hb : 0 < batch) :
    projectedDType (DType.struct names dtypes nl).toFb proj =
      .ok (.struct (sel.map fun i => names.getD i []) (sel.map fun i => dtypes.getD i .null) nl) ∧
    ∃ r, readLayout env (FbLayout.columnL ls).depth (.columnL ls) ⟨proj, batch⟩ ⟨[], .serialized (DType.struct names dtypes nl).toFb .all⟩ = .ok r ∧
      RepSt (Layout.Spec.rangeAt (.columnL ls)) file env (FbLayout.columnL ls).depth r
        (cut (FbLayout.columnL ls).zeroBatch batch (selRows meaning names dtypes data sel)) := by
  obtain ⟨r1, r2, r3⟩ := written_regular h hfin
  have hin : ∀ i ∈ sel, i < dtypes.length := by rw [← h.names]; exact selects_lt hs
  cases proj with
  | all =>
    simp only [Selects] at hs
    subst hs
    refine ⟨?_, ?_⟩
    · have e1 : (List.range names.length).map (fun i => names.getD i []) = names := by
        apply List.ext_getElem <;> simp +contextual
      have e2 : (List.range names.length).map (fun i => dtypes.getD i .null) = dtypes := by
        apply List.ext_getElem <;> simp +contextual [h.names]
      rw [e1, e2]
      exact C30_dtype_flatbuffer_round_trip _
    · have hpos : ((List.range names.length).map RowExpr.Field.index).map (Layout.Spec.position names) = (List.range names.length).map some := by
        rw [List.map_map]
        apply List.map_congr_left
        intro i hi
        simp [Layout.Spec.position, List.mem_range.mp hi]
      obtain ⟨c1, c2, _⟩ := columns_of_written hE hF h hfin _ _ hpos
      have hden : Layout.Spec.denote env file (.columnL ls) (.struct names dtypes nl) = some (selRows meaning names dtypes data (List.range names.length)) := by
        unfold FbLayout.columnL
        rw [C36_all_columns env file none ls none names dtypes nl hE.column h.names r3, Layout.Spec.table, c1, Option.bind_some]
        exact structOf_sel hE h hp hin
      exact root_builds ⟨r1, hden⟩ hb (l := .serialized (DType.struct names dtypes nl).toFb .all) (C30_dtype_flatbuffer_round_trip _)
  | flat fs =>
    obtain ⟨c1, c2, c3⟩ := columns_of_written hE hF h hfin _ _ hs
    refine ⟨by simp only [projectedDType, deserializeAndProject, DType.toFb, c3, Res.ok_bind, List.map_map]; rfl, ?_⟩
    have htab : Layout.Spec.table env file ls names dtypes fs = some (selRows meaning names dtypes data sel) := by
      rw [Layout.Spec.table, c1, Option.bind_some]
      exact structOf_sel hE h hp hin
    exact table_build rfl r1 hE.column htab hb

end

end Vx.FileScan
