import Verif.Props.C103
import Verif.Props.C105
/-! # C106: expressions, row filters and filtered scans over tables of encoded columns -/
namespace Vx.Tree
open Spec
open RowExpr (Field)

variable {L : Type} {env : CEnv L} {leafRows : L → List SV} {ok : L → Prop} {cached : Arr L → Option Nat}

/-- **C106.** Whatever the encodings of the columns, an answer of an expression on a table has, in each row, the value of the expression on
that row of the table. -/
theorem C106_expression_partial (hl : LeafLaws env.toEnv leafRows ok) (lb : LeafBulk env.toBEnv leafRows ok) (lc : LeafCompare env leafRows ok)
    (hr : Readable env leafRows) {names : List Str} {fs : List (Arr L)} {n : Nat} {v : TVal (Arr L)}
    (hw : WF env.toEnv leafRows ok (.struct names fs n v)) (e : TExpr) (a : Arr L)
    (hc : Claimed env leafRows ok (.struct names fs n v) e) (h : e.eval env (.struct names fs n v) = .ok a) :
    rows env.toEnv leafRows a = (List.range n).map (fun i => e.value (cell env leafRows names fs i)) ∧ WF env.toEnv leafRows ok a :=
  have s := eval_sound hl lb lc hr hw e a hc h
  ⟨s.1, s.2.1⟩

/-- **C106.** The mask of a row filter is true exactly on the rows on which the expression is true, has no nulls, and is as long as the table. -/
theorem C106_row_filter_partial (hl : LeafLaws env.toEnv leafRows ok) (lb : LeafBulk env.toBEnv leafRows ok) (lc : LeafCompare env leafRows ok)
    (hr : Readable env leafRows) (hh : HonestCounts env leafRows cached) {names : List Str} {fs : List (Arr L)} {n : Nat} {v : TVal (Arr L)}
    (hw : WF env.toEnv leafRows ok (.struct names fs n v)) {e : TExpr} {m : Arr L} (hc : Claimed env leafRows ok (.struct names fs n v) e)
    (hct : Countable env leafRows cached (.struct names fs n v) e) (h : rowFilter env cached e (.struct names fs n v) = .ok m) :
    rows env.toEnv leafRows m = (selected env leafRows names fs n e).map SV.bool ∧ dtype env.toEnv m = .bool false ∧ WF env.toEnv leafRows ok m :=
  have s := rowFilter_sound hl lb lc hr hh hw hc hct h
  ⟨s.rows, s.dtype, s.wf⟩

/-- The mask of a row filter, as the predicate `filter` is given. -/
theorem finished_pred {sel : List Bool} {m : Arr L} (h : Finished env leafRows ok sel m) :
    ∃ p, maskPred m = some p ∧ p.rows = sel ∧ ((∃ q : BoolPred, p = .plain q ∧ q.WF ∧ q.off = 0) ∨ ∃ b n, p = .const b n) ∧ plainMask m = true ∧
      Nice env.toEnv leafRows m := by
  rcases h.shape with ⟨vals, rfl⟩ | ⟨n, rfl⟩
  · have hv : vals = sel.map SV.bool := by
      have := h.rows
      rwa [show rows env.toEnv leafRows (.flat .bool vals .nonNullable : Arr L) = vals from plainMask_rows] at this
    refine ⟨_, rfl, ?_, .inl ⟨_, rfl, ?_, rfl⟩, rfl, by simp [Nice, NiceV]⟩
    · subst hv
      simp [Pred.rows, BoolPred.bits, isTrue, Function.comp_def]
    · simp [BoolPred.WF]
  · refine ⟨_, rfl, ?_, .inr ⟨_, _, rfl⟩, rfl, by simp [Nice, kindOf]⟩
    have := h.rows
    simp only [rows] at this
    have h2 : (sel.map SV.bool).map isTrue = sel := by simp [isTrue, Function.comp_def]
    rw [← h2, ← this]
    simp [Pred.rows, isTrue]

/-- Nothing is selected if nothing is true. -/
theorem filter_none : ∀ (xs : List SV) (sel : List Bool), (∀ b ∈ sel, b = false) → Spec.filter xs sel = []
  | [], _, _ => by simp [Spec.filter]
  | _ :: _, [], _ => by simp [Spec.filter]
  | x :: xs, b :: sel, h => by
    have := filter_none xs sel (fun b hb => h b (List.mem_cons_of_mem _ hb))
    have hb := h b List.mem_cons_self
    subst hb
    simpa [Spec.filter] using this

/-- What a scan of one batch gives. -/
def Scanned (env : CEnv L) (leafRows : L → List SV) (ok : L → Prop) (batch : Arr L) (sel : List Bool) : Option (Arr L) → Prop
  | none => ∀ b ∈ sel, b = false
  | some out => rows env.toEnv leafRows out = Spec.filter (rows env.toEnv leafRows batch) sel ∧ dtype env.toEnv out = dtype env.toEnv batch ∧
      WF env.toEnv leafRows ok out ∧ (∃ b ∈ sel, b = true)

/-- What is returned for a mask. -/
theorem scan_mask (hl : LeafLaws env.toEnv leafRows ok) (lb : LeafBulk env.toBEnv leafRows ok) (hh : HonestCounts env leafRows cached)
    {stat : Pred.Known} (hk : Pred.Honest stat) {lf : L → Pred → Res (Arr L)}
    (hlf : ∀ p l b, p.len = env.len l → env.filter l p.rows = .ok b → lf l p = .ok b)
    {batch : Arr L} (hwb : WF env.toEnv leafRows ok batch) (hb : Bulk env.toEnv leafRows env.temporal true batch)
    {e : TExpr} {cols m : Arr L} {sel : List Bool} (hf : Finished env leafRows ok sel m) (hn : sel.length = (rows env.toEnv leafRows batch).length)
    (hm : rowFilter env cached e cols = .ok m) :
    ∃ out, scanBatch env cached stat lf e cols batch = .ok out ∧ Scanned env leafRows ok batch sel out := by
  obtain ⟨p, p1, p2, p3, p4, p5⟩ := finished_pred hf
  have hct := plain_countable (cached := cached) hl lb hf.wf p5 p4
  simp only [scanBatch, hm, Res.ok_bind, p1]
  by_cases h0 : (tcount env cached m).getD 0 = 0
  · rw [if_pos h0]
    refine ⟨none, rfl, ?_⟩
    have := counted hl lb hh hf.wf p5 hct h0
    rw [hf.rows] at this
    intro b hb
    exact this _ (List.mem_map_of_mem hb)
  · rw [if_neg h0]
    obtain ⟨b, b1, _, b3, b4, b5⟩ := C103_plain_or_constant hl lb hk p p3 (hlf p) batch hwb hb (by rw [p2, hn])
    refine ⟨some b, by rw [b1]; rfl, by rw [b4, p2], b3, b5, ?_⟩
    cases ht : tcount env cached m with
    | none => rw [ht] at h0; exact absurd rfl h0
    | some k =>
      have := tcount_true hl lb hh m k hf.wf p5 ht
      rw [ht, this] at h0
      simp only [Option.getD_some, hf.rows] at h0
      obtain ⟨r, hr, ht⟩ := List.countP_pos_iff.mp (Nat.pos_of_ne_zero h0)
      obtain ⟨b, hb, rfl⟩ := List.mem_map.mp hr
      exact ⟨b, hb, by cases b <;> simp_all [isTrue]⟩

/-- **C106 (scans).** A filtered scan of a batch returns exactly the rows of the batch on which the expression is true, in order and with their type; and
nothing exactly if there are none. -/
theorem C106_scan_partial (hl : LeafLaws env.toEnv leafRows ok) (lb : LeafBulk env.toBEnv leafRows ok) (lc : LeafCompare env leafRows ok)
    (hr : Readable env leafRows) (hh : HonestCounts env leafRows cached) {stat : Pred.Known} (hk : Pred.Honest stat) {lf : L → Pred → Res (Arr L)}
    (hlf : ∀ p l b, p.len = env.len l → env.filter l p.rows = .ok b → lf l p = .ok b)
    {names : List Str} {fs : List (Arr L)} {n : Nat} {v : TVal (Arr L)} (hw : WF env.toEnv leafRows ok (.struct names fs n v))
    {batch : Arr L} (hwb : WF env.toEnv leafRows ok batch) (hb : Bulk env.toEnv leafRows env.temporal true batch)
    (hn : (rows env.toEnv leafRows batch).length = n)
    {e : TExpr} (hc : Claimed env leafRows ok (.struct names fs n v) e) (hct : Countable env leafRows cached (.struct names fs n v) e)
    {out : Option (Arr L)} (h : scanBatch env cached stat lf e (.struct names fs n v) batch = .ok out) :
    match out with
    | none => ∀ b ∈ selected env leafRows names fs n e, b = false
    | some o => rows env.toEnv leafRows o = Spec.filter (rows env.toEnv leafRows batch) (selected env leafRows names fs n e) ∧
        dtype env.toEnv o = dtype env.toEnv batch ∧ WF env.toEnv leafRows ok o ∧ ∃ b ∈ selected env leafRows names fs n e, b = true := by
  have h' := h
  simp only [scanBatch, Res.bind_eq_ok] at h'
  obtain ⟨m, hm, _⟩ := h'
  have hf := rowFilter_sound hl lb lc hr hh hw hc hct hm
  obtain ⟨o, o1, o2⟩ := scan_mask hl lb hh hk hlf hwb hb hf (by simp [selected, hn]) hm
  rw [h] at o1
  injection o1 with o1
  subst o1
  cases out <;> exact o2

/-- **C106 (scans succeed).** If the columns exist, the comparisons are between arrays without constants or with constants that are not null, and the
combined boolean columns are not constants, the scan succeeds. -/
theorem C106_scan_succeeds_partial (hl : LeafLaws env.toEnv leafRows ok) (lb : LeafBulk env.toBEnv leafRows ok) (lc : LeafCompare env leafRows ok)
    (hns : NoStats env) (hleaf : ∀ op l r, isConstArr r = false → env.leafCmp op l r = none) (hlc : LeafConst env)
    (hh : HonestCounts env leafRows cached) {stat : Pred.Known} (hk : Pred.Honest stat) {lf : L → Pred → Res (Arr L)}
    (hlf : ∀ p l b, p.len = env.len l → env.filter l p.rows = .ok b → lf l p = .ok b)
    {names : List Str} {fs : List (Arr L)} {n : Nat} {v : TVal (Arr L)} (hw : WF env.toEnv leafRows ok (.struct names fs n v))
    {batch : Arr L} (hwb : WF env.toEnv leafRows ok batch) (hb : Bulk env.toEnv leafRows env.temporal true batch)
    (hn : (rows env.toEnv leafRows batch).length = n)
    {e : TExpr} (hc : Claimed env leafRows ok (.struct names fs n v) e) (hct : Countable env leafRows cached (.struct names fs n v) e)
    (hru : Runs env leafRows (.struct names fs n v) e) : ∃ out, scanBatch env cached stat lf e (.struct names fs n v) batch = .ok out ∧
      match out with
      | none => Spec.filter (rows env.toEnv leafRows batch) (selected env leafRows names fs n e) = []
      | some o => rows env.toEnv leafRows o = Spec.filter (rows env.toEnv leafRows batch) (selected env leafRows names fs n e) := by
  have hr : Readable env leafRows := fun a ha => by rw [hns a] at ha; cases ha
  obtain ⟨m, hm⟩ := rowFilter_total (cached := cached) hl lb lc hns hleaf hlc hw hc hru
  have hf := rowFilter_sound hl lb lc hr hh hw hc hct hm
  obtain ⟨o, o1, o2⟩ := scan_mask hl lb hh hk hlf hwb hb hf (by simp [selected, hn]) hm
  refine ⟨o, o1, ?_⟩
  cases o with
  | none => exact filter_none _ _ o2
  | some o => exact o2.1

/-- What it means for an expression to be true on a row. -/
theorem C106_holds_meaning (get : Field → SV) (l r : TExpr) : ((TExpr.bin l .and r).holds get = (l.holds get && r.holds get)) ∧
    ((TExpr.bin l .eq r).holds get = true ↔ l.value get = r.value get ∧ l.value get ≠ .null) := by
  constructor
  · simp only [TExpr.holds, TExpr.value, opValue, boolRow]
    cases l.value get <;> cases r.value get <;> try rfl
    all_goals rename_i a
    all_goals first | rfl | (cases a <;> rfl) | (rename_i b; cases a <;> cases b <;> rfl)
  · simp only [TExpr.holds, TExpr.value, opValue]
    by_cases hx : l.value get = .null
    · rw [hx]; simp [opRow]
    by_cases hy : r.value get = .null
    · rw [hy]
      have : opRow .eq (l.value get) .null = .null := by cases l.value get <;> rfl
      simp only [this]
      constructor
      · intro h; cases h
      · intro h; exact absurd h.1 hx
    have := (C104_row_meaning .eq _ _ hx hy).2.2.2.2
    have hi : (l.value get = r.value get ∧ l.value get ≠ .null) ↔ opRow .eq (l.value get) (r.value get) = .bool true :=
      ⟨fun h => this.mpr h.1, fun h => ⟨this.mp h, hx⟩⟩
    rw [hi]
    generalize opRow .eq (l.value get) (r.value get) = z
    cases z <;> try simp
    rename_i b; cases b <;> simp

/-! ## Where the code is wrong -/

def noCounts : Arr Empty → Option Nat := fun _ => none

def kName : Str := ['k']

/-- A table of one boolean column, `true` in one chunk and an empty chunk. -/
def lossy : Arr Empty := .struct [kName] [.chunked (.bool false) [.flat .bool [.bool true] .nonNullable, .flat .bool [] .nonNullable]] 1 .nonNullable

/-- **C106 is false of the code.** If the column of the first conjunct has an empty chunk, its true count is unknown, which is taken for zero: the filter
`k and k` drops the row on which `k` is true, and the scan returns nothing. -/
theorem C106_empty_chunk_loses_rows :
    WF cmpEnv.toEnv noRows (fun _ => True) lossy ∧
      selected cmpEnv noRows [kName] [.chunked (.bool false) [.flat .bool [.bool true] .nonNullable, .flat .bool [] .nonNullable]] 1
        (.bin (.col (.name kName)) .and (.col (.name kName))) = [true] ∧
      rowFilter cmpEnv noCounts (.bin (.col (.name kName)) .and (.col (.name kName))) lossy = .ok (.const (.bool false) (.bool false) 1) ∧
      (∀ stat lf, scanBatch cmpEnv noCounts stat lf (.bin (.col (.name kName)) .and (.col (.name kName))) lossy lossy = .ok none) ∧
      rowFilter cmpEnv noCounts (.col (.name kName)) lossy = .ok (.flat .bool [.bool true] .nonNullable) := by
  refine ⟨⟨rfl, ⟨⟨⟨⟨?_, trivial⟩, ⟨?_, trivial⟩, trivial⟩, ?_⟩, trivial⟩, ?_, trivial⟩, rfl, rfl, fun _ _ => rfl, rfl⟩
  · intro x hx; simp at hx; subst hx; rfl
  · intro x hx; simp at hx
  · intro d hd
    have hd : d ∈ [DType.bool false, DType.bool false] := hd
    simpa using hd
  · intro c hc
    have hc : c ∈ [[SV.bool true]] := hc
    simp at hc
    subst hc
    rfl

/-! ## A case that meets the hypotheses -/

def aName : Str := ['a']
def bName : Str := ['b']

/-- `a` = 1, null, 3 in two chunks; `b` = 3, 1, 1 as a dictionary. -/
def table : Arr Empty := .struct [aName, bName] [cmpL, cmpR] 3 .nonNullable

/-- `a < b and a < 2` -/
def query : TExpr := .bin (.bin (.col (.name aName)) .lt (.col (.index 1))) .and (.bin (.col (.name aName)) .lt (.lit (.prim .i32 false) (i32 2)))

theorem cmpL_wf : WF cmpEnv.toEnv noRows (fun _ => True) cmpL := by
  cases (cmp_comparable .lt).left with
  | array h => exact h

theorem cmpR_wf : WF cmpEnv.toEnv noRows (fun _ => True) cmpR := by
  cases (cmp_comparable .lt).right with
  | array h => exact h

theorem table_wf : WF cmpEnv.toEnv noRows (fun _ => True) table := by
  refine ⟨rfl, ⟨cmpL_wf, cmpR_wf, trivial⟩, ?_, trivial⟩
  intro c hc
  have hc : c ∈ [rows cmpEnv.toEnv noRows cmpL, rows cmpEnv.toEnv noRows cmpR] := hc
  simp only [List.mem_cons, List.not_mem_nil, or_false] at hc
  rcases hc with rfl | rfl
  · rw [cmpL_rows]; rfl
  · rw [cmpR_rows]; rfl

theorem table_bulk : Bulk cmpEnv.toEnv noRows cmpEnv.temporal true table := by
  refine ⟨⟨⟨?_, ?_, trivial⟩, ?_, trivial⟩, trivial⟩ <;> simp [cmpL, cmpR, Bulk, NiceV, Nice]

theorem query_claimed : Claimed cmpEnv noRows (fun _ => True) table query := by
  refine ⟨⟨rfl, rfl, ?_⟩, rfl, rfl, ?_⟩
  · intro a b ha hb
    injection (show Res.ok cmpL = Res.ok a from ha) with ha
    injection (show Res.ok cmpR = Res.ok b from hb) with hb
    subst ha hb
    exact cmp_comparable .lt
  · intro a b ha hb
    injection (show Res.ok cmpL = Res.ok a from ha) with ha
    injection (show Res.ok (Arr.const (.prim .i32 false) (i32 2) 3 : Arr Empty) = Res.ok b from hb) with hb
    subst ha hb
    exact cmp_const_comparable .lt 3

theorem query_runs : Runs cmpEnv noRows table query := by
  refine ⟨⟨cmpL, cmpR, rfl, rfl, rfl, .arrays _ cmpL_straight cmpR_straight⟩, cmpL, .const (.prim .i32 false) (i32 2) 3, rfl, rfl, rfl,
    .right _ _ _ _ cmpL_straight rfl⟩

theorem query_countable : Countable cmpEnv noRows noCounts table query := by
  intro c d cs m hs hm
  have hs : [TExpr.bin (.col (.name aName)) .lt (.col (.index 1)), .bin (.col (.name aName)) .lt (.lit (.prim .i32 false) (i32 2))] = c :: d :: cs := hs
  injection hs with h1 _
  subst h1
  have hm' : (TExpr.bin (.col (.name aName)) .lt (.col (.index 1))).eval cmpEnv table = .ok m := hm
  left
  obtain ⟨b, h1, h2⟩ : ∃ b, (TExpr.bin (.col (.name aName)) .lt (.col (.index 1))).eval cmpEnv table = .ok b ∧ (tcount cmpEnv noCounts b).isSome = true :=
    ⟨_, rfl, rfl⟩
  rw [hm'] at h1
  injection h1 with h1
  rw [h1]
  exact h2

theorem noCounts_honest : HonestCounts cmpEnv noRows noCounts := fun _ _ h => by cases h

/-- The scan of the table by the query keeps the first of the three rows. -/
example : ∃ o, scanBatch cmpEnv noCounts noStats (fun l _ => l.elim) query table table = .ok (some o) ∧
    rows cmpEnv.toEnv noRows o = [.list [i32 1, i32 3]] := by
  obtain ⟨o, h1, h2⟩ := C106_scan_succeeds_partial (stat := noStats) (lf := fun l _ => l.elim) noLeavesB_laws noLeavesB_ok cmpEnv_leaf cmpEnv_noStats nofun
    cmpEnv_const noCounts_honest noStats_honest (fun _ l => l.elim) table_wf table_wf table_bulk rfl query_claimed query_countable query_runs
  have hs : selected cmpEnv noRows [aName, bName] [cmpL, cmpR] 3 query = [true, false, false] := rfl
  have hr : rows cmpEnv.toEnv noRows table = [.list [i32 1, i32 3], .list [.null, i32 1], .list [i32 3, i32 1]] := rfl
  rw [hs, hr] at h2
  cases o with
  | none => cases h2
  | some o => exact ⟨o, h1, h2⟩

/-- The mask of the query. -/
example : ∃ m, rowFilter cmpEnv noCounts query table = .ok m ∧ rows cmpEnv.toEnv noRows m = [.bool true, .bool false, .bool false] := by
  obtain ⟨m, hm⟩ := rowFilter_total (cached := noCounts) noLeavesB_laws noLeavesB_ok cmpEnv_leaf cmpEnv_noStats nofun cmpEnv_const table_wf query_claimed query_runs
  exact ⟨m, hm, (C106_row_filter_partial noLeavesB_laws noLeavesB_ok cmpEnv_leaf cmpEnv_readable noCounts_honest table_wf query_claimed query_countable hm).1⟩

end Vx.Tree
