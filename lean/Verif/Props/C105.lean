import Verif.Props.C104
/-! # C105: `and` and `or` of encoded boolean arrays are `and` and `or` of their rows -/
namespace Vx.Tree
open Spec

variable {L : Type} {env : CEnv L} {leafRows : L → List SV} {ok : L → Prop}

/-- **C105.** Whatever the encodings of the two boolean arrays, an answer of `and` or `or` has, row by row, the conjunction or disjunction of the two
rows, null where either is null; it is a well-formed nullable boolean array that decodes, and the lengths were the same. -/
theorem C105_bool_sound (hl : LeafLaws env.toEnv leafRows ok) (lb : LeafBulk env.toBEnv leafRows ok) (lc : LeafCompare env leafRows ok)
    (hr : Readable env leafRows) {both : Bool} {l r b : Arr L}
    (hw : WF env.toEnv leafRows ok l) (hn : Nice env.toEnv leafRows l) (hw' : WF env.toEnv leafRows ok r) (hn' : Nice env.toEnv leafRows r)
    (h : Arr.boolOp env both l r = .ok b) :
    rows env.toEnv leafRows b = List.zipWith (boolRow both) (rows env.toEnv leafRows l) (rows env.toEnv leafRows r) ∧
      WF env.toEnv leafRows ok b ∧ Nice env.toEnv leafRows b ∧ dtype env.toEnv b = .bool true ∧
      (rows env.toEnv leafRows l).length = (rows env.toEnv leafRows r).length := by
  obtain ⟨a, e⟩ := boolOp_sound hl lb lc hr hw hn hw' hn' h
  exact ⟨a.rows, a.wf, a.nice, a.dtype, e⟩

/-- **C105.** Two boolean arrays of the same length, neither a constant array: the operator succeeds. -/
theorem C105_bool_succeeds_partial (hl : LeafLaws env.toEnv leafRows ok) (lb : LeafBulk env.toBEnv leafRows ok) (lc : LeafCompare env leafRows ok)
    (hr : Readable env leafRows) {both : Bool} {l r : Arr L}
    (hw : WF env.toEnv leafRows ok l) (hn : Nice env.toEnv leafRows l) (hd : ∃ nl, dtype env.toEnv l = .bool nl)
    (hw' : WF env.toEnv leafRows ok r) (hn' : Nice env.toEnv leafRows r) (hd' : ∃ nl, dtype env.toEnv r = .bool nl)
    (hlen : (rows env.toEnv leafRows l).length = (rows env.toEnv leafRows r).length)
    (cl : ∀ dt x n, l ≠ .const dt x n) (cr : ∀ dt x n, r ≠ .const dt x n) :
    ∃ b, Arr.boolOp env both l r = .ok b ∧
      rows env.toEnv leafRows b = List.zipWith (boolRow both) (rows env.toEnv leafRows l) (rows env.toEnv leafRows r) := by
  have nc : ∀ {a : Arr L}, (∀ dt x n, a ≠ .const dt x n) → isConstArr a = false := by
    intro a h
    cases a <;> first | rfl | exact absurd rfl (h _ _ _)
  obtain ⟨_, hd⟩ := hd
  obtain ⟨_, hd'⟩ := hd'
  obtain ⟨b, b1, _⟩ := boolOp_total (both := both) hl lb hw hn (by rw [hd]; rfl) hw' hn' (by rw [hd']; rfl) hlen (nc cl) (nc cr)
  exact ⟨b, b1, (C105_bool_sound hl lb lc hr hw hn hw' hn' b1).1⟩

/-- **C105.** A plain boolean array and a constant, in either order: the operator succeeds. -/
theorem C105_plain_constant_succeeds_partial (hl : LeafLaws env.toEnv leafRows ok) (lb : LeafBulk env.toBEnv leafRows ok) (lc : LeafCompare env leafRows ok)
    (hns : NoStats env) {both : Bool} {vals : List SV} {v : TVal (Arr L)} {nl : Bool} {x : SV} (hw : WF env.toEnv leafRows ok (.flat .bool vals v))
    (hn : Nice env.toEnv leafRows (.flat .bool vals v)) (hx : inst x (.bool nl) = true) :
    ∃ b c, Arr.boolOp env both (.flat .bool vals v) (.const (.bool nl) x vals.length) = .ok b ∧
      Arr.boolOp env both (.const (.bool nl) x vals.length) (.flat .bool vals v) = .ok c ∧
      rows env.toEnv leafRows b = (rows env.toEnv leafRows (.flat .bool vals v)).map (fun r => boolRow both r x) ∧
      rows env.toEnv leafRows c = rows env.toEnv leafRows b := by
  have hr : Readable env leafRows := fun a ha => by rw [hns a] at ha; cases ha
  obtain ⟨⟨b, b1, _⟩, c, c1, _⟩ := boolOp_const (both := both) (dt := .bool nl) hl lb hns hw (by simpa only [Nice] using hn) rfl hx
  have hw' : WF env.toEnv leafRows ok (.const (.bool nl) x vals.length : Arr L) := by simpa only [WF] using hx
  have hn' : Nice env.toEnv leafRows (.const (.bool nl) x vals.length : Arr L) := by simp [Nice, kindOf]
  obtain ⟨b2, b3⟩ := boolOp_sound hl lb lc hr hw hn hw' hn' b1
  obtain ⟨c2, _⟩ := boolOp_sound hl lb lc hr hw' hn' hw hn c1
  refine ⟨b, c, b1, c1, ?_, by rw [c2.swap.rows, b2.rows]⟩
  rw [b2.rows]
  have e : rows env.toEnv leafRows (.const (.bool nl) x vals.length : Arr L) =
      List.replicate (rows env.toEnv leafRows (.flat .bool vals v)).length x := by
    rw [b3]; simp [rows]
  rw [e, zip_replicate]

/-- The order of the two sides does not matter. -/
theorem C105_bool_comm (hl : LeafLaws env.toEnv leafRows ok) (lb : LeafBulk env.toBEnv leafRows ok) (lc : LeafCompare env leafRows ok)
    (hr : Readable env leafRows) {both : Bool} {l r b c : Arr L}
    (hw : WF env.toEnv leafRows ok l) (hn : Nice env.toEnv leafRows l) (hw' : WF env.toEnv leafRows ok r) (hn' : Nice env.toEnv leafRows r)
    (h : Arr.boolOp env both l r = .ok b) (h' : Arr.boolOp env both r l = .ok c) : rows env.toEnv leafRows b = rows env.toEnv leafRows c := by
  rw [(boolOp_sound hl lb lc hr hw hn hw' hn' h).1.rows, (boolOp_sound hl lb lc hr hw' hn' hw hn h').1.swap.rows]

/-- Arrays of different lengths, and arrays that are not boolean, are refused. -/
theorem C105_mismatch_refused (both : Bool) (l r : Arr L)
    (h : len env.toEnv l ≠ len env.toEnv r ∨ (∀ nl, dtype env.toEnv l ≠ .bool nl) ∨ ∀ nl, dtype env.toEnv r ≠ .bool nl) :
    Arr.boolOp env both l r = .err := by
  have nb : ∀ {d : DType}, (∀ nl, d ≠ .bool nl) → isBooleanType d = false := by
    intro d h
    cases d <;> first | rfl | exact absurd rfl (h _)
  unfold Arr.boolOp
  split
  · rfl
  rename_i hl
  rcases h with h | h | h
  · exact absurd h hl
  · rw [nb h]; rfl
  · rw [nb h, if_pos (by simp)]

/-- What the answer for a row is, in terms of the two booleans. -/
theorem C105_row_meaning (x y : SV) (a b : Bool) : boolRow true (.bool a) (.bool b) = .bool (a && b) ∧ boolRow false (.bool a) (.bool b) = .bool (a || b) ∧
    (∀ both, boolRow both .null y = .null ∧ boolRow both x .null = .null) :=
  ⟨rfl, rfl, fun _ => ⟨rfl, by cases x <;> rfl⟩⟩

/-! ## Where the code is stuck, or not what SQL says -/

/-- `true, false` in two chunks. -/
def boolChunks : Arr Empty := .chunked (.bool false) [.flat .bool [.bool true] .nonNullable, .flat .bool [.bool false] .nonNullable]

/-- **C105's success is false of the code.** A boolean column that is not plain cannot be combined with a constant, in either order. -/
theorem C105_constant_encoded_fails (both : Bool) (b : Bool) :
    Arr.boolOp cmpEnv both boolChunks (.const (.bool false) (.bool b) 2) = .err ∧
      Arr.boolOp cmpEnv both (.const (.bool false) (.bool b) 2) boolChunks = .err := by
  cases both <;> cases b <;> exact ⟨rfl, rfl⟩

/-- Two empty constants cannot be combined: row 0 is read. -/
theorem C105_empty_constants_fail (both b c : Bool) :
    Arr.boolOp cmpEnv both (.const (.bool false) (.bool b) 0 : Arr Empty) (.const (.bool false) (.bool c) 0) = .err := by
  cases both <;> cases b <;> cases c <;> rfl

/-- Not SQL's operators: `false and null` and `true or null` are null. -/
theorem C105_not_kleene : ∃ b c, Arr.boolOp cmpEnv true (.flat .bool [.bool false] .allValid : Arr Empty) (.flat .bool [.bool true] .allInvalid) = .ok b ∧
    Arr.boolOp cmpEnv false (.flat .bool [.bool true] .allValid : Arr Empty) (.flat .bool [.bool true] .allInvalid) = .ok c ∧
    rows cmpEnv.toEnv noRows b = [.null] ∧ rows cmpEnv.toEnv noRows c = [.null] := ⟨_, _, rfl, rfl, rfl, rfl⟩

/-! ## A case that meets the hypotheses -/

theorem cmpEnv_readable : Readable cmpEnv noRows := fun _ h => by cases h

/-- `true, null` plain. -/
def boolNulls : Arr Empty := .flat .bool [.bool true, .bool true] (.array (.flat .bool [.bool true, .bool false] .nonNullable))

theorem boolChunks_wf : WF cmpEnv.toEnv noRows (fun _ => True) boolChunks := by
  refine ⟨⟨⟨?_, trivial⟩, ⟨?_, trivial⟩, trivial⟩, ?_⟩
  · intro x hx; simp at hx; subst hx; rfl
  · intro x hx; simp at hx; subst hx; rfl
  · intro d hd
    have hd : d ∈ [DType.bool false, DType.bool false] := hd
    simpa using hd

theorem boolNulls_wf : WF cmpEnv.toEnv noRows (fun _ => True) boolNulls := by
  refine ⟨?_, ⟨?_, trivial⟩, rfl, rfl, ?_⟩
  · intro x hx; simp at hx; subst hx; rfl
  · intro x hx; simp at hx; rcases hx with rfl | rfl <;> rfl
  · intro r hr
    have : r ∈ [SV.bool true, SV.bool false] := hr
    simp at this
    rcases this with rfl | rfl <;> exact ⟨_, rfl⟩

theorem boolChunks_nice : Nice cmpEnv.toEnv noRows boolChunks := by
  simp [boolChunks, Nice, Nices, NiceV, kindOf]

/-- Chunks and a plain array with a null: true, null. -/
example : ∃ b, Arr.boolOp cmpEnv false boolChunks boolNulls = .ok b ∧ rows cmpEnv.toEnv noRows b = [.bool true, .null] := by
  obtain ⟨b, b1, b2⟩ := C105_bool_succeeds_partial (both := false) noLeavesB_laws noLeavesB_ok cmpEnv_leaf cmpEnv_readable boolChunks_wf boolChunks_nice
    ⟨_, rfl⟩ boolNulls_wf (by simp [boolNulls, Nice, NiceV]) ⟨_, rfl⟩ rfl (by intro _ _ _ h; cases h) (by intro _ _ _ h; cases h)
  exact ⟨b, b1, by rw [b2]; rfl⟩

/-- A plain array and the constant `true`. -/
example : ∃ b, Arr.boolOp cmpEnv true (.const (.bool false) (.bool true) 2) boolNulls = .ok b ∧ rows cmpEnv.toEnv noRows b = [.bool true, .null] := by
  obtain ⟨b, c, _, c1, b2, c2⟩ := C105_plain_constant_succeeds_partial (both := true) (nl := false) (x := .bool true) noLeavesB_laws noLeavesB_ok cmpEnv_leaf
    cmpEnv_noStats boolNulls_wf (by simp [boolNulls, Nice, NiceV]) rfl
  exact ⟨c, c1, by rw [c2, b2]; rfl⟩

end Vx.Tree
