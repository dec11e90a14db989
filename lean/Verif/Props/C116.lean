import Verif.Lemmas.UsedEncodings
import Verif.Props.C41
/-! # C116: the compressor lists the encodings it writes

A reader's context is built from what the compressor says it uses: `Context::default().with_encodings(compressor.used_encodings())`. -/
namespace Vx.Tree
open Vx.Registry (Std Context Encoding)

variable {L : Type} {env : BEnv L} {ch : Choice L} {le : L → List Std}

/-- What a compressor with these compressors may write: what every reader knows, what is declared and, if ALP is enabled, what ALP-RD, which ALP
enables for its exceptions, declares. -/
def MayWrite (compressors : List CId) (e : Std) : Prop :=
  e ∈ Context.defaults ∨ e ∈ usedEncodings compressors ∨ (CId.alp ∈ compressors ∧ e ∈ usedBy .alpRd)

/-- The compressors that can run. -/
def MayRun (compressors : List CId) (i : CId) : Prop :=
  i ∈ compressors ∨ i ∈ [CId.constant, .struct, .chunked] ∨ (CId.alp ∈ compressors ∧ i = .alpRd)

theorem mayRun_sets (cs : List CId) : Sets (MayRun cs) (MayWrite cs) where
  constant := .inr (.inl (by simp))
  struct := .inr (.inl (by simp))
  chunked := .inr (.inl (by simp))
  alpRd h := by
    rcases h with h | h | h
    · exact .inr (.inr ⟨h, rfl⟩)
    · simp at h
    · simp at h
  base e he := .inl he
  used i hi e he := by
    rcases hi with hi | hi | ⟨hi, rfl⟩
    · exact .inr (.inl (List.mem_flatMap.mpr ⟨i, hi, he⟩))
    · simp only [List.mem_cons, List.not_mem_nil, or_false] at hi
      rcases hi with rfl | rfl | rfl
      · simp only [usedBy, List.mem_cons, List.not_mem_nil, or_false] at he
        subst he
        exact .inl (by decide)
      · simp [usedBy] at he
      · simp [usedBy] at he
    · exact .inr (.inr ⟨hi, he⟩)

/-- **C116.** Whatever is compressed, whatever the statistics, samples and sizes make the search choose (`ch`) and at whatever depth the search stops:
if all encodings of the input, and all that the compressors of the leaf encodings write, may be written, so are all encodings of the output. -/
theorem C116_may_write_partial (fuel : Nat) (ctx : Ctx) (a b : Arr L) (t : Option CTree)
    (hle : ∀ i a like l, MayRun ctx.compressors i → ch.leafEnc i a like = .ok (some l) → ∀ e ∈ le l, MayWrite ctx.compressors e)
    (ha : ∀ e ∈ encsOf le a, MayWrite ctx.compressors e) (hr : Rechunkable env.toEnv a)
    (h : compress env ch fuel ctx a none = .ok (b, t)) :
    ∀ e ∈ encsOf le b, MayWrite ctx.compressors e :=
  (compress_in (mayRun_sets ctx.compressors) hle fuel ctx a none b t h (fun _ hi => .inl hi) tin_none).2 ⟨ha, hr⟩

/-- No compressor runs that is not enabled, one of the three that always run, or the one ALP adds: none is named in the tree that is kept for
reuse. -/
theorem C116_compressors_run_partial (fuel : Nat) (ctx : Ctx) (a b : Arr L) (t : CTree)
    (h : compress env ch fuel ctx a none = .ok (b, some t)) : ∀ i ∈ t.ids, MayRun ctx.compressors i := by
  have := (compress_in (le := fun _ => []) (S := fun _ => True)
    (I := MayRun ctx.compressors) ⟨.inr (.inl (by simp)), .inr (.inl (by simp)), .inr (.inl (by simp)), (mayRun_sets _).alpRd, fun _ _ => trivial, fun _ _ _ _ => trivial⟩
    (fun _ _ _ _ _ _ _ _ => trivial) fuel ctx a none b (some t) h (fun _ hi => .inl hi) tin_none).1
  exact this

/-! ### The reader -/

theorem lookup_std (es : List Std) (e : Std) (h : e ∈ es) (c : Context) : (c.withEncodings (es.map .std)).lookup e.code = some (.std e) := by
  rw [Registry.lookup_withEncodings]
  cases hl : Registry.lastWith e.code (es.map .std) with
  | none =>
    exfalso
    unfold Registry.lastWith at hl
    rw [List.getLast?_eq_none_iff, List.filter_eq_nil_iff] at hl
    exact hl (.std e) (List.mem_map_of_mem h) (by simp [Encoding.id, Std.id])
  | some x =>
    have h1 := Registry.lastWith_code hl
    unfold Registry.lastWith at hl
    have h2 := List.mem_of_getLast? hl
    obtain ⟨k, _, rfl⟩ := List.mem_map.mp (List.mem_filter.mp h2).1
    rw [Registry.code_inj k e h1]
    rfl

theorem lookup_keep (es : List Std) (e : Std) (c : Context) (h : c.lookup e.code = some (.std e)) : (c.withEncodings (es.map .std)).lookup e.code = some (.std e) := by
  by_cases hm : e ∈ es
  · exact lookup_std es e hm c
  · rw [Registry.lookup_withEncodings]
    have : Registry.lastWith e.code (es.map .std) = none := by
      unfold Registry.lastWith
      rw [List.getLast?_eq_none_iff, List.filter_eq_nil_iff]
      intro x hx hc
      obtain ⟨k, hk, rfl⟩ := List.mem_map.mp hx
      have : k.code = e.code := by simpa [Encoding.id, Std.id] using hc
      rw [Registry.code_inj k e this] at hk
      exact hm hk
    rw [this, h]
    rfl

theorem default_lookup (e : Std) (h : e ∈ Context.defaults) : Context.default.lookup e.code = some (.std e) := by
  simp only [Context.defaults, List.mem_cons, List.not_mem_nil, or_false] at h
  rcases h with rfl | rfl | rfl | rfl | rfl | rfl | rfl | rfl | rfl | rfl <;> rfl

/-- A reader built from the declared encodings finds those and the default ones. -/
theorem C116_reader_knows (compressors : List CId) (e : Std) (h : e ∈ Context.defaults ∨ e ∈ usedEncodings compressors) :
    (readerContext compressors).lookup e.code = some (.std e) := by
  rcases h with h | h
  · exact lookup_keep _ e _ (default_lookup e h)
  · exact lookup_std _ e h _

/-- **C116, reading.** If bit-packing is enabled whenever ALP is, a reader built from the declared encodings has the encoding of every array in what
the compressor writes. -/
theorem C116_readable_partial (fuel : Nat) (ctx : Ctx) (a b : Arr L) (t : Option CTree)
    (hbp : CId.alp ∈ ctx.compressors → Std.bitPacked ∈ usedEncodings ctx.compressors)
    (hle : ∀ i a like l, MayRun ctx.compressors i → ch.leafEnc i a like = .ok (some l) → ∀ e ∈ le l, MayWrite ctx.compressors e)
    (ha : ∀ e ∈ encsOf le a, MayWrite ctx.compressors e) (hr : Rechunkable env.toEnv a)
    (h : compress env ch fuel ctx a none = .ok (b, t)) :
    ∀ e ∈ encsOf le b, (readerContext ctx.compressors).lookup e.code = some (.std e) := by
  intro e he
  apply C116_reader_knows
  rcases C116_may_write_partial fuel ctx a b t hle ha hr h e he with h | h | ⟨h1, h2⟩
  · exact .inl h
  · exact .inr h
  · simp only [usedBy, List.mem_cons, List.not_mem_nil, or_false] at h2
    rcases h2 with rfl | rfl
    · exact .inr (List.mem_flatMap.mpr ⟨.alp, h1, by simp [usedBy]⟩)
    · exact .inr (hbp h1)

/-- The two lists of compressors that come with the library enable it. -/
theorem C116_defaults : (∀ cs ∈ [defaultCompressors, fastestCompressors], CId.alp ∈ cs → Std.bitPacked ∈ usedEncodings cs) := by decide

/-- All that can be declared is known to `ALL_COMPRESSORS_CONTEXT`, whatever is enabled. -/
theorem C116_all_context (compressors : List CId) (e : Std) (h : MayWrite compressors e) : Context.allCompressors.lookup e.code = some (.std e) := by
  cases e <;> rfl

/-- Enabling more compressors never takes an encoding away. -/
theorem C116_more (cs cs' : List CId) (h : ∀ i ∈ cs, i ∈ cs') (e : Std) (he : (readerContext cs).lookup e.code = some (.std e)) :
    (readerContext cs').lookup e.code = some (.std e) := by
  by_cases hm : e ∈ Context.defaults ∨ e ∈ usedEncodings cs
  · refine C116_reader_knows cs' e (hm.imp id fun h1 => ?_)
    obtain ⟨i, hi, hu⟩ := List.mem_flatMap.mp h1
    exact List.mem_flatMap.mpr ⟨i, h i hi, hu⟩
  · exfalso
    simp only [not_or] at hm
    unfold readerContext at he
    have hx := Registry.lookup_mem he
    rw [Registry.lookup_withEncodings] at he
    cases hl : Registry.lastWith e.code ((usedEncodings cs).map .std) with
    | some x =>
      have h1 := Registry.lastWith_code hl
      unfold Registry.lastWith at hl
      obtain ⟨k, hk, rfl⟩ := List.mem_map.mp (List.mem_filter.mp (List.mem_of_getLast? hl)).1
      rw [Registry.code_inj k e h1] at hk
      exact hm.2 hk
    | none =>
      rw [hl] at he
      have h2 := Registry.lookup_mem (c := Context.default) he
      have hd : Context.default.encodings = (Context.defaults.map Encoding.std).reverse := rfl
      rw [hd, List.mem_reverse] at h2
      obtain ⟨k, hk, hke⟩ := List.mem_map.mp h2
      cases hke
      exact hm.1 hk

/-! ### Examples -/

def noEncs : Empty → List Std := nofun

/-- The column of C41: a reader with default context and the declared encodings has everything in it. -/
example : ∃ b t, compress noLeavesB exChoice 8 (.new [.runEnd, .zigzag]) exColumn none = .ok (b, t) ∧
    encsOf noEncs b = [.chunked, .prim, .runEnd, .zigzag, .prim, .runEnd, .zigzag, .prim] ∧
    ∀ e ∈ encsOf noEncs b, (readerContext [.runEnd, .zigzag]).lookup e.code = some (.std e) := by
  refine ⟨_, _, rfl, rfl, ?_⟩
  refine C116_readable_partial (ch := exChoice) (env := noLeavesB) 8 (.new [.runEnd, .zigzag]) exColumn _ _ (by simp [Ctx.new]) ?_ ?_ ?_ rfl
  · intro i a like l _ h; simp [exChoice] at h
  · intro e he
    have : encsOf noEncs exColumn = [.chunked, .prim, .prim, .prim, .prim] := rfl
    rw [this] at he
    simp only [List.mem_cons, List.not_mem_nil, or_false] at he
    rcases he with rfl | rfl | rfl | rfl | rfl <;> exact .inl (by decide)
  · exact ⟨⟨trivial, trivial, trivial, trivial⟩, rfl, rfl, rfl, trivial⟩

/-- One leaf encoding: an ALP-RD array of one double. -/
def rdEnv : BEnv Unit where
  len _ := 1
  dtype _ := .prim .f64 true
  isValid _ _ := .ok true
  scalar _ _ := .ok (f64v 7)
  scalarU _ _ := .ok (f64v 7)
  slice _ _ _ := .err
  alpDec _ _ q := q
  take _ _ := .err
  filter _ _ := .err
  canon _ := .ok (.flat (.prim .f64) [f64v 7] .allValid)
  valid _ := .ok (.allValid 1)
  manySet _ _ := false
  temporal := temporalArrow

/-- Every compressor accepts what it can, ALP makes everything an exception. -/
def rdChoice : Choice Unit where
  can i a := match i, a with
    | .alp, .flat (.prim .f64) _ _ => true
    | .alpRd, .flat (.prim .f64) _ _ => true
    | .sparse, .sparse _ _ _ _ _ => true
    | _, _ => false
  cost i := if i = .sparse then 0 else 1
  maxCost := 3
  own _ _ := false
  small _ := true
  sample a := .ok a
  better best _ _ := best.isNone
  unsatisfactory _ _ _ := false
  nbytes _ := 8
  targetBytes := 100
  targetRows := 100
  leafEnc i _ _ := .ok (if i = .alpRd then some () else none)
  alpEnc _ vals := .ok (0, 0, vals.map (fun _ => .prim ⟨.i64, 0⟩), List.range vals.length)

/-- ALP-RD arrays have bit-packed parts. -/
def rdEncs (_ : Unit) : List Std := [.alprd, .bitPacked, .prim]

/-- **C116 fails as stated**: with ALP and sparse enabled, exceptions become an ALP-RD array inside a sparse array; bit-packing is not declared, and
a reader built from the declared encodings does not know it. -/
theorem C116_alp_rd_undeclared : ∃ b t, compress rdEnv rdChoice 8 (.new [.alp, .sparse]) (.flat (.prim .f64) [f64v 7] .nonNullable) none = .ok (b, t) ∧
    encsOf rdEncs b = [.alp, .prim, .sparse, .alprd, .bitPacked, .prim] ∧
    Std.bitPacked ∉ usedEncodings [.alp, .sparse] ∧ (readerContext [.alp, .sparse]).lookup Std.bitPacked.code = none := by
  refine ⟨_, _, rfl, rfl, by decide, rfl⟩

end Vx.Tree
