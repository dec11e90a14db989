import Verif.Spec.UsedEncodings
import Verif.Lemmas.CompressDriver
import Verif.Lemmas.Registry
/-! # Lemmas for C116 -/
namespace Vx.Tree
open Vx.Registry (Std Context)

variable {L : Type} {env : BEnv L} {ch : Choice L} {le : L → List Std}

/-! ### Membership -/

theorem encsAll_eq (cs : List (Arr L)) : encsAll le cs = cs.flatMap (encsOf le) := by
  induction cs with
  | nil => rfl
  | cons c cs ih => simp only [encsAll, List.flatMap_cons, ih]

theorem chunksOk_iff {e : Env L} : ∀ {cs : List (Arr L)}, ChunksOk e cs ↔ ∀ c ∈ cs, ChunkOk e c
  | [] => by simp [ChunksOk]
  | c :: cs => by simp [ChunksOk, chunksOk_iff (cs := cs)]

theorem rechunkableAll_iff {e : Env L} : ∀ {cs : List (Arr L)}, RechunkableAll e cs ↔ ∀ c ∈ cs, Rechunkable e c
  | [] => by simp [RechunkableAll]
  | c :: cs => by simp [RechunkableAll, rechunkableAll_iff (cs := cs)]

/-- Only encodings of `S`. -/
def In (le : L → List Std) (S : Std → Prop) (a : Arr L) : Prop := ∀ e ∈ encsOf le a, S e

def InV (le : L → List Std) (S : Std → Prop) (v : TVal (Arr L)) : Prop := ∀ e ∈ encsV le v, S e

/-- The encodings every reader has. -/
def Base (S : Std → Prop) : Prop := ∀ e ∈ Context.defaults, S e

variable {S : Std → Prop}

theorem in_flat {k : Kind} {xs : List SV} {v : TVal (Arr L)} : In le S (.flat k xs v) ↔ (∀ e ∈ kindEncs k, S e) ∧ InV le S v := by
  simp [In, InV, encsOf, or_imp, forall_and]

theorem in_chunked {dt : DType} {cs : List (Arr L)} : In le S (.chunked dt cs) ↔ S .chunked ∧ S .prim ∧ ∀ c ∈ cs, In le S c := by
  simp only [In, encsOf, encsAll_eq, List.mem_cons, List.mem_flatMap]
  constructor
  · intro h
    exact ⟨h _ (.inl rfl), h _ (.inr (.inl rfl)), fun c hc e he => h e (.inr (.inr ⟨c, hc, he⟩))⟩
  · rintro ⟨h1, h2, h3⟩ e (rfl | rfl | ⟨c, hc, he⟩)
    · exact h1
    · exact h2
    · exact h3 c hc e he

theorem in_struct {names : List Str} {cs : List (Arr L)} {n : Nat} {v : TVal (Arr L)} :
    In le S (.struct names cs n v) ↔ S .struct ∧ (∀ c ∈ cs, In le S c) ∧ InV le S v := by
  simp only [In, InV, encsOf, encsAll_eq, List.mem_cons, List.mem_append, List.mem_flatMap]
  constructor
  · intro h
    exact ⟨h _ (.inl rfl), fun c hc e he => h e (.inr (.inl ⟨c, hc, he⟩)), fun e he => h e (.inr (.inr he))⟩
  · rintro ⟨h1, h2, h3⟩ e (rfl | ⟨c, hc, he⟩ | he)
    · exact h1
    · exact h2 c hc e he
    · exact h3 e he

theorem in_ext {id : Str} {m : Option (List UInt8)} {s : Arr L} : In le S (.ext id m s) ↔ S .ext ∧ In le S s := by
  simp [In, encsOf]

theorem in_sparse {is : List Nat} {a : Arr L} {n off : Nat} {fill : SV} : In le S (.sparse is a n off fill) ↔ S .sparse ∧ In le S a := by
  simp [In, encsOf]

theorem in_const {dt : DType} {x : SV} {n : Nat} : In le S (Arr.const dt x n) ↔ S .constant := by simp [In, encsOf]

theorem in_null {n : Nat} : In le S (Arr.null n) ↔ S .null := by simp [In, encsOf]

theorem in_dict {a b : Arr L} : In le S (.dict a b) ↔ S .dict ∧ In le S a ∧ In le S b := by
  simp [In, encsOf, or_imp, forall_and]

theorem in_runEnd {ends : List Nat} {a : Arr L} {v : TVal (Arr L)} {o n : Nat} : In le S (.runEnd ends a v o n) ↔ S .runEnd ∧ In le S a ∧ InV le S v := by
  simp [In, InV, encsOf, or_imp, forall_and]

theorem in_mapped {c : Codec} {a : Arr L} : In le S (.mapped c a) ↔ S (codecEnc c) ∧ In le S a := by simp [In, encsOf]

theorem in_alpP {x y : Nat} {a b : Arr L} : In le S (.alpP x y a b) ↔ S .alp ∧ In le S a ∧ In le S b := by
  simp [In, encsOf, or_imp, forall_and]

theorem kindEncs_base (hS : Base S) (k : Kind) : ∀ e ∈ kindEncs k, S e := by
  intro e he
  apply hS
  cases k <;> simp only [kindEncs, List.mem_cons, List.not_mem_nil, or_false] at he
  · subst he; decide
  · subst he; decide
  · rcases he with rfl | rfl | rfl <;> decide
  · rcases he with rfl | rfl | rfl <;> decide

theorem inV_ofValidity (hS : Base S) (v : Validity) : InV le S (ofValidity v : TVal (Arr L)) := by
  intro e he
  cases v <;> simp [ofValidity, encsV, encsOf, kindEncs] at he
  subst he
  exact hS _ (by decide)

theorem inV_plain {v : TVal (Arr L)} (h : ∀ a, v ≠ .array a) : InV le S v := by
  intro e he
  cases v with
  | array a => exact absurd rfl (h a)
  | _ => simp [encsV] at he

theorem in_plainFlat (hS : Base S) {k : Kind} {xs : List SV} {v : TVal (Arr L)} (hv : InV le S v) : In le S (.flat k xs v) :=
  in_flat.mpr ⟨kindEncs_base hS k, hv⟩

theorem rechunkableV_ofValidity {e : Env L} (v : Validity) : RechunkableV e (ofValidity v) := by
  cases v <;> simp [ofValidity, RechunkableV, Rechunkable]

/-- What the compressor is given. -/
structure Inp (env : BEnv L) (le : L → List Std) (S : Std → Prop) (a : Arr L) : Prop where
  enc : In le S a
  chunks : Rechunkable env.toEnv a

def InpV (env : BEnv L) (le : L → List Std) (S : Std → Prop) (v : TVal (Arr L)) : Prop := InV le S v ∧ RechunkableV env.toEnv v

theorem inp_flat (hS : Base S) {k : Kind} {xs : List SV} {v : TVal (Arr L)} (h : InpV env le S v) : Inp env le S (.flat k xs v) :=
  ⟨in_plainFlat hS h.1, h.2⟩

theorem inp_of_flat {k : Kind} {xs : List SV} {v : TVal (Arr L)} (h : Inp env le S (.flat k xs v)) : InpV env le S v :=
  ⟨(in_flat.mp h.enc).2, h.chunks⟩

/-! ### Combining chunks -/

theorem mkChunked_eq {e : Env L} {dt : DType} {cs : List (Arr L)} {b : Arr L} (h : mkChunked e dt cs = .ok b) :
    b = .chunked dt cs ∧ ∀ c ∈ cs, dtype e c = dt := by
  simp only [mkChunked, Res.bind_eq_ok] at h
  obtain ⟨_, h1, h2⟩ := h
  simp only [Res.ok.injEq] at h2
  exact ⟨h2.symm, fun c hc => by simpa using List.all_eq_true.mp (guard_ok h1) c hc⟩

theorem combine_in (hS : Base S) {dt : DType} {cs : List (Arr L)} {b : Arr L}
    (h : combine env dt cs = .ok b) (hi : ∀ c ∈ cs, Inp env le S c) (hk : ∀ c ∈ cs, ChunkOk env.toEnv c) : Inp env le S b := by
  simp only [combine, Res.bind_eq_ok] at h
  obtain ⟨a, h1, h2⟩ := h
  obtain ⟨rfl, hdt⟩ := mkChunked_eq h1
  have other : ∀ c, (kindOf (dtype env.toEnv c)).isSome = true → ∀ d, kindOf d = none → dtype env.toEnv c ≠ d := by
    intro c h d hd e; rw [e, hd] at h; simp at h
  split at h2
  · rename_i names ds nl
    have hp : ∀ c ∈ cs, ∃ fs n v, c = .struct names fs n v := by
      intro c hc
      have hd := hdt c hc
      have hkc := hk c hc
      cases c with
      | struct ns fs n v => simp only [dtype, DType.struct.injEq] at hd; exact ⟨fs, n, v, by rw [hd.1]⟩
      | ext id m s => simp [dtype] at hd
      | null n => simp [dtype] at hd
      | _ => exact absurd hd (other _ hkc _ rfl)
    obtain ⟨ps, rfl⟩ := struct_parts cs hp
    simp only [Res.bind_eq_ok] at h2
    obtain ⟨v, g1, gs, g2, g3⟩ := h2
    have hlen : ∀ p ∈ ps, p.1.length = ds.length := by
      intro p hp
      have hd := hdt _ (List.mem_map_of_mem hp)
      simp only [mkPart, dtype, DType.struct.injEq] at hd
      rw [← hd.2.1, dtypes_eq, List.length_map]
    obtain ⟨f1, f2⟩ := swizzleFields_ok names ds.length ps hlen ds 0 gs g2 (by omega)
    simp only [Nat.zero_add] at f2
    have hv : InV le S v ∧ RechunkableV env.toEnv v := by
      unfold swizzleV at g1
      split at g1
      · simp only [Res.bind_eq_ok, Res.ok.injEq] at g1
        obtain ⟨lvs, _, rfl⟩ := g1
        exact ⟨inV_ofValidity hS _, rechunkableV_ofValidity _⟩
      · simp only [Res.ok.injEq] at g1
        subst g1
        exact ⟨inV_plain (by simp), trivial⟩
    have hb : b = .struct names gs (lens env.toEnv (ps.map (mkPart names))) v := by
      simp only [mkStruct, Res.bind_eq_ok] at g3
      obtain ⟨_, _, _, _, _, _, g3⟩ := g3
      simpa using g3.symm
    have hg : ∀ g ∈ gs, Inp env le S g := by
      intro g hgm
      obtain ⟨j, hj, rfl⟩ := List.mem_iff_getElem.mp hgm
      obtain ⟨d, _, e2, _⟩ := f2 j gs[j] (List.getElem?_eq_getElem hj)
      rw [e2]
      have hpf : ∀ p ∈ ps, partField j p ∈ p.1 := by
        intro p hp
        have : j < p.1.length := by rw [hlen p hp]; omega
        simp only [partField, List.getElem?_eq_getElem this, Option.getD_some]
        exact List.getElem_mem _
      refine ⟨in_chunked.mpr ⟨hS _ (by decide), hS _ (by decide), ?_⟩, rechunkableAll_iff.mpr ?_, chunksOk_iff.mpr ?_⟩
      · intro c hc
        obtain ⟨p, hp, rfl⟩ := List.mem_map.mp hc
        exact (in_struct.mp (hi _ (List.mem_map_of_mem hp)).enc).2.1 _ (hpf p hp)
      · intro c hc
        obtain ⟨p, hp, rfl⟩ := List.mem_map.mp hc
        exact rechunkableAll_iff.mp (hi _ (List.mem_map_of_mem hp)).chunks.1 _ (hpf p hp)
      · intro c hc
        obtain ⟨p, hp, rfl⟩ := List.mem_map.mp hc
        have := hk _ (List.mem_map_of_mem hp)
        simp only [mkPart, ChunkOk] at this
        exact chunksOk_iff.mp this _ (hpf p hp)
    subst hb
    exact ⟨in_struct.mpr ⟨hS _ (by decide), fun g hgm => (hg g hgm).enc, hv.1⟩, rechunkableAll_iff.mpr (fun g hgm => (hg g hgm).chunks), hv.2⟩
  · rename_i id m nl
    have hp : ∀ c ∈ cs, ∃ s, c = .ext id m s := by
      intro c hc
      have hd := hdt c hc
      have hkc := hk c hc
      cases c with
      | struct ns fs n v => simp [dtype] at hd
      | ext id m s => simp only [dtype, DType.ext.injEq] at hd; exact ⟨s, by rw [hd.1, hd.2.1]⟩
      | null n => simp [dtype] at hd
      | _ => exact absurd hd (other _ hkc _ rfl)
    obtain ⟨ss, rfl⟩ := ext_parts cs hp
    simp only [combineExt, Res.bind_eq_ok] at h2
    obtain ⟨ss', e1, s, _, x, e3, e4⟩ := h2
    have e2 : Res.mapM (storageOf env) (ss.map (Arr.ext id m)) = .ok ss := by
      clear e1 hi hk hdt hp h1
      induction ss with
      | nil => rfl
      | cons s ss ih =>
        rw [List.map_cons, Res.mapM_cons, ih]
        have hd := depth_pos (Arr.ext id m s)
        obtain ⟨d, hd'⟩ : ∃ d, depth (Arr.ext id m s) = d + 1 := ⟨depth (Arr.ext id m s) - 1, by omega⟩
        simp [storageOf, Arr.canon, hd', bulks, bstep, canonFn]
    have e5 := e1.symm.trans e2
    simp only [Res.ok.injEq] at e5
    subst e5
    obtain ⟨rfl, _⟩ := mkChunked_eq e3
    simp only [Res.ok.injEq] at e4
    subst e4
    refine ⟨in_ext.mpr ⟨hS _ (by decide), in_chunked.mpr ⟨hS _ (by decide), hS _ (by decide), ?_⟩⟩, trivial⟩
    intro c hc
    exact (in_ext.mp (hi _ (List.mem_map_of_mem hc)).enc).2
  · cases hkd : kindOf dt with
    | some k =>
      obtain ⟨xs, w, rfl, e6⟩ := canon_shape hkd h2
      rcases e6 with rfl | ⟨V, rfl⟩
      · exact inp_flat hS ⟨inV_plain (by simp), trivial⟩
      · exact inp_flat hS ⟨inV_ofValidity hS _, rechunkableV_ofValidity _⟩
    | none =>
      have hcn : (Arr.chunked dt cs).canon env = if dt = .null then .ok (.null (lens env.toEnv cs)) else .err := by
        have hd := depth_pos (Arr.chunked dt cs)
        obtain ⟨d, hd'⟩ : ∃ d, depth (Arr.chunked dt cs) = d + 1 := ⟨depth (Arr.chunked dt cs) - 1, by omega⟩
        simp only [Arr.canon, hd', bulks, bstep, canonFn, hkd]
      rw [hcn] at h2
      split at h2
      · simp only [Res.ok.injEq] at h2
        subst h2
        exact ⟨in_null.mpr (hS _ (by decide)), trivial⟩
      · simp at h2

/-! ### Compression trees -/

mutual
/-- The compressors named in a compression tree. -/
def CTree.ids : CTree → List CId
  | .node i cs => i :: idsAll cs
def CTree.idsAll : List (Option CTree) → List CId
  | [] => []
  | c :: cs => idsO c ++ idsAll cs
def CTree.idsO : Option CTree → List CId
  | none => []
  | some t => t.ids
end

def TIn (I : CId → Prop) (t : Option CTree) : Prop := ∀ i ∈ CTree.idsO t, I i

variable {I : CId → Prop}

theorem idsAll_eq : ∀ (cs : List (Option CTree)), CTree.idsAll cs = cs.flatMap CTree.idsO
  | [] => by simp [CTree.idsAll]
  | c :: cs => by simp [CTree.idsAll, idsAll_eq cs]

theorem tin_none : TIn I none := by simp [TIn, CTree.idsO]

theorem tin_node {i : CId} {cs : List (Option CTree)} : TIn I (some (.node i cs)) ↔ I i ∧ ∀ t ∈ cs, TIn I t := by
  simp only [TIn, CTree.idsO, CTree.ids, idsAll_eq, List.mem_cons, List.mem_flatMap]
  constructor
  · intro h; exact ⟨h _ (.inl rfl), fun t ht j hj => h j (.inr ⟨t, ht, hj⟩)⟩
  · rintro ⟨h1, h2⟩ j (rfl | ⟨t, ht, hj⟩)
    · exact h1
    · exact h2 t ht j hj

theorem tin_id {t : CTree} (h : TIn I (some t)) : I t.id := by
  obtain ⟨i, cs⟩ := t
  exact (tin_node.mp h).1

theorem tin_children {t : CTree} (h : TIn I (some t)) : ∀ c ∈ t.children, TIn I c := by
  obtain ⟨i, cs⟩ := t
  exact (tin_node.mp h).2

theorem tin_childOf {like l : Option CTree} {i : Nat} (h : TIn I like) (hc : childOf like i = .ok l) : TIn I l := by
  cases like with
  | none => simp only [childOf, Res.ok.injEq] at hc; subst hc; exact tin_none
  | some t =>
    simp only [childOf] at hc
    cases hx : t.children[i]? with
    | none => rw [hx] at hc; simp [Res.unwrap] at hc
    | some c =>
      rw [hx] at hc
      simp only [Res.unwrap, Res.ok.injEq] at hc
      subst hc
      exact tin_children h _ (List.mem_of_getElem? hx)

/-! ### The compressors -/

/-- The compressors a compressor may use. -/
def CtxIn (I : CId → Prop) (ctx : Ctx) : Prop := ∀ i ∈ ctx.compressors, I i

/-- Compressing names only compressors of `I` in the tree it returns, and writes only encodings of `S`. -/
def RecIn (env : BEnv L) (le : L → List Std) (I : CId → Prop) (S : Std → Prop) (rec : Ctx → Arr L → Option CTree → Res (Out L)) : Prop :=
  ∀ ctx a like b t, rec ctx a like = .ok (b, t) → CtxIn I ctx → TIn I like → TIn I t ∧ (Inp env le S a → In le S b)

/-- The same of one compressor of `I`. -/
def RunIn (env : BEnv L) (le : L → List Std) (I : CId → Prop) (S : Std → Prop) (runC : CId → Ctx → Arr L → Option CTree → Res (Out L)) : Prop :=
  ∀ i ctx a like b t, I i → runC i ctx a like = .ok (b, t) → CtxIn I ctx → TIn I like → TIn I t ∧ (Inp env le S a → In le S b)

/-- `I` contains what the compressor always has and the compressors it adds; `S` what every reader knows and what the compressors of `I` declare. -/
structure Sets (I : CId → Prop) (S : Std → Prop) : Prop where
  constant : I .constant
  struct : I .struct
  chunked : I .chunked
  alpRd : I .alp → I .alpRd
  base : Base S
  used : ∀ i, I i → ∀ e ∈ usedBy i, S e

/-- The other compressors of `I` write encodings of `S`. -/
def LeafUses (ch : Choice L) (le : L → List Std) (I : CId → Prop) (S : Std → Prop) : Prop :=
  ∀ i a like l, I i → ch.leafEnc i a like = .ok (some l) → ∀ e ∈ le l, S e

theorem ctxIn_excluding {ctx : Ctx} {i : CId} (h : CtxIn I ctx) : CtxIn I (ctx.excluding i) := h

theorem ctxIn_auxiliary {ctx : Ctx} (h : CtxIn I ctx) : CtxIn I ctx.auxiliary := h

theorem ctxIn_including {ctx : Ctx} {i : CId} (h : CtxIn I ctx) (hi : I i) : CtxIn I (ctx.including i) := by
  intro j hj
  simp only [Ctx.including] at hj
  split at hj
  · exact h j hj
  · simp only [List.mem_cons] at hj
    rcases hj with rfl | hj
    · exact hi
    · exact h j hj

variable {rec : Ctx → Arr L → Option CTree → Res (Out L)}

theorem compressV_in (hr : RecIn env le I S rec) {ctx : Ctx} {v w : TVal (Arr L)} (h : compressV rec ctx v = .ok w) (hc : CtxIn I ctx)
    (hv : InpV env le S v) : InV le S w := by
  cases v with
  | array a =>
    simp only [compressV, Res.bind_eq_ok, Res.ok.injEq] at h
    obtain ⟨r, h1, rfl⟩ := h
    have := (hr ctx a none r.1 r.2 h1 hc tin_none).2 ⟨hv.1, hv.2⟩
    exact this
  | _ =>
    simp only [compressV, Res.ok.injEq] at h
    subst h
    exact hv.1

theorem mkMapped_eq {e : Env L} {c : Codec} {a b : Arr L} (h : mkMapped e c a = .ok b) : b = .mapped c a := by
  unfold mkMapped at h
  split at h
  · simpa using h.symm
  · simp at h

theorem mkSparse_eq {e : Env L} {is : List Nat} {a b : Arr L} {n o : Nat} {f : SV} (h : mkSparse e is a n o f = .ok b) : b = .sparse is a n o f := by
  simp only [mkSparse, Res.bind_eq_ok] at h
  obtain ⟨_, _, _, _, _, _, h⟩ := h
  simpa using h.symm

theorem mkDict_eq {e : Env L} {a c b : Arr L} (h : mkDict e a c = .ok b) : b = .dict a c := by
  unfold mkDict at h
  split at h
  · split at h
    · simpa using h.symm
    · simp at h
  · simp at h

theorem mkRunEnd_eq {e : Env L} {ends : List Nat} {a b : Arr L} {v : TVal (Arr L)} {o n : Nat} (h : mkRunEnd e ends a v o n = .ok b) :
    b = .runEnd ends a v o n := by
  simp only [mkRunEnd, Res.bind_eq_ok] at h
  obtain ⟨_, _, _, _, _, _, _, _, h⟩ := h
  simpa using h.symm

theorem mkAlpP_eq {e : Env L} {x y : Nat} {a c b : Arr L} (h : mkAlpP e x y a c = .ok b) : b = .alpP x y a c := by
  unfold mkAlpP at h
  split at h
  · simp at h
  · split at h
    · simp at h
    · split at h
      · simp at h
      · simpa using h.symm

theorem mkStruct_eq {e : Env L} {names : List Str} {fs : List (Arr L)} {n : Nat} {v : TVal (Arr L)} {b : Arr L} (h : mkStruct e names fs n v = .ok b) :
    b = .struct names fs n v := by
  simp only [mkStruct, Res.bind_eq_ok] at h
  obtain ⟨_, _, _, _, _, _, h⟩ := h
  simpa using h.symm

theorem zigzag_in (hs : Sets I S) (hr : RecIn env le I S rec) {ctx : Ctx} {a b : Arr L} {like t : Option CTree} (hi : I .zigzag)
    (h : runZigzag env rec ctx a like = .ok (b, t)) (hc : CtxIn I ctx) (hl : TIn I like) : TIn I t ∧ (Inp env le S a → In le S b) := by
  unfold runZigzag at h
  split at h
  · simp only [Res.bind_eq_ok, Res.ok.injEq, Prod.mk.injEq] at h
    obtain ⟨_, _, l, h1, r, h2, x, h3, rfl, rfl⟩ := h
    obtain ⟨q1, q2⟩ := hr _ _ _ r.1 r.2 h2 hc (tin_childOf hl h1)
    refine ⟨tin_node.mpr ⟨hi, by simpa using q1⟩, fun ha => ?_⟩
    rw [mkMapped_eq h3]
    exact in_mapped.mpr ⟨hs.used _ hi _ (by simp [usedBy, codecEnc]), q2 (inp_flat hs.base (inp_of_flat ha))⟩
  · simp at h

theorem for_in (hs : Sets I S) (hr : RecIn env le I S rec) {ctx : Ctx} {a b : Arr L} {like t : Option CTree} (hi : I .for)
    (h : runFor env rec ctx a like = .ok (b, t)) (hc : CtxIn I ctx) (hl : TIn I like) : TIn I t ∧ (Inp env le S a → In le S b) := by
  unfold runFor at h
  split at h
  · rename_i p vals v
    simp only [Res.bind_eq_ok] at h
    obtain ⟨_, _, lv, _, f, _, e, h1, h⟩ := h
    have he : InpV env le S v → (e.1 = none → Inp env le S e.2) ∧ ∀ x, e.1 = some x → Inp env le S x.1 := by
      intro hv
      cases f with
      | forArr f r s =>
        simp only [ofForEncoded, Res.ok.injEq] at h1
        subst h1
        have := inp_flat (k := .prim (toUnsigned p)) (xs := f.vals.map (ofBits (toUnsigned p))) hs.base hv
        exact ⟨by simp, by intro x hx; simp only [Option.some.injEq] at hx; subst hx; exact this⟩
      | constant o n =>
        cases o with
        | some b =>
          simp only [ofForEncoded, Res.ok.injEq] at h1
          subst h1
          exact ⟨fun _ => ⟨in_const.mpr (hs.base _ (by decide)), trivial⟩, by simp⟩
        | none =>
          simp only [ofForEncoded, Res.ok.injEq] at h1
          subst h1
          exact ⟨fun _ => ⟨in_const.mpr (hs.base _ (by decide)), trivial⟩, by simp⟩
      | sparseZero is n =>
        simp only [ofForEncoded, Res.bind_eq_ok, Res.ok.injEq] at h1
        obtain ⟨x, h2, rfl⟩ := h1
        rw [mkSparse_eq h2]
        exact ⟨fun _ => ⟨in_sparse.mpr ⟨hs.base _ (by decide), in_const.mpr (hs.base _ (by decide))⟩, trivial⟩, by simp⟩
    simp only [finishFor] at h
    split at h
    · rename_i enc r s he1
      simp only [Res.bind_eq_ok, Res.ok.injEq, Prod.mk.injEq] at h
      obtain ⟨l, h2, c, h3, x, h4, rfl, rfl⟩ := h
      obtain ⟨q1, q2⟩ := hr _ _ _ c.1 c.2 h3 (ctxIn_excluding hc) (tin_childOf hl h2)
      refine ⟨tin_node.mpr ⟨hi, by simpa using q1⟩, fun ha => ?_⟩
      rw [mkMapped_eq h4]
      exact in_mapped.mpr ⟨hs.used _ hi _ (by simp [usedBy, codecEnc]), q2 ((he (inp_of_flat ha)).2 _ he1)⟩
    · rename_i he1
      simp only [Res.bind_eq_ok, Res.ok.injEq, Prod.mk.injEq] at h
      obtain ⟨c, h3, rfl, rfl⟩ := h
      obtain ⟨q1, q2⟩ := hr _ _ _ c.1 c.2 h3 (ctxIn_excluding hc) hl
      exact ⟨tin_node.mpr ⟨hi, by simpa using q1⟩, fun ha => q2 ((he (inp_of_flat ha)).1 he1)⟩
  · simp at h

theorem dict_in (hs : Sets I S) (hr : RecIn env le I S rec) {ctx : Ctx} {a b : Arr L} {like t : Option CTree} (hi : I .dict)
    (h : runDict env rec ctx a like = .ok (b, t)) (hc : CtxIn I ctx) (hl : TIn I like) : TIn I t ∧ (Inp env le S a → In le S b) := by
  unfold runDict at h
  split at h
  · simp only [Res.bind_eq_ok, Res.ok.injEq, Prod.mk.injEq] at h
    obtain ⟨_, _, lv, _, _, _, l0, h0, c, h1, l1, h2, w, h3, x, h4, rfl, rfl⟩ := h
    obtain ⟨q1, q2⟩ := hr _ _ _ c.1 c.2 h1 (ctxIn_excluding (ctxIn_auxiliary hc)) (tin_childOf hl h0)
    obtain ⟨q3, q4⟩ := hr _ _ _ w.1 w.2 h3 (ctxIn_excluding hc) (tin_childOf hl h2)
    refine ⟨tin_node.mpr ⟨hi, by simpa using ⟨q1, q3⟩⟩, fun ha => ?_⟩
    rw [mkDict_eq h4]
    exact in_dict.mpr ⟨hs.used _ hi _ (by simp [usedBy]), q2 (inp_flat hs.base ⟨inV_plain (by simp), trivial⟩),
      q4 (inp_flat hs.base ⟨inV_ofValidity hs.base _, rechunkableV_ofValidity _⟩)⟩
  · simp at h

theorem runEnd_in (hs : Sets I S) (hr : RecIn env le I S rec) {ctx : Ctx} {a b : Arr L} {like t : Option CTree} (hi : I .runEnd)
    (h : runRunEnd env rec ctx a like = .ok (b, t)) (hc : CtxIn I ctx) (hl : TIn I like) : TIn I t ∧ (Inp env le S a → In le S b) := by
  unfold runRunEnd at h
  split at h
  · rename_i p vals v
    simp only [Res.bind_eq_ok, Res.ok.injEq, Prod.mk.injEq] at h
    obtain ⟨_, _, l1, h1, w, h2, v', h3, x, h4, rfl, rfl⟩ := h
    obtain ⟨q1, q2⟩ := hr _ _ _ w.1 w.2 h2 (ctxIn_excluding hc) (tin_childOf hl h1)
    refine ⟨tin_node.mpr ⟨hi, by simpa using ⟨tin_none, q1⟩⟩, fun ha => ?_⟩
    rw [mkRunEnd_eq h4]
    refine in_runEnd.mpr ⟨hs.used _ hi _ (by simp [usedBy]), q2 (inp_flat hs.base ?_), compressV_in hr h3 hc (inp_of_flat ha)⟩
    split
    · exact ⟨inV_plain (by simp), trivial⟩
    · exact ⟨inV_plain (by simp), trivial⟩
  · simp at h

theorem constant_in (hs : Sets I S) {a b : Arr L} {t : Option CTree} (hi : I .constant)
    (h : runConstant env a = .ok (b, t)) : TIn I t ∧ (Inp env le S a → In le S b) := by
  simp only [runConstant, Res.bind_eq_ok, Res.ok.injEq, Prod.mk.injEq] at h
  obtain ⟨x, _, rfl, rfl⟩ := h
  exact ⟨tin_node.mpr ⟨hi, by simp⟩, fun _ => in_const.mpr (hs.base _ (by decide))⟩

theorem alp_in (hs : Sets I S) (hr : RecIn env le I S rec) {ctx : Ctx} {a b : Arr L} {like t : Option CTree} (hi : I .alp)
    (h : runAlp env ch rec ctx a like = .ok (b, t)) (hc : CtxIn I ctx) (hl : TIn I like) : TIn I t ∧ (Inp env le S a → In le S b) := by
  unfold runAlp at h
  split at h
  · rename_i p vals v
    simp only [Res.bind_eq_ok] at h
    obtain ⟨ip, _, x, _, l0, h1, enc, h2, ps, h3, h⟩ := h
    obtain ⟨q1, q2⟩ := hr _ _ _ enc.1 enc.2 h2 (ctxIn_excluding hc) (tin_childOf hl h1)
    have hp : ∀ pt, ps = some pt → TIn I pt.2 ∧ In le S pt.1 := by
      rintro pt rfl
      simp only [runPatches] at h3
      split at h3
      · simp at h3
      · simp only [Res.bind_eq_ok, Res.ok.injEq, Option.some.injEq] at h3
        obtain ⟨l1, g1, xs, _, s, g2, r, g3, rfl⟩ := h3
        obtain ⟨g4, g5⟩ := hr _ _ _ r.1 r.2 g3 (ctxIn_including (ctxIn_excluding (ctxIn_auxiliary hc)) (hs.alpRd hi)) (tin_childOf hl g1)
        refine ⟨g4, g5 ?_⟩
        rw [mkSparse_eq g2]
        have := inp_flat (env := env) (le := le) (k := .prim p) (xs := xs) (v := .allValid) hs.base ⟨inV_plain (by simp), trivial⟩
        exact ⟨in_sparse.mpr ⟨hs.base _ (by decide), this.enc⟩, this.chunks⟩
    have ha' : Inp env le S (.flat (.prim p) vals v) → In le S enc.1 := fun ha => q2 (inp_flat hs.base (inp_of_flat ha))
    split at h
    · simp only [Res.bind_eq_ok, Res.ok.injEq, Prod.mk.injEq] at h
      obtain ⟨y, h4, rfl, rfl⟩ := h
      refine ⟨tin_node.mpr ⟨hi, by simpa using ⟨q1, tin_none⟩⟩, fun ha => ?_⟩
      rw [mkMapped_eq h4]
      exact in_mapped.mpr ⟨hs.used _ hi _ (by simp [usedBy, codecEnc]), ha' ha⟩
    · rename_i pt
      simp only [Res.bind_eq_ok, Res.ok.injEq, Prod.mk.injEq] at h
      obtain ⟨y, h4, rfl, rfl⟩ := h
      obtain ⟨g1, g2⟩ := hp pt rfl
      refine ⟨tin_node.mpr ⟨hi, by simpa using ⟨q1, g1⟩⟩, fun ha => ?_⟩
      rw [mkAlpP_eq h4]
      exact in_alpP.mpr ⟨hs.used _ hi _ (by simp [usedBy]), ha' ha, g2⟩
  · simp at h

theorem sparse_in (hs : Sets I S) (hr : RecIn env le I S rec) {ctx : Ctx} {a b : Arr L} {like t : Option CTree} (hi : I .sparse)
    (h : runSparse env rec ctx a like = .ok (b, t)) (hc : CtxIn I ctx) (hl : TIn I like) : TIn I t ∧ (Inp env le S a → In le S b) := by
  unfold runSparse at h
  split at h
  · simp only [Res.bind_eq_ok, Res.ok.injEq, Prod.mk.injEq] at h
    obtain ⟨l0, h1, r, h2, x, h3, rfl, rfl⟩ := h
    obtain ⟨q1, q2⟩ := hr _ _ _ r.1 r.2 h2 hc (tin_childOf hl h1)
    refine ⟨tin_node.mpr ⟨hi, by simpa using ⟨tin_none, q1⟩⟩, fun ha => ?_⟩
    rw [mkSparse_eq h3]
    exact in_sparse.mpr ⟨hs.base _ (by decide), q2 ⟨(in_sparse.mp ha.enc).2, ha.chunks⟩⟩
  · simp at h

theorem runFields_in (hr : RecIn env le I S rec) {ctx : Ctx} (hc : CtxIn I ctx) : ∀ (fs : List (Arr L)) (ts : List (Option CTree)) (rs : List (Out L)),
    runFields rec ctx fs ts = .ok rs → (∀ t ∈ ts, TIn I t) → (∀ r ∈ rs, TIn I r.2) ∧ ((∀ f ∈ fs, Inp env le S f) → ∀ r ∈ rs, In le S r.1)
  | [], [], rs, h, _ => by simp only [runFields, Res.ok.injEq] at h; subst h; simp
  | [], _ :: _, rs, h, _ => by simp [runFields] at h
  | _ :: _, [], rs, h, _ => by simp [runFields] at h
  | f :: fs, t :: ts, rs, h, ht => by
    simp only [runFields, Res.bind_eq_ok, Res.ok.injEq] at h
    obtain ⟨r, h1, rs', h2, rfl⟩ := h
    obtain ⟨q1, q2⟩ := hr _ _ _ r.1 r.2 h1 hc (ht t (by simp))
    obtain ⟨q3, q4⟩ := runFields_in hr hc fs ts rs' h2 (fun t h => ht t (by simp [h]))
    refine ⟨?_, fun hf => ?_⟩
    · intro x hx
      simp only [List.mem_cons] at hx
      rcases hx with rfl | hx
      · exact q1
      · exact q3 x hx
    · intro x hx
      simp only [List.mem_cons] at hx
      rcases hx with rfl | hx
      · exact q2 (hf f (by simp))
      · exact q4 (fun f h => hf f (by simp [h])) x hx

theorem struct_in (hs : Sets I S) (hr : RecIn env le I S rec) {ctx : Ctx} {a b : Arr L} {like t : Option CTree} (hi : I .struct)
    (h : runStruct env rec ctx a like = .ok (b, t)) (hc : CtxIn I ctx) (hl : TIn I like) : TIn I t ∧ (Inp env le S a → In le S b) := by
  unfold runStruct at h
  split at h
  · rename_i names fs n v
    simp only [Res.bind_eq_ok, Res.ok.injEq, Prod.mk.injEq] at h
    obtain ⟨v', h1, rs, h2, x, h3, rfl, rfl⟩ := h
    obtain ⟨q1, q2⟩ := runFields_in hr hc _ _ _ h2 (by
      cases like with
      | none => intro t ht; simp only [List.mem_replicate] at ht; rw [ht.2]; exact tin_none
      | some t => exact tin_children hl)
    refine ⟨tin_node.mpr ⟨hi, ?_⟩, fun ha => ?_⟩
    · intro t ht
      obtain ⟨r, hr', rfl⟩ := List.mem_map.mp ht
      exact q1 r hr'
    · obtain ⟨_, a2, a3⟩ := in_struct.mp ha.enc
      obtain ⟨c1, c2⟩ := ha.chunks
      rw [mkStruct_eq h3]
      refine in_struct.mpr ⟨hs.base _ (by decide), ?_, compressV_in hr h1 hc ⟨a3, c2⟩⟩
      intro c hc'
      obtain ⟨r, hr', rfl⟩ := List.mem_map.mp hc'
      exact q2 (fun f hf => ⟨a2 f hf, rechunkableAll_iff.mp c1 f hf⟩) r hr'
  · simp at h

theorem leaf_in (hle : LeafUses ch le I S) {i : CId} {a b : Arr L} {like t : Option CTree} (hi : I i)
    (h : runLeaf ch i a like = .ok (b, t)) : TIn I t ∧ (Inp env le S a → In le S b) := by
  simp only [runLeaf, Res.bind_eq_ok] at h
  obtain ⟨r, h1, h⟩ := h
  cases r with
  | some l =>
    simp only [Res.ok.injEq, Prod.mk.injEq] at h
    obtain ⟨rfl, rfl⟩ := h
    refine ⟨tin_node.mpr ⟨hi, by simp⟩, fun _ => ?_⟩
    intro e he
    exact hle i a like l hi h1 e he
  | none =>
    simp only [Res.ok.injEq, Prod.mk.injEq] at h
    obtain ⟨rfl, rfl⟩ := h
    exact ⟨tin_none, fun ha => ha.enc⟩

/-! ### Chunks -/

theorem chunkLike_in {like prev : Option CTree} (hl : TIn I like) (h : chunkLike like = .ok prev) : TIn I prev := by
  cases like with
  | none => simp only [chunkLike, Res.ok.injEq] at h; subst h; exact tin_none
  | some t =>
    simp only [chunkLike] at h
    split at h
    · rename_i c hc
      simp only [Res.ok.injEq] at h
      subst h
      exact tin_children hl _ (by rw [hc]; simp)
    · simp at h

theorem chunkLoop_in (hr : RecIn env le I S rec) {again : Ctx → Arr L → Res (Out L)}
    (ha : ∀ ctx a b t, again ctx a = .ok (b, t) → CtxIn I ctx → TIn I t ∧ (Inp env le S a → In le S b)) {ctx : Ctx} (hc : CtxIn I ctx) :
    ∀ (cs : List (Arr L)) (prev : Option CTree) (out : List (Arr L)) (t : Option CTree), chunkLoop ch rec again ctx prev cs = .ok (out, t) → TIn I prev →
      TIn I t ∧ ((∀ c ∈ cs, Inp env le S c) → ∀ c ∈ out, In le S c) := by
  intro cs
  induction cs with
  | nil =>
    intro prev out t h hp
    simp only [chunkLoop, Res.ok.injEq, Prod.mk.injEq] at h
    obtain ⟨rfl, rfl⟩ := h
    exact ⟨hp, by simp⟩
  | cons c cs ih =>
    intro prev out t h hp
    simp only [chunkLoop, Res.bind_eq_ok] at h
    obtain ⟨r, h1, h2⟩ := h
    obtain ⟨q1, q2⟩ := hr ctx c prev r.1 r.2 h1 hc hp
    split at h2
    · simp only [Res.bind_eq_ok, Res.ok.injEq, Prod.mk.injEq] at h2
      obtain ⟨r', h3, rest, h4, rfl, rfl⟩ := h2
      obtain ⟨q3, q4⟩ := ha ctx c r'.1 r'.2 h3 hc
      obtain ⟨q5, q6⟩ := ih _ rest.1 rest.2 h4 q3
      refine ⟨q5, fun hi => ?_⟩
      intro x hx
      simp only [List.mem_cons] at hx
      rcases hx with rfl | hx
      · exact q4 (hi c (by simp))
      · exact q6 (fun c h => hi c (by simp [h])) x hx
    · simp only [Res.bind_eq_ok, Res.ok.injEq, Prod.mk.injEq] at h2
      obtain ⟨rest, h4, rfl, rfl⟩ := h2
      obtain ⟨q5, q6⟩ := ih _ rest.1 rest.2 h4 (by
        cases prev with
        | some t => exact hp
        | none => exact q1)
      refine ⟨q5, fun hi => ?_⟩
      intro x hx
      simp only [List.mem_cons] at hx
      rcases hx with rfl | hx
      · exact q2 (hi c (by simp))
      · exact q6 (fun c h => hi c (by simp [h])) x hx

theorem chunked_in (hs : Sets I S) (hr : RecIn env le I S rec) {again : Ctx → Arr L → Res (Out L)}
    (ha : ∀ ctx a b t, again ctx a = .ok (b, t) → CtxIn I ctx → TIn I t ∧ (Inp env le S a → In le S b)) {ctx : Ctx} {a b : Arr L}
    {like t : Option CTree} (h : runChunked env ch rec again ctx a like = .ok (b, t)) (hc : CtxIn I ctx) (hl : TIn I like) :
    TIn I t ∧ (Inp env le S a → In le S b) := by
  unfold runChunked at h
  split at h
  · rename_i dt cs
    simp only [Res.bind_eq_ok, Res.ok.injEq, Prod.mk.injEq] at h
    obtain ⟨prev, h1, less, h2, r, h3, x, h4, rfl, rfl⟩ := h
    obtain ⟨q1, q2⟩ := chunkLoop_in hr ha hc less prev r.1 r.2 h3 (chunkLike_in hl h1)
    refine ⟨tin_node.mpr ⟨hs.chunked, by simpa using q1⟩, fun hi => ?_⟩
    obtain ⟨_, _, e3⟩ := in_chunked.mp hi.enc
    obtain ⟨c1, c2⟩ := hi.chunks
    have hQ := (rechunk_sound (P := fun c => Inp env le S c ∧ ChunkOk env.toEnv c) (Q := Inp env le S) (rowsOf := fun _ => ([] : List Unit))
      (fun c hc => hc.1)
      (fun cs b hb _ hc => ⟨combine_in hs.base hb (fun c h => (hc c h).1) (fun c h => (hc c h).2), by simp⟩) cs [] 0 0 less h2 (by simp)
      (fun c hc => ⟨⟨e3 c hc, rechunkableAll_iff.mp c1 c hc⟩, chunksOk_iff.mp c2 c hc⟩)).1
    obtain ⟨rfl, _⟩ := mkChunked_eq h4
    exact in_chunked.mpr ⟨hs.base _ (by decide), hs.base _ (by decide), q2 hQ⟩
  · simp at h

/-! ### The driver -/

theorem run_in (hs : Sets I S) (hle : LeafUses ch le I S) (hr : RecIn env le I S rec) {chunk : Ctx → Arr L → Option CTree → Res (Out L)}
    (hch : RecIn env le I S chunk) : RunIn env le I S (run env ch rec chunk) := by
  intro i ctx a like b t hi h hc hl
  cases i with
  | zigzag => exact zigzag_in hs hr hi h hc hl
  | «for» => exact for_in hs hr hi h hc hl
  | dict => exact dict_in hs hr hi h hc hl
  | runEnd => exact runEnd_in hs hr hi h hc hl
  | constant => exact constant_in hs hi h
  | alp => exact alp_in hs hr hi h hc hl
  | sparse => exact sparse_in hs hr hi h hc hl
  | struct => exact struct_in hs hr hi h hc hl
  | chunked => exact hch ctx a like b t h hc hl
  | alpRd => exact leaf_in hle hi h
  | bitPacked => exact leaf_in hle hi h
  | bitPackedNoPatches => exact leaf_in hle hi h
  | dateTimeParts => exact leaf_in hle hi h
  | delta => exact leaf_in hle hi h
  | fsst => exact leaf_in hle hi h
  | roaringBool => exact leaf_in hle hi h
  | roaringInt => exact leaf_in hle hi h

theorem candidates_in {ctx : Ctx} {a : Arr L} (hc : CtxIn I ctx) {i : CId} (h : i ∈ candidates ch ctx a) : I i := by
  apply hc
  simp only [candidates] at h
  split at h
  · exact (List.mem_filter.mp (List.mem_filter.mp h).1).1
  · exact (List.mem_filter.mp h).1

theorem ctxIn_for {ctx : Ctx} {i : CId} (h : CtxIn I ctx) : CtxIn I (ctx.forCompressor ch i) := h

theorem plain_in {runC : CId → Ctx → Arr L → Option CTree → Res (Out L)} (hrun : RunIn env le I S runC) {ctx : Ctx} {a b : Arr L} {t : Option CTree}
    (h : compressPlain ch runC ctx a = .ok (b, t)) (hc : CtxIn I ctx) : TIn I t ∧ (Inp env le S a → In le S b) := by
  simp only [compressPlain] at h
  split at h
  · simp only [Res.ok.injEq, Prod.mk.injEq] at h
    obtain ⟨rfl, rfl⟩ := h
    exact ⟨tin_none, fun ha => ha.enc⟩
  · split at h
    · rcases findBest_ok _ _ _ h with h1 | ⟨i, hi, _, h1⟩
      · simp only [Option.getD_none, Prod.mk.injEq] at h1
        obtain ⟨rfl, rfl⟩ := h1
        exact ⟨tin_none, fun ha => ha.enc⟩
      · exact hrun _ _ _ _ _ _ (candidates_in hc hi) h1 (ctxIn_for hc) tin_none
    · simp only [Res.bind_eq_ok] at h
      obtain ⟨s, _, r, h2, h3⟩ := h
      have ht : TIn I r.2 := by
        rcases findBest_ok _ _ _ h2 with h1 | ⟨i, hi, _, h1⟩
        · rw [h1]; exact tin_none
        · exact (hrun _ _ _ _ r.1 r.2 (candidates_in hc hi) h1 (ctxIn_for hc) tin_none).1
      split at h3
      · rename_i t' ht'
        rw [ht'] at ht
        exact hrun _ _ _ _ _ _ (tin_id ht) h3 (ctxIn_for hc) ht
      · simp only [Res.ok.injEq, Prod.mk.injEq] at h3
        obtain ⟨rfl, rfl⟩ := h3
        exact ⟨tin_none, fun ha => ha.enc⟩

theorem array_in (hs : Sets I S) {runC : CId → Ctx → Arr L → Option CTree → Res (Out L)} (hrun : RunIn env le I S runC) {ctx : Ctx} {a b : Arr L}
    {t : Option CTree} (h : compressArray ch runC ctx a = .ok (b, t)) (hc : CtxIn I ctx) : TIn I t ∧ (Inp env le S a → In le S b) := by
  unfold compressArray at h
  split at h
  · simp only [Res.ok.injEq, Prod.mk.injEq] at h
    obtain ⟨rfl, rfl⟩ := h
    exact ⟨tin_none, fun ha => ha.enc⟩
  · exact hrun _ _ _ _ _ _ hs.chunked h hc tin_none
  · exact hrun _ _ _ _ _ _ hs.struct h hc tin_none
  · split at h
    · exact hrun _ _ _ _ _ _ hs.constant h hc tin_none
    · exact plain_in hrun h hc

theorem like_in (hs : Sets I S) {runC : CId → Ctx → Arr L → Option CTree → Res (Out L)} (hrun : RunIn env le I S runC) {ctx : Ctx} {a b : Arr L}
    {like t : Option CTree} (h : compressLike ch runC ctx a like = .ok (b, t)) (hc : CtxIn I ctx) (hl : TIn I like) :
    TIn I t ∧ (Inp env le S a → In le S b) := by
  unfold compressLike at h
  split at h
  · split at h
    · exact hrun _ _ _ _ _ _ (tin_id hl) h (ctxIn_for hc) hl
    · exact array_in hs hrun h hc
  · exact array_in hs hrun h hc

theorem runs_in (hs : Sets I S) (hle : LeafUses ch le I S) (hr : RecIn env le I S rec) : ∀ n, RunIn env le I S (runs env ch rec n)
  | 0 => by intro i ctx a like b t _ h; simp [runs] at h
  | n + 1 => by
    rw [runs]
    apply run_in hs hle hr
    intro ctx a like b t h hc hl
    exact chunked_in hs hr (fun ctx a b t h hc => array_in hs (runs_in hs hle hr n) h hc) h hc hl

theorem compress_in (hs : Sets I S) (hle : LeafUses ch le I S) : ∀ n, RecIn env le I S (compress env ch n)
  | 0 => by intro ctx a like b t h; simp [compress] at h
  | n + 1 => by
    intro ctx a like b t h hc hl
    simp only [compress] at h
    split at h
    · simp only [Res.ok.injEq, Prod.mk.injEq] at h
      obtain ⟨rfl, rfl⟩ := h
      exact ⟨tin_none, fun ha => ha.enc⟩
    · exact like_in hs (runs_in hs hle (compress_in hs hle n) (n + 1)) h hc hl

end Vx.Tree
