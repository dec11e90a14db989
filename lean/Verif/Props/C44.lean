import Verif.Lemmas.LayoutBuild
/-!
# C44: messages are routed by path

Every request made while a layout tree is read names a part of the tree by its path and asks for exactly that part's byte range; what is stored
in the cache under a path is what the file has at that range; so every layout gets back the bytes it asked for.
-/
namespace Vx.Layout
open Ipc (Bytes)

variable {α : Type}

/-- Only finitely many paths stand for something. -/
theorem rangeAt_finite : ∀ (n : Nat) (fb : FbLayout), fb.depth ≤ n → ∃ U : List Path, ∀ p, Spec.rangeAt fb p ≠ none → p ∈ U := by
  intro n
  induction n with
  | zero => intro fb h; cases fb with | mk e b cs m => cases cs <;> simp [FbLayout.depth] at h
  | succ n ih =>
    intro fb hd
    obtain ⟨e, bufs, cs, m⟩ := fb
    cases cs with
    | none =>
      refine ⟨[[], [0]], fun p hp => ?_⟩
      cases p with
      | nil => simp
      | cons i p =>
        simp only [Spec.rangeAt, Option.getD_none, List.getElem?_nil, Option.bind_none] at hp
        split at hp
        · simp at hp
        · split at hp
          · split at hp
            · next h => simp [h.1, h.2]
            · simp at hp
          · simp at hp
    | some cs =>
      simp only [FbLayout.depth] at hd
      have hch : ∃ V : List Path, ∀ c ∈ cs, ∀ p, Spec.rangeAt c p ≠ none → p ∈ V := by
        have hall : ∀ c ∈ cs, c.depth ≤ n := fun c hc => by have := depth_mem hc; omega
        clear hd
        induction cs with
        | nil => exact ⟨[], by simp⟩
        | cons c cs ihc =>
          obtain ⟨V, hV⟩ := ihc (fun c' h => hall c' (by simp [h]))
          obtain ⟨W, hW⟩ := ih c (hall c (by simp))
          refine ⟨W ++ V, fun c' hc' p hp => ?_⟩
          simp only [List.mem_cons] at hc'
          simp only [List.mem_append]
          rcases hc' with rfl | hc'
          · exact Or.inl (hW p hp)
          · exact Or.inr (hV c' hc' p hp)
      obtain ⟨V, hV⟩ := hch
      refine ⟨[] :: [0] :: ((List.range (cs.length + 2)).flatMap fun i => V.map (i :: ·)), fun p hp => ?_⟩
      cases p with
      | nil => simp
      | cons i p =>
        have hmem : i < cs.length + 2 → p ∈ V → (i :: p) ∈ ([] :: [0] :: ((List.range (cs.length + 2)).flatMap fun i => V.map (i :: ·)) : List Path) := by
          intro h1 h2
          simp only [List.mem_cons, List.mem_flatMap, List.mem_range, List.mem_map]
          exact Or.inr (Or.inr ⟨i, h1, p, h2, rfl⟩)
        simp only [Spec.rangeAt, Option.getD_some] at hp
        split at hp
        · cases hc : cs[i]? with
          | none => rw [hc] at hp; simp at hp
          | some c =>
            rw [hc] at hp
            have hi := (List.getElem?_eq_some_iff.mp hc).1
            exact hmem (by omega) (hV c (List.mem_of_getElem? hc) p hp)
        · split at hp
          · split at hp
            · next h => simp [h.1, h.2]
            · split at hp
              · next h1 =>
                cases hc : cs[0]? with
                | none => rw [hc] at hp; simp at hp
                | some c =>
                  rw [hc] at hp
                  exact hmem (by omega) (hV c (List.mem_of_getElem? hc) p hp)
              · simp at hp
          · simp at hp

/-- A call to `read_next` returns (for every large enough fuel, so it terminates). -/
def Returns (env : Env α) (d : Nat) (c : Cache) (r : St α d) (rr : Option (ReadResult α)) (r' : St α d) : Prop :=
  ∃ N, ∀ n, N ≤ n → readNext env n c d r = .ok (rr, r')

/-- The states in which a reader of the layout `root` and the message cache can be: start with an empty cache; call the reader; at any time — in
any order, also because of other readers of the same file — a message of the file is stored under its path. -/
inductive Reach (env : Env α) (file : Bytes) (root : FbLayout) (d : Nat) (r₀ : St α d) : Cache → St α d → Prop
  | start : Reach env file root d r₀ (fun _ => none) r₀
  | call {c r rr r'} : Reach env file root d r₀ c r → Returns env d c r rr r' → Reach env file root d r₀ c r'
  | store {c r p rg b} : Reach env file root d r₀ c r → Spec.rangeAt root p = some rg → readAt file rg = .ok b →
      Reach env file root d r₀ (c.set p b) r

/-- The invariant of all reachable states. -/
theorem reach_inv {env : Env α} {file : Bytes} {root : FbLayout} {d : Nat} {r₀ : St α d} {bs₀ : List (Rows α)}
    (h₀ : RepSt (Spec.rangeAt root) file env d r₀ bs₀) {c : Cache} {r : St α d} (h : Reach env file root d r₀ c r) :
    CacheOk (Spec.rangeAt root) file c ∧ ∃ bs, RepSt (Spec.rangeAt root) file env d r bs := by
  induction h with
  | start => exact ⟨by intro p b h; simp at h, bs₀, h₀⟩
  | @call c r rr r' _ hret ih =>
    obtain ⟨hc, bs, hr⟩ := ih
    refine ⟨hc, ?_⟩
    obtain ⟨N, rr', r'', hrun, hpost⟩ := st_law (Spec.rangeAt root) file env d c hc r bs hr
    obtain ⟨M, hM⟩ := hret
    have h1 : readNext env (max N M) c d r = .ok (rr', r'') := hrun (max N M) (by omega)
    rw [hM (max N M) (by omega)] at h1
    simp only [Res.ok.injEq, Prod.mk.injEq] at h1
    obtain ⟨rfl, rfl⟩ := h1
    cases rr with
    | none => exact ⟨[], hpost.2⟩
    | some o =>
      cases o with
      | readMore ms => exact ⟨bs, hpost.2.1⟩
      | batch b => obtain ⟨rest, _, h⟩ := hpost; exact ⟨rest, h⟩
  | store _ h1 h2 ih =>
    obtain ⟨hc, hr⟩ := ih
    exact ⟨cacheOk_set (m := (_, _)) hc h1 h2, hr⟩

/-- The layout tree can be read: it means something in the file, and the reader can address it. -/
structure Readable (env : Env α) (file : Bytes) (root : FbLayout) (dt : DType) (rows : Rows α) : Prop where
  regular : root.Regular = true
  denotes : Spec.denote env file root dt = some rows

theorem root_builds {env : Env α} {file : Bytes} {root : FbLayout} {dt : DType} {rows : Rows α} (h : Readable env file root dt rows) {batch : Nat}
    (hb : 0 < batch) {l : LazyDType} (hl : l.dtype = .ok dt) :
    ∃ r, readLayout env root.depth root ⟨.all, batch⟩ ⟨[], l⟩ = .ok r ∧
      RepSt (Spec.rangeAt root) file env root.depth r (cut root.zeroBatch batch rows) :=
  builds root.depth root ⟨.all, batch⟩ ⟨[], l⟩ dt rows (Nat.le_refl _) h.regular rfl hb hl (fun p _ => rfl) h.denotes

/-- In every reachable state, a call to the reader returns without error or panic; when it asks for messages, each request names a part of the
layout tree by its path and asks for exactly the byte range of that part, which is inside the file and not yet in the cache; and every cached
message is the file's content at the range its path stands for — so what a layout finds under its path is what it asked for. -/
theorem C44_routing (env : Env α) (file : Bytes) (root : FbLayout) (dt : DType) (rows : Rows α) (h : Readable env file root dt rows) (batch : Nat)
    (hb : 0 < batch) (l : LazyDType) (hl : l.dtype = .ok dt) :
    ∃ r₀, readLayout env root.depth root ⟨.all, batch⟩ ⟨[], l⟩ = .ok r₀ ∧
      ∀ c r, Reach env file root root.depth r₀ c r →
        (∀ p b, c p = some b → ∃ rg, Spec.rangeAt root p = some rg ∧ readAt file rg = .ok b) ∧
        ∃ rr r', Returns env root.depth c r rr r' ∧
          ∀ ms, rr = some (.readMore ms) → ms ≠ [] ∧
            ∀ m ∈ ms, Spec.rangeAt root m.1 = some m.2 ∧ (∃ b, readAt file m.2 = .ok b) ∧ c m.1 = none := by
  obtain ⟨r₀, h1, h2⟩ := root_builds h hb hl
  refine ⟨r₀, h1, fun c r hr => ?_⟩
  obtain ⟨hc, bs, hrep⟩ := reach_inv h2 hr
  refine ⟨hc, ?_⟩
  obtain ⟨N, rr, r', hrun, hpost⟩ := st_law (Spec.rangeAt root) file env root.depth c hc r bs hrep
  refine ⟨rr, r', ⟨N, hrun⟩, ?_⟩
  intro ms hms
  subst hms
  exact ⟨hpost.1, fun m hm => ⟨(hpost.2.2 m hm).1, (hpost.2.2 m hm).2.2, (hpost.2.2 m hm).2.1⟩⟩

/-- Storing several messages of one request: in whatever order the reads complete, every path has the same content afterwards. -/
theorem C44_completion_order (root : FbLayout) (file : Bytes) (c : Cache) (ms ms' : List Message) (hp : ms.Perm ms')
    (hc : CacheOk (Spec.rangeAt root) file c) (h : ∀ m ∈ ms, Spec.rangeAt root m.1 = some m.2 ∧ ∃ b, readAt file m.2 = .ok b) :
    ∃ c₁ c₂, fetch file c ms = .ok c₁ ∧ fetch file c ms' = .ok c₂ ∧ ∀ p, c₁ p = c₂ p := by
  have key : ∀ (ms : List Message) (c : Cache), CacheOk (Spec.rangeAt root) file c →
      (∀ m ∈ ms, Spec.rangeAt root m.1 = some m.2 ∧ ∃ b, readAt file m.2 = .ok b) →
      ∃ c', fetch file c ms = .ok c' ∧ CacheOk (Spec.rangeAt root) file c' ∧ (∀ p, c' p = none ↔ c p = none ∧ ∀ m ∈ ms, m.1 ≠ p) := by
    intro ms
    induction ms with
    | nil => intro c hc _; exact ⟨c, rfl, hc, by simp⟩
    | cons m ms ih =>
      intro c hc h
      obtain ⟨h1, b, hb⟩ := h m (by simp)
      obtain ⟨c', hf, hc', hn⟩ := ih (c.set m.1 b) (cacheOk_set hc h1 hb) (fun m' hm' => h m' (by simp [hm']))
      refine ⟨c', ?_, hc', ?_⟩
      · obtain ⟨p, r⟩ := m
        simp only [fetch]
        simp only at hb hf
        rw [hb]; exact hf
      · intro p
        rw [hn p]
        unfold Cache.set
        by_cases hp : p = m.1
        · subst hp; simp
        · simp only [hp, if_false, List.mem_cons, forall_eq_or_imp]
          constructor
          · rintro ⟨h1, h2⟩; exact ⟨h1, fun h => hp h.symm, h2⟩
          · rintro ⟨h1, _, h2⟩; exact ⟨h1, h2⟩
  obtain ⟨c₁, hf1, hc1, hn1⟩ := key ms c hc h
  obtain ⟨c₂, hf2, hc2, hn2⟩ := key ms' c hc (fun m hm => h m (hp.mem_iff.mpr hm))
  refine ⟨c₁, c₂, hf1, hf2, fun p => ?_⟩
  have hiff : c₁ p = none ↔ c₂ p = none := by
    rw [hn1, hn2]
    constructor
    · rintro ⟨h1, h2⟩; exact ⟨h1, fun m hm => h2 m (hp.mem_iff.mpr hm)⟩
    · rintro ⟨h1, h2⟩; exact ⟨h1, fun m hm => h2 m (hp.mem_iff.mp hm)⟩
  cases h1 : c₁ p with
  | none => rw [hiff.mp h1]
  | some b1 =>
    cases h2 : c₂ p with
    | none => rw [hiff.mpr h2] at h1; simp at h1
    | some b2 =>
      obtain ⟨r1, hr1, hb1⟩ := hc1 p b1 h1
      obtain ⟨r2, hr2, hb2⟩ := hc2 p b2 h2
      rw [hr1] at hr2
      simp only [Option.some.injEq] at hr2
      subst hr2
      rw [hb1] at hb2
      simp only [Res.ok.injEq] at hb2
      rw [hb2]

/-- Paths identify parts: two parts asked for under the same path are the same byte range. -/
theorem C44_paths_unambiguous (root : FbLayout) (m m' : Message) (h : Spec.rangeAt root m.1 = some m.2) (h' : Spec.rangeAt root m'.1 = some m'.2)
    (hp : m.1 = m'.1) : m = m' := by
  obtain ⟨p, r⟩ := m
  obtain ⟨p', r'⟩ := m'
  simp only at hp h h'
  subst hp
  rw [h] at h'
  simp only [Option.some.injEq] at h'
  rw [h']

/-- What goes wrong beyond 65536 children: part ids are `u16`, so child `i + 65536` uses the path of child `i` … -/
theorem C44_part_ids_wrap (rel : Rel) (i : Nat) (d : LazyDType) : rel.relative (i + 2 ^ 16) d = rel.relative i d := by
  simp [Rel.relative]

/-- … and once child `i`'s bytes are in the cache, child `i + 65536` (a different byte range) decodes *those* bytes, without any request or error. -/
theorem C44_wrapped_child_reads_other_bytes (env : Env α) (c : Cache) (rel : Rel) (i : Nat) (dt : DType) (range : ByteRange) (scan : Scan)
    (bytes : Bytes) (a : Rows α) (hcached : c (rel.path ++ [i % 2 ^ 16]) = some bytes) (hdec : env.decode dt bytes = .ok a)
    (hlen : a.length ≤ scan.batchSize) :
    (flatNext env c range scan (rel.relative (i + 2 ^ 16) (.value dt)) false none : Res (_ × Node α R)) =
      .ok (some (.batch a), .flat range scan (rel.relative (i + 2 ^ 16) (.value dt)) true none) := by
  have h : (rel.relative (i + 2 ^ 16) (.value dt)).get c [] = some bytes := by
    simp only [Rel.relative, Rel.get, Rel.absoluteId, List.append_nil]
    rw [show (i + 2 ^ 16) % 2 ^ 16 = i % 2 ^ 16 by simp]
    exact hcached
  unfold flatNext
  simp only [Bool.false_eq_true, if_false, h]
  have : (rel.relative (i + 2 ^ 16) (.value dt)).dtype.dtype = .ok dt := rfl
  simp only [this, Res.ok_bind, hdec, flatEmit]
  rw [if_neg (by omega)]

/-! ## A concrete file: two columns, the second in two chunks behind a metadata table -/

namespace Demo

/-- Every byte is a row; a dtype message is not needed. -/
def env : Env UInt8 := ⟨fun _ b => .ok (b.map .leaf), fun _ => .err, fun e => e = FLAT || e = CHUNKED || e = COLUMN⟩

def flatAt (a b : Nat) : FbLayout := .mk FLAT (some [⟨a, b⟩]) none none

def file : Bytes := [10, 11, 12, 99, 20, 21, 22]

def root : FbLayout :=
  .mk COLUMN none (some [.mk CHUNKED none (some [flatAt 0 3]) none, .mk CHUNKED none (some [flatAt 3 4, flatAt 4 6, flatAt 6 7]) (some [1])]) none

def u8 : DType := .prim .u8 false
def schema : DType := .struct ["a".toList, "b".toList] [u8, u8] false

def row (a b : UInt8) : Row UInt8 := .struct [("a".toList, .leaf a), ("b".toList, .leaf b)]

theorem readable : Readable env file root schema [row 10 20, row 11 21, row 12 22] :=
  ⟨by decide +kernel, by rfl⟩

/-- The third part of the second column is the byte at 6. -/
example : Spec.rangeAt root [1, 2] = some ⟨6, 7⟩ := by rfl

end Demo

end Vx.Layout
