import Verif.Lemmas.StoredRows
import Verif.Lemmas.StoredBytes
import Verif.Props.C85
import Verif.Props.C93
import Verif.Props.C41
/-!
# C102: from an array through the compressor, the file and back

C41 is about trees of encoded arrays as the compute functions see them, C92 and C93 about arrays as the constructors make them and the writer stores
them. Here a tree is stored (`phys`: numbers in buffers, packed bits, views of byte strings, scalars in metadata), written, read and understood again
(`view`).
-/
namespace Vx.Store
open Own
open Layout (Rows Row FileCodec LayoutWriter EnvOk finalize readFile)
open Vx.Tree (TVal Kind Codec WF WFs WFV LeafLaws)

variable {L : Type} {sc : Scalars} {S : Leaves L} {env : Tree.Env L} {leafRows : L → List SV} {ok : L → Prop} {C : Compute}

/-- **C102 (construction).** Every well-formed tree within the limits of the format can be built: each constructor, given the children's stored forms,
succeeds. -/
theorem C102_built (hC : C.Lawful) (hO : SortedOk C) (hl : ∀ l, ok l → env.len l = (leafRows l).length) (hS : StoreLaws C S env ok) (t : Tree.Arr L) (h : WF env leafRows ok t)
    (hf : Fits sc env t) : Built C (phys sc S env t) ∧ (phys sc S env t).dtype = Tree.dtype env t ∧ (phys sc S env t).len = (Tree.rows env leafRows t).length :=
  ⟨phys_built hC hO hl hS t h hf, phys_dtype hS t h, (phys_len hS t h).trans (Tree.len_of hl t h)⟩

/-- **C102 (one message).** A tree is stored, serialised without any type or length inside, and read with the type and length of the whole: the result
is the same tree. -/
theorem C102_reread (hC : C.Lawful) (hO : SortedOk C) (hl : ∀ l, ok l → env.len l = (leafRows l).length) (hS : StoreLaws C S env ok) {M : OwnCodec} (hM : M.Lawful)
    (t : Tree.Arr L) (h : WF env leafRows ok t) (hf : Fits sc env t) (hk : Keeps M (phys sc S env t)) :
    ∃ a, readIpc M (Tree.dtype env t) (Tree.rows env leafRows t).length (toIpc M (phys sc S env t)) = .ok a ∧ view sc S a = some t := by
  have hb := phys_built hC hO hl hS t h hf
  have := readIpc_built hM _ hb hk
  rw [phys_dtype hS t h, phys_len hS t h, Tree.len_of hl t h] at this
  exact ⟨_, this, view_phys hS t h hf⟩

/-- Trees of the same type and number of rows that serialise to the same message are the same tree. -/
theorem C102_faithful (hC : C.Lawful) (hO : SortedOk C) (hl : ∀ l, ok l → env.len l = (leafRows l).length) (hS : StoreLaws C S env ok) {M : OwnCodec} (hM : M.Lawful)
    (t u : Tree.Arr L) (h : WF env leafRows ok t) (hf : Fits sc env t) (hk : Keeps M (phys sc S env t)) (h' : WF env leafRows ok u) (hf' : Fits sc env u)
    (hk' : Keeps M (phys sc S env u)) (hd : Tree.dtype env t = Tree.dtype env u) (hn : (Tree.rows env leafRows t).length = (Tree.rows env leafRows u).length)
    (he : toIpc M (phys sc S env t) = toIpc M (phys sc S env u)) : t = u := by
  obtain ⟨a, h1, h2⟩ := C102_reread hC hO hl hS hM t h hf hk
  obtain ⟨b, h3, h4⟩ := C102_reread hC hO hl hS hM u h' hf' hk'
  rw [hd, hn, he] at h1
  obtain rfl := Res.ok.inj (h1.symm.trans h3)
  exact Option.some.inj (h2.symm.trans h4)

/-- **C102 (bytes).** The same with the buffers in little-endian bytes: what is read from the bytes of the message is the tree that was stored. All that is
asked is that each encoding's metadata be read as written (and as much of the leaf encodings' own storage). -/
theorem C102_bytes (hC : C.Lawful) (hO : SortedOk C) (hl : ∀ l, ok l → env.len l = (leafRows l).length) (hS : StoreLaws C S env ok) (hB : ∀ l, ok l → Everywhere BufferOk (S.store l))
    (mc : MetaCodec) (t : Tree.Arr L) (h : WF env leafRows ok t) (hf : Fits sc env t) (hm : Everywhere (MetaOk mc) (phys sc S env t)) :
    ∃ a, readIpc (leCodec mc) (Tree.dtype env t) (Tree.rows env leafRows t).length (toIpc (leCodec mc) (phys sc S env t)) = .ok a ∧ view sc S a = some t :=
  C102_reread hC hO hl hS (leCodec_lawful mc) t h hf (keeps_le mc _ (phys_buffers hS hB t h hf) hm)

/-- **C102 (scalars).** Constants, fill values and references are kept when stored as flexbuffers, provided they are of their type and of a kind that the
format keeps (`Storable`, C85). -/
theorem C102_scalars {F : FloatOps} (hF : ExactFloats F) {W : List Flex.Val → Flex.Width} (hW : WideEnough F W) (w : Flex.Width) (code : SV → Nat)
    (decode : Nat → Option SV) (d : DType) (x : SV)
    (hcode : decode (code (Flex.storeField F W w x)) = some (Flex.storeField F W w x)) (ht : Vx.Spec.HasType d x) (hs : Vx.Storable d x)
    (hw : ((Flex.ofSV F x).width F).bits ≤ w.bits) : Kept (flexScalars F W w code decode) d x := by
  simp only [Kept, flexScalars, hcode, Option.bind_some, C85_field_partial hF hW x d w hw ht hs]

/-- A constant `f16` array is not kept: unless the metadata happens to be 16 bits wide, the array read back is not the one that was stored. This is why `Fits`
asks. -/
theorem C102_f16_constant (F : FloatOps) (W : List Flex.Val → Flex.Width) (w : Flex.Width) (hw : w ≠ .w16) (code : SV → Nat) (decode : Nat → Option SV)
    (b : BitVec 16) (n : Nat) (hcode : decode (code (Flex.storeField F W w (.prim ⟨.f16, b⟩))) = some (Flex.storeField F W w (.prim ⟨.f16, b⟩))) :
    let sc := flexScalars F W w code decode
    WF env leafRows ok (.const (.prim .f16 false) (.prim ⟨.f16, b⟩) n : Tree.Arr L) ∧
      view sc S (phys sc S env (.const (.prim .f16 false) (.prim ⟨.f16, b⟩) n)) = none := by
  intro sc
  refine ⟨rfl, ?_⟩
  have h1 := C85_f16_field F W w b false hw
  have h2 : sc.read (.prim .f16 false) (sc.num (.prim ⟨.f16, b⟩)) = none := by
    simp only [sc, flexScalars, hcode, Option.bind_some, h1]
  simp only [phys]
  rw [view_mk]
  simp only [viewNode, Arr.enc, Arr.dtype, h2, Option.map_none]

theorem toSV_pick (sel : List Nat) (fs : List (Str × Row SV)) : toSV (Spec.pick sel (.struct fs)) = pickSV sel (toSV (.struct fs)) := by
  simp only [Spec.pick, toSV, toSVs_eq, pickSV, SV.list.injEq, List.map_filterMap, List.getElem?_map]

theorem map_pick (sel : List Nat) (rs : Rows SV) (h : ∀ r ∈ rs, ∃ fs, r = .struct fs) : (rs.map (Spec.pick sel)).map toSV = (rs.map toSV).map (pickSV sel) := by
  simp only [List.map_map]
  apply List.map_congr_left
  intro r hr
  obtain ⟨fs, rfl⟩ := h r hr
  exact toSV_pick sel fs

/-- A table whose rows are not null: a struct array that is not null anywhere, or chunks of such. -/
def Table : Tree.Arr L → Prop
  | .struct _ _ _ .nonNullable => True
  | .struct _ _ _ .allValid => True
  | .chunked _ cs => ∀ c ∈ cs, ∃ names fs n v, c = .struct names fs n v ∧ (v = .nonNullable ∨ v = .allValid)
  | _ => False

theorem physs_eq (cs : List (Tree.Arr L)) : physs sc S env cs = cs.map (phys sc S env) := by
  induction cs with
  | nil => rfl
  | cons c cs ih => simp [physs, ih]

theorem table_noNull (t : Tree.Arr L) (h : Table t) : Spec.NoNullRows (phys sc S env t) := by
  have key : ∀ names fs n (v : TVal (Tree.Arr L)), (v = .nonNullable ∨ v = .allValid) →
      (phys sc S env (.struct names fs n v)).enc = .struct .nonNullable ∨ (phys sc S env (.struct names fs n v)).enc = .struct .allValid := by
    rintro names fs n v (rfl | rfl)
    · exact .inl rfl
    · exact .inr rfl
  intro p hp
  cases t with
  | struct names fs n v =>
    have hv : v = .nonNullable ∨ v = .allValid := by cases v <;> simp [Table] at h <;> simp
    have : Spec.parts (phys sc S env (.struct names fs n v)) = [phys sc S env (.struct names fs n v)] := rfl
    rw [this, List.mem_singleton] at hp
    subst hp
    exact key _ _ _ _ hv
  | chunked dt cs =>
    have : Spec.parts (phys sc S env (.chunked dt cs)) = physs sc S env cs := rfl
    rw [this, physs_eq, List.mem_map] at hp
    obtain ⟨c, hc, rfl⟩ := hp
    obtain ⟨names, fs, n, v, rfl, hv⟩ := h c hc
    exact key _ _ _ _ hv
  | _ => simp [Table] at h

/-- **C102 (file).** A table of any encodings is written to a file; whatever the size of the first read, the batches and the order in which reads
finish, reading gives its rows, and reading selected columns the selected fields of its rows. -/
theorem C102_file (hC : C.Lawful) (hO : SortedOk C) (hl : ∀ l, ok l → env.len l = (leafRows l).length) (hS : StoreLaws C S env ok) {M : OwnCodec} (hM : M.Lawful)
    (F : FileCodec) (hF : F.Lawful) (metaNode : List Nat → Ipc.Node) (ctx : Nat → Bool) (fenv : Layout.Env SV)
    (hE : EnvOk fenv F ctx (viewRows M (storedRows sc S env leafRows))) (t : Tree.Arr L) (h : WF env leafRows ok t) (hf : Fits sc env t) (ht : Table t)
    (names : List Str) (dtypes : List DType) (nl : Bool) (hs : Spec.Storable F M ctx (phys sc S env t) names dtypes nl) :
    ∃ w data ls file, writeArrayColumns C M F.msgs LayoutWriter.new (phys sc S env t) = .ok w ∧ finalize F metaNode w = .ok file ∧
      file = Layout.fileOf F data (Tree.dtype env t) (.columnL ls) (Tree.len env t) ∧
      (file.length < 2 ^ 64 → ∀ (init : Nat), Layout.tailLength F (Tree.dtype env t) (.columnL ls) (Tree.len env t) ≤ init → ∀ (batch : Nat), 0 < batch →
        ∀ (order : List Layout.Message → List Layout.Message), (∀ l, (order l).Perm l) →
        (∃ bs N', (∀ fuel, N' ≤ fuel → readFile F fenv init file file.length .all batch order fuel = .ok (Tree.dtype env t, bs)) ∧
          bs.flatten.map toSV = Tree.rows env leafRows t) ∧
        ∀ (fields : List RowExpr.Field) (sel : List Nat), sel ≠ [] → fields.map (Layout.Spec.position names) = sel.map some →
          ∃ bs N', (∀ fuel, N' ≤ fuel → readFile F fenv init file file.length (.flat fields) batch order fuel =
              .ok (.struct (sel.map fun i => names.getD i []) (sel.map fun i => dtypes.getD i .null) nl, bs)) ∧
            bs.flatten.map toSV = (Tree.rows env leafRows t).map (pickSV sel)) := by
  have hb := phys_built hC hO hl hS t h hf
  have hn := table_noNull (sc := sc) (S := S) (env := env) t ht
  have hR : Meaning C (storedRows sc S env leafRows) := stored_meaning
  obtain ⟨w, data, ls, file, h1, h2, h3, h4⟩ := C93_round_trip hC hM hR F hF metaNode ctx fenv hE _ hb hn names dtypes nl hs
  have hrows := stored_phys (sc := sc) hl hS t h hf
  have hstruct : ∀ r ∈ storedRows sc S env leafRows (phys sc S env t), ∃ fs, r = .struct fs := by
    rw [← fieldRows_eq hR hb hn hs.dtype]
    intro r hr
    simp only [Spec.fieldRows, List.mem_flatMap, List.mem_map] at hr
    obtain ⟨_, _, _, _, rfl⟩ := hr
    exact ⟨_, rfl⟩
  rw [phys_dtype hS t h, phys_len hS t h] at h3
  rw [phys_dtype hS t h, phys_len hS t h] at h4
  refine ⟨w, data, ls, file, h1, h2, h3, ?_⟩
  intro hlen init hi batch hb' order ho
  obtain ⟨r1, r2⟩ := h4 hlen init hi batch hb' order ho
  constructor
  · obtain ⟨bs, N', r3, r4⟩ := r1
    exact ⟨bs, N', r3, by rw [r4]; exact hrows⟩
  · intro fields sel hsel hpos
    obtain ⟨bs, N', r3, r4⟩ := r2 fields sel hsel hpos
    exact ⟨bs, N', r3, by rw [r4, map_pick sel _ hstruct, hrows]⟩

end Vx.Store

namespace Vx.Tree
open Own Store
open Layout (Rows Row FileCodec LayoutWriter EnvOk finalize readFile)

variable {L : Type} {env : BEnv L} {leafRows : L → List SV} {ok okS : L → Prop} {ch : Choice L} {sc : Scalars} {S : Leaves L} {C : Compute}

/-- **C102 (compress, write, read).** A table is compressed – whatever the compressors, samples and decisions – and written to a file: what is read has
the rows of the table that was compressed, up to the sign of floating-point zeros. (The result is sound; `hw` asks that its leaves fit the stored form.) -/
theorem C102_compressed_file (hC : C.Lawful) (hO : SortedOk C) (hl : LeafLaws env.toEnv leafRows ok) (lb : LeafBulk env leafRows ok)
    (hlen : ∀ l, okS l → env.len l = (leafRows l).length) (hS : StoreLaws C S env.toEnv okS) (hc : ChoiceLaws env.toEnv leafRows ok ok ch) {M : OwnCodec} (hM : M.Lawful)
    (F : FileCodec) (hF : F.Lawful) (metaNode : List Nat → Ipc.Node) (fctx : Nat → Bool) (fenv : Layout.Env SV)
    (hE : EnvOk fenv F fctx (viewRows M (storedRows sc S env.toEnv leafRows))) (fuel : Nat) (ctx : Ctx) (a b : Arr L) (like t : Option CTree)
    (hg : Good env.toEnv leafRows ok a) (h : compress env ch fuel ctx a like = .ok (b, t)) (hw : WF env.toEnv leafRows okS b)
    (hf : Fits sc env.toEnv b) (ht : Store.Table b)
    (names : List Str) (dtypes : List DType) (nl : Bool) (hs : Spec.Storable F M fctx (phys sc S env.toEnv b) names dtypes nl) :
    ∃ w data ls file, writeArrayColumns C M F.msgs LayoutWriter.new (phys sc S env.toEnv b) = .ok w ∧ finalize F metaNode w = .ok file ∧
      file = Layout.fileOf F data (dtype env.toEnv a) (.columnL ls) (len env.toEnv a) ∧
      (file.length < 2 ^ 64 → ∀ (init : Nat), Layout.tailLength F (dtype env.toEnv a) (.columnL ls) (len env.toEnv a) ≤ init → ∀ (batch : Nat), 0 < batch →
        ∀ (order : List Layout.Message → List Layout.Message), (∀ l, (order l).Perm l) →
        ∃ bs N', (∀ fuel, N' ≤ fuel → readFile F fenv init file file.length .all batch order fuel = .ok (dtype env.toEnv a, bs)) ∧
          (bs.flatten.map toSV).map norm = (rows env.toEnv leafRows a).map norm) := by
  obtain ⟨w1, w2, w3, w4⟩ := C41_compress_partial hl lb hc fuel ctx a b like t hg h
  obtain ⟨w, data, ls, file, h1, h2, h3, h4⟩ := C102_file hC hO hlen hS hM F hF metaNode fctx fenv hE b hw hf ht names dtypes nl hs
  rw [w2, w3] at h3 h4
  refine ⟨w, data, ls, file, h1, h2, h3, ?_⟩
  intro hsz init hi batch hb' order ho
  obtain ⟨bs, N', r3, r4⟩ := (h4 hsz init hi batch hb' order ho).1
  exact ⟨bs, N', r3, by rw [r4]; exact w4⟩

end Vx.Tree
