import Verif.Spec.Damaged
import Verif.Props.C34
import Verif.Model.OpenFile
/-!
# C110: which bytes make a reader abort
-/
namespace Vx.Damage
open Ipc (Bytes Codec FbMsg FbBuffer FbArray BufReader)
open Layout (FileCodec FbLayout Descriptor readFooter sliceBytes)

theorem bind_panic {α β : Type} {x : Res α} {f : α → Res β} : (x >>= f) = .panic ↔ x = .panic ∨ ∃ a, x = .ok a ∧ f a = .panic := by
  cases x <;> simp

theorem ofOption_ne_panic {α : Type} (o : Option α) : Res.ofOption o ≠ .panic := by cases o <;> simp

theorem ofOption_ok {α : Type} {o : Option α} {a : α} (h : Res.ofOption o = .ok a) : o = some a := by
  cases o with
  | none => cases h
  | some x => cases h; rfl

theorem unwrap_panic {α : Type} (o : Option α) : Res.unwrap o = .panic ↔ o = none := by cases o <;> simp

theorem sub_panic {a b : Nat} : Res.sub a b = .panic ↔ a < b := by
  unfold Res.sub; split <;> simp <;> omega

theorem sub_ok {a b c : Nat} : Res.sub a b = .ok c ↔ b ≤ a ∧ c = a - b := by
  unfold Res.sub; split <;> simp [eq_comm] <;> omega

theorem slice_panic {bs : Bytes} {a b : Nat} : sliceBytes bs a b = .panic ↔ ¬ (a ≤ b ∧ b ≤ bs.length) := by
  unfold sliceBytes; split <;> simp_all

theorem slice_ok {bs r : Bytes} {a b : Nat} : sliceBytes bs a b = .ok r ↔ (a ≤ b ∧ b ≤ bs.length) ∧ r = (bs.drop a).take (b - a) := by
  unfold sliceBytes
  split
  · rename_i h; simp [h, eq_comm]
  · rename_i h; simp only [h, false_and, iff_false]; exact nofun

/-! ## Opening a file -/

theorem lastBytes_length {init size : Nat} {file : Bytes} (h : size ≤ file.length) : (lastBytes init file size).length = min init size := by
  simp [lastBytes]; omega

theorem lastBytes_eq {init size : Nat} {file : Bytes} : (file.drop (size - min init size)).take (min init size) = lastBytes init file size := by
  unfold lastBytes
  rw [List.drop_take]
  congr 1; omega

/-- Reading the end of a file: what happens, in full. -/
theorem readFooter_eq (F : FileCodec) (init : Nat) (file : Bytes) (size : Nat) (hi : 8 ≤ init) :
    readFooter F init file size = if 8 ≤ size ∧ size ≤ file.length ∧ (lastBytes init file size).drop (min init size - 4) = [86, 82, 84, 88] ∧
        ((lastBytes init file size).drop (min init size - 8)).take 2 = [1, 0] then
      if 40 ≤ min init size then (match F.decPs (postscript (lastBytes init file size)) with
        | some ps => .ok ⟨ps.1, ps.2, lastBytes init file size, size - min init size⟩
        | none => .err)
      else .panic
    else .err := by
  unfold readFooter
  by_cases h8 : size < 8
  · simp only [h8, if_true]; rw [if_neg (by omega)]
  have hs : Res.sub size (min init size) = .ok (size - min init size) := Res.sub_of_le (by omega)
  simp only [h8, if_false, hs, Res.ok_bind]
  by_cases hl : size ≤ file.length
  rotate_left
  · rw [if_neg (by omega), if_neg (by omega)]; rfl
  rw [if_pos (by omega), lastBytes_eq]
  have hlen := lastBytes_length (init := init) hl
  generalize lastBytes init file size = buf at *
  have he : Res.sub (min init size) 8 = .ok (min init size - 8) := Res.sub_of_le (by omega)
  simp only [he, Res.ok_bind]
  have h1 : sliceBytes buf (min init size - 8 + 4) buf.length = .ok (buf.drop (min init size - 4)) := by
    unfold sliceBytes
    rw [if_pos (by omega)]
    have : min init size - 8 + 4 = min init size - 4 := by omega
    rw [this, List.take_of_length_le (by simp)]
  simp only [h1, Res.ok_bind]
  by_cases hm : buf.drop (min init size - 4) = [86, 82, 84, 88]
  rotate_left
  · rw [if_pos (by simpa [Layout.MAGIC] using hm), if_neg (by simp [hm])]
  rw [if_neg (by simp [hm, Layout.MAGIC])]
  have h2 : sliceBytes buf (min init size - 8) (min init size - 8 + 2) = .ok ((buf.drop (min init size - 8)).take 2) := by
    unfold sliceBytes
    rw [if_pos (by omega)]
    congr 2; omega
  simp only [h2, Res.ok_bind]
  by_cases hv : (buf.drop (min init size - 8)).take 2 = [1, 0]
  rotate_left
  · rw [if_pos hv, if_neg (by simp [hv])]
  rw [if_neg (by simp [hv]), if_pos ⟨by omega, hl, hm, hv⟩]
  by_cases h40 : 40 ≤ min init size
  rotate_left
  · rw [if_neg h40]
    have : Res.sub (min init size - 8) 32 = .panic := sub_panic.mpr (by omega)
    simp [this]
  rw [if_pos h40]
  have h3 : Res.sub (min init size - 8) 32 = .ok (min init size - 40) := sub_ok.mpr ⟨by omega, by omega⟩
  have h4 : sliceBytes buf (min init size - 40) (min init size - 8) = .ok (postscript buf) := by
    rw [slice_ok]
    refine ⟨by omega, ?_⟩
    rw [postscript, hlen]
    congr 1; omega
  simp only [h3, h4, Res.ok_bind]
  cases F.decPs (postscript buf) <;> rfl

theorem stamped_iff {buf : Bytes} {n : Nat} (h : buf.length = n) (h8 : 8 ≤ n) :
    Stamped buf ↔ buf.drop (n - 4) = [86, 82, 84, 88] ∧ (buf.drop (n - 8)).take 2 = [1, 0] := by
  subst h
  simp only [Stamped, h8, true_and]
  exact and_comm

/-- **C110 (footer).** Reading the end of any bytes, with any claimed size, aborts exactly when they bear the version and the magic bytes but are too
short to hold a postscript; in every other case there is an answer or an error. -/
theorem C110_footer_panics_iff (F : FileCodec) (init : Nat) (hi : 40 ≤ init) (file : Bytes) (size : Nat) :
    readFooter F init file size = .panic ↔ size ≤ file.length ∧ Stamped (lastBytes init file size) ∧ size < 40 := by
  rw [readFooter_eq F init file size (by omega)]
  constructor
  · intro h
    split at h
    · rename_i hc
      split at h
      · exfalso; revert h; split <;> simp
      · exact ⟨hc.2.1, (stamped_iff (lastBytes_length hc.2.1) (by omega)).mpr hc.2.2, by omega⟩
    · cases h
  · rintro ⟨h1, h2, h3⟩
    have h8 : 8 ≤ min init size := by have := h2.1; rwa [lastBytes_length h1] at this
    rw [if_pos ⟨by omega, h1, (stamped_iff (lastBytes_length h1) h8).mp h2⟩, if_neg (by omega)]

theorem footer_ok {F : FileCodec} {init size : Nat} (hi : 40 ≤ init) {file : Bytes} {d : Descriptor} (h : readFooter F init file size = .ok d) :
    size ≤ file.length ∧ Stamped (lastBytes init file size) ∧ 40 ≤ size ∧ d.initialRead = lastBytes init file size ∧ d.initialReadOffset = size - min init size ∧
      F.decPs (postscript (lastBytes init file size)) = some (d.schemaOffset, d.footerOffset) := by
  rw [readFooter_eq F init file size (by omega)] at h
  split at h
  rotate_left
  · cases h
  rename_i hc
  split at h
  rotate_left
  · cases h
  split at h
  rotate_left
  · cases h
  rename_i h40 ps hps
  cases h
  exact ⟨hc.2.1, (stamped_iff (lastBytes_length hc.2.1) (by omega)).mpr hc.2.2, by omega, rfl, rfl, hps⟩

/-- Looking up the schema aborts exactly when the offsets are out of order or outside what was read. -/
theorem schema_panics_iff (F : FileCodec) (d : Descriptor) :
    d.schema F = .panic ↔ ¬ (d.initialReadOffset ≤ d.schemaOffset ∧ d.schemaOffset + 4 ≤ d.footerOffset ∧ d.footerOffset ≤ d.initialReadOffset + d.initialRead.length) := by
  unfold Descriptor.schema
  simp only [bind_panic, sub_panic, sub_ok, slice_panic, slice_ok]
  constructor
  · rintro (h | ⟨s, ⟨h1, rfl⟩, h | ⟨f, ⟨h2, rfl⟩, h | ⟨b, ⟨h3, rfl⟩, h | ⟨m, hm, h⟩⟩⟩⟩)
    · omega
    · omega
    · omega
    · exact absurd h (ofOption_ne_panic _)
    · split at h
      · exact absurd h (ofOption_ne_panic _)
      · cases h
  · intro h
    by_cases h1 : d.schemaOffset < d.initialReadOffset
    · exact .inl h1
    refine .inr ⟨_, ⟨by omega, rfl⟩, ?_⟩
    by_cases h2 : d.footerOffset < d.initialReadOffset
    · exact .inl h2
    refine .inr ⟨_, ⟨by omega, rfl⟩, .inl ?_⟩
    omega

/-- The same for the layout. -/
theorem layout_panics_iff (F : FileCodec) (d : Descriptor) :
    d.layout F = .panic ↔ ¬ (d.initialReadOffset ≤ d.footerOffset ∧ d.footerOffset + 44 ≤ d.initialReadOffset + d.initialRead.length) := by
  unfold Descriptor.layout
  simp only [bind_panic, sub_panic, sub_ok, slice_panic, slice_ok]
  constructor
  · rintro (h | ⟨s, ⟨h1, rfl⟩, h | ⟨f, ⟨h2, rfl⟩, h | ⟨b, ⟨h3, rfl⟩, h | ⟨m, hm, h⟩⟩⟩⟩)
    · omega
    · omega
    · omega
    · exact absurd h (ofOption_ne_panic _)
    · exact absurd h (ofOption_ne_panic _)
  · intro h
    by_cases h1 : d.footerOffset < d.initialReadOffset
    · exact .inl h1
    refine .inr ⟨_, ⟨by omega, rfl⟩, ?_⟩
    by_cases h2 : d.initialRead.length < 40
    · exact .inl h2
    refine .inr ⟨_, ⟨by omega, rfl⟩, .inl ?_⟩
    omega

/-- **C110 (offsets).** On a file whose end could be read, the schema and the layout can both be looked up without aborting exactly when the offsets in the
postscript are in place. -/
theorem C110_offsets_iff (F : FileCodec) (init : Nat) (hi : 40 ≤ init) (file : Bytes) (size : Nat) (d : Descriptor) (h : readFooter F init file size = .ok d) :
    (d.schema F ≠ .panic ∧ d.layout F ≠ .panic) ↔ InPlace size (min init size) d.schemaOffset d.footerOffset := by
  obtain ⟨h1, h2, h3, h4, h5, _⟩ := footer_ok hi h
  have hl := lastBytes_length (init := init) h1
  rw [Ne, schema_panics_iff, Ne, layout_panics_iff, h4, h5, hl]
  unfold InPlace
  omega

theorem cut_eq {init size : Nat} {file : Bytes} (a b : Nat) (ha : size - min init size ≤ a) (hsz : b ≤ size) :
    ((lastBytes init file size).drop (a - (size - min init size))).take (b - (size - min init size) - (a - (size - min init size))) = (file.take b).drop a := by
  unfold lastBytes
  rw [List.drop_drop, show size - min init size + (a - (size - min init size)) = a by omega, List.drop_take, List.drop_take, List.take_take]
  congr 1; omega

/-- What the schema is looked up in. -/
theorem schema_eq {F : FileCodec} {init size : Nat} (hi : 40 ≤ init) {file : Bytes} {d : Descriptor} (h : readFooter F init file size = .ok d)
    (hp : InPlace size (min init size) d.schemaOffset d.footerOffset) :
    d.schema F = match F.msgs.dec ((file.take d.footerOffset).drop (d.schemaOffset + 4)) with
      | some (.schema x) => Res.ofOption x
      | _ => .err := by
  obtain ⟨h1, h2, h3, h4, h5, _⟩ := footer_ok hi h
  have hl := lastBytes_length (init := init) h1
  obtain ⟨p1, p2, p3⟩ := hp
  unfold Descriptor.schema
  have e1 : Res.sub d.schemaOffset d.initialReadOffset = .ok (d.schemaOffset - (size - min init size)) := sub_ok.mpr ⟨by omega, by rw [h5]⟩
  have e2 : Res.sub d.footerOffset d.initialReadOffset = .ok (d.footerOffset - (size - min init size)) := sub_ok.mpr ⟨by omega, by rw [h5]⟩
  have e3 : sliceBytes d.initialRead (d.schemaOffset - (size - min init size) + 4) (d.footerOffset - (size - min init size)) =
      .ok ((file.take d.footerOffset).drop (d.schemaOffset + 4)) := by
    rw [slice_ok, h4]
    refine ⟨by omega, ?_⟩
    rw [show d.schemaOffset - (size - min init size) + 4 = d.schemaOffset + 4 - (size - min init size) by omega, cut_eq _ _ (by omega) (by omega)]
  simp only [e1, e2, e3, Res.ok_bind]
  cases F.msgs.dec ((file.take d.footerOffset).drop (d.schemaOffset + 4)) with
  | none => rfl
  | some m => cases m <;> rfl

/-- What the layout is looked up in. -/
theorem layout_eq {F : FileCodec} {init size : Nat} (hi : 40 ≤ init) {file : Bytes} {d : Descriptor} (h : readFooter F init file size = .ok d)
    (hp : InPlace size (min init size) d.schemaOffset d.footerOffset) :
    d.layout F = match F.decFooter ((file.take (size - 40)).drop (d.footerOffset + 4)) with
      | some (some r, _) => .ok r
      | _ => .err := by
  obtain ⟨h1, h2, h3, h4, h5, _⟩ := footer_ok hi h
  have hl := lastBytes_length (init := init) h1
  obtain ⟨p1, p2, p3⟩ := hp
  unfold Descriptor.layout
  have e2 : Res.sub d.footerOffset d.initialReadOffset = .ok (d.footerOffset - (size - min init size)) := sub_ok.mpr ⟨by omega, by rw [h5]⟩
  have e1 : Res.sub d.initialRead.length 40 = .ok (min init size - 40) := sub_ok.mpr ⟨by rw [h4, hl]; omega, by rw [h4, hl]⟩
  have e3 : sliceBytes d.initialRead (d.footerOffset - (size - min init size) + 4) (min init size - 40) =
      .ok ((file.take (size - 40)).drop (d.footerOffset + 4)) := by
    rw [slice_ok, h4]
    refine ⟨by omega, ?_⟩
    rw [show d.footerOffset - (size - min init size) + 4 = d.footerOffset + 4 - (size - min init size) by omega,
      show min init size - 40 = size - 40 - (size - min init size) by omega, cut_eq _ _ (by omega) (by omega)]
  simp only [e1, e2, e3, Res.ok_bind]
  cases F.decFooter ((file.take (size - 40)).drop (d.footerOffset + 4)) with
  | none => rfl
  | some m =>
    obtain ⟨o, n⟩ := m
    cases o <;> rfl

theorem toFbs_length : ∀ ds : List DType, (DType.toFbs ds).length = ds.length
  | [] => rfl
  | d :: ds => by simp [DType.toFbs, toFbs_length ds]

mutual
theorem read_ne_panic : ∀ d : FbDType, d.read ≠ .panic
  | .unknown | .null | .bool _ | .utf8 _ | .binary _ | .struct none _ _ | .struct (some _) none _ | .list none _ | .ext none _ _ | .ext (some _) _ _ => by
    simp [FbDType.read]
  | .primitive t n => by
    intro h
    simp only [FbDType.read, bind_panic] at h
    rcases h with h | ⟨_, _, h⟩
    · exact ofOption_ne_panic _ h
    · cases h
  | .struct (some ns) (some ds) n => by
    intro h
    simp only [FbDType.read, bind_panic] at h
    rcases h with h | ⟨_, _, h⟩
    · exact reads_ne_panic ds h
    · cases h
  | .list (some e) n => by
    intro h
    simp only [FbDType.read, bind_panic] at h
    rcases h with h | ⟨_, _, h⟩
    · exact read_ne_panic e h
    · cases h
theorem reads_ne_panic : ∀ ds : List FbDType, FbDType.reads ds ≠ .panic
  | [] => by simp [FbDType.reads]
  | d :: ds => by
    intro h
    simp only [FbDType.reads, bind_panic] at h
    rcases h with h | ⟨_, _, h | ⟨_, _, h⟩⟩
    · exact read_ne_panic d h
    · exact reads_ne_panic ds h
    · cases h
end

/-- **C110 (types).** Whatever the table of a stored type holds, reading it gives a type or an error. -/
theorem C110_dtype (fb : FbDType) : ∃ r, fb.read = r ∧ (r = .err ∨ ∃ d, r = .ok d) := by
  refine ⟨_, rfl, ?_⟩
  have := read_ne_panic fb
  cases h : fb.read with
  | ok d => exact .inr ⟨d, rfl⟩
  | err => exact .inl rfl
  | panic => exact absurd h this

theorem mapM_panic {α β : Type} {f : α → Res β} : ∀ {xs : List α}, Res.mapM f xs = .panic → ∃ x ∈ xs, f x = .panic
  | [], h => by simp at h
  | x :: xs, h => by
    simp only [Res.mapM_cons, bind_panic] at h
    rcases h with h | ⟨_, _, h | ⟨_, _, h⟩⟩
    · exact ⟨x, by simp, h⟩
    · obtain ⟨y, hy, e⟩ := mapM_panic h
      exact ⟨y, by simp [hy], e⟩
    · cases h

theorem projected_ne_panic (schema : FbDType) (hc : SameCount schema) (proj : Layout.Projection) (hp : PositionsOk schema proj) :
    Layout.projectedDType schema proj ≠ .panic := by
  cases proj with
  | all => exact read_ne_panic schema
  | flat p =>
    intro h
    unfold Layout.projectedDType deserializeAndProject at h
    cases schema with
    | struct names dtypes n =>
      simp only [bind_panic] at h
      rcases h with h | ⟨_, _, h⟩
      rotate_left
      · cases h
      obtain ⟨f, hf, h⟩ := mapM_panic h
      simp only [projectField, bind_panic] at h
      have hlt : ∀ i, resolveField names f = .ok i → ∀ ns, names = some ns → i < ns.length ∧ ∀ l, dtypes = some l → i < l.length := by
        intro i hi ns hn
        subst hn
        cases f with
        | name s =>
          simp only [resolveField, Res.ofOption_some, Res.ok_bind] at hi
          have : DType.findName ns s = some i := by
            cases hx : DType.findName ns s with
            | none => rw [hx] at hi; cases hi
            | some j => rw [hx] at hi; cases hi; rfl
          simp only [DType.findName] at this
          have : i < ns.length := by
            revert this
            split
            · intro h; cases h; assumption
            · intro h; cases h
          refine ⟨this, fun l hl => ?_⟩
          subst hl
          have hlen : ns.length = l.length := hc
          omega
        | index j =>
          simp only [resolveField, Res.ok.injEq] at hi
          subst hi
          exact hp j hf ns dtypes n rfl
      rcases h with h | ⟨i, hi, h⟩
      · cases f with
        | name s =>
          simp only [resolveField, bind_panic] at h
          rcases h with h | ⟨_, _, h⟩
          · exact ofOption_ne_panic _ h
          · exact ofOption_ne_panic _ h
        | index j => cases h
      · simp only [readField, bind_panic, unwrap_panic] at h
        rcases h with h | ⟨ns, hns, h | ⟨_, _, h | ⟨ds, hds, h | ⟨_, _, h | ⟨_, _, h⟩⟩⟩⟩⟩
        · exact ofOption_ne_panic _ h
        · have := (hlt i hi ns (ofOption_ok hns)).1
          rw [List.getElem?_eq_none_iff] at h; omega
        · exact ofOption_ne_panic _ h
        · have := (hlt i hi ns (ofOption_ok hns)).2 ds (ofOption_ok hds)
          rw [List.getElem?_eq_none_iff] at h; omega
        · exact read_ne_panic _ h
        · cases h
    | _ => cases h

theorem depth_pos (root : FbLayout) : ∃ k, root.depth = k + 1 := by
  cases root with
  | mk e b cs m =>
    cases cs with
    | none => exact ⟨0, rfl⟩
    | some cs => exact ⟨_, by rw [FbLayout.depth]; exact Nat.add_comm _ _⟩

theorem ofFb_ne_panic {α R : Type} (env : Layout.Env α) (root : FbLayout) (hr : RootOk root) (scan : Layout.Scan) (cache : Layout.Rel) :
    (Layout.Node.ofFb env root scan cache : Res (Layout.Node α R)) ≠ .panic := by
  unfold Layout.Node.ofFb
  split
  · simp
  split
  · rename_i h
    obtain ⟨b, bs, h1, h2⟩ := hr h
    simp [h1, Layout.firstBuffer, Layout.ByteRange.new, h2]
  split
  · simp
  split
  · simp
  split <;> simp

/-- **C110 (opening a file).** Opening any bytes, of any claimed size, with any projection gives a stream or an error: it does not abort, provided that bytes which
bear the stamp of a file have room for the postscript and offsets in place, the stored schema has as many names as types and the columns asked for by position, and
a flat root layout has a buffer. Missing, because the code does not check it and aborts: exactly these (`C110_short_file`, `C110_offsets_iff`, `C110_missing_column`,
`C110_flat_root`). -/
theorem C110_open_partial {α : Type} (F : FileCodec) (env : Layout.Env α) (init : Nat) (hi : 40 ≤ init) (file : Bytes) (size : Nat) (proj : Layout.Projection) (batch : Nat)
    (ho : Openable F init file size proj) :
    Layout.build F env init file size proj batch = .err ∨ ∃ s, Layout.build F env init file size proj batch = .ok s := by
  have key : Layout.build F env init file size proj batch ≠ .panic := by
    intro h
    simp only [Layout.build, bind_panic] at h
    rcases h with h | ⟨d, hd, h⟩
    · obtain ⟨h1, h2, h3⟩ := (C110_footer_panics_iff F init hi file size).mp h
      have := (ho h1 h2).1
      omega
    obtain ⟨h1, h2, _, h4, h5, h6⟩ := footer_ok hi hd
    obtain ⟨hpl, hs, hr⟩ := (ho h1 h2).2 _ _ h6
    have hin := (C110_offsets_iff F init hi file size d hd).mpr hpl
    rcases h with h | ⟨schema, hsch, h⟩
    · exact hin.1 h
    rcases h with h | ⟨dt, _, h⟩
    · rw [schema_eq hi hd hpl] at hsch
      split at hsch
      · rename_i x hx
        have hx' := ofOption_ok hsch
        subst hx'
        obtain ⟨q1, q2⟩ := hs schema hx
        exact projected_ne_panic schema q1 proj q2 h
      · cases hsch
    rcases h with h | ⟨root, hroot, h⟩
    · exact hin.2 h
    rcases h with h | ⟨_, _, h⟩
    rotate_left
    · cases h
    have hro : RootOk root := by
      rw [layout_eq hi hd hpl] at hroot
      split at hroot
      · rename_i r n hx
        cases hroot
        exact hr root n hx
      · cases hroot
    obtain ⟨k, hk⟩ := depth_pos root
    rw [hk] at h
    exact ofFb_ne_panic env root hro _ _ h
  cases h : Layout.build F env init file size proj batch with
  | ok s => exact .inr ⟨s, rfl⟩
  | err => exact .inl rfl
  | panic => exact absurd h key

/-- Reading a file is opening it and then collecting the stream. -/
theorem C110_read_opens {α : Type} (F : FileCodec) (env : Layout.Env α) (init : Nat) (file : Bytes) (size : Nat) (proj : Layout.Projection) (batch : Nat)
    (order : List Layout.Message → List Layout.Message) (fuel : Nat) :
    Layout.readFile F env init file size proj batch order fuel =
      (Layout.build F env init file size proj batch).bind fun s =>
        (Layout.Stream.collect (fun c r => Layout.readNext env fuel c s.2.2.1.depth r) order file fuel (Layout.Stream.new s.2.2.2 none)).bind
          fun batches => .ok (s.1, batches) := by
  unfold Layout.readFile Layout.build Layout.readAll
  cases readFooter F init file size <;> try rfl
  rename_i d
  simp only [Res.ok_bind]
  cases d.schema F <;> try rfl
  rename_i sch
  simp only [Res.ok_bind]
  cases Layout.projectedDType sch proj <;> try rfl
  simp only [Res.ok_bind]
  cases d.layout F <;> try rfl
  rename_i root
  simp only [Res.ok_bind]
  cases Layout.readLayout env root.depth root ⟨proj, batch⟩ ⟨[], .serialized sch .all⟩ <;> rfl

/-! ## A block of a column -/

theorem splitTo_panic {n : Nat} {bs : Bytes} : Ipc.splitTo n bs = .panic ↔ bs.length < n := by
  unfold Ipc.splitTo; split <;> simp <;> omega

theorem splitTo_ok {n : Nat} {bs : Bytes} {p : Bytes × Bytes} : Ipc.splitTo n bs = .ok p ↔ n ≤ bs.length ∧ p = (bs.take n, bs.drop n) := by
  unfold Ipc.splitTo
  split
  · rename_i h; simp [h, eq_comm]
  · rename_i h; simp only [h, false_and, iff_false]; exact nofun

/-- Where the buffers begin. -/
def firstOffset : List FbBuffer → Nat
  | [] => 0
  | b :: _ => b.offset

theorem inOrder_le : ∀ {total : Nat} {bs : List FbBuffer}, bs ≠ [] → InOrder total bs → firstOffset bs ≤ total
  | _, [b], _, h => by simp only [InOrder] at h; simp only [firstOffset]; omega
  | total, b :: c :: bs, _, h => by
    simp only [InOrder] at h
    have := inOrder_le (total := total) (bs := c :: bs) (by simp) h.2
    simp only [firstOffset] at *; omega

/-- Cutting the bytes of a batch into its buffers aborts exactly when they are out of order. -/
theorem split_panics_iff (total : Nat) : ∀ (bs : List FbBuffer) (bytes : Bytes), total ≤ bytes.length + firstOffset bs →
    (Ipc.splitBuffers total bytes bs = .panic ↔ ¬ InOrder total bs)
  | [], bytes, _ => by simp [Ipc.splitBuffers, InOrder]
  | [b], bytes, h => by
    simp only [firstOffset] at h
    simp only [Ipc.splitBuffers, Ipc.nextOffset, bind_panic, sub_panic, sub_ok, splitTo_panic, splitTo_ok, InOrder]
    constructor
    · rintro (h | ⟨l, ⟨h1, rfl⟩, h | ⟨l, ⟨h2, rfl⟩, h | ⟨p, ⟨h3, rfl⟩, h | ⟨q, ⟨h4, rfl⟩, h | ⟨_, _, h⟩⟩⟩⟩⟩)
      · omega
      · omega
      · omega
      · simp only [List.length_drop] at h; omega
      · cases h
      · cases h
    · intro h
      by_cases h1 : total < b.offset
      · exact .inl h1
      · exact .inr ⟨_, ⟨by omega, rfl⟩, .inl (by omega)⟩
  | b :: c :: bs, bytes, h => by
    simp only [firstOffset] at h
    rw [Ipc.splitBuffers]
    simp only [Ipc.nextOffset, bind_panic, sub_panic, sub_ok, splitTo_panic, splitTo_ok]
    constructor
    · rintro (h | ⟨l, ⟨h1, rfl⟩, h | ⟨l, ⟨h2, rfl⟩, h | ⟨p, ⟨h3, rfl⟩, h | ⟨q, ⟨h4, rfl⟩, h | ⟨_, _, h⟩⟩⟩⟩⟩)
      · simp only [InOrder]; omega
      · simp only [InOrder]; omega
      · rintro ⟨h3, h4⟩
        have := inOrder_le (by simp) h4
        simp only [firstOffset] at this; omega
      · rintro ⟨h3', h4⟩
        have := inOrder_le (by simp) h4
        simp only [firstOffset, List.length_drop] at *; omega
      · rintro ⟨_, h5⟩
        simp only [List.length_drop] at h4
        exact (split_panics_iff total (c :: bs) _ (by simp only [firstOffset, List.length_drop]; omega)).mp h h5
      · cases h
    · intro hn
      by_cases h1 : c.offset < b.offset
      · exact .inl h1
      refine .inr ⟨_, ⟨by omega, rfl⟩, ?_⟩
      by_cases h2 : c.offset - b.offset < b.padding
      · exact .inl h2
      refine .inr ⟨_, ⟨by omega, rfl⟩, ?_⟩
      by_cases h3 : bytes.length < c.offset - b.offset - b.padding
      · exact .inl h3
      refine .inr ⟨_, ⟨by omega, rfl⟩, ?_⟩
      by_cases h4 : (bytes.drop (c.offset - b.offset - b.padding)).length < b.padding
      · exact .inl h4
      refine .inr ⟨_, ⟨Nat.not_lt.mp h4, rfl⟩, .inl ?_⟩
      have h5 : ¬ InOrder total (c :: bs) := fun h5 => hn ⟨by omega, h5⟩
      simp only [List.length_drop] at h4
      exact (split_panics_iff total (c :: bs) _ (by simp only [firstOffset, List.length_drop]; omega)).mpr h5

theorem getU32_eq (buf : Bytes) : Ipc.getU32 (buf.take 4) = if 4 ≤ buf.length then .ok (prefixLen buf) else .panic := by
  match buf with
  | [] | [_] | [_, _] | [_, _, _] => rfl
  | a :: b :: c :: d :: r => simp [Ipc.getU32, prefixLen]

theorem feed_last (C : Codec) (r : BufReader) (buf readBuf : Bytes) (h : ∀ u r', r.read C readBuf ≠ .ok (some u, r')) :
    Ipc.feed C r buf readBuf = (r.read C readBuf).bind fun p => .ok p.2 := by
  rw [Ipc.feed]
  split <;> rename_i hx <;> try (rw [hx]; rfl)
  exact absurd hx (h _ _)

/-- The steps of looking at a block. -/
theorem feed_eq (C : Codec) (buf : Bytes) : Ipc.feed C .new buf [] =
    (Ipc.splitTo 4 buf).bind fun p => (Ipc.getU32 p.1).bind fun n => (Ipc.splitTo n p.2).bind fun q =>
      (Ipc.rootUnchecked C q.1).bind fun m => (Res.ofOption m.asBatch).bind fun b => (Ipc.splitTo b.2.2.2 q.2).bind fun t =>
        (Ipc.splitBuffers b.2.2.2 t.1 b.2.2.1).bind fun bs => .ok ⟨.finished, some q.1, bs⟩ := by
  rw [Ipc.feed]
  simp only [BufReader.new, BufReader.read]
  cases h1 : Ipc.splitTo 4 buf <;> simp only [Res.bind]
  rename_i p
  rw [Ipc.feed]
  simp only [BufReader.read]
  cases h2 : Ipc.getU32 p.1 <;> simp only [Res.ok_bind, Res.err_bind, Res.panic_bind, Res.bind]
  rename_i n
  cases h3 : Ipc.splitTo n p.2 <;> simp only [Res.bind]
  rename_i q
  rw [Ipc.feed]
  simp only [BufReader.read]
  cases h4 : Ipc.rootUnchecked C q.1 <;> simp only [Res.ok_bind, Res.err_bind, Res.panic_bind, Res.bind]
  rename_i m
  cases h5 : m.asBatch <;> simp only [Res.ofOption_some, Res.ofOption_none, Res.ok_bind, Res.err_bind, Res.bind]
  rename_i b
  cases h6 : Ipc.splitTo b.2.2.2 q.2 <;> simp only [Res.bind]
  rename_i t
  have e : ∀ r : BufReader, r = ⟨.readingBuffers, some q.1, []⟩ → r.read C t.1 = (Ipc.splitBuffers b.2.2.2 t.1 b.2.2.1).bind fun bs => .ok (none, ⟨.finished, some q.1, bs⟩) := by
    intro r hr
    subst hr
    simp only [BufReader.read, BufReader.asBatch, Res.ofOption_some, h4, h5, Res.ok_bind]
    rfl
  rw [feed_last C _ _ _ (by rw [e _ rfl]; cases Ipc.splitBuffers b.2.2.2 t.1 b.2.2.1 <;> simp [Res.bind]), e _ rfl]
  cases Ipc.splitBuffers b.2.2.2 t.1 b.2.2.1 <;> rfl

theorem bind_panic' {α β : Type} {x : Res α} {f : α → Res β} : x.bind f = .panic ↔ x = .panic ∨ ∃ a, x = .ok a ∧ f a = .panic := by
  cases x <;> simp [Res.bind]

theorem splitBuffers_ok_or_panic (total : Nat) : ∀ (bs : List FbBuffer) (bytes : Bytes), Ipc.splitBuffers total bytes bs ≠ .err
  | [], bytes => by simp [Ipc.splitBuffers]
  | b :: bs, bytes => by
    rw [Ipc.splitBuffers]
    intro h
    have e : ∀ {α β : Type} {x : Res α} {f : α → Res β}, (x >>= f) = .err → x = .err ∨ ∃ a, x = .ok a ∧ f a = .err := by
      intro α β x f; cases x <;> simp
    rcases e h with h | ⟨_, _, h⟩
    · revert h; unfold Res.sub; split <;> simp
    rcases e h with h | ⟨_, _, h⟩
    · revert h; unfold Res.sub; split <;> simp
    rcases e h with h | ⟨_, _, h⟩
    · revert h; unfold Ipc.splitTo; split <;> simp
    rcases e h with h | ⟨_, _, h⟩
    · revert h; unfold Ipc.splitTo; split <;> simp
    rcases e h with h | ⟨_, _, h⟩
    · exact splitBuffers_ok_or_panic total bs _ h
    · cases h

/-- **C110 (blocks).** Taking any bytes for a block of a column aborts exactly when they are not a length prefix and a message followed, for a batch, by its buffers
in order. In every other case there is an array or an error. -/
theorem C110_block_panics_iff (C : Codec) (ctx : Nat → Bool) (dtype : DType) (buf : Bytes) : Ipc.arrayFromBytes C ctx dtype buf = .panic ↔ ¬ BlockOk C buf := by
  unfold Ipc.arrayFromBytes
  rw [feed_eq]
  unfold BlockOk
  by_cases h4 : 4 ≤ buf.length
  rotate_left
  · have : Ipc.splitTo 4 buf = .panic := splitTo_panic.mpr (by omega)
    simp [this, Res.bind, h4]
  have e1 : Ipc.splitTo 4 buf = .ok (buf.take 4, buf.drop 4) := splitTo_ok.mpr ⟨h4, rfl⟩
  simp only [e1, Res.bind, getU32_eq, h4, if_true, true_and]
  by_cases hn : 4 + prefixLen buf ≤ buf.length
  rotate_left
  · have : Ipc.splitTo (prefixLen buf) (buf.drop 4) = .panic := splitTo_panic.mpr (by simp only [List.length_drop]; omega)
    simp [this, hn]
  have e2 : Ipc.splitTo (prefixLen buf) (buf.drop 4) = .ok ((buf.drop 4).take (prefixLen buf), (buf.drop 4).drop (prefixLen buf)) :=
    splitTo_ok.mpr ⟨by simp only [List.length_drop]; omega, rfl⟩
  simp only [e2, hn, true_and]
  cases hm : C.dec ((buf.drop 4).take (prefixLen buf)) with
  | none => simp [Ipc.rootUnchecked, hm]
  | some m =>
    simp only [Ipc.rootUnchecked, hm, Res.unwrap_some]
    cases m with
    | schema d => simp [FbMsg.asBatch]
    | page a b => simp [FbMsg.asBatch]
    | batch a l bs total =>
      simp only [FbMsg.asBatch, Res.ofOption_some]
      by_cases ht : 4 + prefixLen buf + total ≤ buf.length
      rotate_left
      · have : Ipc.splitTo total ((buf.drop 4).drop (prefixLen buf)) = .panic := splitTo_panic.mpr (by simp only [List.length_drop]; omega)
        rw [this]
        refine iff_of_true rfl ?_
        rintro ⟨m', hm', hh⟩
        cases hm'
        exact ht (hh a l bs total rfl).1
      have e3 : Ipc.splitTo total ((buf.drop 4).drop (prefixLen buf)) =
          .ok (((buf.drop 4).drop (prefixLen buf)).take total, ((buf.drop 4).drop (prefixLen buf)).drop total) :=
        splitTo_ok.mpr ⟨by simp only [List.length_drop]; omega, rfl⟩
      simp only [e3]
      have hsp := split_panics_iff total bs (((buf.drop 4).drop (prefixLen buf)).take total) (by
        simp only [List.length_take, List.length_drop]; omega)
      have hne := splitBuffers_ok_or_panic total bs (((buf.drop 4).drop (prefixLen buf)).take total)
      have hR : (¬ ∃ m', some (FbMsg.batch a l bs total) = some m' ∧ ∀ a' l' bs' total', m' = .batch a' l' bs' total' →
          4 + prefixLen buf + total' ≤ buf.length ∧ InOrder total' bs') ↔ ¬ InOrder total bs := by
        constructor
        · intro h ho
          apply h
          refine ⟨_, rfl, ?_⟩
          intro a' l' bs' total' e
          cases e
          exact ⟨ht, ho⟩
        · rintro h ⟨m', hm', hh⟩
          cases hm'
          exact h (hh a l bs total rfl).2
      rw [hR, ← hsp]
      cases hx : Ipc.splitBuffers total (((buf.drop 4).drop (prefixLen buf)).take total) bs with
      | err => exact absurd hx hne
      | panic => simp
      | ok r =>
        simp only [BufReader.intoArray, BufReader.asBatch, Res.ofOption_some, Res.ok_bind, Ipc.rootUnchecked, hm, Res.unwrap_some, FbMsg.asBatch]
        cases a with
        | none => simp
        | some a =>
          simp only [Res.ofOption_some, Res.ok_bind, Ipc.View.tryNew]
          split <;> simp

mutual
theorem tree_ne_panic (buffers : List Bytes) : ∀ fb : FbArray, IndicesOk buffers.length fb → Ipc.readTree buffers fb ≠ .panic
  | .mk e m s i cs => by
    intro h hp
    simp only [IndicesOk] at h
    simp only [Ipc.readTree, bind_panic] at hp
    rcases hp with hp | ⟨_, _, hp | ⟨_, _, hp | ⟨_, _, hp | ⟨_, _, hp⟩⟩⟩⟩
    · cases i with
      | none => simp [Ipc.View.getBuffer] at hp
      | some k =>
        have hk := h.1 k rfl
        simp [Ipc.View.getBuffer, List.getElem?_eq_getElem hk, Res.bind] at hp
    · exact trees_ne_panic buffers cs h.2 hp
    · exact ofOption_ne_panic _ hp
    · exact ofOption_ne_panic _ hp
    · cases hp
theorem trees_ne_panic (buffers : List Bytes) : ∀ cs : List FbArray, IndicesOks buffers.length cs → Ipc.readTrees buffers cs ≠ .panic
  | [] => by simp [Ipc.readTrees]
  | c :: cs => by
    intro h hp
    simp only [IndicesOks] at h
    simp only [Ipc.readTrees, bind_panic] at hp
    rcases hp with hp | ⟨_, _, hp | ⟨_, _, hp⟩⟩
    · exact tree_ne_panic buffers c h.1 hp
    · exact trees_ne_panic buffers cs h.2 hp
    · cases hp
end

/-- **C110 (array trees).** Walking through a stored array never aborts when its nodes point to buffers that exist. -/
theorem C110_tree_partial (buffers : List Bytes) (fb : FbArray) (h : IndicesOk buffers.length fb) :
    Ipc.readTree buffers fb = .err ∨ ∃ n, Ipc.readTree buffers fb = .ok n := by
  cases hx : Ipc.readTree buffers fb with
  | ok n => exact .inr ⟨n, rfl⟩
  | err => exact .inl rfl
  | panic => exact absurd hx (tree_ne_panic buffers fb h)

/-! ## A stream of messages -/

open Ipc (Reader Ask)

/-- The reader holds a message, or knows that there are no more; all it has came from the source. -/
structure Holds (C : Codec) (src : Bytes) (r : Reader) : Prop where
  message : r.finished = true ∨ ∃ m, C.dec r.message = some m
  part : r.finished = true ∨ r.message <:+: src
  rest : r.rest <:+ src

theorem readInto_suffix {rest a b : Bytes} {n : Nat} (h : Reader.readInto rest n = some (a, b)) : b <:+ rest ∧ a <+: rest ∧ a.length = n := by
  unfold Reader.readInto at h
  split at h
  · cases h; exact ⟨List.drop_suffix _ _, List.take_prefix _ _, by simp; omega⟩
  · cases h

theorem load_ne_panic (C : Codec) (r : Reader) : r.load C ≠ .panic := by
  intro h
  unfold Reader.load at h
  split at h
  · cases h
  · rename_i l rest hl
    have h4 := (readInto_suffix hl).2.2
    simp only [bind_panic] at h
    rcases h with h | ⟨n, hn, h⟩
    · match l, h4 with
      | [_, _, _, _], _ => cases h
    · split at h
      · cases h
      split at h
      · cases h
      simp only [bind_panic] at h
      rcases h with h | ⟨p, hp, h | ⟨_, _, h⟩⟩
      · exact ofOption_ne_panic _ h
      · exact ofOption_ne_panic _ h
      · cases h

theorem load_holds {C : Codec} {src : Bytes} {r r' : Reader} (hr : r.rest <:+ src) (h : r.load C = .ok (true, r')) : Holds C src r' := by
  unfold Reader.load at h
  split at h
  · cases h
  · rename_i l rest hl
    obtain ⟨s1, _, _⟩ := readInto_suffix hl
    simp only [Res.bind_eq_ok] at h
    obtain ⟨n, hn, h⟩ := h
    split at h
    · cases h
    split at h
    · cases h
    simp only [Res.bind_eq_ok] at h
    obtain ⟨⟨msg, rest'⟩, hp, m, hm, h⟩ := h
    have hp' := ofOption_ok hp
    obtain ⟨s2, s3, _⟩ := readInto_suffix hp'
    cases h
    exact ⟨.inr ⟨m, ofOption_ok hm⟩, .inr (s3.isInfix.trans (s1.trans hr).isInfix), s2.trans (s1.trans hr)⟩

theorem load_rest {C : Codec} {src : Bytes} {r r' : Reader} {b : Bool} (hr : r.rest <:+ src) (h : r.load C = .ok (b, r')) : r'.rest <:+ src := by
  cases b with
  | true => exact (load_holds hr h).rest
  | false =>
    unfold Reader.load at h
    split at h
    · cases h; exact hr
    · rename_i l rest hl
      obtain ⟨s1, _, _⟩ := readInto_suffix hl
      simp only [Res.bind_eq_ok] at h
      obtain ⟨n, hn, h⟩ := h
      split at h
      · cases h; exact s1.trans hr
      split at h
      · cases h
      simp only [Res.bind_eq_ok] at h
      obtain ⟨_, _, _, _, h⟩ := h
      cases h

theorem next_ne_panic (C : Codec) (r : Reader) : r.next C ≠ .panic := by
  intro h
  unfold Reader.next at h
  split at h
  · cases h
  · simp only [bind_panic] at h
    rcases h with h | ⟨_, _, h⟩
    · exact load_ne_panic C _ h
    · cases h

theorem next_holds {C : Codec} {src b : Bytes} {r r' : Reader} (hr : r.rest <:+ src) (h : r.next C = .ok (b, r')) : Holds C src r' ∧ b = r.message := by
  unfold Reader.next at h
  split at h
  · cases h
  · simp only [Res.bind_eq_ok] at h
    obtain ⟨⟨more, r''⟩, hl, h⟩ := h
    cases more with
    | true => cases h; exact ⟨load_holds hr hl, rfl⟩
    | false =>
      cases h
      have hrest : r''.rest <:+ src := load_rest (r := { r with message := [] }) hr hl
      exact ⟨⟨.inl rfl, .inl rfl, hrest⟩, rfl⟩

theorem peek_ne_panic {C : Codec} {src : Bytes} {r : Reader} (h : Holds C src r) : r.peek C ≠ .panic := by
  unfold Reader.peek
  split
  · simp
  · rename_i hf
    obtain ⟨m, hm⟩ := h.message.resolve_left hf
    simp [Ipc.rootUnchecked, hm]

theorem peek_some {C : Codec} {r : Reader} {m : FbMsg} (h : r.peek C = .ok (some m)) : C.dec r.message = some m ∧ r.finished ≠ true := by
  unfold Reader.peek at h
  split at h
  · cases h
  · rename_i hf
    refine ⟨?_, hf⟩
    cases hd : C.dec r.message with
    | none => simp [Ipc.rootUnchecked, hd] at h
    | some x => simp [Ipc.rootUnchecked, hd] at h; rw [h]

/-- One request keeps the reader in order, and does not abort. -/
theorem serve_holds {C : Codec} {ctx : Nat → Bool} {src : Bytes} (ht : TablesInOrder C src) {r : Reader} (h : Holds C src r) (a : Ask) :
    r.serve C ctx a ≠ .panic ∧ ∀ r', r.serve C ctx a = .ok r' → Holds C src r' := by
  cases a with
  | dtype =>
    simp only [Reader.serve, Reader.readDtype]
    cases hp : r.peek C with
    | panic => exact absurd hp (peek_ne_panic h)
    | err => simp
    | ok o =>
      match o with
      | none => simp
      | some (.batch ..) => simp
      | some (.page ..) => simp
      | some (.schema d) =>
        simp only [Res.ok_bind]
        obtain ⟨hd, _⟩ := peek_some hp
        cases hn : r.next C with
        | panic => exact absurd hn (next_ne_panic C r)
        | err => simp
        | ok p =>
          obtain ⟨buf, r'⟩ := p
          obtain ⟨n1, n2⟩ := next_holds h.rest hn
          subst n2
          simp only [Res.ok_bind, Ipc.rootUnchecked, hd, Res.unwrap_some]
          cases d with
          | none => simp
          | some fb =>
            simp only [Res.ofOption_some, Res.ok_bind]
            have := read_ne_panic fb
            cases hf : fb.read with
            | panic => exact absurd hf this
            | err => simp
            | ok dt => simp [n1]
  | chunk d =>
    simp only [Reader.serve, Reader.maybeReadChunk]
    cases hp : r.peek C with
    | panic => exact absurd hp (peek_ne_panic h)
    | err => simp
    | ok o =>
      match o with
      | none => simp [h]
      | some (.schema ..) => simp [h]
      | some (.page ..) => simp [h]
      | some (.batch arr l bs total) =>
        simp only [Res.ok_bind]
        obtain ⟨hd, hnf⟩ := peek_some hp
        have hord := ht r.message (h.part.resolve_left hnf) arr l bs total hd
        cases hri : Reader.readInto r.rest total with
        | none => simp
        | some p =>
          obtain ⟨bytes, rest⟩ := p
          obtain ⟨s1, _, s3⟩ := readInto_suffix hri
          have hsp := split_panics_iff total bs bytes (by omega)
          have hne := splitBuffers_ok_or_panic total bs bytes
          simp only [Res.ofOption_some, Res.ok_bind, BufReader.fromFb, BufReader.read, BufReader.asBatch, Ipc.rootUnchecked, hd, Res.unwrap_some, FbMsg.asBatch]
          cases hs : Ipc.splitBuffers total bytes bs with
          | err => exact absurd hs hne
          | panic => exact absurd hord (hsp.mp hs)
          | ok bufs =>
            simp only [Res.ok_bind, Option.isSome_none, Bool.false_eq_true, if_false]
            cases hn : ({ r with rest := rest } : Reader).next C with
            | panic => exact absurd hn (next_ne_panic C _)
            | err => simp
            | ok p =>
              obtain ⟨buf, r'⟩ := p
              obtain ⟨n1, _⟩ := next_holds (r := { r with rest := rest }) (s1.trans h.rest) hn
              simp only [Res.ok_bind, BufReader.intoArray, BufReader.asBatch, Res.ofOption_some, Ipc.rootUnchecked, hd, Res.unwrap_some, FbMsg.asBatch]
              cases arr with
              | none => simp
              | some arr =>
                simp only [Res.ofOption_some, Res.ok_bind, Ipc.View.tryNew]
                split <;> simp [n1]
  | page =>
    simp only [Reader.serve, Reader.maybeReadPage]
    cases hp : r.peek C with
    | panic => exact absurd hp (peek_ne_panic h)
    | err => simp
    | ok o =>
      match o with
      | none => simp [h]
      | some (.schema ..) => simp [h]
      | some (.batch ..) => simp [h]
      | some (.page size pad) =>
        simp only [Res.ok_bind]
        cases hri : Reader.readInto r.rest (size + pad) with
        | none => simp
        | some p =>
          obtain ⟨bytes, rest⟩ := p
          obtain ⟨s1, _, s3⟩ := readInto_suffix hri
          simp only [Res.ofOption_some, Res.ok_bind]
          cases hn : ({ r with rest := rest } : Reader).next C with
          | panic => exact absurd hn (next_ne_panic C _)
          | err => simp
          | ok p =>
            obtain ⟨buf, r'⟩ := p
            obtain ⟨n1, _⟩ := next_holds (r := { r with rest := rest }) (s1.trans h.rest) hn
            simp [n1]

theorem session_ne_panic {C : Codec} {ctx : Nat → Bool} {src : Bytes} (ht : TablesInOrder C src) : ∀ (asks : List Ask) (r : Reader), Holds C src r →
    r.session C ctx asks ≠ .panic
  | [], r, _ => by simp [Reader.session]
  | a :: as, r, h => by
    intro hp
    obtain ⟨h1, h2⟩ := serve_holds (ctx := ctx) ht h a
    simp only [Reader.session, bind_panic] at hp
    rcases hp with hp | ⟨r', hr', hp⟩
    · exact h1 hp
    · exact session_ne_panic ht as r' (h2 r' hr') hp

/-- The stream begins with something: not fewer than four bytes, not the end marker. -/
def Begins (src : Bytes) : Prop := 4 ≤ src.length ∧ prefixLen src ≠ 2 ^ 32 - 1

theorem load_begins {C : Codec} {src : Bytes} (hb : Begins src) {b : Bool} {r : Reader} (h : Reader.load C ⟨src, [], false⟩ = .ok (b, r)) : b = true := by
  unfold Reader.load at h
  simp only [Reader.readInto, hb.1, if_true, getU32_eq, Res.ok_bind, hb.2, if_false] at h
  split at h
  · cases h
  simp only [Res.bind_eq_ok] at h
  obtain ⟨_, _, _, _, h⟩ := h
  cases h; rfl

/-- **C110 (streams).** Opening any bytes as a stream of messages does not abort; and if they begin with anything at all and no buffer table is out of order, then no
sequence of requests for types, arrays and pages aborts: each ends in an answer or an error. Missing, because the code aborts: streams that hold nothing
(`C110_empty_stream`) and buffer tables out of order (`C110_block_panics_iff`). -/
theorem C110_stream_partial (C : Codec) (ctx : Nat → Bool) (src : Bytes) (hb : Begins src) (ht : TablesInOrder C src) (asks : List Ask) :
    (Reader.tryNew C src).bind (fun r => r.session C ctx asks) = .err ∨ ∃ r, (Reader.tryNew C src).bind (fun r => r.session C ctx asks) = .ok r := by
  have key : (Reader.tryNew C src).bind (fun r => r.session C ctx asks) ≠ .panic := by
    intro h
    rw [bind_panic'] at h
    simp only [Reader.tryNew, bind_panic, Res.bind_eq_ok] at h
    rcases h with (h | ⟨_, _, h⟩) | ⟨r, ⟨⟨b, r'⟩, hl, h⟩, hp⟩
    · exact load_ne_panic C _ h
    · cases h
    · cases h
      have := load_begins hb hl
      subst this
      exact session_ne_panic ht asks _ (load_holds (List.suffix_refl src) hl) hp
  cases h : (Reader.tryNew C src).bind (fun r => r.session C ctx asks) with
  | ok s => exact .inr ⟨s, rfl⟩
  | err => exact .inl rfl
  | panic => exact absurd h key

/-- **C110.** Opening as a stream never aborts. -/
theorem C110_stream_opens (C : Codec) (src : Bytes) : Reader.tryNew C src = .err ∨ ∃ r, Reader.tryNew C src = .ok r := by
  cases h : Reader.tryNew C src with
  | ok s => exact .inr ⟨s, rfl⟩
  | err => exact .inl rfl
  | panic =>
    simp only [Reader.tryNew, bind_panic] at h
    rcases h with h | ⟨_, _, h⟩
    · exact absurd h (load_ne_panic C _)
    · cases h

/-! ## Where the code aborts -/

/-- A stream that holds nothing is opened, but asking it for anything aborts: `try_new` drops the answer that there is no message, and no bytes are no message. -/
theorem C110_empty_stream (C : Codec) (hC : C.dec [] = none) (ctx : Nat → Bool) (a : Ask) :
    ∃ r, Reader.tryNew C [] = .ok r ∧ r.serve C ctx a = .panic := by
  refine ⟨⟨[], [], false⟩, rfl, ?_⟩
  cases a <;> simp [Reader.serve, Reader.readDtype, Reader.maybeReadChunk, Reader.maybeReadPage, Reader.peek, Ipc.rootUnchecked, hC]

/-- Eight bytes, version and magic, make opening abort. -/
theorem C110_short_file (F : FileCodec) (init : Nat) (hi : 40 ≤ init) : readFooter F init [1, 0, 0, 0, 86, 82, 84, 88] 8 = .panic := by
  rw [C110_footer_panics_iff F init hi]
  have : lastBytes init [1, 0, 0, 0, 86, 82, 84, 88] 8 = [1, 0, 0, 0, 86, 82, 84, 88] := by
    unfold lastBytes
    rw [Nat.min_eq_right (by omega)]; rfl
  rw [this]
  exact ⟨by decide, ⟨by decide, rfl, rfl⟩, by decide⟩

/-- Asking for a column by a position beyond the last one aborts. -/
theorem C110_missing_column (ns : List Str) (ds : List FbDType) (n : Bool) (i : Nat) (hi : ns.length ≤ i) :
    Layout.projectedDType (.struct (some ns) (some ds) n) (.flat [.index i]) = .panic := by
  simp [Layout.projectedDType, deserializeAndProject, projectField, resolveField, readField, List.getElem?_eq_none hi]

/-- A flat layout without buffers aborts. -/
theorem C110_flat_root {α R : Type} (env : Layout.Env α) (h : env.registered Layout.FLAT = true) (cs : Option (List FbLayout)) (m : Option Bytes) (scan : Layout.Scan)
    (cache : Layout.Rel) : (Layout.Node.ofFb env (.mk Layout.FLAT (some []) cs m) scan cache : Res (Layout.Node α R)) = .panic := by
  simp [Layout.Node.ofFb, FbLayout.encoding, h, FbLayout.buffers, Layout.firstBuffer]

/-! ## The hypotheses hold of every file the writer writes, also when its data are lost -/

/-- **C110 (damaged data).** Whatever happens to the data of a file, as long as its schema, footer and postscript are intact it satisfies what opening relies on. -/
theorem C110_damaged_data (F : FileCodec) (hF : F.Lawful) (data : Bytes) (names : List Str) (dtypes : List DType) (nl : Bool) (root : FbLayout) (rowCount init : Nat)
    (hdata : 0 < data.length) (htables : root.tables < 1000000) (hsize : (Layout.fileOf F data (.struct names dtypes nl) root rowCount).length < 2 ^ 64)
    (hinit : Layout.tailLength F (.struct names dtypes nl) root rowCount ≤ init) (hn : names.length = dtypes.length) (hr : RootOk root) (proj : Layout.Projection)
    (hp : ∀ p, proj = .flat p → ∀ i, RowExpr.Field.index i ∈ p → i < names.length) :
    Openable F init (Layout.fileOf F data (.struct names dtypes nl) root rowCount) (Layout.fileOf F data (.struct names dtypes nl) root rowCount).length proj := by
  obtain ⟨d, hd, hlay, hsch, _⟩ := Layout.C34_open F hF data (.struct names dtypes nl) root rowCount init hdata htables hsize hinit
  have hi : 40 ≤ init := by unfold Layout.tailLength at hinit; omega
  generalize Layout.fileOf F data (.struct names dtypes nl) root rowCount = file at *
  obtain ⟨h1, h2, h3, h4, h5, h6⟩ := footer_ok hi hd
  have hpl := (C110_offsets_iff F init hi file file.length d hd).mp ⟨by rw [hsch]; nofun, by rw [hlay]; nofun⟩
  intro _ _
  refine ⟨h3, ?_⟩
  intro s f hps
  rw [h6] at hps
  cases hps
  refine ⟨hpl, ?_, ?_⟩
  · intro x hx
    rw [schema_eq hi hd hpl, hx] at hsch
    cases hsch
    have hlen : (DType.toFbs dtypes).length = dtypes.length := toFbs_length dtypes
    refine ⟨by simp only [DType.toFb, SameCount]; omega, ?_⟩
    cases proj with
    | all => trivial
    | flat p =>
      intro i hi' ns ds n e
      simp only [DType.toFb, FbDType.struct.injEq, Option.some.injEq] at e
      obtain ⟨rfl, rfl, _⟩ := e
      have := hp p rfl i hi'
      refine ⟨this, fun l hl => ?_⟩
      cases hl; omega
  · intro r n hx
    rw [layout_eq hi hd hpl, hx] at hlay
    cases hlay
    exact hr

end Vx.Damage
