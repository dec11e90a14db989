import Verif.Lemmas.Registry
/-! # C115: a reader's registry of encodings

An array is read if the reader has its encodings, whatever else is registered and in whatever order; an encoding the reader does not have is
reported, or kept opaque. -/
namespace Vx.Registry
open Vx Vx.Own

/-! ## The registry -/

/-- **C115, registration.** A lookup finds the last encoding registered under the code, and before any the one the context had. -/
theorem C115_lookup (c : Context) (es : List Encoding) (code : Nat) : (c.withEncodings es).lookup code = (lastWith code es).or (c.lookup code) :=
  lookup_withEncodings es c code

/-- One at a time is the same. -/
theorem C115_lookup_one (c : Context) (e : Encoding) (code : Nat) : (c.withEncoding e).lookup code = if e.id.code = code then some e else c.lookup code :=
  lookup_insert c e.id.code code e

/-- The order of registration does not matter among encodings with codes of their own. -/
theorem C115_order (c : Context) (es es' : List Encoding) (hp : es.Perm es') (hd : (es.map (·.id.code)).Nodup) (code : Nat) :
    (c.withEncodings es).lookup code = (c.withEncodings es').lookup code := by
  rw [C115_lookup, C115_lookup]
  congr 1
  have hf := hp.filter (fun e => e.id.code == code)
  have hl : (es.filter (fun e => e.id.code == code)).length ≤ 1 := by
    clear hp hf
    induction es with
    | nil => simp
    | cons e es ih =>
      rw [List.map_cons, List.nodup_cons] at hd
      rw [List.filter_cons]
      split
      · rename_i h
        have : es.filter (fun e => e.id.code == code) = [] := by
          rw [List.filter_eq_nil_iff]
          intro x hx hc
          have h1 : e.id.code = code := by simpa using h
          have h2 : x.id.code = code := by simpa using hc
          exact hd.1 (List.mem_map.mpr ⟨x, hx, by rw [h1, h2]⟩)
        rw [this]; simp
      · exact ih hd.2
  unfold lastWith
  have hl' := hf.length_eq ▸ hl
  revert hf hl hl'
  generalize es.filter (fun e => e.id.code == code) = xs
  generalize es'.filter (fun e => e.id.code == code) = ys
  intro hf hl _
  match xs, hl with
  | [], _ => rw [List.nil_perm.mp hf]
  | [x], _ => rw [List.singleton_perm.mp hf]

/-- Whatever was registered, a lookup never returns an encoding of another code. -/
theorem C115_code (c : Context) (h : Reachable c) : ∀ code e, c.lookup code = some e → e.id.code = code := by
  have many : ∀ (c : Context) (es : List Encoding), (∀ code e, c.lookup code = some e → e.id.code = code) →
      ∀ code e, (c.withEncodings es).lookup code = some e → e.id.code = code := by
    intro c es ih code e he
    rw [C115_lookup] at he
    cases hl : lastWith code es with
    | none => rw [hl] at he; exact ih code e he
    | some x => rw [hl] at he; cases he; exact lastWith_code hl
  have none : ∀ code e, (Context.mk []).lookup code = some e → e.id.code = code := by intro code e he; cases he
  induction h with
  | empty => exact none
  | default => exact many _ _ none
  | one c e _ ih => exact many c [e] ih
  | many c es _ ih => exact many c es ih

/-- No two encodings of the workspace share a code or a name, and none can be taken for an unknown one. -/
theorem C115_distinct (k k' : Std) : (k.code = k'.code → k = k') ∧ (k.name = k'.name → k = k') ∧ k.name ≠ "vortex.opaque" ∧ 0 < k.code ∧ k.code ≤ 1024 := by
  refine ⟨code_inj k k', name_inj k k', name_not_opaque k, ?_, ?_⟩ <;> cases k <;> simp [Std.code]

/-- Arrays of different encodings are written with different ids, whatever their metadata; arrays of the same encoding with the same. -/
theorem C115_own_encoding (e e' : Enc) : std e = std e' ↔ e.ctorIdx = e'.ctorIdx := by
  have to : ∃ f : Std → Nat, ∀ e : Enc, f (std e) = e.ctorIdx :=
    ⟨fun
      | .null => 0 | .constant => 1 | .bool => 2 | .byteBool => 3 | .prim => 4 | .struct => 5 | .ext => 6 | .chunked => 7 | .sparse => 8
      | .varbin => 9 | .varbinview => 10 | .dict => 11 | .runEnd => 12 | .runEndBool => 13 | .alp => 14 | .alprd => 15 | .bitPacked => 16
      | .delta => 17 | .for => 18 | .zigzag => 19 | .fsst => 20 | .dateTimeParts => 21 | .roaringBool => 22 | .roaringInt => 23, by
      intro e; cases e <;> rfl⟩
  constructor
  · intro h
    obtain ⟨f, hf⟩ := to
    rw [← hf, ← hf, h]
  · intro h
    have back : ∃ g : Nat → Std, ∀ e : Enc, std e = g e.ctorIdx :=
      ⟨fun
        | 0 => .null | 1 => .constant | 2 => .bool | 3 => .byteBool | 4 => .prim | 5 => .struct | 6 => .ext | 7 => .chunked | 8 => .sparse
        | 9 => .varbin | 10 => .varbinview | 11 => .dict | 12 => .runEnd | 13 => .runEndBool | 14 => .alp | 15 => .alprd | 16 => .bitPacked
        | 17 => .delta | 18 => .for | 19 => .zigzag | 20 => .fsst | 21 => .dateTimeParts | 22 => .roaringBool | _ => .roaringInt, by
        intro e; cases e <;> rfl⟩
    obtain ⟨g, hg⟩ := back
    rw [hg, hg, h]

/-- The context of the compressor has every encoding of the workspace, ... -/
theorem C115_all_known (k : Std) : Context.allCompressors.lookup k.code = some (.std k) := by cases k <;> rfl

/-- ... the default one the ten of the core and no other. -/
theorem C115_default_known (code : Nat) (e : Encoding) : Context.default.lookup code = some e ↔ ∃ k ∈ Context.defaults, k.code = code ∧ e = .std k := by
  constructor
  · intro h
    have hr := C115_code _ .default code e h
    have hm := lookup_mem h
    have hd : Context.default.encodings = (Context.defaults.map Encoding.std).reverse := rfl
    rw [hd, List.mem_reverse] at hm
    obtain ⟨k, hk, rfl⟩ := List.mem_map.mp hm
    exact ⟨k, hk, hr, rfl⟩
  · rintro ⟨k, hk, rfl, rfl⟩
    simp only [Context.defaults, List.mem_cons, List.not_mem_nil, or_false] at hk
    rcases hk with rfl | rfl | rfl | rfl | rfl | rfl | rfl | rfl | rfl | rfl <;> rfl

/-! ## Reading -/

/-- **C115, opening.** A reader whose contexts holds encodings of the workspace only opens an array exactly if it has the encoding of the root;
otherwise it returns an error. -/
theorem C115_open (u : User) (ctx : Context) (hr : Reachable ctx) (hs : ∀ e ∈ ctx.encodings, ∃ k, e = .std k) (d : DType) (l : Nat) (n : Node) :
    tryNew u ctx d l n = match ctx.lookup (nodeCode n) with
      | none => .err
      | some enc => .ok ⟨enc, d, l, n⟩ := by
  obtain ⟨e, b, cs⟩ := n
  unfold tryNew nodeCode
  cases hl : ctx.lookup (std e).code with
  | none => rfl
  | some enc =>
    obtain ⟨k, rfl⟩ := hs enc (lookup_mem hl)
    have := code_inj _ _ (C115_code ctx hr _ _ hl)
    subst this
    simp [withDyn, Res.assert]

/-- **C115, reading.** A reader that has the encodings of all arrays in a tree reads it: type and length of everything in it, data and children
are the original's. What else is registered does not matter. -/
theorem C115_read {C : Compute} (hC : C.Lawful) (u : User) (ctx : Context) (a : Arr) (h : Built C a) (hk : Knows ctx a) :
    readIn u ctx C a.dtype a.len (erase a) = .ok a := by
  rw [readIn_known u ctx C _ _ _ ((knowsN_erase ctx a).mpr hk), readBack_built hC a h]

/-- The compressor's context reads everything. -/
theorem C115_read_all {C : Compute} (hC : C.Lawful) (u : User) (a : Arr) (h : Built C a) :
    readIn u .allCompressors C a.dtype a.len (erase a) = .ok a :=
  C115_read hC u _ a h (fun x _ => C115_all_known _)

/-- Registering more encodings breaks nothing, if they have codes of their own. -/
theorem C115_more {C : Compute} (hC : C.Lawful) (u : User) (ctx : Context) (es : List Encoding) (a : Arr) (h : Built C a) (hk : Knows ctx a)
    (hd : ∀ e ∈ es, ∀ x ∈ nodes a, e.id.code ≠ (std x.enc).code) : readIn u (ctx.withEncodings es) C a.dtype a.len (erase a) = .ok a := by
  refine C115_read hC u _ a h (fun x hx => ?_)
  rw [C115_lookup]
  have : lastWith (std x.enc).code es = none := by
    unfold lastWith
    rw [List.getLast?_eq_none_iff, List.filter_eq_nil_iff]
    intro e he hc
    exact hd e he x hx (by simpa using hc)
  rw [this]
  exact hk x hx

/-- **C115, no misreading.** A tree with an encoding the reader does not have is never read as something else: reading all of it fails. -/
theorem C115_read_exact {C : Compute} (hC : C.Lawful) (u : User) (ctx : Context) (hi : NoImpostor ctx) (a b : Arr) (h : Built C a) :
    readIn u ctx C a.dtype a.len (erase a) = .ok b ↔ Knows ctx a ∧ b = a := by
  constructor
  · intro hr
    have hk := (knowsN_erase ctx a).mp (readIn_knows hi _ _ _ _ hr)
    rw [C115_read hC u ctx a h hk] at hr
    exact ⟨hk, (Res.ok.inj hr).symm⟩
  · rintro ⟨hk, rfl⟩
    exact C115_read hC u ctx b h hk

/-! ## Unknown encodings inside -/

/-- A child is handed over whether or not its encoding is known: with its type, its length and all that was written of it. -/
theorem C115_child (ctx : Context) (enc : Encoding) (a : Arr) (i : Nat) (c : Arr) (hc : a.children[i]? = some c) :
    RView.child ctx ⟨enc, a.dtype, a.len, erase a⟩ i c.dtype c.len = .ok ⟨ctx.resolve (std c.enc).code, c.dtype, c.len, erase c⟩ := by
  obtain ⟨e, d, l, b, cs⟩ := a
  simp only [Arr.children] at hc
  obtain ⟨e', d', l', b', cs'⟩ := c
  simp only [RView.child, erase, eraseAll_eq_map, List.getElem?_map, hc, Option.map_some, nodeCode, Arr.enc, dtype_mk, len_mk]

/-- If it is not, the child remembers its code, is no array of any encoding of the workspace, and decoding it is an error, not an abort.
Missing: its children cannot be looked at. -/
theorem C115_opaque_partial (u : User) (ctx : Context) (C : Compute) (c : Arr) (hn : ctx.lookup (std c.enc).code = none) (f : RView → Res α) (d : DType)
    (l : Nat) :
    let v : RView := ⟨ctx.resolve (std c.enc).code, d, l, erase c⟩
    v.enc.id = ⟨"vortex.opaque", (std c.enc).code⟩ ∧ v.payload = (c.enc, c.data) ∧ (∀ k, typed k v = .err) ∧ canonicalize f v = .err ∧
      v.children u ctx C = .panic := by
  obtain ⟨e, d', l', b, cs⟩ := c
  simp only [Arr.enc] at hn
  simp only [Arr.enc, Arr.data, resolve_none hn]
  refine ⟨rfl, rfl, fun k => ?_, rfl, rfl⟩
  unfold typed
  rw [if_neg (unknown_id _ k)]

/-- **C115, walking, all known.** What is built on `accept` and `children` does not depend on the registry, as long as the encodings are there. -/
theorem C115_walk_partial {C : Compute} (hC : C.Lawful) (u : User) (ctx : Context) (size : Enc → List Nat → Nat) (a : Arr) (h : Built C a)
    (hw : Whole a) (hk : Knows ctx a) :
    rewriteIn u ctx C a.dtype a.len (erase a) = .ok (erase a) ∧
    walkIn u ctx C a.dtype a.len (erase a) = .ok ((nodes a).map (fun x => ⟨.std (std x.enc), x.dtype, x.len, erase x⟩)) ∧
    (Counted a → nbytesIn u ctx C size a.dtype a.len (erase a) = .ok ((nodes a).map (valueBytes size)).sum) := by
  have ho : NoOther ctx a := fun x hx => .inl (hk x hx)
  refine ⟨?_, ?_, ?_⟩
  · rcases foldIn_built (u := u) hC (fun _ s => s) (fun v kids => Node.mk v.payload.1 v.payload.2 kids) a h hw ho (fun _ _ => rfl) with ⟨_, hf⟩ | ⟨hn, _⟩
    · exact hf.trans (by rw [foldA_rewrite])
    · exact absurd hk hn
  · rcases foldIn_built (u := u) hC (fun _ s => s) (fun v kids => v :: kids.flatten) a h hw ho (fun _ _ => rfl) with ⟨_, hf⟩ | ⟨hn, _⟩
    · exact hf.trans (by rw [foldA_walk])
    · exact absurd hk hn
  · intro hc
    have hs := sizeSlots_counted hC a h hc
    rcases foldIn_built (u := u) hC sizeSlots (fun v kids => ownBytes size v.payload.1 v.len v.payload.2 + kids.sum) a h hw ho hs with ⟨_, hf⟩ | ⟨hn, _⟩
    · exact hf.trans (by rw [foldA_nbytes])
    · exact absurd hk hn

/-- With one unknown encoding anywhere in the tree all of it aborts: the array cannot be written again, traversed or measured, although nothing
needs to be decoded for that. -/
theorem C115_walk_unknown {C : Compute} (hC : C.Lawful) (u : User) (ctx : Context) (size : Enc → List Nat → Nat) (a : Arr) (h : Built C a)
    (hw : Whole a) (ho : NoOther ctx a) (hk : ¬ Knows ctx a) :
    rewriteIn u ctx C a.dtype a.len (erase a) = .panic ∧ walkIn u ctx C a.dtype a.len (erase a) = .panic ∧
    (Counted a → nbytesIn u ctx C size a.dtype a.len (erase a) = .panic) := by
  refine ⟨?_, ?_, ?_⟩
  · rcases foldIn_built (u := u) hC (fun _ s => s) (fun v kids => Node.mk v.payload.1 v.payload.2 kids) a h hw ho (fun _ _ => rfl) with ⟨hn, _⟩ | ⟨_, hf⟩
    · exact absurd hn hk
    · exact hf
  · rcases foldIn_built (u := u) hC (fun _ s => s) (fun v kids => v :: kids.flatten) a h hw ho (fun _ _ => rfl) with ⟨hn, _⟩ | ⟨_, hf⟩
    · exact absurd hn hk
    · exact hf
  · intro hc
    have hs := sizeSlots_counted hC a h hc
    rcases foldIn_built (u := u) hC sizeSlots (fun v kids => ownBytes size v.payload.1 v.len v.payload.2 + kids.sum) a h hw ho hs with ⟨hn, _⟩ | ⟨_, hf⟩
    · exact absurd hn hk
    · exact hf

/-! ## Cases -/

def noUser : User := ⟨fun _ _ => .err, fun _ _ _ _ => .err, fun _ _ _ _ => .err⟩

/-- The run-end array of C114, read with the compressor's context and with a user's encoding besides. -/
example : readIn noUser (Context.allCompressors.withEncodings [.custom ⟨"mine", 40000⟩]) plain exRunEnd.dtype exRunEnd.len (erase exRunEnd) = .ok exRunEnd :=
  C115_more plain_lawful _ _ _ _ built_exRunEnd (fun _ _ => C115_all_known _) (by
    intro e he x _
    simp only [List.mem_singleton] at he
    subst he
    have := (C115_distinct (std x.enc) .null).2.2.2.2
    simp only [Encoding.id]
    omega)

/-- A nullable struct column under a chunked root of the core, holding a run-end array: the default context opens it, and the walk aborts. -/
def exOuter : Arr := .mk (.struct .nonNullable) (.struct ["a".toList] [.prim .i32 true] false) 5 [] [exRunEnd]

theorem built_exOuter : Built plain exOuter :=
  .mk (.struct ["a".toList] [exRunEnd] 5 .nonNullable) _
    (by simp only [Call.args, Valid.intoArray, List.append_nil, List.mem_singleton]; rintro x rfl; exact built_exRunEnd) trivial rfl

theorem whole_exOuter : Whole exOuter := by
  intro x hx
  simp only [exOuter, nodes, nodesAll, List.append_nil, List.mem_cons] at hx
  rcases hx with rfl | hx
  · rfl
  · exact whole_exRunEnd x hx

/-- Opened without complaint by a reader that has the core encodings only; then even asking for its size aborts. -/
theorem C115_default_aborts :
    (∃ v, tryNew noUser .default exOuter.dtype exOuter.len (erase exOuter) = .ok v) ∧
    nbytesIn noUser .default plain (fun _ b => b.length) exOuter.dtype exOuter.len (erase exOuter) = .panic ∧
    walkIn noUser .default plain exOuter.dtype exOuter.len (erase exOuter) = .panic :=
  ⟨⟨_, rfl⟩, rfl, rfl⟩

example : ¬ Knows .default exOuter := by
  intro h
  have := h exRunEnd (by simp [exOuter, nodes, nodesAll, exRunEnd])
  revert this
  decide

/-- An opaque encoding can be registered; opening an array with its code then aborts where an unknown code is an error. -/
theorem C115_register_opaque : tryNew noUser (Context.default.withEncoding (.unknown 27)) exRunEnd.dtype exRunEnd.len (erase exRunEnd) = .panic ∧
    tryNew noUser .default exRunEnd.dtype exRunEnd.len (erase exRunEnd) = .err := ⟨rfl, rfl⟩

end Vx.Registry
