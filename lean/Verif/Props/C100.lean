import Verif.Spec.Io
import Verif.Props.C45
/-!
# C100: storage adapters move exactly the bytes asked for

Model: `Model/Io.lean`. Specification: `Spec/Io.lean`.
-/
namespace Vx.Io
open Vx.Buf (Buffer)

variable {obj : List UInt8}

theorem add64_ok {checks : Bool} {a b c : Nat} (h : add64 checks a b = .ok c) (hb : checks = true ∨ a + b < word) : c = a + b ∧ a + b < word := by
  unfold add64 at h
  split at h
  · rename_i hlt; cases h; exact ⟨rfl, hlt⟩
  · rename_i hlt
    rcases hb with rfl | hb
    · simp at h
    · exact absurd hb hlt

theorem add64_lt {checks : Bool} {a b : Nat} (h : a + b < word) : add64 checks a b = .ok (a + b) := by
  unfold add64; rw [if_pos h]

theorem copyFrom_ok {n : Nat} {src bs : List UInt8} (h : copyFrom n src = .ok bs) : bs = src ∧ src.length = n := by
  unfold copyFrom at h
  split at h
  · cases h; exact ⟨rfl, by assumption⟩
  · cases h

theorem readSlice_ok {checks : Bool} {bs out : List UInt8} {pos n : Nat} (hw : bs.length < word) (h : readSlice checks bs pos n = .ok out) :
    out = (bs.drop pos).take n ∧ out.length = n := by
  simp only [readSlice, Res.bind_eq_ok] at h
  obtain ⟨e, _, h⟩ := h
  split at h
  · cases h
  · split at h
    · cases h
    · split at h
      · cases h
      · obtain ⟨rfl, h2⟩ := copyFrom_ok h
        exact ⟨rfl, h2⟩

theorem readBuffer_ok {checks : Bool} {b : Buffer} {out : List UInt8} {pos n : Nat} (hb : b.WF) (hw : b.len < word) (hpos : pos < word) (hnw : n < word)
    (h : readBuffer checks b pos n = .ok out) : out = (b.asSlice.drop pos).take n ∧ out.length = n := by
  simp only [readBuffer, Res.bind_eq_ok] at h
  obtain ⟨e, he, h⟩ := h
  split at h
  · cases h
  · rename_i hle
    simp only [Res.bind_eq_ok] at h
    obtain ⟨e', he', c, hc, h⟩ := h
    obtain ⟨rfl, hn⟩ := copyFrom_ok h
    refine ⟨?_, hn⟩
    by_cases hlt : n + pos < word
    · obtain ⟨rfl, -⟩ := add64_ok he (.inr hlt)
      obtain ⟨rfl, -⟩ := add64_ok he' (.inr (by omega))
      obtain ⟨d, d1, _, _, _, _, d6⟩ := Vx.Buf.C45_slice b hb pos (pos + n) ⟨by omega, by omega⟩
      rw [d1] at hc
      cases hc
      rw [d6]
      unfold Vx.Spec.slice
      rw [List.drop_take, show pos + n - pos = n by omega]
    · -- wrapped: the end is below the start, and the empty slice fits only an empty buffer
      have hck : checks = false := by
        cases checks with
        | false => rfl
        | true => unfold add64 at he; rw [if_neg hlt] at he; simp at he
      subst hck
      have h1 : e' = pos + n - word := by
        unfold add64 at he'
        rw [if_neg (by omega)] at he'
        simpa using he'.symm
      by_cases hn0 : n = 0
      · subst hn0
        have : c.asSlice = [] := List.eq_nil_of_length_eq_zero hn
        simp [this]
      · exfalso
        have hcl : c.asSlice.length = n := hn
        unfold Buffer.slice at hc
        split at hc
        · -- arrow
          by_cases hse : pos ≤ e'
          · rw [Res.sub_of_le hse] at hc
            simp only [Res.ok_bind, Res.bind_eq_ok, Res.assert] at hc
            obtain ⟨u, hu, _⟩ := hc
            split at hu
            · rename_i hd
              simp at hd
              unfold add64 at he
              rw [if_neg hlt] at he
              simp at he
              omega
            · cases hu
          · rw [Res.sub] at hc
            rw [if_neg hse] at hc
            cases hc
        · split at hc
          · cases hc
            simp [Buffer.asSlice] at hcl
            omega
          · split at hc
            · cases hc
              simp [Buffer.asSlice] at hcl
              omega
            · cases hc

theorem readObject_ok {checks : Bool} {get : Nat → Nat → Res (List UInt8)} {head : Res Nat} {out : List UInt8} {pos n : Nat}
    (hs : StoreOk obj get head) (hn : n < word) (h : readObject checks get pos n = .ok out) : out = (obj.drop pos).take n ∧ out.length = n := by
  simp only [readObject, Res.bind_eq_ok] at h
  obtain ⟨e, he, bs, hg, h⟩ := h
  obtain ⟨rfl, h2⟩ := copyFrom_ok h
  refine ⟨?_, h2⟩
  obtain ⟨g1, g2⟩ := hs.sound _ _ _ hg
  unfold add64 at he
  split at he
  · cases he
    rw [g2, show pos + n - pos = n by omega]
  · split at he
    · cases he
    · have := Res.ok.inj he
      omega

theorem readFile_ok {bs out : List UInt8} {pos n : Nat} (h : readFile bs pos n = .ok out) : out = (bs.drop pos).take n ∧ out.length = n := by
  unfold readFile at h
  split at h
  · rename_i h0; cases h; subst h0; simp
  · split at h
    · cases h
      refine ⟨rfl, ?_⟩
      rw [List.length_take, List.length_drop]
      omega
    · cases h

/-- **C100.** A read that succeeds returns exactly the bytes asked for: through any stack of adapters, over any storage, in either build,
with the positions of the adapters added within 64 bits (a build with overflow checks needs no such assumption). -/
theorem C100_read_exact (checks : Bool) : ∀ (s : Src) (pos n : Nat) (out : List UInt8), s.WF obj → pos < word → n < word →
    (checks = true ∨ pos + s.shift < word) → readAt checks s pos n = .ok out →
    out = ((s.content obj).drop pos).take n ∧ out.length = n
  | .slice bs, _, _, _, hw, _, _, _, h => readSlice_ok hw h
  | .vec bs, _, _, _, hw, _, _, _, h => readSlice_ok hw h
  | .buffer b, _, _, _, hw, hp, hn, _, h => readBuffer_ok hw.1 hw.2 hp hn h
  | .file bs, _, _, _, _, _, _, _, h => readFile_ok h
  | .object _ _, _, _, _, hw, _, hn, _, h => readObject_ok hw.1 hn h
  | .arc s, pos, n, out, hw, hp, hn, hc, h => C100_read_exact checks s pos n out hw hp hn hc h
  | .ref s, pos, n, out, hw, hp, hn, hc, h => C100_read_exact checks s pos n out hw hp hn hc h
  | .offset s off, pos, n, out, hw, hp, hn, hc, h => by
    simp only [readAt, Res.bind_eq_ok] at h
    obtain ⟨p, h1, h2⟩ := h
    obtain ⟨rfl, hlt⟩ := add64_ok h1 (hc.imp id fun h => by simp only [Src.shift] at h; omega)
    have := C100_read_exact checks s (pos + off) n out hw.1 hlt hn (hc.imp id fun h => by simp only [Src.shift] at h; omega) h2
    rw [Src.content, List.drop_drop, Nat.add_comm off pos]
    exact this

theorem buffer_len (b : Buffer) (h : b.WF) : b.asSlice.length = b.len := by
  unfold Buffer.WF at h
  unfold Buffer.asSlice
  simp
  omega

theorem content_shift : ∀ (s : Src), s.WF obj → (s.content obj).length + s.shift < word
  | .slice bs, h => h
  | .vec bs, h => h
  | .buffer b, h => by
    have h1 : b.asSlice.length = b.len := buffer_len b h.1
    have h2 := h.2
    simp only [Src.content, Src.shift]
    omega
  | .file bs, h => h
  | .object _ _, h => h.2
  | .arc s, h => content_shift s h
  | .ref s, h => content_shift s h
  | .offset s off, h => by
    have := content_shift s h.1
    have h2 := h.2
    simp only [Src.content, Src.shift, List.length_drop]
    omega

theorem copyFrom_take {n : Nat} {l : List UInt8} (h : n ≤ l.length) : copyFrom n (l.take n) = .ok (l.take n) := by
  unfold copyFrom
  rw [if_pos (by rw [List.length_take]; omega)]

/-- **C100.** A range inside the content is always served, and with its bytes; the object store's contract promises nothing for an empty
range. -/
theorem C100_in_range (checks : Bool) : ∀ (s : Src) (pos n : Nat), s.WF obj → pos + n ≤ (s.content obj).length →
    (s.isObject = true → 0 < n) → readAt checks s pos n = .ok (((s.content obj).drop pos).take n)
  | .slice bs, pos, n, hw, h, _ => by
    simp only [Src.content, Src.WF] at *
    have h2 : n ≤ (bs.drop pos).length := by rw [List.length_drop]; omega
    simp only [readAt, readSlice]
    rw [add64_lt (by omega)]
    simp only [Res.ok_bind]
    rw [if_neg (by omega), if_neg (by omega), if_neg (by omega), copyFrom_take h2]
  | .vec bs, pos, n, hw, h, _ => by
    simp only [Src.content, Src.WF] at *
    have h2 : n ≤ (bs.drop pos).length := by rw [List.length_drop]; omega
    simp only [readAt, readSlice]
    rw [add64_lt (by omega)]
    simp only [Res.ok_bind]
    rw [if_neg (by omega), if_neg (by omega), if_neg (by omega), copyFrom_take h2]
  | .buffer b, pos, n, hw, h, _ => by
    simp only [Src.content, Src.WF] at *
    have hl := buffer_len b hw.1
    have hw2 := hw.2
    have h2 : n ≤ (b.asSlice.drop pos).length := by rw [List.length_drop]; omega
    obtain ⟨d, d1, _, _, _, _, d6⟩ := Vx.Buf.C45_slice b hw.1 pos (pos + n) ⟨by omega, by omega⟩
    simp only [readAt, readBuffer]
    rw [add64_lt (by omega), add64_lt (by omega)]
    simp only [Res.ok_bind]
    rw [if_neg (by omega), d1]
    simp only [Res.ok_bind]
    rw [d6]
    unfold Vx.Spec.slice
    rw [List.drop_take, show pos + n - pos = n by omega, copyFrom_take h2]
  | .file bs, pos, n, hw, h, _ => by
    simp only [Src.content] at *
    simp only [readAt, readFile]
    split
    · rename_i h0; subst h0; simp
    · rfl
  | .object get head, pos, n, hw, h, hn => by
    have hn := hn rfl
    simp only [Src.content, Src.WF] at *
    have hw2 := hw.2
    obtain ⟨bs, hg⟩ := hw.1.inside pos (pos + n) (by omega) h
    obtain ⟨_, g2⟩ := hw.1.sound _ _ _ hg
    simp only [readAt, readObject]
    rw [add64_lt (by omega)]
    simp only [Res.ok_bind]
    rw [hg]
    simp only [Res.ok_bind]
    rw [g2, show pos + n - pos = n by omega]
    exact copyFrom_take (by rw [List.length_drop]; omega)
  | .arc s, pos, n, hw, h, hn => C100_in_range checks s pos n hw h hn
  | .ref s, pos, n, hw, h, hn => C100_in_range checks s pos n hw h hn
  | .offset s off, pos, n, hw, h, hn => by
    have hc := content_shift s hw.1
    have h2 := hw.2
    simp only [Src.content, List.length_drop] at h
    simp only [readAt]
    rw [add64_lt (by omega)]
    simp only [Res.ok_bind]
    rw [C100_in_range checks s (pos + off) n hw.1 (by omega) hn, Src.content, List.drop_drop, Nat.add_comm off pos]

/-- A range that runs past the end of the content is never served. -/
theorem C100_past_end (checks : Bool) (s : Src) (pos n : Nat) (hw : s.WF obj) (hp : pos < word) (hn : n < word)
    (hc : checks = true ∨ pos + s.shift < word) (h0 : 0 < n) (h : (s.content obj).length < pos + n) :
    ∀ out, readAt checks s pos n ≠ .ok out := by
  intro out ho
  obtain ⟨h1, h2⟩ := C100_read_exact checks s pos n out hw hp hn hc ho
  rw [h1, List.length_take, List.length_drop] at h2
  omega

/-- **C100.** The size reported is the number of bytes of the content, in either build. -/
theorem C100_size (checks : Bool) : ∀ (s : Src) (n : Nat), s.WF obj → size checks s = .ok n → n = (s.content obj).length
  | .slice bs, n, _, h => by cases h; rfl
  | .vec bs, n, _, h => by cases h; rfl
  | .buffer b, n, hw, h => by cases h; exact (buffer_len b hw.1).symm
  | .file bs, n, _, h => by cases h; rfl
  | .object get head, n, hw, h => by
    simp only [size] at h
    split at h
    · cases h; exact hw.1.head _ rfl
    · cases h
  | .arc s, n, hw, h => C100_size checks s n hw h
  | .ref s, n, hw, h => C100_size checks s n hw h
  | .offset s off, n, hw, h => by
    simp only [size, Res.bind_eq_ok] at h
    obtain ⟨m, h1, h2⟩ := h
    have h3 := C100_size checks s m hw.1 h1
    have h4 := hw.2
    unfold sub64 at h2
    rw [if_pos (by omega)] at h2
    cases h2
    simp [Src.content, h3]

/-- Without an object store the size is always reported. -/
theorem C100_size_total (checks : Bool) : ∀ (s : Src), s.WF obj → s.isObject = false → size checks s = .ok (s.content obj).length
  | .slice bs, _, _ => rfl
  | .vec bs, _, _ => rfl
  | .buffer b, hw, _ => congrArg Res.ok (buffer_len b hw.1).symm
  | .file bs, _, _ => rfl
  | .object _ _, _, h => by cases h
  | .arc s, hw, h => C100_size_total checks s hw h
  | .ref s, hw, h => C100_size_total checks s hw h
  | .offset s off, hw, h => by
    have h2 := hw.2
    simp only [size]
    rw [C100_size_total checks s hw.1 h]
    simp only [Res.ok_bind, sub64]
    rw [if_pos h2, Src.content, List.length_drop]

/-- A release build adds the adapter's offset modulo 2^64: a position near the top of the range is answered with bytes from before the
offset. With overflow checks it panics. -/
theorem C100_offset_wraps : ∃ (s : Src) (pos : Nat), s.WF [] ∧ pos < word ∧ (s.content []).length < pos ∧
    readAt false s pos 1 = .ok [7] ∧ readAt true s pos 1 = .panic ∧ ¬ 7 ∈ s.content [] :=
  ⟨.offset (.slice [7, 8, 9]) 1, word - 1, ⟨by show (3 : Nat) < word; decide, by decide⟩, by decide, by decide, by decide +kernel, by decide +kernel,
    by decide⟩

/-- A store that cuts a range short at the end of the object makes the read panic, where every other source gives an error. -/
theorem C100_short_range_panics : ∃ (get : Nat → Nat → Res (List UInt8)) (head : Res Nat) (obj : List UInt8), StoreOk obj get head ∧
    readAt true (.object get head) 1 5 = .panic ∧ readAt true (.slice obj) 1 5 = .err ∧ readAt true (.file obj) 1 5 = .err :=
  ⟨fun s e => if s ≤ e then .ok (([1, 2, 3].drop s).take (e - s)) else .err, .ok 3, [1, 2, 3],
    ⟨fun s e bs h => (by
      split at h
      · cases h; exact ⟨by assumption, rfl⟩
      · cases h),
     fun s e h _ => ⟨([1, 2, 3].drop s).take (e - s), if_pos (Nat.le_of_lt h)⟩, fun n h => by cases h; rfl⟩,
    by decide +kernel, by decide +kernel, by decide +kernel⟩

/-- A position that no storage has is answered, not refused, when nothing is to be read from a file. -/
theorem C100_empty_file_read (checks : Bool) (bs : List UInt8) (pos : Nat) : readAt checks (.file bs) pos 0 = .ok [] := rfl

/-! ### Reading in sequence -/

/-- Readers over well-formed sources. -/
def Rdr.WF (obj : List UInt8) : Rdr → Prop
  | .cursor s pos => s.WF obj ∧ pos + s.shift < word
  | _ => True

theorem readInto_ok (checks : Bool) (r : Rdr) (n : Nat) (hw : r.WF obj) (hn : n < word) {bs : List UInt8} {r' : Rdr}
    (h : readInto checks r n = .ok (bs, r')) : bs.length = n ∧ bs ++ r'.rest obj = r.rest obj ∧ r'.WF obj := by
  cases r with
  | bytesMut l =>
    simp only [readInto] at h
    split at h
    · cases h
    · cases h
      refine ⟨by rw [List.length_take]; omega, List.take_append_drop _ _, trivial⟩
  | stream l =>
    simp only [readInto] at h
    split at h
    · cases h
    · cases h
      refine ⟨by rw [List.length_take]; omega, List.take_append_drop _ _, trivial⟩
  | cursor s pos =>
    simp only [readInto, Res.bind_eq_ok] at h
    obtain ⟨out, h1, p, h2, h3⟩ := h
    cases h3
    have hwp := hw.2
    obtain ⟨e1, e2⟩ := C100_read_exact checks s pos n bs hw.1 (by omega) hn (.inr hwp) h1
    have hc := content_shift s hw.1
    by_cases h0 : n = 0
    · subst h0
      have hb : bs = [] := List.eq_nil_of_length_eq_zero e2
      subst hb
      rw [add64_lt (by simp; omega)] at h2
      cases h2
      exact ⟨rfl, rfl, hw⟩
    · have hle : pos + n ≤ (s.content obj).length := by
        rw [e1, List.length_take, List.length_drop] at e2
        omega
      rw [e2, add64_lt (by omega)] at h2
      cases h2
      refine ⟨e2, ?_, hw.1, by omega⟩
      simp only [Rdr.rest]
      rw [e1, ← List.drop_drop]
      exact List.take_append_drop _ _

/-- **C100.** Successive reads deliver the content in order, nothing lost and nothing repeated: whatever lengths are asked for, the pieces
have those lengths, and together with what the reader has left they are what it had. -/
theorem C100_sequential (checks : Bool) : ∀ (lens : List Nat) (r : Rdr), r.WF obj → (∀ n ∈ lens, n < word) →
    ∀ bss r', readMany checks r lens = .ok (bss, r') →
      bss.map List.length = lens ∧ bss.flatten ++ r'.rest obj = r.rest obj ∧ r'.WF obj
  | [], r, hw, _, bss, r', h => by cases h; exact ⟨rfl, rfl, hw⟩
  | n :: ns, r, hw, hn, bss, r', h => by
    simp only [readMany, Res.bind_eq_ok] at h
    obtain ⟨⟨b, r1⟩, h1, ⟨bs, r2⟩, h2, h3⟩ := h
    cases h3
    obtain ⟨a1, a2, a3⟩ := readInto_ok checks r n hw (hn n (by simp)) h1
    obtain ⟨b1, b2, b3⟩ := C100_sequential checks ns r1 a3 (fun m hm => hn m (by simp [hm])) bs r2 h2
    refine ⟨by simp only [List.map_cons, a1, b1], ?_, b3⟩
    rw [List.flatten_cons, List.append_assoc, b2, a2]

theorem readInto_succeeds (checks : Bool) (r : Rdr) (n : Nat) (hw : r.WF obj) (h : n ≤ (r.rest obj).length) (h0 : 0 < n) :
    ∃ x, readInto checks r n = .ok x := by
  cases r with
  | bytesMut l => simp only [Rdr.rest] at h; exact ⟨_, by simp only [readInto]; rw [if_neg (by omega)]⟩
  | stream l => simp only [Rdr.rest] at h; exact ⟨_, by simp only [readInto]; rw [if_neg (by omega)]⟩
  | cursor s pos =>
    simp only [Rdr.rest, List.length_drop] at h
    have hc := content_shift s hw.1
    refine ⟨_, by
      simp only [readInto]
      rw [C100_in_range checks s pos n hw.1 (by omega) (fun _ => h0)]
      simp only [Res.ok_bind]
      rw [add64_lt (by rw [List.length_take]; omega)]
      simp only [Res.ok_bind]
      rfl⟩

/-- **C100.** Reads of at least one byte each succeed as long as the content lasts. -/
theorem C100_sequential_total (checks : Bool) : ∀ (lens : List Nat) (r : Rdr), r.WF obj → (∀ n ∈ lens, 0 < n ∧ n < word) →
    lens.sum ≤ (r.rest obj).length → ∃ x, readMany checks r lens = .ok x
  | [], r, _, _, _ => ⟨_, rfl⟩
  | n :: ns, r, hw, hn, h => by
    rw [List.sum_cons] at h
    obtain ⟨⟨b, r1⟩, h1⟩ := readInto_succeeds checks r n hw (by omega) (hn n (by simp)).1
    obtain ⟨a1, a2, a3⟩ := readInto_ok checks r n hw (hn n (by simp)).2 h1
    have hl := congrArg List.length a2
    rw [List.length_append] at hl
    obtain ⟨x, hx⟩ := C100_sequential_total checks ns r1 a3 (fun m hm => hn m (by simp [hm])) (by omega)
    exact ⟨_, by simp only [readMany]; rw [h1]; simp only [Res.ok_bind]; rw [hx]; rfl⟩

/-- **C100.** And no reader makes up bytes: a read of more than is left never succeeds. -/
theorem C100_sequential_eof (checks : Bool) (r : Rdr) (n : Nat) (hw : r.WF obj) (hn : n < word) (h : (r.rest obj).length < n) :
    ∀ x, readInto checks r n ≠ .ok x := by
  rintro ⟨b, r'⟩ hx
  obtain ⟨a1, a2, _⟩ := readInto_ok checks r n hw hn hx
  have := congrArg List.length a2
  rw [List.length_append] at this
  omega

/-! ### Writing -/

/-- What a writer has been given so far, at its end. -/
def Wtr.AtEnd (done : List UInt8) : Wtr → Prop
  | .vec bs => bs = done
  | .cursor bs pos => bs = done ∧ pos = done.length
  | .stream bs => bs = done
  | .object mp st => mp = some done ∧ st = none

theorem overwrite_end (bs new : List UInt8) : overwrite bs bs.length new = bs ++ new := by
  simp [overwrite]

theorem wrun_atEnd : ∀ (ops : List WOp) (w : Wtr) (done : List UInt8), w.AtEnd done → WOp.shutdown ∉ ops →
    ∃ w', wrun w ops = .ok w' ∧ w'.AtEnd (done ++ written ops) ∧ (w.visible = none ↔ w'.visible = none)
  | [], w, done, h, _ => ⟨w, rfl, by simpa [written] using h, Iff.rfl⟩
  | o :: os, w, done, h, hs => by
    have hs' : WOp.shutdown ∉ os := fun hm => hs (by simp [hm])
    have key : ∃ w1, wstep w o = .ok w1 ∧ w1.AtEnd (done ++ written [o]) ∧ (w.visible = none ↔ w1.visible = none) := by
      cases o with
      | shutdown => simp at hs
      | write new =>
        cases w with
        | vec bs => exact ⟨_, rfl, by simp only [Wtr.AtEnd] at *; simp [written, h], by simp [Wtr.visible]⟩
        | stream bs => exact ⟨_, rfl, by simp only [Wtr.AtEnd] at *; simp [written, h], by simp [Wtr.visible]⟩
        | cursor bs pos =>
          obtain ⟨rfl, rfl⟩ := h
          refine ⟨_, rfl, ?_, by simp [Wtr.visible]⟩
          simp only [Wtr.AtEnd, overwrite_end]
          simp [written]
        | object mp st =>
          obtain ⟨rfl, rfl⟩ := h
          exact ⟨_, rfl, by simp [Wtr.AtEnd, written], by simp [Wtr.visible]⟩
      | flush =>
        cases w with
        | vec bs => exact ⟨_, rfl, by simpa [Wtr.AtEnd, written] using h, by simp [Wtr.visible]⟩
        | stream bs => exact ⟨_, rfl, by simpa [Wtr.AtEnd, written] using h, by simp [Wtr.visible]⟩
        | cursor bs pos => exact ⟨_, rfl, by simpa [Wtr.AtEnd, written] using h, by simp [Wtr.visible]⟩
        | object mp st =>
          obtain ⟨rfl, rfl⟩ := h
          exact ⟨_, rfl, by simp [Wtr.AtEnd, written], by simp [Wtr.visible]⟩
    obtain ⟨w1, k1, k2, k3⟩ := key
    obtain ⟨w', r1, r2, r3⟩ := wrun_atEnd os w1 _ k2 hs'
    refine ⟨w', by simp only [wrun]; rw [k1]; exact r1, ?_, k3.trans r3⟩
    have : written (o :: os) = written [o] ++ written os := by cases o <;> simp [written]
    rw [this, ← List.append_assoc]
    exact r2

theorem fresh_atEnd (w : Wtr) (h : w.Fresh) : w.AtEnd [] := by
  cases w <;> exact h

theorem wrun_append : ∀ (a b : List WOp) (w w1 : Wtr), wrun w a = .ok w1 → wrun w (a ++ b) = wrun w1 b
  | [], b, w, w1, h => by cases h; rfl
  | o :: os, b, w, w1, h => by
    simp only [wrun, Res.bind_eq_ok] at h
    obtain ⟨x, h1, h2⟩ := h
    simp only [List.cons_append, wrun]
    rw [h1]
    exact wrun_append os b x w1 h2

/-- **C100.** Whatever is written, in however many pieces and with flushes anywhere, is what is stored once the writer is shut down: in
order, complete, and nothing else. -/
theorem C100_written (w : Wtr) (ops : List WOp) (hf : w.Fresh) (hs : WOp.shutdown ∉ ops) :
    ∃ w', wrun w (ops ++ [.shutdown]) = .ok w' ∧ w'.visible = some (written ops) := by
  obtain ⟨w1, h1, h2, _⟩ := wrun_atEnd ops w [] (fresh_atEnd w hf) hs
  rw [wrun_append ops _ w w1 h1]
  rw [List.nil_append] at h2
  cases w1 with
  | vec bs => exact ⟨_, rfl, congrArg some h2⟩
  | stream bs => exact ⟨_, rfl, congrArg some h2⟩
  | cursor bs pos => exact ⟨_, rfl, congrArg some h2.1⟩
  | object mp st =>
    obtain ⟨rfl, rfl⟩ := h2
    exact ⟨_, rfl, rfl⟩

/-- **C100.** An object appears in the store only when its writer is shut down; until then nothing of it is visible, whatever was
written and flushed. After that the writer refuses every operation, and what is stored stays. -/
theorem C100_object_atomic (ops : List WOp) (hs : WOp.shutdown ∉ ops) :
    (∃ w', wrun (.object (some []) none) ops = .ok w' ∧ w'.visible = none) ∧
    (∀ o, wrun (.object (some []) none) (ops ++ [.shutdown, o]) = .err) := by
  obtain ⟨w1, h1, h2, h3⟩ := wrun_atEnd ops (.object (some []) none) [] ⟨rfl, rfl⟩ hs
  refine ⟨⟨w1, h1, h3.1 rfl⟩, fun o => ?_⟩
  rw [wrun_append ops _ _ w1 h1]
  cases w1 with
  | object mp st =>
    obtain ⟨rfl, rfl⟩ := h2
    rfl
  | vec bs => exact absurd (h3.1 rfl) (by simp [Wtr.visible])
  | stream bs => exact absurd (h3.1 rfl) (by simp [Wtr.visible])
  | cursor bs pos => exact absurd (h3.1 rfl) (by simp [Wtr.visible])

/-- A cursor that is not at the end writes over what is there: every byte outside the range written stays. -/
theorem C100_cursor_overwrites (bs new : List UInt8) (pos : Nat) (h : pos + new.length ≤ bs.length) (i : Nat) :
    (overwrite bs pos new).length = bs.length ∧
    (overwrite bs pos new)[i]? = if pos ≤ i ∧ i < pos + new.length then new[i - pos]? else bs[i]? := by
  have hr : pos - bs.length = 0 := by omega
  have hp : (bs.take pos).length = pos := by rw [List.length_take]; omega
  constructor
  · simp [overwrite, hr]; omega
  · simp only [overwrite, hr, List.replicate_zero, List.append_nil, List.append_assoc]
    by_cases h1 : i < pos
    · rw [if_neg (by omega), List.getElem?_append_left (by omega), List.getElem?_take, if_pos h1]
    · rw [List.getElem?_append_right (by omega), hp]
      by_cases h2 : i < pos + new.length
      · rw [if_pos ⟨by omega, h2⟩, List.getElem?_append_left (by omega)]
      · rw [if_neg (by omega), List.getElem?_append_right (by omega), List.getElem?_drop]
        congr 1
        omega

/-! ### Non-vacuity -/

example : (Src.offset (.arc (.vec [1, 2, 3, 4, 5])) 2).WF [] := ⟨by show (5 : Nat) < word; decide, by decide⟩
example : readAt true (.offset (.arc (.vec [1, 2, 3, 4, 5])) 2) 1 2 = .ok [4, 5] := by decide +kernel
example : readAt true (.offset (.buffer ⟨.arrow, [9, 1, 2, 3], 1, 3⟩) 1) 0 2 = .ok [2, 3] := by decide +kernel
example : (Src.content [] (.offset (.arc (.vec [1, 2, 3, 4, 5])) 2)).drop 1 = [4, 5] := by decide
example : (Rdr.cursor (.offset (.vec [1, 2, 3, 4, 5]) 1) 0).WF [] := ⟨⟨by show (5 : Nat) < word; decide, by decide⟩, by decide⟩
example : Rdr.rest [] (.cursor (.offset (.vec [1, 2, 3, 4, 5]) 1) 0) = [2, 3, 4, 5] := by decide
example : (Wtr.object (some []) none).Fresh ∧ (Wtr.cursor [] 0).Fresh := ⟨⟨rfl, rfl⟩, rfl, rfl⟩
example : wrun (.object (some []) none) [.write [1], .flush, .write [2, 3], .shutdown] = .ok (.object none (some [1, 2, 3])) := rfl
example : (2 : Nat) + [7, 7].length ≤ [1, 2, 3, 4, 5].length ∧ overwrite [1, 2, 3, 4, 5] 2 [7, 7] = [1, 2, 7, 7, 5] := by decide

end Vx.Io
