import Verif.Model.Buffer
import Verif.Spec.Rows
/-! # C45: zero-copy slices of buffers -/

namespace Vx.Buf
open Spec

theorem take_drop_slice (l : List UInt8) (off len s e : Nat) (he : e ≤ len) :
    (l.drop (off + s)).take (e - s) = Spec.slice ((l.drop off).take len) s e := by
  unfold Spec.slice
  rw [List.take_take, Nat.min_eq_left he, List.drop_take, List.drop_drop]

/-- **C45 (one slice).** A slice within bounds is a view of the same allocation exposing exactly those bytes. -/
theorem C45_slice (b : Buffer) (hw : b.WF) (s e : Nat) (h : InBounds b.len s e) :
    ∃ c, b.slice s e = .ok c ∧ c.WF ∧ c.kind = b.kind ∧ c.base = b.base ∧ c.len = e - s ∧ c.asSlice = Spec.slice b.asSlice s e := by
  obtain ⟨h1, h2⟩ := h
  unfold Buffer.WF at hw
  unfold Buffer.slice
  cases hk : b.kind with
  | arrow =>
    simp only [Res.sub_of_le h1, Res.ok_bind, Res.assert]
    rw [if_pos (by simp; omega)]
    simp only [Res.ok_bind]
    refine ⟨_, rfl, ?_, rfl, rfl, rfl, ?_⟩
    · show b.off + s + (e - s) ≤ b.base.length; omega
    · exact take_drop_slice b.base b.off b.len s e h2
  | bytes =>
    simp only
    by_cases he : e ≤ s
    · rw [if_pos he]
      refine ⟨_, rfl, ?_, rfl, rfl, (show 0 = e - s by omega), ?_⟩
      · show b.off + 0 ≤ b.base.length; omega
      · have : e = s := by omega
        subst this
        simp [Buffer.asSlice, Spec.slice]
    · rw [if_neg he, if_pos h2]
      refine ⟨_, rfl, ?_, rfl, rfl, rfl, ?_⟩
      · show b.off + s + (e - s) ≤ b.base.length; omega
      · exact take_drop_slice b.base b.off b.len s e h2

theorem asSlice_length (b : Buffer) (hw : b.WF) : b.asSlice.length = b.len := by
  unfold Buffer.WF at hw
  simp [Buffer.asSlice]; omega

/-- **C45 (slice of a slice).** Slicing twice exposes the bytes of the combined range. -/
theorem C45_nested (b : Buffer) (hw : b.WF) (s e s' e' : Nat) (h : InBounds b.len s e) (h' : InBounds (e - s) s' e') :
    ∃ c d, b.slice s e = .ok c ∧ c.slice s' e' = .ok d ∧ d.asSlice = Spec.slice b.asSlice (s + s') (s + e') := by
  obtain ⟨c, c1, c2, _, _, c3, c4⟩ := C45_slice b hw s e h
  obtain ⟨d, d1, _, _, _, _, d4⟩ := C45_slice c c2 s' e' (by rw [c3]; exact h')
  refine ⟨c, d, c1, d1, ?_⟩
  rw [d4, c4]
  unfold Spec.slice
  have hl := asSlice_length b hw
  obtain ⟨a1, a2⟩ := h
  obtain ⟨a3, a4⟩ := h'
  rw [List.take_drop, List.drop_drop, List.take_take, Nat.min_eq_left (by omega)]

/-- An out-of-range slice is refused, for arrow buffers always, for `Bytes` buffers when the range is not empty. -/
theorem C45_refused_partial (b : Buffer) (s e : Nat) (h : ¬ InBounds b.len s e) (hk : b.kind = .arrow ∨ s < e) : b.slice s e = .panic := by
  unfold InBounds at h
  unfold Buffer.slice
  cases hkind : b.kind with
  | arrow =>
    simp only
    by_cases h1 : s ≤ e
    · simp only [Res.sub_of_le h1, Res.ok_bind, Res.assert]
      rw [if_neg (by simp; omega)]; rfl
    · simp [Res.sub, h1]
  | bytes =>
    have hse : s < e := by
      rcases hk with hk | hk
      · rw [hkind] at hk; cases hk
      · exact hk
    simp only
    rw [if_neg (by omega), if_neg (by omega)]

/-- Missing from the full property: an empty range far outside a `Bytes` buffer — even one that ends before it starts — is accepted and yields an empty view. -/
theorem C45_empty_range_accepted (b : Buffer) (hk : b.kind = .bytes) (s e : Nat) (h : e ≤ s) : ∃ c, b.slice s e = .ok c ∧ c.asSlice = [] := by
  refine ⟨{ b with len := 0 }, ?_, by simp [Buffer.asSlice]⟩
  unfold Buffer.slice
  rw [hk]
  simp only
  rw [if_pos h]

/-- Converting to an arrow buffer and building a buffer from bytes keep the contents; equality and order see contents only. -/
theorem C45_contents (b : Buffer) (k : Kind) (l : List UInt8) :
    b.intoArrow.asSlice = b.asSlice ∧ (Buffer.ofBytes k l).asSlice = l ∧ (Buffer.ofBytes k l).WF ∧
      (∀ c : Buffer, b.eq c = true ↔ b.asSlice = c.asSlice) := by
  have hof : ∀ k l, (Buffer.ofBytes k l).asSlice = l := by intro k l; simp [Buffer.ofBytes, Buffer.asSlice]
  refine ⟨?_, hof k l, by simp [Buffer.WF, Buffer.ofBytes], by simp [Buffer.eq]⟩
  unfold Buffer.intoArrow
  split
  · rfl
  · exact hof _ _

/-! ## Owned slices for I/O -/

/-- A chain of `slice_owned` ranges, each inside the one before. -/
def Inside : IoBuf → Nat → Prop
  | .buf b, n => b.WF ∧ n = b.len
  | .slice t s e, n => ∃ m, Inside t m ∧ s ≤ e ∧ e ≤ m ∧ n = e - s

/-- What the chain should expose. -/
def expose : IoBuf → List UInt8
  | .buf b => b.asSlice
  | .slice t s e => Spec.slice (expose t) s e

theorem inside_spec (t : IoBuf) (n : Nat) (h : Inside t n) :
    t.bytesInit = .ok n ∧ t.readPtr + n ≤ t.base.length ∧ expose t = (t.base.drop t.readPtr).take n := by
  induction t generalizing n with
  | buf b =>
    obtain ⟨hw, rfl⟩ := h
    exact ⟨rfl, hw, rfl⟩
  | slice t s e ih =>
    obtain ⟨m, hm, h1, h2, rfl⟩ := h
    obtain ⟨_, i2, i3⟩ := ih m hm
    refine ⟨Res.sub_of_le h1, ?_, ?_⟩
    · simp only [IoBuf.readPtr, IoBuf.base]; omega
    · simp only [expose, i3, IoBuf.readPtr, IoBuf.base]
      exact (take_drop_slice t.base t.readPtr m s e h2).symm

/-- **C45 (owned slices).** Nested owned slices whose ranges are in bounds expose exactly the corresponding bytes. -/
theorem C45_owned_partial (t : IoBuf) (n : Nat) (h : Inside t n) : t.asSlice = .ok (.bytes (expose t)) := by
  obtain ⟨h1, h2, h3⟩ := inside_spec t n h
  simp only [IoBuf.asSlice, h1, Res.ok_bind]
  rw [if_pos h2, h3]

/-- Nothing refuses an out-of-range owned slice: reading it leaves the allocation … -/
theorem C45_owned_out_of_bounds (b : Buffer) (s e : Nat) (hse : s ≤ e) (h : b.base.length < b.off + e) :
    (IoBuf.slice (.buf b) s e).asSlice = .ok .undefined := by
  have hn : ¬ (IoBuf.slice (.buf b) s e).readPtr + (e - s) ≤ (IoBuf.slice (.buf b) s e).base.length := by
    simp only [IoBuf.readPtr, IoBuf.base]; omega
  have hb : (IoBuf.slice (.buf b) s e).bytesInit = .ok (e - s) := Res.sub_of_le hse
  simp only [IoBuf.asSlice, hb, Res.ok_bind]
  rw [if_neg hn]

/-- … or exposes bytes of the allocation that the buffer itself does not show. -/
theorem C45_owned_leaks : ∃ b : Buffer, b.WF ∧ b.asSlice = [1] ∧ (IoBuf.slice (.buf b) 0 2).asSlice = .ok (.bytes [1, 2]) :=
  ⟨⟨.bytes, [1, 2], 0, 1⟩, by decide, by decide, by decide +kernel⟩

example : Inside (.slice (.slice (.buf (Buffer.ofBytes .arrow [1, 2, 3, 4, 5])) 1 4) 1 2) 1 :=
  ⟨3, ⟨5, ⟨by decide, rfl⟩, by omega, by omega, rfl⟩, by omega, by omega, rfl⟩
example : (Buffer.ofBytes .bytes [1, 2, 3, 4, 5]).slice 1 4 = .ok ⟨.bytes, [1, 2, 3, 4, 5], 1, 3⟩ := by decide +kernel

end Vx.Buf
