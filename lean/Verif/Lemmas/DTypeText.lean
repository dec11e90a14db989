import Verif.Lemmas.Display
import Verif.Spec.DTypeText
/-! # Lemmas on the text of types -/
namespace Vx.DTypeText

theorem toDigits_mem {b : Nat} (hb : 0 < b) {n : Nat} {c : Char} (h : c ∈ Nat.toDigits b n) : ∃ d, d < b ∧ c = Nat.digitChar d := by
  have key : ∀ f n acc, (∀ c ∈ acc, ∃ d, d < b ∧ c = Nat.digitChar d) → ∀ c ∈ Nat.toDigitsCore b f n acc, ∃ d, d < b ∧ c = Nat.digitChar d := by
    intro f
    induction f with
    | zero => intro n acc ha c hc; exact ha c (by simpa [Nat.toDigitsCore] using hc)
    | succ f ih =>
      intro n acc ha c hc
      have ha' : ∀ c ∈ (n % b).digitChar :: acc, ∃ d, d < b ∧ c = Nat.digitChar d := by
        intro c hc
        rcases List.mem_cons.mp hc with rfl | hc
        · exact ⟨_, Nat.mod_lt _ hb, rfl⟩
        · exact ha c hc
      unfold Nat.toDigitsCore at hc
      simp only at hc
      split at hc
      · exact ha' c hc
      · exact ih _ _ ha' c hc
  exact key _ _ [] (by simp) c h

theorem toDigits_inj {b : Nat} (hb : 2 ≤ b) (hb2 : b ≤ 16) {m n : Nat} (h : Nat.toDigits b m = Nat.toDigits b n) : m = n := by
  have : Display.digits b m = Display.digits b n := by rw [Display.digits_eq hb hb2, Display.digits_eq hb hb2, h]
  exact Display.digits_inj hb (by omega) this

theorem toDigits_ne_nil {b : Nat} (hb : 2 ≤ b) (hb2 : b ≤ 16) (n : Nat) : Nat.toDigits b n ≠ [] := by
  intro h
  have := Display.digits_eq hb hb2 n
  rw [h] at this
  exact Display.digits_ne_nil b n this

/-- Digits are letters or figures, none of the punctuation of the text. -/
theorem digitChar_class : ∀ d, d < 16 → (Nat.digitChar d).isAlphanum = true := by decide

theorem toDigits_alnum {b : Nat} (hb : 0 < b) (hb2 : b ≤ 16) {n : Nat} {c : Char} (h : c ∈ Nat.toDigits b n) : c.isAlphanum = true := by
  obtain ⟨d, hd, rfl⟩ := toDigits_mem hb h
  exact digitChar_class d (by omega)

/-- Two words followed by something else than `f`: the words are the same. -/
theorem split_at {α : Type} (f : α → Bool) {s t : List α} (hs : ∀ c ∈ s, f c = true) (ht : ∀ c ∈ t, f c = true) {x y : List α}
    (hx : ∀ c, x.head? = some c → f c = false) (hy : ∀ c, y.head? = some c → f c = false) (h : s ++ x = t ++ y) : s = t ∧ x = y := by
  have tw : ∀ (s x : List α), (∀ c ∈ s, f c = true) → (∀ c, x.head? = some c → f c = false) → (s ++ x).takeWhile f = s := by
    intro s x hs hx
    cases x with
    | nil =>
      rw [List.append_nil]
      clear hx h
      induction s with
      | nil => rfl
      | cons a s ih => rw [List.takeWhile_cons_of_pos (hs a (by simp)), ih (fun c hc => hs c (by simp [hc]))]
    | cons a x => exact Display.takeWhile_stop f hs (hx a rfl) x
  have e : s = t := by
    have := congrArg (List.takeWhile f) h
    rwa [tw s x hs hx, tw t y ht hy] at this
  subst e
  exact ⟨rfl, List.append_cancel_left h⟩

/-- Numbers in a list, then a bracket. -/
theorem numbers_read : ∀ (a b : List UInt8) {x y : Str},
    commas (a.map (fun b => Nat.toDigits 10 b.toNat)) ++ ']' :: x = commas (b.map (fun b => Nat.toDigits 10 b.toNat)) ++ ']' :: y → a = b ∧ x = y := by
  have ne : ∀ (c : UInt8) l (x y : Str), commas (Nat.toDigits 10 c.toNat :: l) ++ x ≠ ']' :: y := by
    intro c l x y h
    have hn := toDigits_ne_nil (b := 10) (by omega) (by omega) c.toNat
    have hm := fun z => toDigits_alnum (b := 10) (n := c.toNat) (c := z) (by omega) (by omega)
    generalize Nat.toDigits 10 c.toNat = w at hn hm h
    cases w with
    | nil => exact hn rfl
    | cons z w =>
      have : z = ']' := by cases l <;> simp [commas] at h <;> exact h.1
      have := hm z (by simp)
      subst z
      revert this; decide
  have step : ∀ (c : UInt8) (l : List UInt8) (x : Str), commas ((c :: l).map (fun b => Nat.toDigits 10 b.toNat)) ++ ']' :: x =
      Nat.toDigits 10 c.toNat ++ (match l with | [] => ']' :: x | _ => ',' :: ' ' :: (commas (l.map (fun b => Nat.toDigits 10 b.toNat)) ++ ']' :: x)) := by
    intro c l x
    cases l with
    | nil => simp [commas]
    | cons d l => simp [commas, lit]
  intro a
  induction a with
  | nil =>
    intro b x y h
    cases b with
    | nil => simpa [commas] using h
    | cons c b => exact absurd h.symm (ne c _ _ _)
  | cons c a ih =>
    intro b x y h
    cases b with
    | nil => exact absurd h (ne c _ _ _)
    | cons d b =>
      rw [step, step] at h
      obtain ⟨e, h2⟩ := split_at Char.isAlphanum (fun z hz => toDigits_alnum (by omega) (by omega) hz)
        (fun z hz => toDigits_alnum (by omega) (by omega) hz)
        (by cases a <;> simp <;> decide) (by cases b <;> simp <;> decide) h
      have e := UInt8.toNat_inj.mp (toDigits_inj (by omega) (by omega) e)
      subst e
      cases a with
      | nil =>
        cases b with
        | nil => simpa using h2
        | cons d' b => simp at h2
      | cons c' a =>
        cases b with
        | nil => simp at h2
        | cons d' b =>
          simp only [List.cons.injEq, true_and] at h2
          obtain ⟨e1, e2⟩ := ih (d' :: b) h2
          exact ⟨by rw [e1], e2⟩

theorem debugMeta_read {a b : List UInt8} {x y : Str} (h : debugMeta a ++ x = debugMeta b ++ y) : a = b ∧ x = y := by
  unfold debugMeta at h
  simp only [List.append_assoc] at h
  have h := List.append_cancel_left h
  have hl : lit "])" = [']', ')'] := by decide
  rw [hl] at h
  simp only [List.cons_append, List.nil_append] at h
  obtain ⟨e, h⟩ := numbers_read a b h
  exact ⟨e, by simpa using h⟩

/-- What follows the text of a type inside another type. -/
def After (x : Str) : Prop := ∀ c, x.head? = some c → c = ')' ∨ c = ',' ∨ c = '}'

theorem mark_read {a b : Bool} {x y : Str} (hx : After x) (hy : After y) (h : mark a ++ x = mark b ++ y) : a = b ∧ x = y := by
  have hq : lit "?" = ['?'] := by decide
  cases a <;> cases b <;> simp [mark, hq] at h ⊢
  · exact h
  · subst h
    have := hx '?' rfl
    simp at this
  · subst h
    have := hy '?' rfl
    simp at this
  · exact h

/-- The letters and figures a type starts with, and the rest. -/
def kind : DType → Str
  | .null => lit "null"
  | .bool _ => lit "bool"
  | .prim p _ => ptype p
  | .utf8 _ => lit "utf8"
  | .binary _ => lit "binary"
  | .struct _ _ _ => []
  | .list _ _ => lit "list"
  | .ext _ _ _ => lit "ext"

def body : DType → Str
  | .null => []
  | .bool n | .prim _ n | .utf8 n | .binary n => mark n
  | .struct ns ds n => '{' :: (commas (displayFields ns ds) ++ '}' :: mark n)
  | .list e n => '(' :: (display e ++ ')' :: mark n)
  | .ext id m n => '(' :: (id ++ ((match m with | some m => ',' :: ' ' :: debugMeta m | none => []) ++ ')' :: mark n))

theorem display_parts (d : DType) : display d = kind d ++ body d := by
  cases d with
  | ext id m n => cases m <;> simp [display, kind, body, lit]
  | _ => simp [display, kind, body, lit]

theorem kind_alnum (d : DType) : ∀ c ∈ kind d, c.isAlphanum = true := by
  cases d with
  | prim p n => cases p <;> (show ∀ c ∈ lit _, _; decide)
  | struct => simp [kind]
  | _ => show ∀ c ∈ lit _, _; decide

theorem body_head (d : DType) {x : Str} (hx : After x) : ∀ c, (body d ++ x).head? = some c → c.isAlphanum = false := by
  have hq : lit "?" = ['?'] := by decide
  have ax : ∀ c, x.head? = some c → c.isAlphanum = false := by
    intro c hc
    rcases hx c hc with rfl | rfl | rfl <;> decide
  have am : ∀ n c, (mark n ++ x).head? = some c → c.isAlphanum = false := by
    intro n c hc
    cases n with
    | false => exact ax c (by simpa [mark] using hc)
    | true =>
      simp [mark, hq] at hc
      subst hc; decide
  cases d with
  | null => simpa [body] using ax
  | struct => intro c hc; simp [body] at hc; subst hc; decide
  | list => intro c hc; simp [body] at hc; subst hc; decide
  | ext => intro c hc; simp [body] at hc; subst hc; decide
  | bool n => exact am n
  | prim p n => exact am n
  | utf8 n => exact am n
  | binary n => exact am n

theorem after_mark {x : Str} (n : Bool) (c : Char) (hc : c = ')' ∨ c = ',' ∨ c = '}') : After (c :: (mark n ++ x)) := by
  intro d hd
  simp at hd
  subst hd; exact hc

theorem ptype_inj {p q : PType} (h : ptype p = ptype q) : p = q := by
  revert h; cases p <;> cases q <;> decide

/-- Which kind of type. -/
inductive K where
  | null | bool | prim (p : PType) | utf8 | binary | struct | list | ext

def kOf : DType → K
  | .null => .null
  | .bool _ => .bool
  | .prim p _ => .prim p
  | .utf8 _ => .utf8
  | .binary _ => .binary
  | .struct _ _ _ => .struct
  | .list _ _ => .list
  | .ext _ _ _ => .ext

def K.word : K → Str
  | .null => lit "null"
  | .bool => lit "bool"
  | .prim p => ptype p
  | .utf8 => lit "utf8"
  | .binary => lit "binary"
  | .struct => []
  | .list => lit "list"
  | .ext => lit "ext"

theorem kind_word (d : DType) : kind d = (kOf d).word := by cases d <;> rfl

theorem word_inj {a b : K} (h : a.word = b.word) : a = b := by
  cases a with
  | prim p => cases b with
    | prim q => rw [ptype_inj h]
    | _ => exfalso; revert h; cases p <;> decide
  | _ => cases b with
    | prim q => exfalso; revert h; cases q <;> decide
    | _ => first | rfl | exact absurd h (by decide)

end Vx.DTypeText
