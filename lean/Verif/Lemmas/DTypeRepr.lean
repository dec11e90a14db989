import Verif.Lemmas.DTypeText
/-! # Lemmas on `repr` -/
namespace Vx.DTypeText

theorem truth_read {a b : Bool} {x y : Str} (h : truth a ++ x = truth b ++ y) : a = b ∧ x = y := by
  have ht : lit "True" = ['T', 'r', 'u', 'e'] := by decide
  have hf : lit "False" = ['F', 'a', 'l', 's', 'e'] := by decide
  cases a <;> cases b <;> simp [truth, ht, hf] at h ⊢ <;> exact h

/-- A list of tokens that can be told apart, up to a closing quote. -/
theorem tokens_read {α : Type} (tok : α → Str) (h1 : ∀ a b x y, tok a ++ x = tok b ++ y → a = b ∧ x = y)
    (h2 : ∀ a x y, tok a ++ x ≠ '"' :: y) : ∀ (a b : List α) {x y : Str}, a.flatMap tok ++ '"' :: x = b.flatMap tok ++ '"' :: y → a = b ∧ x = y := by
  intro a
  induction a with
  | nil =>
    intro b x y h
    cases b with
    | nil => simpa using h
    | cons c b =>
      simp only [List.flatMap_nil, List.nil_append, List.flatMap_cons, List.append_assoc] at h
      exact absurd h.symm (h2 _ _ _)
  | cons c a ih =>
    intro b x y h
    cases b with
    | nil =>
      simp only [List.flatMap_nil, List.nil_append, List.flatMap_cons, List.append_assoc] at h
      exact absurd h (h2 _ _ _)
    | cons d b =>
      simp only [List.flatMap_cons, List.append_assoc] at h
      obtain ⟨e, h3⟩ := h1 _ _ _ _ h
      obtain ⟨e2, h4⟩ := ih b h3
      exact ⟨by rw [e, e2], h4⟩

/-- What a one-letter escape stands for. -/
def unescape (k : Char) : Nat :=
  if k = 't' then 9 else if k = 'r' then 13 else if k = 'n' then 10 else if k = '\'' then 39 else if k = '"' then 34 else 92

theorem escapeChar_form (c : Char) :
    (escapeChar c = [c] ∧ c ≠ '\\' ∧ c ≠ '"') ∨
    (∃ k, escapeChar c = ['\\', k] ∧ k ≠ 'u' ∧ c.toNat = unescape k) ∨
    (escapeChar c = '\\' :: 'u' :: '{' :: (Nat.toDigits 16 c.toNat ++ ['}'])) := by
  unfold escapeChar
  split
  · rename_i h; exact .inr (.inl ⟨'t', rfl, by decide, by subst h; decide⟩)
  split
  · rename_i h; exact .inr (.inl ⟨'r', rfl, by decide, by subst h; decide⟩)
  split
  · rename_i h; exact .inr (.inl ⟨'n', rfl, by decide, by subst h; decide⟩)
  split
  · rename_i h; exact .inr (.inl ⟨'\'', rfl, by decide, by subst h; decide⟩)
  split
  · rename_i h; exact .inr (.inl ⟨'"', rfl, by decide, by subst h; decide⟩)
  split
  · rename_i h; exact .inr (.inl ⟨'\\', rfl, by decide, by subst h; decide⟩)
  split
  · rename_i h1 h2 _; exact .inl ⟨rfl, h2, h1⟩
  · exact .inr (.inr (by simp [lit]))

theorem toNat_char_inj {a b : Char} (h : a.toNat = b.toNat) : a = b := by
  apply Char.ext
  exact UInt32.toNat_inj.mp h

theorem escapeChar_read (a b : Char) (x y : Str) (h : escapeChar a ++ x = escapeChar b ++ y) : a = b ∧ x = y := by
  rcases escapeChar_form a with ⟨ea, na, _⟩ | ⟨k, ea, uk, na⟩ | ea <;> rcases escapeChar_form b with ⟨eb, nb, _⟩ | ⟨l, eb, ul, nb⟩ | eb <;>
    rw [ea, eb] at h
  · simpa using h
  · simp at h; exact absurd h.1 na
  · simp at h; exact absurd h.1 na
  · simp at h; exact absurd h.1.symm nb
  · simp at h
    exact ⟨toNat_char_inj (by rw [na, nb, h.1]), h.2⟩
  · simp at h; exact absurd h.1 uk
  · simp at h; exact absurd h.1.symm nb
  · simp at h; exact absurd h.1.symm ul
  · simp only [List.cons_append, List.append_assoc, List.cons.injEq, true_and, List.nil_append] at h
    obtain ⟨e, h2⟩ := split_at Char.isAlphanum (fun z hz => toDigits_alnum (by omega) (by omega) hz)
      (fun z hz => toDigits_alnum (by omega) (by omega) hz) (by simp) (by simp) h
    exact ⟨toNat_char_inj (toDigits_inj (by omega) (by omega) e), by simpa using h2⟩

theorem escapeChar_quote (a : Char) (x y : Str) : escapeChar a ++ x ≠ '"' :: y := by
  intro h
  rcases escapeChar_form a with ⟨ea, _, na⟩ | ⟨k, ea, _, _⟩ | ea <;> rw [ea] at h <;> simp at h
  exact na h.1

theorem escapeByte_form : ∀ n, n < 256 →
    (escapeByte (UInt8.ofNat n) = [Char.ofNat n] ∧ n < 127 ∧ n ≠ 92 ∧ n ≠ 34) ∨
    (∃ k ∈ ['t', 'r', 'n', '\'', '"', '\\'], escapeByte (UInt8.ofNat n) = ['\\', k] ∧ n = unescape k) ∨
    (escapeByte (UInt8.ofNat n) = ['\\', 'x', Nat.digitChar (n / 16), Nat.digitChar (n % 16)]) := by
  decide +kernel

theorem ofNat_char_inj {m n : Nat} (hm : m < 127) (hn : n < 127) (h : Char.ofNat m = Char.ofNat n) : m = n := by
  have key : ∀ m, m < 127 → (Char.ofNat m).toNat = m := by decide
  have := congrArg Char.toNat h
  rwa [key m hm, key n hn] at this

theorem digitChar_inj : ∀ m, m < 16 → ∀ n, n < 16 → Nat.digitChar m = Nat.digitChar n → m = n := by decide

theorem escapeByte_read (a b : UInt8) (x y : Str) (h : escapeByte a ++ x = escapeByte b ++ y) : a = b ∧ x = y := by
  have ha := a.toNat_lt
  have hb := b.toNat_lt
  have fa := escapeByte_form a.toNat ha
  have fb := escapeByte_form b.toNat hb
  rw [UInt8.ofNat_toNat] at fa fb
  have back : ∀ n, n < 127 → n ≠ 92 → Char.ofNat n ≠ '\\' := by decide
  have notx : ∀ k ∈ ['t', 'r', 'n', '\'', '"', '\\'], k ≠ 'x' := by decide
  rcases fa with ⟨ea, la, na, _⟩ | ⟨k, hk, ea, na⟩ | ea <;> rcases fb with ⟨eb, lb, nb, _⟩ | ⟨l, hl, eb, nb⟩ | eb <;> rw [ea, eb] at h
  · simp only [List.cons_append, List.nil_append, List.cons.injEq] at h
    exact ⟨UInt8.toNat_inj.mp (ofNat_char_inj la lb h.1), h.2⟩
  · simp only [List.cons_append, List.nil_append, List.cons.injEq] at h; exact absurd h.1 (back _ la na)
  · simp only [List.cons_append, List.nil_append, List.cons.injEq] at h; exact absurd h.1 (back _ la na)
  · simp only [List.cons_append, List.nil_append, List.cons.injEq] at h; exact absurd h.1.symm (back _ lb nb)
  · simp only [List.cons_append, List.nil_append, List.cons.injEq] at h
    exact ⟨UInt8.toNat_inj.mp (by rw [na, nb, h.2.1]), h.2.2⟩
  · simp only [List.cons_append, List.nil_append, List.cons.injEq] at h; exact absurd h.2.1 (notx k hk)
  · simp only [List.cons_append, List.nil_append, List.cons.injEq] at h; exact absurd h.1.symm (back _ lb nb)
  · simp only [List.cons_append, List.nil_append, List.cons.injEq] at h; exact absurd h.2.1.symm (notx l hl)
  · simp only [List.cons_append, List.nil_append, List.cons.injEq, true_and] at h
    have h1 := digitChar_inj _ (by omega) _ (by omega) h.1
    have h2 := digitChar_inj _ (by omega) _ (by omega) h.2.1
    exact ⟨UInt8.toNat_inj.mp (by omega), h.2.2⟩

theorem escapeByte_quote (a : UInt8) (x y : Str) : escapeByte a ++ x ≠ '"' :: y := by
  have ha := a.toNat_lt
  have fa := escapeByte_form a.toNat ha
  rw [UInt8.ofNat_toNat] at fa
  have back : ∀ n, n < 127 → n ≠ 34 → Char.ofNat n ≠ '"' := by decide
  intro h
  rcases fa with ⟨ea, la, _, na⟩ | ⟨k, _, ea, _⟩ | ea <;> rw [ea] at h <;> simp at h
  exact back _ la na h.1

theorem reprMeta_read {a b : Option (List UInt8)} {x y : Str} (h : reprMeta a ++ x = reprMeta b ++ y) : a = b ∧ x = y := by
  have hn : lit "None" = ['N', 'o', 'n', 'e'] := by decide
  have hq : lit "\"" = ['"'] := by decide
  cases a with
  | none => cases b with
    | none => simpa [reprMeta] using h
    | some b => simp [reprMeta, hn, hq] at h
  | some a => cases b with
    | none => simp [reprMeta, hn, hq] at h
    | some b =>
      simp only [reprMeta, hq, List.append_assoc, List.cons_append, List.nil_append, List.cons.injEq, true_and] at h
      obtain ⟨e, h2⟩ := tokens_read escapeByte escapeByte_read escapeByte_quote a b h
      exact ⟨by rw [e], h2⟩

/-- The function a type is written with. -/
inductive F where
  | null | bool | int | uint | float | utf8 | binary | struct | list | ext

def fOf : DType → F
  | .null => .null
  | .bool _ => .bool
  | .prim p _ => if p.isFloat then .float else if p.isSigned then .int else .uint
  | .utf8 _ => .utf8
  | .binary _ => .binary
  | .struct _ _ _ => .struct
  | .list _ _ => .list
  | .ext _ _ _ => .ext

def F.word : F → Str
  | .null => lit "null"
  | .bool => lit "bool"
  | .int => lit "int"
  | .uint => lit "uint"
  | .float => lit "float"
  | .utf8 => lit "utf8"
  | .binary => lit "binary"
  | .struct => lit "struct"
  | .list => lit "list"
  | .ext => lit "ext"

theorem fword_inj {a b : F} (h : a.word = b.word) : a = b := by
  cases a <;> cases b <;> first | rfl | exact absurd h (by decide)

theorem fword_alnum (a : F) : ∀ c ∈ a.word, c.isAlphanum = true := by cases a <;> decide

/-- What follows the function's name and the opening parenthesis. -/
def args : DType → Str
  | .null => [')']
  | .bool n | .utf8 n | .binary n => truth n ++ [')']
  | .prim p n => Nat.toDigits 10 p.bits ++ ',' :: ' ' :: (truth n ++ [')'])
  | .struct ns ds n => '{' :: (commas (reprFields ns ds) ++ '}' :: ',' :: ' ' :: (truth n ++ [')']))
  | .list e n => repr e ++ ',' :: ' ' :: (truth n ++ [')'])
  | .ext id m n => '"' :: '"' :: (id.flatMap escapeChar ++ '"' :: '"' :: ',' :: ' ' :: (reprMeta m ++ ',' :: ' ' :: (truth n ++ [')'])))

theorem repr_parts (d : DType) : repr d = (fOf d).word ++ '(' :: args d := by
  cases d with
  | prim p n => cases p <;> simp [repr, fOf, F.word, args, lit, family, PType.isFloat, PType.isSigned]
  | _ => simp [repr, fOf, F.word, args, lit]

end Vx.DTypeText
