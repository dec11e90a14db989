import Verif.Lemmas.DTypeRepr
/-!
# C113: the text of a type
`str` and `repr` of a type tell the type, and `repr` of a type that has a constructor is a call of it.
-/
namespace Vx.DTypeText
open Spec

/-- A field name that `str` keeps apart from the rest: it has no `=` and does not begin with a closing brace. -/
def FieldOk (n : Str) : Prop := '=' ∉ n ∧ n.head? ≠ some '}'

/-- An extension id that `str` keeps apart: no comma and no closing parenthesis. -/
def IdOk (i : Str) : Prop := ',' ∉ i ∧ ')' ∉ i

theorem commas_cons (a : Str) (l : List Str) (x : Str) :
    commas (a :: l) ++ '}' :: x = a ++ (match l with | [] => '}' :: x | _ => ',' :: ' ' :: (commas l ++ '}' :: x)) := by
  cases l with
  | nil => simp [commas]
  | cons b l => simp [commas, lit]

theorem displayFields_cons (n : Str) (ns : List Str) (d : DType) (ds : List DType) :
    displayFields (n :: ns) (d :: ds) = (n ++ lit "=" ++ display d) :: displayFields ns ds := by rw [displayFields]

theorem displayFields_nil (ns : List Str) : displayFields ns [] = [] := by rw [displayFields]

mutual
theorem display_read : ∀ (d e : DType), Names FieldOk IdOk d → Names FieldOk IdOk e → ∀ {x y : Str}, After x → After y →
    display d ++ x = display e ++ y → d = e ∧ x = y
  | d, e, hd, he, x, y, hx, hy, h => by
    rw [display_parts, display_parts, List.append_assoc, List.append_assoc] at h
    obtain ⟨hk, hb⟩ := split_at Char.isAlphanum (kind_alnum d) (kind_alnum e) (body_head d hx) (body_head e hy) h
    clear h
    rw [kind_word, kind_word] at hk
    have hk := word_inj hk
    cases d with
    | null =>
      cases e with
      | null => exact ⟨rfl, by simpa [body] using hb⟩
      | _ => simp [kOf] at hk
    | bool n =>
      cases e with
      | bool m => obtain ⟨a, b⟩ := mark_read hx hy (by simpa [body] using hb); exact ⟨by rw [a], b⟩
      | _ => simp [kOf] at hk
    | utf8 n =>
      cases e with
      | utf8 m => obtain ⟨a, b⟩ := mark_read hx hy (by simpa [body] using hb); exact ⟨by rw [a], b⟩
      | _ => simp [kOf] at hk
    | binary n =>
      cases e with
      | binary m => obtain ⟨a, b⟩ := mark_read hx hy (by simpa [body] using hb); exact ⟨by rw [a], b⟩
      | _ => simp [kOf] at hk
    | prim p n =>
      cases e with
      | prim q m =>
        obtain ⟨a, b⟩ := mark_read hx hy (by simpa [body] using hb)
        simp only [kOf, K.prim.injEq] at hk
        exact ⟨by rw [a, hk], b⟩
      | _ => simp [kOf] at hk
    | struct ns ds n =>
      cases e with
      | struct ms es m =>
        simp only [Names] at hd he
        simp only [body, List.cons_append, List.append_assoc, List.cons.injEq, true_and] at hb
        obtain ⟨a, b, c⟩ := fields_read ds es ns ms hd.1 he.1 hd.2.1 he.2.1 hd.2.2 he.2.2 hb
        obtain ⟨a', b'⟩ := mark_read hx hy c
        exact ⟨by rw [a, b, a'], b'⟩
      | _ => simp [kOf] at hk
    | list f n =>
      cases e with
      | list g m =>
        simp only [Names] at hd he
        simp only [body, List.cons_append, List.append_assoc, List.cons.injEq, true_and] at hb
        obtain ⟨a, b⟩ := display_read f g hd he (after_mark n ')' (.inl rfl)) (after_mark m ')' (.inl rfl)) hb
        obtain ⟨a', b'⟩ := mark_read hx hy (by simpa using b)
        exact ⟨by rw [a, a'], b'⟩
      | _ => simp [kOf] at hk
    | ext id md n =>
      cases e with
      | ext id' md' m =>
        simp only [Names] at hd he
        simp only [body, List.cons_append, List.append_assoc, List.cons.injEq, true_and] at hb
        have wid : ∀ i : Str, IdOk i → ∀ c ∈ i, (c != ',' && c != ')') = true := by
          intro i hi c hc
          simp only [Bool.and_eq_true, bne_iff_ne]
          exact ⟨fun h => hi.1 (h ▸ hc), fun h => hi.2 (h ▸ hc)⟩
        obtain ⟨a, b⟩ := split_at (fun c => c != ',' && c != ')') (wid id hd) (wid id' he)
          (by cases md <;> simp) (by cases md' <;> simp) hb
        subst a
        cases md with
        | none =>
          cases md' with
          | none =>
            obtain ⟨a', b'⟩ := mark_read hx hy (by simpa using b)
            exact ⟨by rw [a'], b'⟩
          | some c => simp at b
        | some c =>
          cases md' with
          | none => simp at b
          | some c' =>
            simp only [List.cons_append, List.cons.injEq, true_and] at b
            obtain ⟨e, b⟩ := debugMeta_read b
            obtain ⟨a', b'⟩ := mark_read hx hy (by simpa using b)
            exact ⟨by rw [a', e], b'⟩
      | _ => simp [kOf] at hk
theorem fields_read : ∀ (ds es : List DType) (ns ms : List Str), ns.length = ds.length → ms.length = es.length →
    (∀ n ∈ ns, FieldOk n) → (∀ n ∈ ms, FieldOk n) → AllNames FieldOk IdOk ds → AllNames FieldOk IdOk es → ∀ {x y : Str},
    commas (displayFields ns ds) ++ '}' :: x = commas (displayFields ms es) ++ '}' :: y → ns = ms ∧ ds = es ∧ x = y
  | [], es, ns, ms, hl, hl', hn, hm, _, _, x, y, h => by
    have e : ns = [] := List.eq_nil_of_length_eq_zero (by simpa using hl)
    subst e
    cases es with
    | nil =>
      have e : ms = [] := List.eq_nil_of_length_eq_zero (by simpa using hl')
      subst e
      exact ⟨rfl, rfl, by simpa [displayFields, commas] using h⟩
    | cons e es =>
      cases ms with
      | nil => simp at hl'
      | cons m ms =>
        exfalso
        rw [displayFields_cons, displayFields_nil, commas_cons] at h
        have := (hm m (by simp)).2
        cases m with
        | nil => simp [displayFields, commas, lit] at h
        | cons c m =>
          simp [displayFields, commas] at h
          simp [← h.1] at this
  | d :: ds, es, ns, ms, hl, hl', hn, hm, hd, he, x, y, h => by
    cases ns with
    | nil => simp at hl
    | cons n ns =>
      cases es with
      | nil =>
        have e : ms = [] := List.eq_nil_of_length_eq_zero (by simpa using hl')
        subst e
        exfalso
        rw [displayFields_cons, displayFields_nil, commas_cons] at h
        have := (hn n (by simp)).2
        cases n with
        | nil => simp [displayFields, commas, lit] at h
        | cons c m =>
          simp [displayFields, commas] at h
          simp [h.1] at this
      | cons e es =>
        cases ms with
        | nil => simp at hl'
        | cons m ms =>
          simp only [AllNames] at hd he
          have heq : lit "=" = ['='] := by decide
          rw [displayFields_cons, displayFields_cons, commas_cons, commas_cons] at h
          simp only [heq, List.append_assoc, List.singleton_append] at h
          have word : ∀ w : Str, FieldOk w → ∀ c ∈ w, (c != '=') = true := by
            intro w hw c hc
            simp only [bne_iff_ne]
            exact fun h => hw.1 (h ▸ hc)
          obtain ⟨e1, h3⟩ := split_at (· != '=') (word n (hn n (by simp))) (word m (hm m (by simp))) (by simp) (by simp) h
          simp only [List.cons_append, List.cons.injEq, true_and] at h3
          have tail : ∀ (l : List Str) (x : Str), After (match l with | [] => '}' :: x | _ => ',' :: ' ' :: (commas l ++ '}' :: x)) := by
            intro l x c hc
            cases l <;> simp at hc <;> subst hc <;> simp
          obtain ⟨e2, h4⟩ := display_read d e hd.1 he.1 (tail _ _) (tail _ _) h3
          have hlen : ∀ (ns : List Str) (ds : List DType), ns.length = ds.length → displayFields ns ds = [] → ns = [] ∧ ds = [] := by
            intro ns ds hl h0
            cases ds with
            | nil => exact ⟨List.eq_nil_of_length_eq_zero (by simpa using hl), rfl⟩
            | cons d ds => cases ns <;> simp [displayFields] at hl h0
          have hl : ns.length = ds.length := by simpa using hl
          have hl' : ms.length = es.length := by simpa using hl'
          cases h1 : displayFields ns ds with
          | nil =>
            obtain ⟨rfl, rfl⟩ := hlen _ _ hl h1
            cases h2 : displayFields ms es with
            | nil =>
              obtain ⟨rfl, rfl⟩ := hlen _ _ hl' h2
              simp only [displayFields, List.cons.injEq, true_and] at h4
              exact ⟨by rw [e1], by rw [e2], h4⟩
            | cons b l => rw [h2] at h4; simp [displayFields] at h4
          | cons a l =>
            cases h2 : displayFields ms es with
            | nil =>
              rw [h1, h2] at h4; simp at h4
            | cons b l' =>
              rw [h1, h2] at h4
              simp only [List.cons.injEq, true_and] at h4
              rw [← h1, ← h2] at h4
              obtain ⟨a1, a2, a3⟩ := fields_read ds es ns ms hl hl' (fun n hn' => hn n (by simp [hn'])) (fun n hn' => hm n (by simp [hn'])) hd.2 he.2 h4
              exact ⟨by rw [e1, a1], by rw [e2, a2], a3⟩
end

/-- **C113, `str`.** Types whose field names have no `=` and do not begin with `}`, and whose extension ids have no `,` and no `)`, and that
print alike are the same type. -/
theorem C113_str_determines_partial (d e : DType) (hd : Names FieldOk IdOk d) (he : Names FieldOk IdOk e) (h : display d = display e) : d = e :=
  (display_read d e hd he (x := []) (y := []) (by intro c hc; simp at hc) (by intro c hc; simp at hc) (by rw [h])).1

/-- A struct of two fields and a struct of one field whose name contains the text of the first. -/
theorem C113_names_confuse : ∃ d e : DType, d ≠ e ∧ display d = display e := by
  refine ⟨.struct ["a".toList, "b".toList] [.prim .i32 false, .utf8 false] false, .struct ["a=i32, b".toList] [.utf8 false] false, ?_, by decide⟩
  intro h
  injection h with h
  revert h; decide

/-- A field name that `repr` keeps apart: it has no quotation mark (it is not escaped). -/
def QuoteFree (n : Str) : Prop := '"' ∉ n

theorem reprFields_cons (n : Str) (ns : List Str) (d : DType) (ds : List DType) :
    reprFields (n :: ns) (d :: ds) = (lit "\"" ++ n ++ lit "\": " ++ repr d) :: reprFields ns ds := by rw [reprFields]

theorem reprFields_nil (ns : List Str) : reprFields ns [] = [] := by rw [reprFields]

theorem close_read {a b : Bool} {x y : Str} (h : truth a ++ ([')'] ++ x) = truth b ++ ([')'] ++ y)) : a = b ∧ x = y := by
  obtain ⟨e, h⟩ := truth_read h
  exact ⟨e, by simpa using h⟩

mutual
theorem repr_read : ∀ (d e : DType), Names QuoteFree (fun _ => True) d → Names QuoteFree (fun _ => True) e → ∀ {x y : Str},
    repr d ++ x = repr e ++ y → d = e ∧ x = y
  | d, e, hd, he, x, y, h => by
    rw [repr_parts, repr_parts, List.append_assoc, List.append_assoc, List.cons_append, List.cons_append] at h
    obtain ⟨hk, hb⟩ := split_at Char.isAlphanum (fword_alnum _) (fword_alnum _) (by simp) (by simp) h
    clear h
    have hk := fword_inj hk
    simp only [List.cons.injEq, true_and] at hb
    cases d with
    | null =>
      cases e with
      | null => exact ⟨rfl, by simpa [args] using hb⟩
      | prim p n => cases p <;> simp [fOf, PType.isFloat, PType.isSigned] at hk
      | _ => simp [fOf] at hk
    | bool n =>
      cases e with
      | bool m => obtain ⟨a, b⟩ := close_read (by simpa [args] using hb); exact ⟨by rw [a], b⟩
      | prim p n => cases p <;> simp [fOf, PType.isFloat, PType.isSigned] at hk
      | _ => simp [fOf] at hk
    | utf8 n =>
      cases e with
      | utf8 m => obtain ⟨a, b⟩ := close_read (by simpa [args] using hb); exact ⟨by rw [a], b⟩
      | prim p n => cases p <;> simp [fOf, PType.isFloat, PType.isSigned] at hk
      | _ => simp [fOf] at hk
    | binary n =>
      cases e with
      | binary m => obtain ⟨a, b⟩ := close_read (by simpa [args] using hb); exact ⟨by rw [a], b⟩
      | prim p n => cases p <;> simp [fOf, PType.isFloat, PType.isSigned] at hk
      | _ => simp [fOf] at hk
    | prim p n =>
      cases e with
      | prim q m =>
        simp only [args, List.append_assoc, List.cons_append] at hb
        obtain ⟨e1, h2⟩ := split_at Char.isAlphanum (fun z hz => toDigits_alnum (by omega) (by omega) hz)
          (fun z hz => toDigits_alnum (by omega) (by omega) hz) (by simp) (by simp) hb
        have e1 := toDigits_inj (by omega) (by omega) e1
        simp only [List.cons.injEq, true_and] at h2
        obtain ⟨a, b⟩ := close_read h2
        have e2 : p = q := by
          revert hk e1
          cases p <;> cases q <;> simp [fOf, PType.isFloat, PType.isSigned, PType.bits]
        exact ⟨by rw [a, e2], b⟩
      | _ => cases p <;> simp [fOf, PType.isFloat, PType.isSigned] at hk
    | struct ns ds n =>
      cases e with
      | struct ms es m =>
        simp only [Names] at hd he
        simp only [args, List.cons_append, List.append_assoc, List.cons.injEq, true_and] at hb
        obtain ⟨a, b, c⟩ := reprFields_read ds es ns ms hd.1 he.1 hd.2.1 he.2.1 hd.2.2 he.2.2 hb
        simp only [List.cons.injEq, true_and] at c
        obtain ⟨a', b'⟩ := close_read c
        exact ⟨by rw [a, b, a'], b'⟩
      | prim p n => cases p <;> simp [fOf, PType.isFloat, PType.isSigned] at hk
      | _ => simp [fOf] at hk
    | list f n =>
      cases e with
      | list g m =>
        simp only [Names] at hd he
        simp only [args, List.cons_append, List.append_assoc] at hb
        obtain ⟨a, b⟩ := repr_read f g hd he hb
        simp only [List.cons.injEq, true_and] at b
        obtain ⟨a', b'⟩ := close_read b
        exact ⟨by rw [a, a'], b'⟩
      | prim p n => cases p <;> simp [fOf, PType.isFloat, PType.isSigned] at hk
      | _ => simp [fOf] at hk
    | ext id md n =>
      cases e with
      | ext id' md' m =>
        simp only [args, List.cons_append, List.append_assoc, List.cons.injEq, true_and] at hb
        obtain ⟨a, b⟩ := tokens_read escapeChar escapeChar_read escapeChar_quote id id' hb
        simp only [List.cons.injEq, true_and] at b
        obtain ⟨a1, b1⟩ := reprMeta_read b
        simp only [List.cons.injEq, true_and] at b1
        obtain ⟨a', b'⟩ := close_read b1
        exact ⟨by rw [a, a1, a'], b'⟩
      | prim p n => cases p <;> simp [fOf, PType.isFloat, PType.isSigned] at hk
      | _ => simp [fOf] at hk
theorem reprFields_read : ∀ (ds es : List DType) (ns ms : List Str), ns.length = ds.length → ms.length = es.length →
    (∀ n ∈ ns, QuoteFree n) → (∀ n ∈ ms, QuoteFree n) → AllNames QuoteFree (fun _ => True) ds → AllNames QuoteFree (fun _ => True) es →
    ∀ {x y : Str}, commas (reprFields ns ds) ++ '}' :: x = commas (reprFields ms es) ++ '}' :: y → ns = ms ∧ ds = es ∧ x = y
  | [], es, ns, ms, hl, hl', hn, hm, _, _, x, y, h => by
    have e : ns = [] := List.eq_nil_of_length_eq_zero (by simpa using hl)
    subst e
    cases es with
    | nil =>
      have e : ms = [] := List.eq_nil_of_length_eq_zero (by simpa using hl')
      subst e
      exact ⟨rfl, rfl, by simpa [reprFields, commas] using h⟩
    | cons e es =>
      cases ms with
      | nil => simp at hl'
      | cons m ms =>
        rw [reprFields_cons, reprFields_nil, commas_cons] at h
        simp [commas, lit] at h
  | d :: ds, es, ns, ms, hl, hl', hn, hm, hd, he, x, y, h => by
    cases ns with
    | nil => simp at hl
    | cons n ns =>
      cases es with
      | nil =>
        have e : ms = [] := List.eq_nil_of_length_eq_zero (by simpa using hl')
        subst e
        rw [reprFields_cons, reprFields_nil, commas_cons] at h
        simp [commas, lit] at h
      | cons e es =>
        cases ms with
        | nil => simp at hl'
        | cons m ms =>
          simp only [AllNames] at hd he
          have hq : lit "\"" = ['"'] := by decide
          have hqc : lit "\": " = ['"', ':', ' '] := by decide
          rw [reprFields_cons, reprFields_cons, commas_cons, commas_cons] at h
          simp only [hq, hqc, List.append_assoc, List.cons_append, List.nil_append, List.cons.injEq, true_and] at h
          have word : ∀ w : Str, QuoteFree w → ∀ c ∈ w, (c != '"') = true := by
            intro w hw c hc
            simp only [bne_iff_ne]
            exact fun h => hw (h ▸ hc)
          obtain ⟨e1, h3⟩ := split_at (· != '"') (word n (hn n (by simp))) (word m (hm m (by simp))) (by simp) (by simp) h
          simp only [List.cons_append, List.cons.injEq, true_and] at h3
          obtain ⟨e2, h4⟩ := repr_read d e hd.1 he.1 h3
          have hlen : ∀ (ns : List Str) (ds : List DType), ns.length = ds.length → reprFields ns ds = [] → ns = [] ∧ ds = [] := by
            intro ns ds hl h0
            cases ds with
            | nil => exact ⟨List.eq_nil_of_length_eq_zero (by simpa using hl), rfl⟩
            | cons d ds => cases ns <;> simp [reprFields] at hl h0
          have hl : ns.length = ds.length := by simpa using hl
          have hl' : ms.length = es.length := by simpa using hl'
          cases h1 : reprFields ns ds with
          | nil =>
            obtain ⟨rfl, rfl⟩ := hlen _ _ hl h1
            cases h2 : reprFields ms es with
            | nil =>
              obtain ⟨rfl, rfl⟩ := hlen _ _ hl' h2
              simp only [reprFields, List.cons.injEq, true_and] at h4
              exact ⟨by rw [e1], by rw [e2], h4⟩
            | cons b l => rw [h2] at h4; simp [reprFields] at h4
          | cons a l =>
            cases h2 : reprFields ms es with
            | nil =>
              rw [h1, h2] at h4; simp at h4
            | cons b l' =>
              rw [h1, h2] at h4
              simp only [List.cons.injEq, true_and] at h4
              rw [← h1, ← h2] at h4
              obtain ⟨a1, a2, a3⟩ := reprFields_read ds es ns ms hl hl' (fun n hn' => hn n (by simp [hn'])) (fun n hn' => hm n (by simp [hn']))
                hd.2 he.2 h4
              exact ⟨by rw [e1, a1], by rw [e2, a2], a3⟩
end

/-- **C113, `repr`.** Types whose field names have no quotation mark and that are written alike are the same type; extension ids and metadata
may be anything. -/
theorem C113_repr_determines_partial (d e : DType) (hd : Names QuoteFree (fun _ => True) d) (he : Names QuoteFree (fun _ => True) e)
    (h : repr d = repr e) : d = e := (repr_read d e hd he (x := []) (y := []) (by rw [h])).1

/-- Field names are not escaped. -/
theorem C113_quotes_confuse : ∃ d e : DType, d ≠ e ∧ repr d = repr e := by
  refine ⟨.struct ["a".toList, "b".toList] [.utf8 false, .utf8 false] false, .struct ["a\": utf8(False), \"b".toList] [.utf8 false] false,
    ?_, by decide +kernel⟩
  intro h
  injection h with h
  revert h; decide

/-- **C113, `repr` is a call.** A type that is not a struct, a list or an extension is written as a call of a constructor that returns it. -/
theorem C113_repr_is_call (d : DType) (h : ∀ ns ds n, d ≠ .struct ns ds n) (h2 : ∀ e n, d ≠ .list e n) (h3 : ∀ i m n, d ≠ .ext i m n) :
    ∃ c : Call, repr d = (pyText c).toList ∧ construct c = .ok d := by
  cases d with
  | struct ns ds n => exact absurd rfl (h ns ds n)
  | list e n => exact absurd rfl (h2 e n)
  | ext i m n => exact absurd rfl (h3 i m n)
  | null => exact ⟨.null, by decide, rfl⟩
  | bool n => exact ⟨.bool n, by cases n <;> decide, rfl⟩
  | utf8 n => exact ⟨.utf8 n, by cases n <;> decide, rfl⟩
  | binary n => exact ⟨.binary n, by cases n <;> decide, rfl⟩
  | prim p n =>
    cases p with
    | u8 => exact ⟨.uint (some 8) n, by cases n <;> decide, rfl⟩
    | u16 => exact ⟨.uint (some 16) n, by cases n <;> decide, rfl⟩
    | u32 => exact ⟨.uint (some 32) n, by cases n <;> decide, rfl⟩
    | u64 => exact ⟨.uint (some 64) n, by cases n <;> decide, rfl⟩
    | i8 => exact ⟨.int (some 8) n, by cases n <;> decide, rfl⟩
    | i16 => exact ⟨.int (some 16) n, by cases n <;> decide, rfl⟩
    | i32 => exact ⟨.int (some 32) n, by cases n <;> decide, rfl⟩
    | i64 => exact ⟨.int (some 64) n, by cases n <;> decide, rfl⟩
    | f16 => exact ⟨.float (some 16) n, by cases n <;> decide, rfl⟩
    | f32 => exact ⟨.float (some 32) n, by cases n <;> decide, rfl⟩
    | f64 => exact ⟨.float (some 64) n, by cases n <;> decide, rfl⟩

/-- What the constructors do: the number type of that width, 64 bits by default; any other width is refused. -/
theorem C113_constructors (w : Option Nat) (n : Bool) :
    (construct (.int w n) = if w = none ∨ w = some 64 then .ok (.prim .i64 n) else if w = some 8 then .ok (.prim .i8 n)
      else if w = some 16 then .ok (.prim .i16 n) else if w = some 32 then .ok (.prim .i32 n) else .err) ∧
    (construct (.uint w n) = if w = none ∨ w = some 64 then .ok (.prim .u64 n) else if w = some 8 then .ok (.prim .u8 n)
      else if w = some 16 then .ok (.prim .u16 n) else if w = some 32 then .ok (.prim .u32 n) else .err) ∧
    (construct (.float w n) = if w = none ∨ w = some 64 then .ok (.prim .f64 n)
      else if w = some 16 then .ok (.prim .f16 n) else if w = some 32 then .ok (.prim .f32 n) else .err) := by
  cases w with
  | none => exact ⟨rfl, rfl, rfl⟩
  | some w =>
    by_cases h8 : w = 8
    · subst h8; exact ⟨rfl, rfl, rfl⟩
    by_cases h16 : w = 16
    · subst h16; exact ⟨rfl, rfl, rfl⟩
    by_cases h32 : w = 32
    · subst h32; exact ⟨rfl, rfl, rfl⟩
    by_cases h64 : w = 64
    · subst h64; exact ⟨rfl, rfl, rfl⟩
    simp [construct, h8, h16, h32, h64]

/-- The text of an extension type quotes the id twice: it is not the text of any Python call. -/
theorem C113_extension_quoted_twice : repr (.ext "vortex.date".toList (some [4]) true) = "ext(\"\"vortex.date\"\", \"\\x04\", True)".toList := by
  decide

/-! ## The hypotheses are met -/

/-- A table with nested structs, lists and an extension column. -/
def demoType : DType := .struct ["id".toList, "tags".toList, "at".toList]
  [.prim .u64 false, .list (.struct [] [] true) true, .ext "vortex.timestamp".toList (some [2, 3, 0, 85, 84, 67]) true] false

example : display demoType = "{id=u64, tags=list({}?)?, at=ext(vortex.timestamp, ExtMetadata([2, 3, 0, 85, 84, 67]))?}".toList := by decide +kernel
example : repr demoType =
    "struct({\"id\": uint(64, False), \"tags\": list(struct({}, True), True), \"at\": ext(\"\"vortex.timestamp\"\", \"\\x02\\x03\\x00UTC\", True)}, False)".toList := by
  decide +kernel
example : Names FieldOk IdOk demoType := by
  simp only [demoType, Names, AllNames, FieldOk, IdOk]
  decide
example : Names QuoteFree (fun _ => True) demoType := by
  simp only [demoType, Names, AllNames, QuoteFree]
  decide

end Vx.DTypeText
