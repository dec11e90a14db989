import Verif.Model.Display
import Verif.Spec.Display
/-! # Lemmas on printing -/
namespace Vx.Display

theorem digit_toNat {d : Nat} (h : d < 36) : (digit d).toNat = if d < 10 then 48 + d else 87 + d := by
  unfold digit
  split <;> rw [UInt8.toNat_ofNat'] <;> omega

theorem digit_inj {a b : Nat} (ha : a < 36) (hb : b < 36) (h : digit a = digit b) : a = b := by
  have := congrArg UInt8.toNat h
  rw [digit_toNat ha, digit_toNat hb] at this
  split at this <;> split at this <;> omega

/-- A digit is neither punctuation nor one of the letters of "null". -/
theorem digit_class {d : Nat} (h : d < 16) : let c := digit d; c ≠ 44 ∧ c ≠ 45 ∧ c ≠ 58 ∧ c ≠ 125 ∧ c ≠ 123 ∧ c ≠ 110 := by
  have e := digit_toNat (d := d) (by omega)
  refine ⟨?_, ?_, ?_, ?_, ?_, ?_⟩ <;> intro hc <;> rw [hc] at e <;> revert e <;> split <;> intro e <;> simp at e <;> omega

theorem digitsGo_mem {b : Nat} (hb : 2 ≤ b) : ∀ f n c, c ∈ digitsGo b f n → ∃ d, d < b ∧ c = digit d
  | 0, _, _, h => by simp [digitsGo] at h
  | f + 1, n, c, h => by
    unfold digitsGo at h
    split at h
    · rename_i hn
      exact ⟨n, hn, by simpa using h⟩
    · rw [List.mem_append] at h
      rcases h with h | h
      · exact digitsGo_mem hb f _ c h
      · exact ⟨n % b, Nat.mod_lt _ (by omega), by simpa using h⟩

theorem digits_mem {b n : Nat} (hb : 2 ≤ b) {c : UInt8} (h : c ∈ digits b n) : ∃ d, d < b ∧ c = digit d := digitsGo_mem hb _ _ _ h

/-- The number a run of digits stands for. -/
def val (b : Nat) (l : Out) : Nat := l.foldl (fun a c => a * b + (if c.toNat < 58 then c.toNat - 48 else c.toNat - 87)) 0

theorem val_snoc (b : Nat) (l : Out) {d : Nat} (h : d < 36) : val b (l ++ [digit d]) = val b l * b + d := by
  unfold val
  rw [List.foldl_append]
  simp only [List.foldl_cons, List.foldl_nil, digit_toNat h]
  congr 1
  split <;> split <;> omega

theorem val_digitsGo {b : Nat} (hb : 2 ≤ b) (hb2 : b ≤ 36) : ∀ f n, n < f → val b (digitsGo b f n) = n
  | 0, n, h => absurd h (Nat.not_lt_zero _)
  | f + 1, n, h => by
    unfold digitsGo
    split
    · rename_i hn
      have := val_snoc b [] (d := n) (by omega)
      simpa [val] using this
    · rename_i hn
      have hlt : n / b < n := Nat.div_lt_self (by omega) (by omega)
      rw [val_snoc b _ (Nat.lt_of_lt_of_le (Nat.mod_lt _ (by omega)) hb2), val_digitsGo hb hb2 f _ (by omega)]
      have := Nat.div_add_mod n b
      rw [Nat.mul_comm] at this
      exact this

theorem digits_inj {b : Nat} (hb : 2 ≤ b) (hb2 : b ≤ 36) {m n : Nat} (h : digits b m = digits b n) : m = n := by
  have := congrArg (val b) h
  unfold digits at this
  rwa [val_digitsGo hb hb2 _ _ (by omega), val_digitsGo hb hb2 _ _ (by omega)] at this

theorem digits_ne_nil (b n : Nat) : digits b n ≠ [] := by
  unfold digits digitsGo
  split <;> simp

theorem int_inj {i j : Int} (h : int i = int j) : i = j := by
  have key : ∀ m n, asc "-" ++ digits 10 m ≠ digits 10 n := by
    intro m n hc
    have hm : (45 : UInt8) ∈ digits 10 n := by rw [← hc]; simp [asc]
    obtain ⟨d, hd, e⟩ := digits_mem (by omega) hm
    exact (digit_class (d := d) (by omega)).2.1 e.symm
  unfold int at h
  split at h <;> split at h
  · have := digits_inj (by omega) (by omega) (List.append_cancel_left h)
    omega
  · exact absurd h (key _ _)
  · exact absurd h.symm (key _ _)
  · have := digits_inj (by omega) (by omega) h
    omega

theorem toInt_inj {p : PType} {a b : BitVec p.bits} (h : PValue.toInt ⟨p, a⟩ = PValue.toInt ⟨p, b⟩) : a = b := by
  unfold PValue.toInt at h
  simp only at h
  split at h
  · exact BitVec.eq_of_toInt_eq h
  · exact BitVec.eq_of_toNat_eq (by exact_mod_cast h)

/-- Text that a struct's punctuation cannot be mistaken for: no colon and no closing brace. -/
def Quiet (l : Out) : Prop := ∀ c ∈ l, c ≠ 58 ∧ c ≠ 125

theorem quiet_append {a b : Out} (ha : Quiet a) (hb : Quiet b) : Quiet (a ++ b) := by
  intro c hc
  rcases List.mem_append.mp hc with h | h
  · exact ha c h
  · exact hb c h

theorem quiet_digits {b n : Nat} (hb : 2 ≤ b) (h16 : b ≤ 16) : Quiet (digits b n) := by
  intro c hc
  obtain ⟨d, hd, rfl⟩ := digits_mem hb hc
  have := digit_class (d := d) (by omega)
  exact ⟨this.2.2.1, this.2.2.2.1⟩

theorem quiet_int (i : Int) : Quiet (int i) := by
  unfold int
  split
  · exact quiet_append (by unfold Quiet; decide) (quiet_digits (by omega) (by omega))
  · exact quiet_digits (by omega) (by omega)

theorem quiet_join {l : List Out} (h : ∀ a ∈ l, Quiet a) : Quiet (join (asc ",") l) := by
  induction l with
  | nil => intro c hc; simp [join] at hc
  | cons a l ih =>
    cases l with
    | nil => simpa [join] using h a (by simp)
    | cons b l =>
      unfold join
      exact quiet_append (quiet_append (h a (by simp)) (by unfold Quiet; decide)) (ih (fun x hx => h x (by simp [hx])))

theorem quiet_suffix (p : PType) : Quiet (asc (suffix p)) := by cases p <;> (unfold Quiet; decide)

theorem quiet_pvalue {E : Env} (hE : Spec.FloatText E.float) (p : PValue) : Quiet (pvalue E p) := by
  unfold pvalue
  refine quiet_append ?_ (quiet_suffix _)
  split
  · intro c hc
    have := hE.plain _ _ c hc
    constructor <;> rintro rfl <;> revert this <;> decide
  · exact quiet_int _

theorem pvalue_inj {E : Env} (hE : Spec.FloatText E.float) {p q : PValue} (hpt : p.pt = q.pt) (hp : Spec.isNaN p = false)
    (h : pvalue E p = pvalue E q) : p = q := by
  obtain ⟨pt, a⟩ := p
  obtain ⟨qt, b⟩ := q
  simp only at hpt
  subst hpt
  unfold pvalue at h
  simp only at h
  have h := List.append_cancel_right h
  split at h
  · rename_i hf
    rcases hE.inj _ _ _ hf h with rfl | h2
    · rfl
    · rw [hp] at h2; simp at h2
  · rw [toInt_inj (int_inj h)]

/-- No number prints as "null". -/
theorem pvalue_ne_null (E : Env) (p : PValue) : pvalue E p ≠ asc "null" := by
  intro h
  unfold pvalue at h
  have hl := congrArg List.getLast? h
  obtain ⟨pt, b⟩ := p
  cases pt <;> simp [asc, suffix] at hl

theorem takeWhile_stop {α : Type} (f : α → Bool) {s : List α} (hs : ∀ c ∈ s, f c = true) {c : α} (hc : f c = false) (r : List α) :
    (s ++ c :: r).takeWhile f = s := by
  induction s with
  | nil => simp [hc]
  | cons a s ih =>
    simp only [List.cons_append, List.takeWhile_cons, hs a (by simp), if_true]
    rw [ih (fun c h => hs c (by simp [h]))]

/-- Bytes joined by commas determine the bytes. -/
theorem hexlist_inj : ∀ (a b : List UInt8),
    join (asc ",") (a.map (fun x => digits 16 x.toNat)) = join (asc ",") (b.map (fun x => digits 16 x.toNat)) → a = b := by
  have hne : ∀ (x : UInt8) l, join (asc ",") (digits 16 x.toNat :: l) ≠ [] := by
    intro x l
    cases l <;> simp [join, digits_ne_nil]
  have hd : ∀ (x : UInt8), ∀ c ∈ digits 16 x.toNat, (c != 44) = true := by
    intro x c hc
    obtain ⟨d, hd, rfl⟩ := digits_mem (by omega) hc
    simpa using (digit_class (d := d) hd).1
  have h1 : ∀ (x y : UInt8), digits 16 x.toNat = digits 16 y.toNat → x = y := by
    intro x y h
    exact UInt8.toNat_inj.mp (digits_inj (by omega) (by omega) h)
  have hc : asc "," = [44] := by decide
  intro a
  induction a with
  | nil =>
    intro b h
    cases b with
    | nil => rfl
    | cons y b => exact absurd h.symm (hne y _)
  | cons x a ih =>
    intro b h
    cases b with
    | nil => exact absurd h (hne x _)
    | cons y b =>
      have one : ∀ (x : UInt8) (y z : UInt8) (l : List UInt8),
          join (asc ",") ((x :: []).map (fun x => digits 16 x.toNat)) ≠ join (asc ",") ((y :: z :: l).map (fun x => digits 16 x.toNat)) := by
        intro x y z l h
        have : (44 : UInt8) ∈ digits 16 x.toNat := by
          have e : join (asc ",") ([x].map (fun x => digits 16 x.toNat)) = digits 16 x.toNat := rfl
          rw [← e, h]
          simp [join, hc]
        simpa using hd x 44 this
      cases a with
      | nil =>
        cases b with
        | nil => rw [h1 x y h]
        | cons z b => exact absurd h (one x y z b)
      | cons w a =>
        cases b with
        | nil => exact absurd h.symm (one y x w a)
        | cons z b =>
          simp only [List.map_cons, join, hc, List.append_assoc, List.singleton_append] at h
          have ht := congrArg (List.takeWhile (fun c => c != 44)) h
          rw [takeWhile_stop _ (hd x) (by decide), takeWhile_stop _ (hd y) (by decide)] at ht
          rw [ht] at h
          have h := List.append_cancel_left h
          simp only [List.cons.injEq, true_and] at h
          rw [h1 x y ht, ih (z :: b) (by simpa only [List.map_cons, hc] using h)]

theorem hexlist_ne_null (a : List UInt8) : join (asc ",") (a.map (fun x => digits 16 x.toNat)) ≠ asc "null" := by
  intro h
  have hm : (110 : UInt8) ∈ join (asc ",") (a.map (fun x => digits 16 x.toNat)) := by rw [h]; decide
  clear h
  induction a with
  | nil => simp [join] at hm
  | cons x a ih =>
    have hx : (110 : UInt8) ∉ digits 16 x.toNat := by
      intro hc
      obtain ⟨d, hd, e⟩ := digits_mem (by omega) hc
      exact (digit_class (d := d) hd).2.2.2.2.2 e.symm
    cases a with
    | nil => exact hx hm
    | cons y a =>
      simp only [List.map_cons, join, List.mem_append] at hm
      rcases hm with (h | h) | h
      · exact hx h
      · revert h; decide
      · exact ih h

/-- What can follow the text of a field: nothing, the closing brace, or a comma and the next field's name and colon. -/
def Stop (x y : Out) : Prop :=
  (x = [] ∧ y = []) ∨ (∃ r r', x = 125 :: r ∧ y = 125 :: r') ∨ (∃ m r r', x = 44 :: (m ++ 58 :: r) ∧ y = 44 :: (m ++ 58 :: r'))

theorem takeWhile_colon (m r r' : Out) : (m ++ 58 :: r).takeWhile (· != 58) = (m ++ 58 :: r').takeWhile (· != 58) := by
  induction m with
  | nil => simp
  | cons a m ih => simp only [List.cons_append, List.takeWhile_cons, ih]

theorem quiet_stop {s t x y : Out} (hs : Quiet s) (ht : Quiet t) (hx : Stop x y) (h : s ++ x = t ++ y) : s = t := by
  rcases hx with ⟨rfl, rfl⟩ | ⟨r, r', rfl, rfl⟩ | ⟨m, r, r', rfl, rfl⟩
  · simpa using h
  · have := congrArg (List.takeWhile (· != 125)) h
    rwa [takeWhile_stop _ (fun c hc => by simpa using (hs c hc).2) (by decide),
      takeWhile_stop _ (fun c hc => by simpa using (ht c hc).2) (by decide)] at this
  · have := congrArg (List.takeWhile (· != 58)) h
    have all : ∀ s : Out, Quiet s → ∀ z : Out, (s ++ z).takeWhile (· != 58) = s ++ z.takeWhile (· != 58) := by
      intro s hs z
      induction s with
      | nil => rfl
      | cons a s ih =>
        have ha : (a != 58) = true := by simpa using (hs a (by simp)).1
        simp only [List.cons_append, List.takeWhile_cons, ha, if_true]
        rw [ih (fun c hc => hs c (by simp [hc]))]
    rw [all s hs, all t ht] at this
    simp only [List.takeWhile_cons] at this
    rw [takeWhile_colon m r r'] at this
    exact List.append_cancel_right this

end Vx.Display
namespace Vx.Display

theorem core_eq {b : Nat} (hb : 2 ≤ b) (hb2 : b ≤ 16) : ∀ f n acc, n < f →
    (Nat.toDigitsCore b f n acc).map (fun c => UInt8.ofNat c.toNat) = digitsGo b f n ++ acc.map (fun c => UInt8.ofNat c.toNat)
  | 0, n, acc, h => absurd h (Nat.not_lt_zero _)
  | f + 1, n, acc, h => by
    have dc : ∀ d, d < 16 → UInt8.ofNat (Nat.digitChar d).toNat = digit d := by decide
    unfold Nat.toDigitsCore digitsGo
    by_cases hn : n < b
    · simp only [Nat.div_eq_of_lt hn, if_true, List.map_cons, Nat.mod_eq_of_lt hn, dc n (by omega), if_pos hn, List.singleton_append]
    · have h0 : ¬ (n / b = 0) := by
        rw [Nat.div_eq_zero_iff]; omega
      have hlt : n / b < n := Nat.div_lt_self (by omega) (by omega)
      simp only [h0, if_false, if_neg hn]
      rw [core_eq hb hb2 f _ _ (by omega)]
      simp [dc (n % b) (Nat.lt_of_lt_of_le (Nat.mod_lt _ (by omega)) hb2)]

theorem digits_eq {b : Nat} (hb : 2 ≤ b) (hb2 : b ≤ 16) (n : Nat) : digits b n = (Nat.toDigits b n).map (fun c => UInt8.ofNat c.toNat) := by
  unfold Nat.toDigits digits
  rw [core_eq hb hb2 _ _ _ (by omega)]
  simp

theorem digits_ten (n : Nat) : digits 10 n = Spec.text (toString n) := by
  rw [digits_eq (by omega) (by omega)]
  show _ = Spec.text (Nat.repr n)
  simp [Spec.text, Nat.repr]

theorem int_text (i : Int) : int i = Spec.text (toString i) := by
  unfold int
  cases i with
  | ofNat n =>
    rw [if_neg (by simp)]
    exact digits_ten n
  | negSucc n =>
    rw [if_pos (Int.negSucc_lt_zero n)]
    show asc "-" ++ digits 10 (n + 1) = Spec.text ("-" ++ Nat.repr (n + 1))
    rw [digits_ten]
    show _ ++ Spec.text (Nat.repr (n + 1)) = _
    simp [Spec.text, asc]

end Vx.Display
