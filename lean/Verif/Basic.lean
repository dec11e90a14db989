/-!
# Outcomes of a vortex call

`VortexResult<T>` plus the possibility of a panic. Every fallible or partial Rust function of the model returns a `Res`.
-/

namespace Vx

/-- Outcome of a call: a value, a `VortexError` (vortex-error/src/lib.rs; payload and backtrace are not modelled), or a panic
(out-of-bounds indexing, unsigned underflow, `unwrap`/`expect` on `None`/`Err`, `unreachable!`, `todo!`). -/
inductive Res (α : Type u) where
  | ok (a : α)
  | err
  | panic
  deriving DecidableEq, Repr

namespace Res

/-- The `?` operator. -/
protected def bind : Res α → (α → Res β) → Res β
  | ok a, f => f a
  | err, _ => err
  | panic, _ => panic

instance : Monad Res where
  pure := ok
  bind := Res.bind

@[simp] theorem pure_eq (a : α) : (pure a : Res α) = ok a := rfl
@[simp] theorem ok_bind (a : α) (f : α → Res β) : (ok a >>= f) = f a := rfl
@[simp] theorem err_bind (f : α → Res β) : ((err : Res α) >>= f) = err := rfl
@[simp] theorem panic_bind (f : α → Res β) : ((panic : Res α) >>= f) = panic := rfl
@[simp] theorem ok_map (a : α) (f : α → β) : f <$> (ok a) = ok (f a) := rfl
@[simp] theorem err_map (f : α → β) : f <$> (err : Res α) = err := rfl
@[simp] theorem panic_map (f : α → β) : f <$> (panic : Res α) = panic := rfl

instance : LawfulMonad Res := LawfulMonad.mk'
  (id_map := by intro α x; cases x <;> rfl)
  (pure_bind := by intros; rfl)
  (bind_assoc := by intro α β γ x f g; cases x <;> rfl)

/-- An `Option` produced by a checked accessor whose `None` is turned into an error (`ok_or_else`). -/
def ofOption : Option α → Res α
  | some a => ok a
  | none => err

/-- An `Option` that the code unwraps, or an unchecked index. -/
def unwrap : Option α → Res α
  | some a => ok a
  | none => panic

@[simp] theorem ofOption_some (a : α) : ofOption (some a) = ok a := rfl
@[simp] theorem ofOption_none : ofOption (none : Option α) = err := rfl
@[simp] theorem unwrap_some (a : α) : unwrap (some a) = ok a := rfl
@[simp] theorem unwrap_none : unwrap (none : Option α) = panic := rfl

/-- Does the call panic? -/
def isPanic : Res α → Bool
  | panic => true
  | _ => false

def isOk : Res α → Bool
  | ok _ => true
  | _ => false

@[simp] theorem isPanic_ok (a : α) : (ok a).isPanic = false := rfl
@[simp] theorem isPanic_err : (err : Res α).isPanic = false := rfl

theorem bind_eq_ok {x : Res α} {f : α → Res β} {b : β} :
    (x >>= f) = ok b ↔ ∃ a, x = ok a ∧ f a = ok b := by
  cases x <;> simp

/-- Unsigned subtraction; an underflow is a panic (`attempt to subtract with overflow`). -/
def sub (a b : Nat) : Res Nat := if b ≤ a then ok (a - b) else panic

theorem sub_of_le {a b : Nat} (h : b ≤ a) : sub a b = ok (a - b) := by simp [sub, h]

/-- `vortex_bail!` unless the condition holds. -/
def guard (c : Bool) : Res Unit := if c then ok () else err

/-- `assert!`. -/
def assert (c : Bool) : Res Unit := if c then ok () else panic

/-- Map a fallible function over a list, stopping at the first failure (`try_collect`). -/
def mapM (f : α → Res β) : List α → Res (List β)
  | [] => ok []
  | a :: as => do
    let b ← f a
    let bs ← Res.mapM f as
    ok (b :: bs)

@[simp] theorem mapM_nil (f : α → Res β) : Res.mapM f [] = ok [] := rfl
@[simp] theorem mapM_cons (f : α → Res β) (a : α) (as : List α) :
    Res.mapM f (a :: as) = (do let b ← f a; let bs ← Res.mapM f as; ok (b :: bs)) := rfl

theorem mapM_ok {f : α → Res β} {g : α → β} {as : List α} (h : ∀ a ∈ as, f a = ok (g a)) :
    Res.mapM f as = ok (as.map g) := by
  induction as with
  | nil => rfl
  | cons a as ih =>
    have h1 := h a (by simp)
    have h2 := ih (fun b hb => h b (by simp [hb]))
    simp [h1, h2]

theorem mapM_congr {f g : α → Res β} {as : List α} (h : ∀ a ∈ as, f a = g a) :
    Res.mapM f as = Res.mapM g as := by
  induction as with
  | nil => rfl
  | cons a as ih =>
    simp [h a (by simp), ih (fun b hb => h b (by simp [hb]))]

theorem mapM_append {f : α → Res β} {as bs : List α} {xs ys : List β}
    (h1 : Res.mapM f as = ok xs) (h2 : Res.mapM f bs = ok ys) : Res.mapM f (as ++ bs) = ok (xs ++ ys) := by
  induction as generalizing xs with
  | nil => simp at h1; subst h1; simpa
  | cons a as ih =>
    simp [bind_eq_ok] at h1
    obtain ⟨b, hb, cs, hcs, rfl⟩ := h1
    simp [hb, ih hcs]

theorem mapM_eq_ok_length {f : α → Res β} {as : List α} {bs : List β} (h : Res.mapM f as = ok bs) :
    bs.length = as.length := by
  induction as generalizing bs with
  | nil => simp at h; subst h; rfl
  | cons a as ih =>
    simp [bind_eq_ok] at h
    obtain ⟨b, _, cs, hcs, rfl⟩ := h
    simp [ih hcs]

theorem mapM_eq_ok_getElem? {f : α → Res β} {as : List α} {bs : List β} (h : Res.mapM f as = ok bs)
    {i : Nat} {a : α} (hi : as[i]? = some a) : ∃ b, bs[i]? = some b ∧ f a = ok b := by
  induction as generalizing bs i with
  | nil => simp at hi
  | cons a' as ih =>
    simp [bind_eq_ok] at h
    obtain ⟨b, hb, cs, hcs, rfl⟩ := h
    cases i with
    | zero => simp at hi; subst hi; exact ⟨b, by simp, hb⟩
    | succ i => simp at hi; simpa using ih hcs hi

end Res

/-- Checked list indexing: out of bounds is a panic (`xs[i]`). -/
def idx (xs : List α) (i : Nat) : Res α := Res.unwrap xs[i]?

theorem idx_lt {xs : List α} {i : Nat} (h : i < xs.length) : idx xs i = .ok xs[i] := by
  simp [idx, List.getElem?_eq_getElem h]

end Vx
