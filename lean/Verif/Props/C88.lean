import Verif.Model.StatsCache
import Verif.Props.C87
/-!
# C88: the statistics cache under concurrency
-/
namespace Vx.StatsCache
open Vx.StoredStats (Stat)

variable {C K V : Type} {O : Ops C K V} {G : Nat → K → Prog C K V}

/-! ### Locks -/

/-- The write locks a thread holds, and the read locks. -/
def wheld : Thread C K V → List Nat
  | .run _ lock frames => (lock.map (·.1)).toList ++ heldBy frames
  | .call (.putting n _ _) frames => n :: heldBy frames
  | .call _ frames => heldBy frames
  | .dead => []

def isReading (n : Nat) : Thread C K V → Bool
  | .call (.reading m _) _ => m == n
  | _ => false

@[simp] theorem upd_same (f : Nat → β) (n : Nat) (x : β) : upd f n x n = x := by simp [upd]
theorem upd_other (f : Nat → β) {n m : Nat} (x : β) (h : m ≠ n) : upd f n x m = f m := by simp [upd, h]

theorem setLock_locks (sh : Shared C K V) (n : Nat) (f : Lock → Lock) (m : Nat) :
    (sh.setLock n f).locks m = if m = n then f (sh.locks m) else sh.locks m := by
  by_cases h : m = n
  · subst h; simp [Shared.setLock]
  · simp [Shared.setLock, upd, h]

theorem unwind_maps (held : List Nat) (sh : Shared C K V) : (unwind sh held).maps = sh.maps ∧ (unwind sh held).log = sh.log := by
  induction held generalizing sh with
  | nil => exact ⟨rfl, rfl⟩
  | cons n ns ih => exact ih (sh.setLock n poison)

theorem unwind_locks (held : List Nat) (sh : Shared C K V) (m : Nat) :
    (unwind sh held).locks m = if m ∈ held then poison (sh.locks m) else sh.locks m := by
  induction held generalizing sh with
  | nil => rfl
  | cons n ns ih =>
    show (unwind (sh.setLock n poison) ns).locks m = _
    rw [ih, setLock_locks]
    by_cases h1 : m = n <;> by_cases h2 : m ∈ ns <;> simp [h1, h2, poison]
    all_goals (subst h1; simp_all)

/-- A held lock has a holder, a read lock its readers. -/
def Held (s : State C K V) : Prop :=
  (∀ n, (s.sh.locks n).writer = true → ∃ t ∈ s.threads, n ∈ wheld t) ∧
  (∀ n, (s.sh.locks n).readers ≤ s.threads.countP (isReading n))

/-! ### Order of the locks -/

/-- A computation only asks arrays built before `m`. -/
def Below (m : Nat) : Prog C K V → Prop
  | .ret _ => True
  | .ask op cont => op.node < m ∧ ∀ a, Below m (cont a)

/-- Callers run under locks of ever later arrays; the outermost is a client. -/
def Chain : Nat → List (Frame C K V) → Prop
  | _, [] => False
  | n, f :: rest => match f.lock with
    | none => rest = []
    | some (m, _) => n < m ∧ (∀ a, Below m (f.cont a)) ∧ Chain m rest

def TOk : Thread C K V → Prop
  | .run _ none frames => frames = []
  | .run p (some (n, _)) frames => Below n p ∧ Chain n frames
  | .call c frames => Chain c.node frames
  | .dead => True

theorem Chain.lt {frames : List (Frame C K V)} : ∀ {n : Nat}, Chain n frames → ∀ m ∈ heldBy frames, n < m := by
  induction frames with
  | nil => intro n h; cases h
  | cons f rest ih =>
    intro n h m hm
    obtain ⟨cont, lock⟩ := f
    cases lock with
    | none =>
      have : rest = [] := h
      subst this
      simp [heldBy] at hm
    | some mk =>
      obtain ⟨h1, _, h3⟩ : n < mk.1 ∧ _ ∧ Chain mk.1 rest := h
      simp only [heldBy, List.filterMap_cons, Option.map_some, List.mem_cons] at hm
      rcases hm with rfl | hm
      · exact h1
      · exact Nat.lt_trans h1 (ih h3 m hm)

theorem resume_ok {n : Nat} {frames : List (Frame C K V)} (h : Chain n frames) (a : Ans C V) : TOk (resume frames a) := by
  cases frames with
  | nil => cases h
  | cons f rest =>
    obtain ⟨cont, lock⟩ := f
    cases lock with
    | none => exact h
    | some mk => exact ⟨h.2.1 a, h.2.2⟩

theorem start_node (op : Op K V) : (op.start).node = op.node := by cases op <;> rfl

theorem tstep_ok (hG : ∀ n k, Below n (G n k)) {sh sh' : Shared C K V} {t t' : Thread C K V} (h : tstep O G sh t = some (sh', t'))
    (ht : TOk t) : TOk t' := by
  cases t with
  | dead => cases h
  | run p lock frames =>
    cases p with
    | ask op cont =>
      simp only [tstep, Option.some.injEq, Prod.mk.injEq] at h
      rw [← h.2]
      cases lock with
      | none =>
        have : frames = [] := ht
        subst this
        simp only [TOk, start_node, Chain]
      | some nk =>
        obtain ⟨⟨h1, h2⟩, h3⟩ := ht
        simp only [TOk, start_node, Chain]
        exact ⟨h1, h2, h3⟩
    | ret r =>
      cases lock with
      | none => cases h
      | some nk =>
        obtain ⟨n, k⟩ := nk
        cases r with
        | ok c =>
          simp only [tstep, Option.some.injEq, Prod.mk.injEq] at h
          rw [← h.2]; exact ht.2
        | err =>
          simp only [tstep, Option.some.injEq, Prod.mk.injEq] at h
          rw [← h.2]; exact resume_ok ht.2 _
        | panic =>
          simp only [tstep, Option.some.injEq, Prod.mk.injEq] at h
          rw [← h.2]; trivial
  | call c frames =>
    have hc : Chain c.node frames := ht
    cases c with
    | read n p =>
      simp only [tstep] at h
      split at h
      · cases h
      · split at h <;> simp only [Option.some.injEq, Prod.mk.injEq] at h <;> rw [← h.2]
        · trivial
        · exact hc
    | reading n p =>
      cases p with
      | first k =>
        simp only [tstep] at h
        split at h <;> simp only [Option.some.injEq, Prod.mk.injEq] at h <;> rw [← h.2]
        · exact resume_ok hc _
        · exact hc
      | _ =>
        simp only [tstep, Option.some.injEq, Prod.mk.injEq] at h
        rw [← h.2]; exact resume_ok hc _
    | write n k =>
      simp only [tstep] at h
      split at h
      · cases h
      · split at h <;> simp only [Option.some.injEq, Prod.mk.injEq] at h <;> rw [← h.2]
        · trivial
        · exact ⟨hG n k, hc⟩
    | put n k v =>
      simp only [tstep] at h
      split at h
      · cases h
      · split at h <;> simp only [Option.some.injEq, Prod.mk.injEq] at h <;> rw [← h.2]
        · trivial
        · exact hc
    | putting n k v =>
      simp only [tstep, Option.some.injEq, Prod.mk.injEq] at h
      rw [← h.2]; exact resume_ok hc _

theorem wheld_resume (frames : List (Frame C K V)) (a : Ans C V) : wheld (resume frames a) = heldBy frames := by
  cases frames with
  | nil => rfl
  | cons f rest => obtain ⟨cont, lock⟩ := f; cases lock <;> rfl

theorem reading_resume (n : Nat) (frames : List (Frame C K V)) (a : Ans C V) : isReading n (resume frames a) = false := by
  cases frames <;> rfl

/-- One step: what happens to the flags of the locks. -/
theorem tstep_locks {sh sh' : Shared C K V} {t t' : Thread C K V} (h : tstep O G sh t = some (sh', t')) (ht : TOk t) (m : Nat) :
    ((sh'.locks m).writer = true → m ∈ wheld t' ∨ ((sh.locks m).writer = true ∧ m ∉ wheld t)) ∧
    (sh'.locks m).readers = (sh.locks m).readers - (isReading m t).toNat + (isReading m t').toNat := by
  have same : ∀ {l : List Nat}, (sh.locks m).writer = true → m ∈ l ∨ ((sh.locks m).writer = true ∧ m ∉ l) := by
    intro l hw
    by_cases hm : m ∈ l
    · exact .inl hm
    · exact .inr ⟨hw, hm⟩
  have crash : ∀ (held : List Nat), ((unwind sh held).locks m).writer = true → (sh.locks m).writer = true ∧ m ∉ held := by
    intro held hw
    rw [unwind_locks] at hw
    by_cases hm : m ∈ held
    · simp [hm, poison] at hw
    · simp only [hm, if_false] at hw; exact ⟨hw, hm⟩
  have crashR : ∀ (held : List Nat), ((unwind sh held).locks m).readers = (sh.locks m).readers := by
    intro held; rw [unwind_locks]; split <;> rfl
  cases t with
  | dead => cases h
  | run p lock frames =>
    cases p with
    | ask op cont =>
      simp only [tstep, Option.some.injEq, Prod.mk.injEq] at h
      obtain ⟨rfl, rfl⟩ := h
      have e : wheld (.call op.start (⟨cont, lock⟩ :: frames)) = wheld (.run (.ask op cont) lock frames) := by
        cases op <;> cases lock <;> rfl
      refine ⟨fun hw => by rw [e]; exact same hw, ?_⟩
      cases op <;> rfl
    | ret r =>
      cases lock with
      | none => cases h
      | some nk =>
        obtain ⟨n, k⟩ := nk
        cases r with
        | ok c =>
          simp only [tstep, Option.some.injEq, Prod.mk.injEq] at h
          obtain ⟨rfl, rfl⟩ := h
          simp only [setLock_locks, wheld, isReading]
          by_cases hm : m = n
          · subst hm; simp [Shared.setMap]
          · simp only [hm, if_false]
            refine ⟨fun hw => ?_, rfl⟩
            rcases same (l := heldBy frames) hw with h | h
            · exact .inl h
            · exact .inr ⟨h.1, by simpa [hm] using h.2⟩
        | err =>
          simp only [tstep, Option.some.injEq, Prod.mk.injEq] at h
          obtain ⟨rfl, rfl⟩ := h
          rw [wheld_resume, reading_resume]
          simp only [Shared.answer, setLock_locks, wheld, isReading]
          by_cases hm : m = n
          · subst hm; simp
          · simp only [hm, if_false]
            refine ⟨fun hw => ?_, rfl⟩
            rcases same (l := heldBy frames) hw with h | h
            · exact .inl h
            · exact .inr ⟨h.1, by simpa [hm] using h.2⟩
        | panic =>
          simp only [tstep, Option.some.injEq, Prod.mk.injEq] at h
          obtain ⟨rfl, rfl⟩ := h
          exact ⟨fun hw => .inr (by simpa [wheld] using crash _ hw), by rw [crashR]; rfl⟩
  | call c frames =>
    have hc : Chain c.node frames := ht
    cases c with
    | read n p =>
      simp only [tstep] at h
      split at h
      · cases h
      · split at h <;> simp only [Option.some.injEq, Prod.mk.injEq] at h <;> obtain ⟨rfl, rfl⟩ := h
        · exact ⟨fun hw => .inr (by simpa [wheld] using crash _ hw), by rw [crashR]; rfl⟩
        · simp only [setLock_locks, wheld, isReading]
          by_cases hm : m = n
          · subst hm; simpa using same
          · have : (n == m) = false := by simpa using fun h => hm h.symm
            simpa [hm, this] using same
    | reading n p =>
      have key : ∀ (t' : Thread C K V) (sh' : Shared C K V), sh'.locks = (sh.setLock n (fun l => { l with readers := l.readers - 1 })).locks →
          wheld t' = heldBy frames → isReading m t' = false →
          ((sh'.locks m).writer = true → m ∈ wheld t' ∨ ((sh.locks m).writer = true ∧ m ∉ wheld (.call (.reading n p) frames : Thread C K V))) ∧
          (sh'.locks m).readers = (sh.locks m).readers - (isReading m (.call (.reading n p) frames : Thread C K V)).toNat + (isReading m t').toNat := by
        intro t' sh' h1 h2 h3
        rw [h1, h2, h3, setLock_locks]
        simp only [wheld, isReading]
        by_cases hm : m = n
        · subst hm; simpa using same
        · have : (n == m) = false := by simpa using fun h => hm h.symm
          simpa [hm, this] using same
      cases p with
      | first k =>
        simp only [tstep] at h
        split at h <;> simp only [Option.some.injEq, Prod.mk.injEq] at h <;> obtain ⟨rfl, rfl⟩ := h
        · exact key _ _ rfl (wheld_resume _ _) (reading_resume _ _ _)
        · exact key _ _ rfl rfl rfl
      | _ =>
        simp only [tstep, Option.some.injEq, Prod.mk.injEq] at h
        obtain ⟨rfl, rfl⟩ := h
        exact key _ _ rfl (wheld_resume _ _) (reading_resume _ _ _)
    | write n k =>
      simp only [tstep] at h
      split at h
      · cases h
      · split at h <;> simp only [Option.some.injEq, Prod.mk.injEq] at h <;> obtain ⟨rfl, rfl⟩ := h
        · exact ⟨fun hw => .inr (by simpa [wheld] using crash _ hw), by rw [crashR]; rfl⟩
        · simp only [setLock_locks, wheld, isReading]
          by_cases hm : m = n
          · subst hm; simp
          · simp only [hm, if_false]
            refine ⟨fun hw => ?_, rfl⟩
            rcases same (l := heldBy frames) hw with h | h
            · exact .inl (by simp [h])
            · exact .inr h
    | put n k v =>
      simp only [tstep] at h
      split at h
      · cases h
      · split at h <;> simp only [Option.some.injEq, Prod.mk.injEq] at h <;> obtain ⟨rfl, rfl⟩ := h
        · exact ⟨fun hw => .inr (by simpa [wheld] using crash _ hw), by rw [crashR]; rfl⟩
        · simp only [setLock_locks, wheld, isReading]
          by_cases hm : m = n
          · subst hm; simp
          · simp only [hm, if_false]
            refine ⟨fun hw => ?_, rfl⟩
            rcases same (l := heldBy frames) hw with h | h
            · exact .inl (by simp [h])
            · exact .inr h
    | putting n k v =>
      simp only [tstep, Option.some.injEq, Prod.mk.injEq] at h
      obtain ⟨rfl, rfl⟩ := h
      rw [wheld_resume, reading_resume]
      simp only [Shared.answer, setLock_locks, wheld, isReading]
      by_cases hm : m = n
      · subst hm; simp [Shared.setMap]
      · simp only [hm, if_false]
        refine ⟨fun hw => ?_, rfl⟩
        rcases same (l := heldBy frames) hw with h | h
        · exact .inl h
        · exact .inr ⟨h.1, by simpa [hm] using h.2⟩

theorem held_step (hG : ∀ n k, Below n (G n k)) {s s' : State C K V} (h : Step O G s s') (hh : Held s) (ht : ∀ t ∈ s.threads, TOk t) :
    Held s' ∧ ∀ t ∈ s'.threads, TOk t := by
  obtain ⟨l, t, r, t', h1, h2, h3⟩ := h
  have hT : TOk t := ht t (by rw [h1]; simp)
  refine ⟨⟨fun n hw => ?_, fun n => ?_⟩, ?_⟩
  · rw [h3]
    rcases (tstep_locks h2 hT n).1 hw with hm | ⟨hm, hn⟩
    · exact ⟨t', by simp, hm⟩
    · obtain ⟨u, hu, hun⟩ := hh.1 n hm
      rw [h1] at hu
      refine ⟨u, ?_, hun⟩
      simp only [List.mem_append, List.mem_cons] at hu ⊢
      rcases hu with hu | rfl | hu
      · exact .inl hu
      · exact absurd hun hn
      · exact .inr (.inr hu)
  · have a := (tstep_locks h2 hT n).2
    have b := hh.2 n
    rw [h1] at b
    rw [h3, a]
    simp only [List.countP_append, List.countP_cons] at b ⊢
    cases e1 : isReading n t <;> cases e2 : isReading n t' <;> simp [e1, e2] at b ⊢ <;> omega
  · intro u hu
    rw [h3] at hu
    simp only [List.mem_append, List.mem_cons] at hu
    rcases hu with hu | rfl | hu
    · exact ht u (by rw [h1]; simp [hu])
    · exact tstep_ok hG h2 hT
    · exact ht u (by rw [h1]; simp [hu])

theorem held_steps (hG : ∀ n k, Below n (G n k)) {s s' : State C K V} (h : Steps O G s s') (hh : Held s) (ht : ∀ t ∈ s.threads, TOk t) :
    Held s' ∧ ∀ t ∈ s'.threads, TOk t := by
  induction h with
  | refl => exact ⟨hh, ht⟩
  | tail _ hs ih => exact held_step hG hs ih.1 ih.2

theorem start_held (maps : Nat → C) (clients : List (Prog C K V)) : Held (start maps clients) ∧ ∀ t ∈ (start maps clients).threads, TOk t := by
  refine ⟨⟨fun n h => by simp [start] at h, fun n => by simp [start]⟩, ?_⟩
  intro t ht
  simp only [start, List.mem_map] at ht
  obtain ⟨p, _, rfl⟩ := ht
  rfl

/-! ### No deadlock -/

/-- The client has finished, or has panicked. -/
def Over : Thread C K V → Prop
  | .run (.ret _) none _ => True
  | .dead => True
  | _ => False

theorem progress_at {s : State C K V} (hh : Held s) (ht : ∀ t ∈ s.threads, TOk t) :
    ∀ (n : Nat) (c : Call K V) (frames : List (Frame C K V)), c.node = n → (.call c frames : Thread C K V) ∈ s.threads →
      ∃ t ∈ s.threads, (tstep O G s.sh t).isSome := by
  intro n
  induction n using Nat.strongRecOn with
  | ind n ih =>
    intro c frames hn hc
    by_cases hself : (tstep O G s.sh (.call c frames)).isSome
    · exact ⟨_, hc, hself⟩
    have blocked : (s.sh.locks n).writer = true ∨ (s.sh.locks n).readers ≠ 0 := by
      cases c with
      | read m p =>
        have e : m = n := hn
        subst e
        left
        cases hw : (s.sh.locks m).writer with
        | true => rfl
        | false => exfalso; apply hself; simp only [tstep, hw]; cases (s.sh.locks m).poisoned <;> rfl
      | reading m p =>
        exfalso; apply hself
        cases p with
        | first k => simp only [tstep]; split <;> rfl
        | _ => rfl
      | write m k =>
        have e : m = n := hn
        subst e
        cases hw : (s.sh.locks m).writer with
        | true => exact .inl rfl
        | false =>
          right; intro hr; apply hself
          simp only [tstep, hw, hr]
          cases (s.sh.locks m).poisoned <;> rfl
      | put m k v =>
        have e : m = n := hn
        subst e
        cases hw : (s.sh.locks m).writer with
        | true => exact .inl rfl
        | false =>
          right; intro hr; apply hself
          simp only [tstep, hw, hr]
          cases (s.sh.locks m).poisoned <;> rfl
      | putting m k v => exfalso; exact hself rfl
    rcases blocked with hw | hr
    · obtain ⟨u, hu, hun⟩ := hh.1 n hw
      cases u with
      | dead => simp [wheld] at hun
      | run p lock fr =>
        refine ⟨_, hu, ?_⟩
        cases p with
        | ask op cont => rfl
        | ret r =>
          cases lock with
          | none =>
            have : fr = [] := ht _ hu
            subst this
            simp [wheld, heldBy] at hun
          | some nk => cases r <;> rfl
      | call c' fr =>
        have hch : Chain c'.node fr := ht _ hu
        by_cases hp : ∃ m k v, c' = .putting m k v
        · obtain ⟨m, k, v, rfl⟩ := hp
          exact ⟨_, hu, rfl⟩
        · have : n ∈ heldBy fr := by
            cases c' with
            | putting m k v => exact absurd ⟨m, k, v, rfl⟩ hp
            | _ => exact hun
          exact ih c'.node (hch.lt n this) c' fr rfl hu
    · have := hh.2 n
      have hpos : 0 < s.threads.countP (isReading n) := by omega
      obtain ⟨u, hu, hur⟩ := List.countP_pos_iff.mp hpos
      refine ⟨u, hu, ?_⟩
      cases u with
      | dead => cases hur
      | run _ _ _ => cases hur
      | call c' fr =>
        cases c' with
        | reading m p =>
          cases p with
          | first k => simp only [tstep]; split <;> rfl
          | _ => rfl
        | _ => cases hur

/-- **C88 (no deadlock).** If computing the statistics of an array only asks arrays built before it, then however the threads were
scheduled so far, either all clients are through or some thread can go on. -/
theorem C88_no_deadlock (hG : ∀ n k, Below n (G n k)) (maps : Nat → C) (clients : List (Prog C K V)) (s : State C K V)
    (h : Steps O G (start maps clients) s) : (∀ t ∈ s.threads, Over t) ∨ ∃ s', Step O G s s' := by
  obtain ⟨hh, ht⟩ := held_steps hG h (start_held maps clients).1 (start_held maps clients).2
  by_cases hall : ∀ t ∈ s.threads, Over t
  · exact .inl hall
  right
  have : ∃ t ∈ s.threads, (tstep O G s.sh t).isSome := by
    have ⟨t, ht1, ht2⟩ : ∃ t ∈ s.threads, ¬ Over t := by
      by_contra hx
      exact hall (fun t ht => by by_contra hn; exact hx ⟨t, ht, hn⟩)
    cases t with
    | dead => exact absurd trivial ht2
    | run p lock fr =>
      refine ⟨_, ht1, ?_⟩
      cases p with
      | ask op cont => rfl
      | ret r =>
        cases lock with
        | none => exact absurd trivial ht2
        | some nk => cases r <;> rfl
    | call c fr => exact progress_at hh ht c.node c fr rfl ht1
  obtain ⟨t, ht1, ht2⟩ := this
  obtain ⟨l, r, hlr⟩ := List.append_of_mem ht1
  obtain ⟨⟨sh', t'⟩, hst⟩ := Option.isSome_iff_exists.mp ht2
  exact ⟨⟨sh', l ++ t' :: r⟩, l, t, r, t', hlr, hst, rfl⟩

/-! ### Every schedule ends -/

/-- One step of a thread, whatever the others do. -/
def TRel (O : Ops C K V) (G : Nat → K → Prog C K V) (t' t : Thread C K V) : Prop := ∃ sh sh', tstep O G sh t = some (sh', t')

theorem acc_dead : _root_.Acc (TRel O G) .dead := ⟨_, fun _ ⟨_, _, h⟩ => by cases h⟩

theorem acc_call (hG : ∀ n k, Below n (G n k)) : ∀ (n : Nat) (c : Call K V) (frames : List (Frame C K V)), c.node = n →
    (∀ a, _root_.Acc (TRel O G) (resume frames a)) → _root_.Acc (TRel O G) (.call c frames) := by
  intro n
  induction n using Nat.strongRecOn with
  | ind n ih =>
    intro c frames hn hf
    -- the last look
    have reading : ∀ p, (∀ k, p ≠ .first k) → _root_.Acc (TRel O G) (.call (.reading n p) frames) := by
      intro p hp
      refine ⟨_, fun t' ⟨sh, sh', h⟩ => ?_⟩
      cases p with
      | first k => exact absurd rfl (hp k)
      | _ =>
        simp only [tstep, Option.some.injEq, Prod.mk.injEq] at h
        rw [← h.2]; exact hf _
    have read : ∀ p, _root_.Acc (TRel O G) (.call (.reading n p) frames) → _root_.Acc (TRel O G) (.call (.read n p) frames) := by
      intro p hp
      refine ⟨_, fun t' ⟨sh, sh', h⟩ => ?_⟩
      simp only [tstep] at h
      split at h
      · cases h
      · split at h <;> simp only [Option.some.injEq, Prod.mk.injEq] at h <;> rw [← h.2]
        · exact acc_dead
        · exact hp
    have body : ∀ (k : K) (p : Prog C K V), Below n p → _root_.Acc (TRel O G) (.run p (some (n, k)) frames) := by
      intro k p
      induction p with
      | ret r =>
        intro _
        refine ⟨_, fun t' ⟨sh, sh', h⟩ => ?_⟩
        cases r <;> simp only [tstep, Option.some.injEq, Prod.mk.injEq] at h <;> rw [← h.2]
        · exact read _ (reading _ (fun _ => by simp))
        · exact hf _
        · exact acc_dead
      | ask op cont ihp =>
        intro hb
        refine ⟨_, fun t' ⟨sh, sh', h⟩ => ?_⟩
        simp only [tstep, Option.some.injEq, Prod.mk.injEq] at h
        rw [← h.2]
        exact ih op.node hb.1 op.start _ (start_node op) (fun a => ihp a (hb.2 a))
    have write : ∀ k, _root_.Acc (TRel O G) (.call (.write n k) frames) := by
      intro k
      refine ⟨_, fun t' ⟨sh, sh', h⟩ => ?_⟩
      simp only [tstep] at h
      split at h
      · cases h
      · split at h <;> simp only [Option.some.injEq, Prod.mk.injEq] at h <;> rw [← h.2]
        · exact acc_dead
        · exact body k _ (hG n k)
    have reading' : ∀ p, _root_.Acc (TRel O G) (.call (.reading n p) frames) := by
      intro p
      cases p with
      | first k =>
        refine ⟨_, fun t' ⟨sh, sh', h⟩ => ?_⟩
        simp only [tstep] at h
        split at h <;> simp only [Option.some.injEq, Prod.mk.injEq] at h <;> rw [← h.2]
        · exact hf _
        · exact write k
      | _ => exact reading _ (fun _ => by simp)
    have putting : ∀ k v, _root_.Acc (TRel O G) (.call (.putting n k v) frames) := by
      intro k v
      refine ⟨_, fun t' ⟨sh, sh', h⟩ => ?_⟩
      simp only [tstep, Option.some.injEq, Prod.mk.injEq] at h
      rw [← h.2]; exact hf _
    cases c with
    | read m p => obtain rfl : m = n := hn; exact read p (reading' p)
    | reading m p => obtain rfl : m = n := hn; exact reading' p
    | write m k => obtain rfl : m = n := hn; exact write k
    | putting m k v => obtain rfl : m = n := hn; exact putting k v
    | put m k v =>
      obtain rfl : m = n := hn
      refine ⟨_, fun t' ⟨sh, sh', h⟩ => ?_⟩
      simp only [tstep] at h
      split at h
      · cases h
      · split at h <;> simp only [Option.some.injEq, Prod.mk.injEq] at h <;> rw [← h.2]
        · exact acc_dead
        · exact putting k v

theorem acc_client (hG : ∀ n k, Below n (G n k)) (p : Prog C K V) : _root_.Acc (TRel O G) (.run p none []) := by
  induction p with
  | ret r => exact ⟨_, fun _ ⟨_, _, h⟩ => by cases h⟩
  | ask op cont ih =>
    refine ⟨_, fun t' ⟨sh, sh', h⟩ => ?_⟩
    simp only [tstep, Option.some.injEq, Prod.mk.injEq] at h
    rw [← h.2]
    exact acc_call hG op.node op.start _ (start_node op) (fun a => ih a)

/-- One of the threads of a list steps. -/
def LRel (R : β → β → Prop) (ts' ts : List β) : Prop := ∃ l t r t', ts = l ++ t :: r ∧ R t' t ∧ ts' = l ++ t' :: r

theorem acc_list (R : β → β → Prop) (ts : List β) (h : ∀ t ∈ ts, _root_.Acc R t) : _root_.Acc (LRel R) ts := by
  induction ts with
  | nil => exact ⟨_, fun _ ⟨l, t, r, _, h, _⟩ => by cases l <;> cases h⟩
  | cons t ts ih =>
    have ht := h t (by simp)
    have hts := ih (fun u hu => h u (by simp [hu]))
    clear ih h
    induction ht generalizing ts with
    | intro t _ iht =>
      induction hts with
      | intro ts hacc ihts =>
        refine ⟨_, fun ts' ⟨l, u, r, u', h1, h2, h3⟩ => ?_⟩
        cases l with
        | nil =>
          simp only [List.nil_append, List.cons.injEq] at h1
          obtain ⟨rfl, rfl⟩ := h1
          rw [h3]
          exact iht u' h2 ts ⟨_, hacc⟩
        | cons v l =>
          simp only [List.cons_append, List.cons.injEq] at h1
          obtain ⟨rfl, rfl⟩ := h1
          rw [h3]
          exact ihts (l ++ u' :: r) ⟨l, u, r, u', rfl, h2, rfl⟩

/-- **C88 (every schedule ends).** Under the same condition there is no infinite sequence of steps: whatever the schedule, after finitely
many steps every client is through (or panicked), because until then some thread can go on. -/
theorem C88_terminates (hG : ∀ n k, Below n (G n k)) (maps : Nat → C) (clients : List (Prog C K V)) :
    ¬ ∃ f : Nat → State C K V, f 0 = start maps clients ∧ ∀ i, Step O G (f i) (f (i + 1)) := by
  rintro ⟨f, h0, hs⟩
  have hacc : _root_.Acc (LRel (TRel O G)) (f 0).threads := by
    rw [h0]
    refine acc_list _ _ (fun t ht => ?_)
    simp only [start, List.mem_map] at ht
    obtain ⟨p, _, rfl⟩ := ht
    exact acc_client hG p
  have : ∀ ts, _root_.Acc (LRel (TRel O G)) ts → ∀ i, (f i).threads = ts → False := by
    intro ts h
    induction h with
    | intro ts _ ih =>
      intro i hi
      obtain ⟨l, t, r, t', h1, h2, h3⟩ := hs i
      exact ih (f (i + 1)).threads ⟨l, t, r, t', by rw [← hi, h1], ⟨_, _, h2⟩, h3⟩ (i + 1) rfl
  exact this _ hacc 0 rfl

/-! ### Answers are true -/

section safety
variable (O) (Inv : Nat → C → Prop)

/-- The answer is one that a true map of the array gives; a computation may also fail to answer. -/
def AnsOk : Op K V → Ans C V → Prop
  | .get n k, a => ∃ c, Inv n c ∧ a = .val (O.get c k)
  | .toSet n, a => ∃ c, Inv n c ∧ a = .map c
  | .set _ _ _, a => a = .unit
  | .compute n k, a => a = .val none ∨ ∃ c, Inv n c ∧ a = .val (O.get c k)

/-- A value may be set if a true map stays true. -/
def OpOk : Op K V → Prop
  | .set n k v => ∀ c, Inv n c → Inv n (O.put c k v)
  | _ => True

/-- A computation that, given true answers, sets only true values and ends well. -/
def Safe (post : Res C → Prop) : Prog C K V → Prop
  | .ret r => post r
  | .ask op cont => OpOk O Inv op ∧ ∀ a, AnsOk O Inv op a → Safe post (cont a)

/-- `compute_statistics` of the array `n` ends well if it gives a true map, or an error. -/
def PostOk (n : Nat) : Res C → Prop
  | .ok c => Inv n c
  | .err => True
  | .panic => False

def FSafe : Op K V → List (Frame C K V) → Prop
  | _, [] => False
  | op, f :: rest => match f.lock with
    | none => (∀ a, AnsOk O Inv op a → Safe O Inv (fun _ => True) (f.cont a)) ∧ rest = []
    | some (n, k) => (∀ a, AnsOk O Inv op a → Safe O Inv (PostOk Inv n) (f.cont a)) ∧ FSafe (.compute n k) rest

def callOp : Call K V → Op K V
  | .read n (.get k) | .reading n (.get k) => .get n k
  | .read n .toSet | .reading n .toSet => .toSet n
  | .read n (.first k) | .reading n (.first k) | .read n (.last k) | .reading n (.last k) | .write n k => .compute n k
  | .put n k v | .putting n k v => .set n k v

def TSafe : Thread C K V → Prop
  | .run p none frames => Safe O Inv (fun _ => True) p ∧ frames = []
  | .run p (some (n, k)) frames => Safe O Inv (PostOk Inv n) p ∧ FSafe O Inv (.compute n k) frames
  | .call c frames => FSafe O Inv (callOp c) frames ∧ OpOk O Inv (callOp c)
  | .dead => False

structure SafeSh (sh : Shared C K V) : Prop where
  maps : ∀ n, Inv n (sh.maps n)
  clean : ∀ n, (sh.locks n).poisoned = false
  log : ∀ x ∈ sh.log, AnsOk O Inv x.1 x.2

variable {O Inv}

theorem callOp_start (op : Op K V) : callOp op.start = op := by cases op <;> rfl

theorem FSafe.resume {op : Op K V} {frames : List (Frame C K V)} (h : FSafe O Inv op frames) {a : Ans C V} (ha : AnsOk O Inv op a) :
    TSafe O Inv (resume frames a) := by
  cases frames with
  | nil => cases h
  | cons f rest =>
    obtain ⟨cont, lock⟩ := f
    cases lock with
    | none => exact ⟨h.1 a ha, h.2⟩
    | some nk => exact ⟨h.1 a ha, h.2⟩

theorem SafeSh.setLock {sh : Shared C K V} (h : SafeSh O Inv sh) (n : Nat) (f : Lock → Lock) (hf : ∀ l, (f l).poisoned = l.poisoned) :
    SafeSh O Inv (sh.setLock n f) := by
  refine ⟨h.maps, fun m => ?_, h.log⟩
  rw [setLock_locks]
  split
  · rw [hf]; exact h.clean m
  · exact h.clean m

theorem SafeSh.answer {sh : Shared C K V} (h : SafeSh O Inv sh) {op : Op K V} {a : Ans C V} (ha : AnsOk O Inv op a) :
    SafeSh O Inv (sh.answer op a) := by
  refine ⟨h.maps, h.clean, fun x hx => ?_⟩
  rcases List.mem_cons.mp hx with rfl | hx
  · exact ha
  · exact h.log x hx

theorem SafeSh.setMap {sh : Shared C K V} (h : SafeSh O Inv sh) {n : Nat} {c : C} (hc : Inv n c) : SafeSh O Inv (sh.setMap n c) := by
  refine ⟨fun m => ?_, h.clean, h.log⟩
  show Inv m (upd sh.maps n c m)
  by_cases hm : m = n
  · subst hm; simpa using hc
  · rw [upd_other _ _ hm]; exact h.maps m

theorem tstep_safe (hext : ∀ n c d, Inv n c → Inv n d → Inv n (O.extend c d)) (hG : ∀ n k, Safe O Inv (PostOk Inv n) (G n k))
    {sh sh' : Shared C K V} {t t' : Thread C K V} (h : tstep O G sh t = some (sh', t')) (hs : SafeSh O Inv sh) (ht : TSafe O Inv t) :
    SafeSh O Inv sh' ∧ TSafe O Inv t' := by
  cases t with
  | dead => cases h
  | run p lock frames =>
    cases p with
    | ask op cont =>
      simp only [tstep, Option.some.injEq, Prod.mk.injEq] at h
      obtain ⟨rfl, rfl⟩ := h
      refine ⟨hs, ?_⟩
      cases lock with
      | none =>
        obtain ⟨⟨h1, h2⟩, rfl⟩ := ht
        simp only [TSafe, callOp_start]
        exact ⟨⟨h2, rfl⟩, h1⟩
      | some nk =>
        obtain ⟨⟨h1, h2⟩, h3⟩ := ht
        simp only [TSafe, callOp_start]
        exact ⟨⟨h2, h3⟩, h1⟩
    | ret r =>
      cases lock with
      | none => cases h
      | some nk =>
        obtain ⟨n, k⟩ := nk
        obtain ⟨h1, h2⟩ := ht
        cases r with
        | ok c =>
          simp only [tstep, Option.some.injEq, Prod.mk.injEq] at h
          obtain ⟨rfl, rfl⟩ := h
          exact ⟨(hs.setMap (hext n _ _ (hs.maps n) h1)).setLock n _ (fun _ => rfl), h2, trivial⟩
        | err =>
          simp only [tstep, Option.some.injEq, Prod.mk.injEq] at h
          obtain ⟨rfl, rfl⟩ := h
          have ha : AnsOk O Inv (.compute n k) (.val none) := .inl rfl
          exact ⟨(hs.setLock n (fun l => { l with writer := false }) (fun _ => rfl)).answer ha, h2.resume ha⟩
        | panic => cases h1
  | call c frames =>
    obtain ⟨h1, h2⟩ := ht
    cases c with
    | read n p =>
      simp only [tstep, hs.clean n] at h
      split at h
      · cases h
      · simp only [Bool.false_eq_true, if_false, Option.some.injEq, Prod.mk.injEq] at h
        obtain ⟨rfl, rfl⟩ := h
        refine ⟨hs.setLock n _ (fun _ => rfl), ?_⟩
        cases p <;> exact ⟨h1, h2⟩
    | reading n p =>
      have hs' : SafeSh O Inv (sh.setLock n (fun l => { l with readers := l.readers - 1 })) := hs.setLock n _ (fun _ => rfl)
      cases p with
      | first k =>
        simp only [tstep] at h
        split at h <;> simp only [Option.some.injEq, Prod.mk.injEq] at h <;> obtain ⟨rfl, rfl⟩ := h
        · rename_i v hv
          have ha : AnsOk O Inv (.compute n k) (.val (some v)) := .inr ⟨sh.maps n, hs.maps n, by rw [hv]⟩
          exact ⟨hs'.answer ha, h1.resume ha⟩
        · exact ⟨hs', h1, trivial⟩
      | last k =>
        simp only [tstep, Option.some.injEq, Prod.mk.injEq] at h
        obtain ⟨rfl, rfl⟩ := h
        have ha : AnsOk O Inv (.compute n k) (.val (O.get (sh.maps n) k)) := .inr ⟨sh.maps n, hs.maps n, rfl⟩
        exact ⟨hs'.answer ha, h1.resume ha⟩
      | get k =>
        simp only [tstep, Option.some.injEq, Prod.mk.injEq] at h
        obtain ⟨rfl, rfl⟩ := h
        have ha : AnsOk O Inv (.get n k) (.val (O.get (sh.maps n) k)) := ⟨sh.maps n, hs.maps n, rfl⟩
        exact ⟨hs'.answer ha, h1.resume ha⟩
      | toSet =>
        simp only [tstep, Option.some.injEq, Prod.mk.injEq] at h
        obtain ⟨rfl, rfl⟩ := h
        have ha : AnsOk O Inv (.toSet n : Op K V) (.map (sh.maps n)) := ⟨sh.maps n, hs.maps n, rfl⟩
        exact ⟨hs'.answer ha, h1.resume ha⟩
    | write n k =>
      simp only [tstep, hs.clean n] at h
      split at h
      · cases h
      · simp only [Bool.false_eq_true, if_false, Option.some.injEq, Prod.mk.injEq] at h
        obtain ⟨rfl, rfl⟩ := h
        exact ⟨hs.setLock n _ (fun _ => rfl), hG n k, h1⟩
    | put n k v =>
      simp only [tstep, hs.clean n] at h
      split at h
      · cases h
      · simp only [Bool.false_eq_true, if_false, Option.some.injEq, Prod.mk.injEq] at h
        obtain ⟨rfl, rfl⟩ := h
        exact ⟨hs.setLock n _ (fun _ => rfl), h1, h2⟩
    | putting n k v =>
      simp only [tstep, Option.some.injEq, Prod.mk.injEq] at h
      obtain ⟨rfl, rfl⟩ := h
      have ha : AnsOk O Inv (.set n k v) (.unit : Ans C V) := rfl
      exact ⟨((hs.setMap (h2 _ (hs.maps n))).setLock n (fun l => { l with writer := false }) (fun _ => rfl)).answer ha, h1.resume ha⟩

/-- **C88 (answers are true, nobody panics).** Whatever being a true map means: if extending a true map by a true one gives a true one,
every `compute_statistics`, given true answers, gives a true map or an error, and clients set only true values, then under every schedule
every map stays true, every answer given is one of a true map (or, for a computation that fails, none), and no thread ever panics. -/
theorem C88_true (hext : ∀ n c d, Inv n c → Inv n d → Inv n (O.extend c d)) (hG : ∀ n k, Safe O Inv (PostOk Inv n) (G n k))
    (maps : Nat → C) (hm : ∀ n, Inv n (maps n)) (clients : List (Prog C K V)) (hcl : ∀ p ∈ clients, Safe O Inv (fun _ => True) p)
    (s : State C K V) (h : Steps O G (start maps clients) s) :
    (∀ n, Inv n (s.sh.maps n)) ∧ (∀ x ∈ s.sh.log, AnsOk O Inv x.1 x.2) ∧ (.dead : Thread C K V) ∉ s.threads ∧
    ∀ n, (s.sh.locks n).poisoned = false := by
  have key : SafeSh O Inv s.sh ∧ ∀ t ∈ s.threads, TSafe O Inv t := by
    induction h with
    | refl =>
      refine ⟨⟨hm, fun _ => rfl, fun x hx => by cases hx⟩, fun t ht => ?_⟩
      simp only [start, List.mem_map] at ht
      obtain ⟨p, hp, rfl⟩ := ht
      exact ⟨hcl p hp, rfl⟩
    | tail _ hst ih =>
      obtain ⟨i1, i2⟩ := ih
      obtain ⟨l, t, r, t', h1, h2, h3⟩ := hst
      obtain ⟨j1, j2⟩ := tstep_safe hext hG h2 i1 (i2 t (by rw [h1]; simp))
      refine ⟨j1, fun u hu => ?_⟩
      rw [h3] at hu
      simp only [List.mem_append, List.mem_cons] at hu
      rcases hu with hu | rfl | hu
      · exact i2 u (by rw [h1]; simp [hu])
      · exact j2
      · exact i2 u (by rw [h1]; simp [hu])
  exact ⟨key.1.maps, key.1.log, fun hd => key.2 _ hd, key.1.clean⟩

end safety

/-! ### What is known stays known -/

/-- **C88 (nothing is forgotten).** A statistic that an array knows at some moment it knows ever after. -/
theorem C88_stays (he : ∀ c d k, O.get c k ≠ none → O.get (O.extend c d) k ≠ none) (hp : ∀ c k v j, O.get c j ≠ none → O.get (O.put c k v) j ≠ none)
    (s s' : State C K V) (h : Steps O G s s') (n : Nat) (k : K) (hk : O.get (s.sh.maps n) k ≠ none) : O.get (s'.sh.maps n) k ≠ none := by
  have one : ∀ {sh sh' : Shared C K V} {t t' : Thread C K V}, tstep O G sh t = some (sh', t') → O.get (sh.maps n) k ≠ none →
      O.get (sh'.maps n) k ≠ none := by
    intro sh sh' t t' h hk
    cases t with
    | dead => cases h
    | run p lock frames =>
      cases p with
      | ask op cont =>
        simp only [tstep, Option.some.injEq, Prod.mk.injEq] at h
        rw [← h.1]; exact hk
      | ret r =>
        cases lock with
        | none => cases h
        | some nk =>
          obtain ⟨m, j⟩ := nk
          cases r <;> simp only [tstep, Option.some.injEq, Prod.mk.injEq] at h <;> rw [← h.1]
          · show O.get (upd sh.maps m _ n) k ≠ none
            by_cases hm : n = m
            · subst hm; simpa using he _ _ _ hk
            · rw [upd_other _ _ hm]; exact hk
          · exact hk
          · rw [(unwind_maps _ _).1]; exact hk
    | call c frames =>
      cases c with
      | read m p =>
        simp only [tstep] at h
        split at h
        · cases h
        · split at h <;> simp only [Option.some.injEq, Prod.mk.injEq] at h <;> rw [← h.1]
          · rw [(unwind_maps _ _).1]; exact hk
          · exact hk
      | reading m p =>
        cases p with
        | first j =>
          simp only [tstep] at h
          split at h <;> simp only [Option.some.injEq, Prod.mk.injEq] at h <;> rw [← h.1] <;> exact hk
        | _ =>
          simp only [tstep, Option.some.injEq, Prod.mk.injEq] at h
          rw [← h.1]; exact hk
      | write m j =>
        simp only [tstep] at h
        split at h
        · cases h
        · split at h <;> simp only [Option.some.injEq, Prod.mk.injEq] at h <;> rw [← h.1]
          · rw [(unwind_maps _ _).1]; exact hk
          · exact hk
      | put m j v =>
        simp only [tstep] at h
        split at h
        · cases h
        · split at h <;> simp only [Option.some.injEq, Prod.mk.injEq] at h <;> rw [← h.1]
          · rw [(unwind_maps _ _).1]; exact hk
          · exact hk
      | putting m j v =>
        simp only [tstep, Option.some.injEq, Prod.mk.injEq] at h
        rw [← h.1]
        show O.get (upd sh.maps m _ n) k ≠ none
        by_cases hm : n = m
        · subst hm; simpa using hp _ _ _ _ hk
        · rw [upd_other _ _ hm]; exact hk
  induction h with
  | refl => exact hk
  | tail _ hst ih =>
    obtain ⟨l, t, r, t', _, h2, _⟩ := hst
    exact one h2 ih

/-! ### Errors and panics -/

/-- **C88 (an error is no answer).** A `compute_statistics` that fails changes no map; the caller gets nothing, and the lock is released. -/
theorem C88_error (sh : Shared C K V) (n : Nat) (k : K) (f : Frame C K V) (rest : List (Frame C K V)) :
    ∃ sh', tstep O G sh (.run (.ret .err) (some (n, k)) (f :: rest)) = some (sh', .run (f.cont (.val none)) f.lock rest) ∧
      sh'.maps = sh.maps ∧ (sh'.locks n).writer = false ∧ (sh'.locks n).poisoned = (sh.locks n).poisoned :=
  ⟨_, rfl, rfl, by simp [Shared.answer, setLock_locks], by simp [Shared.answer, setLock_locks]⟩

/-- **C88 (a panic poisons).** A `compute_statistics` that panics kills the thread and poisons the locks of the array and of every array
whose statistics were being computed from it. -/
theorem C88_panic_poisons (sh : Shared C K V) (n : Nat) (k : K) (frames : List (Frame C K V)) :
    ∃ sh', tstep O G sh (.run (.ret .panic) (some (n, k)) frames) = some (sh', .dead) ∧
      ∀ m ∈ n :: heldBy frames, (sh'.locks m).poisoned = true :=
  ⟨_, rfl, fun m hm => by rw [unwind_locks, if_pos hm]; rfl⟩

theorem tstep_poisoned {n : Nat} {sh sh' : Shared C K V} {t t' : Thread C K V} (h : tstep O G sh t = some (sh', t'))
    (hp : (sh.locks n).poisoned = true) (ha : isReading n t = false ∧ n ∉ wheld t) :
    (sh'.locks n).poisoned = true ∧ (isReading n t' = false ∧ n ∉ wheld t') ∧
    sh'.log.filter (fun x => x.1.node == n) = sh.log.filter (fun x => x.1.node == n) := by
  have crash : ∀ held : List Nat, ((unwind sh held).locks n).poisoned = true ∧
      (unwind sh held).log.filter (fun x => x.1.node == n) = sh.log.filter (fun x => x.1.node == n) := by
    intro held
    rw [unwind_locks, (unwind_maps held sh).2]
    refine ⟨?_, rfl⟩
    split
    · rfl
    · exact hp
  have lk : ∀ (m : Nat) (f : Lock → Lock), (∀ l, (f l).poisoned = l.poisoned) → ((sh.setLock m f).locks n).poisoned = true := by
    intro m f hf
    rw [setLock_locks]
    split
    · rw [hf]; exact hp
    · exact hp
  cases t with
  | dead => cases h
  | run p lock frames =>
    cases p with
    | ask op cont =>
      simp only [tstep, Option.some.injEq, Prod.mk.injEq] at h
      obtain ⟨rfl, rfl⟩ := h
      have e : wheld (.call op.start (⟨cont, lock⟩ :: frames)) = wheld (.run (.ask op cont) lock frames) := by
        cases op <;> cases lock <;> rfl
      refine ⟨hp, ⟨by cases op <;> rfl, by rw [e]; exact ha.2⟩, rfl⟩
    | ret r =>
      cases lock with
      | none => cases h
      | some nk =>
        obtain ⟨m, k⟩ := nk
        have hm : n ≠ m ∧ n ∉ heldBy frames := by simpa [wheld] using ha.2
        cases r with
        | ok c =>
          simp only [tstep, Option.some.injEq, Prod.mk.injEq] at h
          obtain ⟨rfl, rfl⟩ := h
          refine ⟨?_, ⟨rfl, hm.2⟩, rfl⟩
          rw [setLock_locks, if_neg hm.1]; exact hp
        | err =>
          simp only [tstep, Option.some.injEq, Prod.mk.injEq] at h
          obtain ⟨rfl, rfl⟩ := h
          refine ⟨lk m (fun l => { l with writer := false }) (fun _ => rfl), ⟨reading_resume _ _ _, by rw [wheld_resume]; exact hm.2⟩, ?_⟩
          show List.filter _ (_ :: sh.log) = _
          rw [List.filter_cons_of_neg]
          simpa [Op.node] using fun h => hm.1 h.symm
        | panic =>
          simp only [tstep, Option.some.injEq, Prod.mk.injEq] at h
          obtain ⟨rfl, rfl⟩ := h
          exact ⟨(crash _).1, ⟨rfl, by simp [wheld]⟩, (crash _).2⟩
  | call c frames =>
    cases c with
    | read m p =>
      simp only [tstep] at h
      split at h
      · cases h
      · split at h <;> simp only [Option.some.injEq, Prod.mk.injEq] at h <;> obtain ⟨rfl, rfl⟩ := h
        · exact ⟨(crash _).1, ⟨rfl, by simp [wheld]⟩, (crash _).2⟩
        · rename_i hnp
          refine ⟨lk _ _ (fun _ => rfl), ⟨?_, ha.2⟩, rfl⟩
          show (m == n) = false
          apply beq_false_of_ne
          rintro rfl
          exact hnp hp
    | reading m p =>
      have hmn : m ≠ n := by
        have : (m == n) = false := ha.1
        simpa using this
      have hw : n ∉ heldBy frames := ha.2
      have fin : ∀ (op : Op K V) (a : Ans C V), op.node = m →
          (((sh.setLock m (fun l => { l with readers := l.readers - 1 })).answer op a).locks n).poisoned = true ∧
          (isReading n (resume frames a) = false ∧ n ∉ wheld (resume frames a)) ∧
          ((sh.setLock m (fun l => { l with readers := l.readers - 1 })).answer op a).log.filter (fun x => x.1.node == n) =
            sh.log.filter (fun x => x.1.node == n) := by
        intro op a ho
        refine ⟨lk m (fun l => { l with readers := l.readers - 1 }) (fun _ => rfl), ⟨reading_resume _ _ _, by rw [wheld_resume]; exact hw⟩, ?_⟩
        show List.filter _ (_ :: sh.log) = _
        rw [List.filter_cons_of_neg]
        simpa [ho] using hmn
      cases p with
      | first k =>
        simp only [tstep] at h
        split at h <;> simp only [Option.some.injEq, Prod.mk.injEq] at h <;> obtain ⟨rfl, rfl⟩ := h
        · exact fin _ _ rfl
        · exact ⟨lk _ _ (fun _ => rfl), ⟨rfl, hw⟩, rfl⟩
      | _ =>
        simp only [tstep, Option.some.injEq, Prod.mk.injEq] at h
        obtain ⟨rfl, rfl⟩ := h
        exact fin _ _ rfl
    | write m k =>
      simp only [tstep] at h
      split at h
      · cases h
      · split at h <;> simp only [Option.some.injEq, Prod.mk.injEq] at h <;> obtain ⟨rfl, rfl⟩ := h
        · exact ⟨(crash _).1, ⟨rfl, by simp [wheld]⟩, (crash _).2⟩
        · rename_i hnp
          refine ⟨lk _ _ (fun _ => rfl), ⟨rfl, ?_⟩, rfl⟩
          have hw : n ∉ heldBy frames := ha.2
          have hmn : n ≠ m := by rintro rfl; exact hnp hp
          simpa [wheld, hmn] using hw
    | put m k v =>
      simp only [tstep] at h
      split at h
      · cases h
      · split at h <;> simp only [Option.some.injEq, Prod.mk.injEq] at h <;> obtain ⟨rfl, rfl⟩ := h
        · exact ⟨(crash _).1, ⟨rfl, by simp [wheld]⟩, (crash _).2⟩
        · rename_i hnp
          refine ⟨lk _ _ (fun _ => rfl), ⟨rfl, ?_⟩, rfl⟩
          have hw : n ∉ heldBy frames := ha.2
          have hmn : n ≠ m := by rintro rfl; exact hnp hp
          simpa [wheld, hmn] using hw
    | putting m k v =>
      simp only [tstep, Option.some.injEq, Prod.mk.injEq] at h
      obtain ⟨rfl, rfl⟩ := h
      have hm : n ≠ m ∧ n ∉ heldBy frames := by simpa [wheld] using ha.2
      refine ⟨?_, ⟨reading_resume _ _ _, by rw [wheld_resume]; exact hm.2⟩, ?_⟩
      · simp only [Shared.answer]
        rw [setLock_locks, if_neg hm.1]; exact hp
      · show List.filter _ (_ :: sh.log) = _
        rw [List.filter_cons_of_neg]
        simpa [Op.node] using fun h => hm.1 h.symm

/-- **C88 (a poisoned array never answers again).** Once the lock of an array is poisoned and nobody holds it, no call about the array is
ever answered, by any thread, under any schedule. -/
theorem C88_poisoned_for_good (n : Nat) (s s' : State C K V) (h : Steps O G s s') (hp : (s.sh.locks n).poisoned = true)
    (ha : ∀ t ∈ s.threads, isReading n t = false ∧ n ∉ wheld t) :
    (s'.sh.locks n).poisoned = true ∧ s'.sh.log.filter (fun x => x.1.node == n) = s.sh.log.filter (fun x => x.1.node == n) := by
  have key : (s'.sh.locks n).poisoned = true ∧ (∀ t ∈ s'.threads, isReading n t = false ∧ n ∉ wheld t) ∧
      s'.sh.log.filter (fun x => x.1.node == n) = s.sh.log.filter (fun x => x.1.node == n) := by
    induction h with
    | refl => exact ⟨hp, ha, rfl⟩
    | tail _ hst ih =>
      obtain ⟨i1, i2, i3⟩ := ih
      obtain ⟨l, t, r, t', h1, h2, h3⟩ := hst
      obtain ⟨j1, j2, j3⟩ := tstep_poisoned h2 i1 (i2 t (by rw [h1]; simp))
      refine ⟨j1, fun u hu => ?_, j3.trans i3⟩
      rw [h3] at hu
      simp only [List.mem_append, List.mem_cons] at hu
      rcases hu with hu | rfl | hu
      · exact i2 u (by rw [h1]; simp [hu])
      · exact j2
      · exact i2 u (by rw [h1]; simp [hu])
  exact ⟨key.1, key.2.2⟩

/-! ### Arrays -/

section arrays
open Vx.Spec
variable {α : Type} [DecidableEq α] {key : α → Int} {isT : α → Bool} {N : Nat}

/-- What a single statistic says about the rows of a column. -/
def TrueStat (key : α → Int) (isT : α → Bool) (N : Nat) (rows : List (Option α)) : Stat → SVal α → Prop
  | .min, .val (some m) => IsMin key m (valid rows)
  | .min, .val none => valid rows = []
  | .max, .val (some m) => IsMax key m (valid rows)
  | .max, .val none => none ∈ rows
  | .isConstant, .bool b => b = true → AllSame rows
  | .isSorted, .bool b => b = true → (valid rows).Pairwise (fun x y => key x ≤ key y)
  | .isStrictSorted, .bool b => b = true → (valid rows).Pairwise (fun x y => key x < key y)
  | .runCount, .nat c => runs (valid rows) ≤ c
  | .trueCount, .nat c => c = (valid rows).countP isT
  | .nullCount, .nat c => c = rows.count none
  | .bitWidthFreq, .freq l => l.length = N
  | .trailingZeroFreq, .freq l => l.length = N
  | _, _ => False

theorem getStat_true {s : StatsSet α} {rows : List (Option α)} (h : s.Sound key isT N rows) {k : Stat} {v : SVal α}
    (hv : getStat s k = some v) : TrueStat key isT N rows k v := by
  cases k <;> simp only [getStat, Option.map_eq_some_iff] at hv <;> obtain ⟨x, hx, rfl⟩ := hv
  · exact h.bw_len x hx
  · exact h.tz_len x hx
  · exact fun hb => h.constant (by rw [hx, hb])
  · exact fun hb => h.sorted (by rw [hx, hb])
  · exact fun hb => h.strict (by rw [hx, hb])
  · cases x with
    | none => exact h.max_null hx
    | some m => exact h.max_some m hx
  · cases x with
    | none => exact h.min_null hx
    | some m => exact h.min_some m hx
  · exact h.run_count x hx
  · exact h.true_count x hx
  · exact h.null_count x hx

/-- The claims are true, and a constant array knows its minimum. -/
def Truth (key : α → Int) (isT : α → Bool) (N : Nat) (rows : Nat → List (Option α)) (n : Nat) (s : StatsSet α) : Prop :=
  s.Sound key isT N (rows n) ∧ s.MinKnown

theorem orElse_some {x y : Option β} {v : β} (h : (x <|> y) = some v) : x = some v ∨ y = some v := by
  cases x with
  | none => exact .inr h
  | some a => exact .inl h

theorem truth_extend {rows : Nat → List (Option α)} (n : Nat) (c d : StatsSet α) (hc : Truth key isT N rows n c) (hd : Truth key isT N rows n d) :
    Truth key isT N rows n (extendStats c d) := by
  obtain ⟨hc, kc⟩ := hc
  obtain ⟨hd, kd⟩ := hd
  refine ⟨⟨?_, ?_, ?_, ?_, ?_, ?_, ?_, ?_, ?_, ?_, ?_, ?_⟩, ?_⟩
  · intro m hm; exact (orElse_some hm).elim (hd.min_some m) (hc.min_some m)
  · intro hm; exact (orElse_some hm).elim hd.min_null hc.min_null
  · intro m hm; exact (orElse_some hm).elim (hd.max_some m) (hc.max_some m)
  · intro hm; exact (orElse_some hm).elim hd.max_null hc.max_null
  · intro hm; exact (orElse_some hm).elim hd.constant hc.constant
  · intro hm; exact (orElse_some hm).elim hd.sorted hc.sorted
  · intro hm; exact (orElse_some hm).elim hd.strict hc.strict
  · intro m hm; exact (orElse_some hm).elim (hd.run_count m) (hc.run_count m)
  · intro m hm; exact (orElse_some hm).elim (hd.true_count m) (hc.true_count m)
  · intro m hm; exact (orElse_some hm).elim (hd.null_count m) (hc.null_count m)
  · intro m hm; exact (orElse_some hm).elim (hd.bw_len m) (hc.bw_len m)
  · intro m hm; exact (orElse_some hm).elim (hd.tz_len m) (hc.tz_len m)
  · intro hm
    show (d.min <|> c.min) ≠ none
    cases hdm : d.min with
    | some x => intro h; cases h
    | none =>
      rcases orElse_some hm with h | h
      · exact absurd hdm (kd h)
      · exact kc h

theorem chunked_safe {rows : Nat → List (Option α)} {n : Nat} {k : Stat} :
    ∀ (cs : List Nat) (parts : List (StatsSet α × List (Option α))), (∀ p ∈ parts, p.1.Sound key isT N p.2 ∧ p.1.MinKnown) →
      rows n = (parts.map (·.2)).flatten ++ (cs.map rows).flatten →
      Safe (statsOps α) (Truth key isT N rows) (PostOk (Truth key isT N rows) n)
        (chunkedProg (StatsSet.reduceMerge key) k cs (parts.map (·.1))) := by
  intro cs
  induction cs with
  | nil =>
    intro parts hp hr
    obtain ⟨m, h1, h2, h3⟩ := C26_chunked_partial parts hp
    show PostOk _ n (StatsSet.reduceMerge key (parts.map (·.1)))
    rw [h1]
    refine ⟨?_, h3⟩
    rw [hr]; simpa using h2
  | cons c cs ih =>
    intro parts hp hr
    refine ⟨trivial, fun a _ => ⟨trivial, fun b hb => ?_⟩⟩
    obtain ⟨s, hs, rfl⟩ := hb
    have := ih (parts ++ [(s, rows c)]) (by
      intro p hp'
      rcases List.mem_append.mp hp' with h | h
      · exact hp p h
      · rw [List.mem_singleton.mp h]; exact hs) (by rw [hr]; simp)
    simpa using this

theorem chunked_below {n : Nat} {k : Stat} (merge : List (StatsSet α) → Res (StatsSet α)) :
    ∀ (cs : List Nat) (acc : List (StatsSet α)), (∀ c ∈ cs, c < n) → Below n (chunkedProg (V := SVal α) merge k cs acc) := by
  intro cs
  induction cs with
  | nil => intro _ _; trivial
  | cons c cs ih =>
    intro acc h
    refine ⟨h c (by simp), fun _ => ⟨h c (by simp), fun a => ?_⟩⟩
    cases a with
    | map s => exact ih _ (fun d hd => h d (by simp [hd]))
    | _ => trivial

theorem withVal_below {n : Nat} (a : Ans (StatsSet α) (SVal α)) (k : Option (SVal α) → Prog (StatsSet α) Stat (SVal α))
    (h : ∀ v, Below n (k v)) : Below n (withVal a k) := by
  cases a with
  | val v => exact h v
  | _ => trivial

theorem dict_below {n c v : Nat} (hc : c < n) (hv : v < n) : Below n (dictProg (α := α) c v) := by
  refine ⟨hc, fun a => withVal_below a _ fun _ => ⟨hv, fun a => withVal_below a _ fun _ => ⟨hv, fun a => withVal_below a _ fun _ =>
    ⟨hc, fun a => withVal_below a _ fun _ => ⟨hc, fun a => withVal_below a _ fun _ => ⟨hv, fun a => withVal_below a _ fun srt => ?_⟩⟩⟩⟩⟩⟩
  split
  · exact ⟨hc, fun a => withVal_below a _ fun _ => ⟨hc, fun a => withVal_below a _ fun _ => trivial⟩⟩
  · trivial

theorem prog_below (desc : Nat → Desc α) (h : ∀ n, ∀ c ∈ (desc n).children, c < n) (n : Nat) (k : Stat) :
    Below n ((desc n).prog key k) := by
  have := h n
  cases hd : desc n with
  | leaf f => trivial
  | chunked cs => exact chunked_below _ cs [] (by rw [hd] at this; exact this)
  | dict c v =>
    rw [hd] at this
    exact dict_below (this c (by simp [Desc.children])) (this v (by simp [Desc.children]))

/-- **C88 for arrays: no deadlock.** However arrays are nested in chunked and dictionary arrays and shared between them, whatever their
own `compute_statistics` do (including panicking), whatever clients ask and set from any number of threads and however these are
scheduled: until all clients are through some thread can go on, and there is no infinite execution. -/
theorem C88_arrays_finish (desc : Nat → Desc α) (h : ∀ n, ∀ c ∈ (desc n).children, c < n) (maps : Nat → StatsSet α)
    (clients : List (Prog (StatsSet α) Stat (SVal α))) :
    (∀ s, Steps (statsOps α) (fun n k => (desc n).prog key k) (start maps clients) s →
      (∀ t ∈ s.threads, Over t) ∨ ∃ s', Step (statsOps α) (fun n k => (desc n).prog key k) s s') ∧
    ¬ ∃ f : Nat → State (StatsSet α) Stat (SVal α), f 0 = start maps clients ∧
      ∀ i, Step (statsOps α) (fun n k => (desc n).prog key k) (f i) (f (i + 1)) :=
  ⟨fun s => C88_no_deadlock (fun n k => prog_below desc h n k) maps clients s, C88_terminates (fun n k => prog_below desc h n k) maps clients⟩

/-- A client that only asks. -/
def Asks : Prog (StatsSet α) Stat (SVal α) → Prop
  | .ret _ => True
  | .ask op cont => (∀ n k v, op ≠ .set n k v) ∧ ∀ a, Asks (cont a)

theorem Asks.safe {Inv : Nat → StatsSet α → Prop} {p : Prog (StatsSet α) Stat (SVal α)} (h : Asks p) :
    Safe (statsOps α) Inv (fun _ => True) p := by
  induction p with
  | ret r => trivial
  | ask op cont ih =>
    refine ⟨?_, fun a _ => ih a (h.2 a)⟩
    cases op with
    | set n k v => exact absurd rfl (h.1 n k v)
    | _ => trivial

/-- **C88 for arrays: true answers.** Arrays whose own statistics are true (or fail to be computed), nested in chunked arrays to any depth
and shared between them; any number of clients that ask, whatever they ask next depending on the answers; any schedule: every answer is
true of the rows of the array asked, every map is true, and nobody panics. -/
theorem C88_arrays_true (desc : Nat → Desc α) (rows : Nat → List (Option α))
    (hleaf : ∀ n f k, desc n = .leaf f → PostOk (Truth key isT N rows) n (f k))
    (hchunked : ∀ n cs, desc n = .chunked cs → rows n = (cs.map rows).flatten)
    (hdict : ∀ n c v, desc n ≠ .dict c v)
    (maps : Nat → StatsSet α) (hm : ∀ n, Truth key isT N rows n (maps n))
    (clients : List (Prog (StatsSet α) Stat (SVal α))) (hcl : ∀ p ∈ clients, Asks p)
    (s : State (StatsSet α) Stat (SVal α)) (h : Steps (statsOps α) (fun n k => (desc n).prog key k) (start maps clients) s) :
    (∀ n k v, (.compute n k, .val (some v)) ∈ s.sh.log ∨ (.get n k, .val (some v)) ∈ s.sh.log → TrueStat key isT N (rows n) k v) ∧
    (∀ n c, (.toSet n, .map c) ∈ s.sh.log → c.Sound key isT N (rows n)) ∧
    (∀ n, (s.sh.maps n).Sound key isT N (rows n)) ∧ .dead ∉ s.threads := by
  obtain ⟨h1, h2, h3, _⟩ := C88_true (O := statsOps α) (Inv := Truth key isT N rows) truth_extend (by
    intro n k
    show Safe _ _ _ ((desc n).prog key k)
    cases hd : desc n with
    | leaf f => exact hleaf n f k hd
    | chunked cs => exact chunked_safe cs [] (by simp) (by simpa using hchunked n cs hd)
    | dict c v => exact absurd hd (hdict n c v)) maps hm clients (fun p hp => (hcl p hp).safe) s h
  refine ⟨fun n k v hv => ?_, fun n c hc => ?_, fun n => (h1 n).1, h3⟩
  · rcases hv with hv | hv
    · rcases h2 _ hv with h | ⟨c, hc, hv⟩
      · cases h
      · exact getStat_true hc.1 (by simpa [statsOps] using hv.symm)
    · obtain ⟨c, hc, hv⟩ := h2 _ hv
      exact getStat_true hc.1 (by simpa [statsOps] using hv.symm)
  · obtain ⟨d, hd, hv⟩ := h2 _ hc
    cases hv
    exact hd.1

/-- **C88, integer arrays**: plain integer arrays of any contents, chunked to any depth and shared, whose maps are empty at first. -/
theorem C88_integer_arrays (signed : Bool) (w : Nat) (desc : Nat → Desc (BitVec w)) (rows : Nat → List (Option (BitVec w)))
    (hd : ∀ n, (∃ a : PArr (BitVec w), a.WF ∧ (a.validity = .allInvalid → a.vals ≠ []) ∧ rows n = a.rows ∧
        desc n = .leaf (fun _ => .ok (primStats (intElem signed w) a))) ∨
      ∃ cs, (∀ c ∈ cs, c < n) ∧ desc n = .chunked cs ∧ rows n = (cs.map rows).flatten)
    (clients : List (Prog (StatsSet (BitVec w)) Stat (SVal (BitVec w)))) (hcl : ∀ p ∈ clients, Asks p)
    (s : State (StatsSet (BitVec w)) Stat (SVal (BitVec w)))
    (h : Steps (statsOps _) (fun n k => (desc n).prog (intKey signed) k) (start (fun _ => {}) clients) s) :
    (∀ n k v, (.compute n k, .val (some v)) ∈ s.sh.log ∨ (.get n k, .val (some v)) ∈ s.sh.log →
      TrueStat (intKey signed) (fun _ => false) (w + 1) (rows n) k v) ∧ .dead ∉ s.threads ∧
    ((∀ t ∈ s.threads, Over t) ∨ ∃ s', Step (statsOps _) (fun n k => (desc n).prog (intKey signed) k) s s') := by
  obtain ⟨h1, _, _, h4⟩ := C88_arrays_true (key := intKey signed) (isT := fun _ => false) (N := w + 1) desc rows
    (by
      intro n f k hf
      rcases hd n with ⟨a, hw, hai, hr, hl⟩ | ⟨cs, _, hc, _⟩
      · rw [hl] at hf
        cases hf
        show Truth _ _ _ _ _ _
        rw [Truth, hr]
        exact primStats_sound signed w a hw _ hai
      · rw [hc] at hf; cases hf)
    (by
      intro n cs hcs
      rcases hd n with ⟨a, _, _, _, hl⟩ | ⟨cs', _, hc, hr⟩
      · rw [hl] at hcs; cases hcs
      · rw [hc] at hcs; cases hcs; exact hr)
    (by
      intro n c v hv
      rcases hd n with ⟨a, _, _, _, hl⟩ | ⟨cs', _, hc, hr⟩
      · rw [hl] at hv; cases hv
      · rw [hc] at hv; cases hv)
    (fun _ => {}) (fun n => ⟨⟨by simp, by simp, by simp, by simp, by simp, by simp, by simp, by simp, by simp, by simp, by simp, by simp⟩,
      by simp [StatsSet.MinKnown]⟩) clients hcl s h
  refine ⟨h1, h4, (C88_arrays_finish desc ?_ _ clients).1 s h⟩
  intro n c hc
  rcases hd n with ⟨a, _, _, _, hl⟩ | ⟨cs', hlt, he, _⟩
  · rw [hl] at hc; simp [Desc.children] at hc
  · rw [he] at hc; exact hlt c hc

end arrays

/-! ### Witnesses and examples -/

/-- A run of a given schedule: the numbers of the threads that step. -/
def runSchedule (O : Ops C K V) (G : Nat → K → Prog C K V) : List Nat → State C K V → State C K V
  | [], s => s
  | i :: is, s => match s.threads[i]? with
    | none => runSchedule O G is s
    | some t => match tstep O G s.sh t with
      | none => runSchedule O G is s
      | some (sh', t') => runSchedule O G is ⟨sh', s.threads.set i t'⟩

theorem runSchedule_steps : ∀ (is : List Nat) (s : State C K V), Steps O G s (runSchedule O G is s) := by
  intro is
  have trans : ∀ {a b c : State C K V}, Step O G a b → Steps O G b c → Steps O G a c := by
    intro a b c h1 h2
    induction h2 with
    | refl => exact .tail (.refl _) h1
    | tail _ h ih => exact .tail ih h
  induction is with
  | nil => intro s; exact .refl s
  | cons i is ih =>
    intro s
    simp only [runSchedule]
    split
    · exact ih s
    · rename_i t ht
      split
      · exact ih s
      · rename_i sh' t' hst
        refine trans ⟨s.threads.take i, t, s.threads.drop (i + 1), t', ?_, hst, ?_⟩ (ih _)
        · obtain ⟨hi, rfl⟩ := List.getElem?_eq_some_iff.mp ht
          simp
        · obtain ⟨hi, rfl⟩ := List.getElem?_eq_some_iff.mp ht
          exact List.set_eq_take_append_cons_drop .. |>.trans (by simp [hi])

/-- Why the order of arrays matters: a `compute_statistics` that asks its own array waits for itself. -/
theorem C88_reentrant_deadlocks : ∃ (G : Nat → Unit → Prog (Unit → Option Nat) Unit Nat) (s : State (Unit → Option Nat) Unit Nat),
    Steps ⟨fun c k => c k, fun _ d => d, fun _ _ v => fun _ => some v⟩ G (start (fun _ _ => none) [.ask (.compute 0 ()) (fun _ => .ret .err)]) s ∧
    (¬ ∀ t ∈ s.threads, Over t) ∧ ¬ ∃ s', Step ⟨fun c k => c k, fun _ d => d, fun _ _ v => fun _ => some v⟩ G s s' := by
  refine ⟨fun _ _ => .ask (.get 0 ()) (fun _ => .ret .err), _, runSchedule_steps [0, 0, 0, 0, 0] _, ?_, ?_⟩
  · intro h
    exact h _ (List.mem_singleton.mpr rfl)
  · rintro ⟨s', l, t, r, t', h1, h2, _⟩
    have h1 : [_] = l ++ t :: r := h1
    rw [List.singleton_eq_append_iff] at h1
    rcases h1 with ⟨_, h⟩ | ⟨_, h⟩
    · cases h; cases h2
    · cases h

/-- Two plain chunks, a chunked array of them, and a chunked array of that and the first chunk again: two clients ask for the minimum of
the outer and the run count of the inner at the same time, and both get it. -/
example :
    let a : PArr (BitVec 8) := ⟨[3, 7], .nonNullable⟩
    let b : PArr (BitVec 8) := ⟨[5, 0, 9], .array [true, false, true]⟩
    let desc : Nat → Desc (BitVec 8) := fun
      | 0 => .leaf (fun _ => .ok (primStats (intElem false 8) a))
      | 1 => .leaf (fun _ => .ok (primStats (intElem false 8) b))
      | 2 => .chunked [0, 1]
      | 3 => .chunked [2, 0]
      | _ => .chunked []
    let s := runSchedule (statsOps (BitVec 8)) (fun n k => (desc n).prog (intKey false) k) ((List.replicate 60 [0, 1]).flatten)
      (start (fun _ => {}) [.ask (.compute 3 .min) (fun _ => .ret .err), .ask (.compute 2 .runCount) (fun _ => .ret .err)])
    s.sh.log.any (fun x => match x with | (.compute 3 .min, .val (some (.val (some m)))) => m == 3#8 | _ => false) = true ∧
    s.sh.log.any (fun x => match x with | (.compute 2 .runCount, .val (some (.nat c))) => c == 5 | _ => false) = true := by
  decide +kernel

/-- … and these arrays meet the hypotheses of `C88_integer_arrays`. -/
example :
    let a : PArr (BitVec 8) := ⟨[3, 7], .nonNullable⟩
    let b : PArr (BitVec 8) := ⟨[5, 0, 9], .array [true, false, true]⟩
    let desc : Nat → Desc (BitVec 8) := fun
      | 0 => .leaf (fun _ => .ok (primStats (intElem false 8) a))
      | 1 => .leaf (fun _ => .ok (primStats (intElem false 8) b))
      | 2 => .chunked [0, 1]
      | 3 => .chunked [2, 0]
      | _ => .chunked []
    let rows : Nat → List (Option (BitVec 8)) := fun
      | 0 => a.rows
      | 1 => b.rows
      | 2 => a.rows ++ b.rows
      | 3 => a.rows ++ b.rows ++ a.rows
      | _ => []
    ∀ n, (∃ a : PArr (BitVec 8), a.WF ∧ (a.validity = .allInvalid → a.vals ≠ []) ∧ rows n = a.rows ∧
        desc n = .leaf (fun _ => .ok (primStats (intElem false 8) a))) ∨
      ∃ cs, (∀ c ∈ cs, c < n) ∧ desc n = .chunked cs ∧ rows n = (cs.map rows).flatten := by
  intro a b desc rows n
  match n with
  | 0 => exact .inl ⟨a, by decide, by decide, rfl, rfl⟩
  | 1 => exact .inl ⟨b, by decide, by decide, rfl, rfl⟩
  | 2 => exact .inr ⟨[0, 1], by decide, rfl, by simp [rows]⟩
  | 3 => exact .inr ⟨[2, 0], by decide, rfl, by simp [rows]⟩
  | n + 4 => exact .inr ⟨[], by simp, rfl, rfl⟩

end Vx.StatsCache
