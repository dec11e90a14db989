import Verif.Lemmas.Layout
/-! # The batch stream over any lawful reader -/
namespace Vx.Layout
open Ipc (Bytes)

variable {α R : Type}
variable {owner : Path → Option ByteRange} {file : Bytes} {f : Nat → Cache → R → Res (Option (ReadResult α) × R)}
  {rep : R → List (Rows α) → Prop}

/-! ## Fetching -/

/-- Paths of `U` that are not in the cache. -/
def missing (U : List Path) (c : Cache) : Nat := U.countP fun p => (c p).isNone

theorem cacheOk_set {c : Cache} (hc : CacheOk owner file c) {m : Message} {b : Bytes} (h1 : owner m.1 = some m.2) (h2 : readAt file m.2 = .ok b) :
    CacheOk owner file (c.set m.1 b) := by
  intro p b' h
  unfold Cache.set at h
  by_cases hp : p = m.1
  · subst hp
    simp only [if_true, Option.some.injEq] at h
    subst h
    exact ⟨m.2, h1, h2⟩
  · simp only [hp, if_false] at h
    exact hc p b' h

theorem fetch_spec : ∀ (ms : List Message) (c : Cache), CacheOk owner file c →
    (∀ m ∈ ms, owner m.1 = some m.2 ∧ ∃ b, readAt file m.2 = .ok b) →
    ∃ c', fetch file c ms = .ok c' ∧ CacheOk owner file c' ∧ (∀ p, c p ≠ none → c' p ≠ none) ∧ ∀ m ∈ ms, c' m.1 ≠ none
  | [], c, hc, _ => ⟨c, rfl, hc, fun _ h => h, by simp⟩
  | m :: ms, c, hc, h => by
    obtain ⟨h1, b, hb⟩ := h m (by simp)
    obtain ⟨c', hf, hc', hmono, hall⟩ := fetch_spec ms (c.set m.1 b) (cacheOk_set hc h1 hb) (fun m' hm' => h m' (by simp [hm']))
    refine ⟨c', ?_, hc', ?_, ?_⟩
    · obtain ⟨p, r⟩ := m
      simp only [fetch]
      simp only at hb hf
      rw [hb]; exact hf
    · intro p hp
      refine hmono p ?_
      unfold Cache.set
      split
      · simp
      · exact hp
    · intro m' hm'
      simp only [List.mem_cons] at hm'
      rcases hm' with rfl | hm'
      · exact hmono _ (by simp [Cache.set])
      · exact hall m' hm'

theorem countP_le_of_imp {β : Type} {p q : β → Bool} {l : List β} (h : ∀ x ∈ l, p x = true → q x = true) : l.countP p ≤ l.countP q :=
  List.countP_mono_left h

theorem countP_lt_of_mem {β : Type} {p q : β → Bool} : ∀ {l : List β}, (∀ x ∈ l, p x = true → q x = true) → ∀ {y : β}, y ∈ l → p y = false →
    q y = true → l.countP p < l.countP q
  | [], _, _, hy, _, _ => by simp at hy
  | x :: l, h, y, hy, h1, h2 => by
    simp only [List.countP_cons]
    have hle : l.countP p ≤ l.countP q := countP_le_of_imp (fun z hz => h z (by simp [hz]))
    simp only [List.mem_cons] at hy
    rcases hy with rfl | hy
    · simp [h1, h2]; omega
    · have ih := countP_lt_of_mem (fun z hz => h z (by simp [hz])) hy h1 h2
      have hx := h x (by simp)
      by_cases hpx : p x = true
      · simp [hpx, hx hpx]; omega
      · rw [if_neg hpx]
        split <;> omega

/-- A request makes progress. -/
theorem fetch_progress {U : List Path} (hU : ∀ p, owner p ≠ none → p ∈ U) {c : Cache} (hc : CacheOk owner file c) {order : List Message → List Message}
    (hord : ∀ l, (order l).Perm l) {ms : List Message} (hne : ms ≠ []) (hms : ∀ m ∈ ms, MsgOk owner file c m) :
    ∃ c', fetch file c (order ms) = .ok c' ∧ CacheOk owner file c' ∧ missing U c' < missing U c := by
  obtain ⟨c', hf, hc', hmono, hall⟩ := fetch_spec (order ms) c hc (fun m hm => by
    have hm' := (hord ms).mem_iff.mp hm
    exact ⟨(hms m hm').1, (hms m hm').2.2⟩)
  refine ⟨c', hf, hc', ?_⟩
  obtain ⟨m, ms', rfl⟩ := List.exists_cons_of_ne_nil hne
  have hm := hms m (by simp)
  refine countP_lt_of_mem (y := m.1) ?_ (hU _ (by rw [hm.1]; simp)) ?_ ?_
  · intro p _ hp
    simp only [Option.isNone_iff_eq_none] at hp ⊢
    by_cases h : c p = none
    · exact h
    · exact absurd hp (hmono p h)
  · have := hall m ((hord _).mem_iff.mpr (by simp))
    cases h : c' m.1 with
    | none => exact absurd h this
    | some _ => rfl
  · simp [hm.2.1]

/-! ## Unfiltered streams -/

theorem collect_again {next : Cache → R → Res (Option (ReadResult α) × R)} {order : List Message → List Message} {s s' : Stream α R}
    (h : s.turn next order file = .ok (.again, s')) (n : Nat) : Stream.collect next order file (n + 1) s = Stream.collect next order file n s' := by
  simp only [Stream.collect, h, Res.bind]

theorem collect_end {next : Cache → R → Res (Option (ReadResult α) × R)} {order : List Message → List Message} {s s' : Stream α R}
    (h : s.turn next order file = .ok (.ready none, s')) (n : Nat) : Stream.collect next order file (n + 1) s = .ok [] := by
  simp only [Stream.collect, h, Res.bind]

theorem collect_item {next : Cache → R → Res (Option (ReadResult α) × R)} {order : List Message → List Message} {s s' : Stream α R} {b : Rows α}
    (h : s.turn next order file = .ok (.ready (some b), s')) (n : Nat) :
    Stream.collect next order file (n + 1) s = (Stream.collect next order file n s').bind fun bs => .ok (b :: bs) := by
  simp only [Stream.collect, h, Res.bind]

/-- From the state in which the data reader is polled: after some turns its next batch is being decoded, or the stream has ended. Requests
for bytes are served on the way, in any order. -/
theorem data_step (hf : Law owner file f rep) {U : List Path} (hU : ∀ p, owner p ≠ none → p ∈ U)
    {order : List Message → List Message} (hord : ∀ l, (order l).Perm l) (flt : Option (R × (Rows α → Res (List Bool)))) (mask : Option (List Bool)) :
    ∀ (k : Nat) (c : Cache) (r : R) (bs : List (Rows α)), CacheOk owner file c → rep r bs → missing U c ≤ k →
      ∃ N K, match bs with
        | [] => ∀ n m, N ≤ n → Stream.collect (f n) order file (m + K) ⟨r, flt, c, .init, mask⟩ = .ok []
        | b :: rest => ∃ c' r', CacheOk owner file c' ∧ rep r' rest ∧ ∀ n m, N ≤ n →
            Stream.collect (f n) order file (m + K) ⟨r, flt, c, .init, mask⟩ = Stream.collect (f n) order file m ⟨r', flt, c', .decoding b, mask⟩ := by
  intro k
  induction k with
  | zero =>
    intro c r bs hc hr hk
    obtain ⟨N, rr, r', hrun, hpost⟩ := hf c hc r bs hr
    cases rr with
    | none =>
      obtain ⟨rfl, _⟩ := hpost
      exact ⟨N, 1, fun n m hn => collect_end (s' := ⟨r', flt, c, .init, mask⟩) (by simp only [Stream.turn, hrun n hn, Res.bind]) m⟩
    | some o =>
      cases o with
      | batch b =>
        obtain ⟨rest, rfl, hrep⟩ := hpost
        exact ⟨N, 1, c, r', hc, hrep, fun n m hn => collect_again (s' := ⟨r', flt, c, .decoding b, mask⟩)
          (by simp only [Stream.turn, hrun n hn, Res.bind]) m⟩
      | readMore ms =>
        obtain ⟨hne, _, hms⟩ := hpost
        obtain ⟨c', _, _, hlt⟩ := fetch_progress hU hc hord hne hms
        omega
  | succ k ih =>
    intro c r bs hc hr hk
    obtain ⟨N, rr, r', hrun, hpost⟩ := hf c hc r bs hr
    cases rr with
    | none =>
      obtain ⟨rfl, _⟩ := hpost
      exact ⟨N, 1, fun n m hn => collect_end (s' := ⟨r', flt, c, .init, mask⟩) (by simp only [Stream.turn, hrun n hn, Res.bind]) m⟩
    | some o =>
      cases o with
      | batch b =>
        obtain ⟨rest, rfl, hrep⟩ := hpost
        exact ⟨N, 1, c, r', hc, hrep, fun n m hn => collect_again (s' := ⟨r', flt, c, .decoding b, mask⟩)
          (by simp only [Stream.turn, hrun n hn, Res.bind]) m⟩
      | readMore ms =>
        obtain ⟨hne, hrep, hms⟩ := hpost
        obtain ⟨c', hfe, hc', hlt⟩ := fetch_progress hU hc hord hne hms
        obtain ⟨N', K, hN'⟩ := ih c' r' bs hc' hrep (by omega)
        have hgo : ∀ n m, N ≤ n → Stream.collect (f n) order file (m + (K + 2)) ⟨r, flt, c, .init, mask⟩ =
            Stream.collect (f n) order file (m + K) ⟨r', flt, c', .init, mask⟩ := by
          intro n m hn
          rw [show m + (K + 2) = (m + K + 1) + 1 by omega,
            collect_again (s' := ⟨r', flt, c, .reading ms, mask⟩) (by simp only [Stream.turn, hrun n hn, Res.bind]),
            collect_again (s' := ⟨r', flt, c', .init, mask⟩) (by simp only [Stream.turn, hfe, Res.ok_bind])]
        cases bs with
        | nil => exact ⟨max N N', K + 2, fun n m hn => by rw [hgo n m (by omega)]; exact hN' n m (by omega)⟩
        | cons b rest =>
          obtain ⟨c'', r'', h1, h2, h3⟩ := hN'
          exact ⟨max N N', K + 2, c'', r'', h1, h2, fun n m hn => by rw [hgo n m (by omega)]; exact h3 n m (by omega)⟩

/-- The same for the filter reader: its next batch is evaluated to a mask. -/
theorem filter_step (hf : Law owner file f rep) {U : List Path} (hU : ∀ p, owner p ≠ none → p ∈ U)
    {order : List Message → List Message} (hord : ∀ l, (order l).Perm l) (r : R) (eval : Rows α → Res (List Bool)) (mask : Option (List Bool)) :
    ∀ (k : Nat) (c : Cache) (fr : R) (bs : List (Rows α)), CacheOk owner file c → rep fr bs → missing U c ≤ k →
      ∃ N K, match bs with
        | [] => ∀ n m, N ≤ n → Stream.collect (f n) order file (m + K) ⟨r, some (fr, eval), c, .filterInit, mask⟩ = .ok []
        | b :: rest => ∃ c' fr', CacheOk owner file c' ∧ rep fr' rest ∧ ∀ n m, N ≤ n →
            Stream.collect (f n) order file (m + K) ⟨r, some (fr, eval), c, .filterInit, mask⟩ =
              (eval b).bind fun bits => Stream.collect (f n) order file m ⟨r, some (fr', eval), c', .init, some bits⟩ := by
  intro k
  induction k with
  | zero =>
    intro c fr bs hc hr hk
    obtain ⟨N, rr, r', hrun, hpost⟩ := hf c hc fr bs hr
    cases rr with
    | none =>
      obtain ⟨rfl, _⟩ := hpost
      exact ⟨N, 1, fun n m hn => collect_end (s' := ⟨r, some (r', eval), c, .filterInit, mask⟩) (by simp only [Stream.turn, hrun n hn, Res.bind]) m⟩
    | some o =>
      cases o with
      | batch b =>
        obtain ⟨rest, rfl, hrep⟩ := hpost
        refine ⟨N, 1, c, r', hc, hrep, fun n m hn => ?_⟩
        simp only [Stream.collect, Stream.turn, hrun n hn, Res.bind]
        cases eval b <;> rfl
      | readMore ms =>
        obtain ⟨hne, _, hms⟩ := hpost
        obtain ⟨c', _, _, hlt⟩ := fetch_progress hU hc hord hne hms
        omega
  | succ k ih =>
    intro c fr bs hc hr hk
    obtain ⟨N, rr, r', hrun, hpost⟩ := hf c hc fr bs hr
    cases rr with
    | none =>
      obtain ⟨rfl, _⟩ := hpost
      exact ⟨N, 1, fun n m hn => collect_end (s' := ⟨r, some (r', eval), c, .filterInit, mask⟩) (by simp only [Stream.turn, hrun n hn, Res.bind]) m⟩
    | some o =>
      cases o with
      | batch b =>
        obtain ⟨rest, rfl, hrep⟩ := hpost
        refine ⟨N, 1, c, r', hc, hrep, fun n m hn => ?_⟩
        simp only [Stream.collect, Stream.turn, hrun n hn, Res.bind]
        cases eval b <;> rfl
      | readMore ms =>
        obtain ⟨hne, hrep, hms⟩ := hpost
        obtain ⟨c', hfe, hc', hlt⟩ := fetch_progress hU hc hord hne hms
        obtain ⟨N', K, hN'⟩ := ih c' r' bs hc' hrep (by omega)
        have hgo : ∀ n m, N ≤ n → Stream.collect (f n) order file (m + (K + 2)) ⟨r, some (fr, eval), c, .filterInit, mask⟩ =
            Stream.collect (f n) order file (m + K) ⟨r, some (r', eval), c', .filterInit, mask⟩ := by
          intro n m hn
          rw [show m + (K + 2) = (m + K + 1) + 1 by omega,
            collect_again (s' := ⟨r, some (r', eval), c, .filterReading ms, mask⟩) (by simp only [Stream.turn, hrun n hn, Res.bind]),
            collect_again (s' := ⟨r, some (r', eval), c', .filterInit, mask⟩) (by simp only [Stream.turn, hfe, Res.ok_bind])]
        cases bs with
        | nil => exact ⟨max N N', K + 2, fun n m hn => by rw [hgo n m (by omega)]; exact hN' n m (by omega)⟩
        | cons b rest =>
          obtain ⟨c'', r'', h1, h2, h3⟩ := hN'
          exact ⟨max N N', K + 2, c'', r'', h1, h2, fun n m hn => by rw [hgo n m (by omega)]; exact h3 n m (by omega)⟩

/-- An unfiltered stream yields exactly the batches its reader has left, whatever the order in which reads complete. -/
theorem collect_unfiltered (hf : Law owner file f rep) {U : List Path} (hU : ∀ p, owner p ≠ none → p ∈ U)
    {order : List Message → List Message} (hord : ∀ l, (order l).Perm l) :
    ∀ (bs : List (Rows α)) (c : Cache) (r : R), CacheOk owner file c → rep r bs →
      ∃ N K, ∀ n m, N ≤ n → Stream.collect (f n) order file (m + K) ⟨r, none, c, .init, none⟩ = .ok bs := by
  intro bs
  induction bs with
  | nil =>
    intro c r hc hr
    exact data_step hf hU hord none none _ c r [] hc hr (Nat.le_refl _)
  | cons b bs ih =>
    intro c r hc hr
    obtain ⟨N, K, c', r', hc', hr', hgo⟩ := data_step hf hU hord none none _ c r _ hc hr (Nat.le_refl _)
    obtain ⟨N', K', hrest⟩ := ih c' r' hc' hr'
    refine ⟨max N N', K' + 1 + K, fun n m hn => ?_⟩
    rw [show m + (K' + 1 + K) = (m + K' + 1) + K by omega, hgo n _ (by omega),
      collect_item (s' := ⟨r', none, c', .init, none⟩) (b := b) (by simp [Stream.turn]), hrest n m (by omega)]
    rfl

/-- What the stream of stream.rs yields for data batches `D` and filter batches `F`: when a mask selects nothing, the code goes on with the next
data batch *without* a mask
(stream.rs:142-144 sets the state to `Init`); the flag says that this is the case. -/
def emitted (eval : Rows α → Res (List Bool)) : List (Rows α) → Bool → List (Rows α) → Res (List (Rows α))
  | _, false, [] => .ok []
  | [], false, g :: _ => (eval g).bind fun _ => .ok []
  | d :: D, false, g :: F => (eval g).bind fun bits =>
    if bits.count true = 0 then emitted eval D true F
    else (filterRows d bits).bind fun b => (emitted eval D false F).bind fun bs => .ok (b :: bs)
  | [], true, _ => .ok []
  | d :: D, true, F => (emitted eval D false F).bind fun bs => .ok (d :: bs)

/-- The exact behaviour of a filtered stream. -/
theorem collect_filtered (hf : Law owner file f rep) {U : List Path} (hU : ∀ p, owner p ≠ none → p ∈ U)
    {order : List Message → List Message} (hord : ∀ l, (order l).Perm l) (eval : Rows α → Res (List Bool)) :
    ∀ (k : Nat) (D F : List (Rows α)) (c : Cache) (r fr : R), F.length ≤ k → CacheOk owner file c → rep r D → rep fr F →
      ∃ N K, ∀ n m, N ≤ n → Stream.collect (f n) order file (m + K) ⟨r, some (fr, eval), c, .filterInit, none⟩ = emitted eval D false F := by
  intro k
  induction k with
  | zero =>
    intro D F c r fr hk hc hr hfr
    have : F = [] := List.eq_nil_of_length_eq_zero (by omega)
    subst this
    obtain ⟨N, K, h⟩ := filter_step hf hU hord r eval none _ c fr [] hc hfr (Nat.le_refl _)
    exact ⟨N, K, fun n m hn => by rw [h n m hn]; simp [emitted]⟩
  | succ k ih =>
    intro D F c r fr hk hc hr hfr
    cases F with
    | nil =>
      obtain ⟨N, K, h⟩ := filter_step hf hU hord r eval none _ c fr [] hc hfr (Nat.le_refl _)
      exact ⟨N, K, fun n m hn => by rw [h n m hn]; simp [emitted]⟩
    | cons g F =>
      obtain ⟨N, K, c1, fr1, hc1, hfr1, h1⟩ := filter_step hf hU hord r eval none _ c fr _ hc hfr (Nat.le_refl _)
      cases hev : eval g with
      | err =>
        refine ⟨N, K, fun n m hn => ?_⟩
        rw [h1 n m hn, hev]
        cases D <;> simp [emitted, hev, Res.bind]
      | panic =>
        refine ⟨N, K, fun n m hn => ?_⟩
        rw [h1 n m hn, hev]
        cases D <;> simp [emitted, hev, Res.bind]
      | ok bits =>
        cases D with
        | nil =>
          obtain ⟨N2, K2, h2⟩ := data_step hf hU hord (some (fr1, eval)) (some bits) _ c1 r [] hc1 hr (Nat.le_refl _)
          refine ⟨max N N2, K2 + K, fun n m hn => ?_⟩
          rw [show m + (K2 + K) = (m + K2) + K by omega, h1 n _ (by omega), hev]
          simp only [Res.bind]
          rw [h2 n m (by omega)]
          simp [emitted, hev, Res.bind]
        | cons d D =>
          obtain ⟨N2, K2, c2, r2, hc2, hr2, h2⟩ := data_step hf hU hord (some (fr1, eval)) (some bits) _ c1 r _ hc1 hr (Nat.le_refl _)
          by_cases hz : bits.count true = 0
          · cases D with
            | nil =>
              obtain ⟨N3, K3, h3⟩ := data_step hf hU hord (some (fr1, eval)) none _ c2 r2 [] hc2 hr2 (Nat.le_refl _)
              refine ⟨max N (max N2 N3), K3 + 1 + K2 + K, fun n m hn => ?_⟩
              rw [show m + (K3 + 1 + K2 + K) = (m + K3 + 1 + K2) + K by omega, h1 n _ (by omega), hev]
              simp only [Res.bind]
              rw [h2 n _ (by omega), collect_again (s' := ⟨r2, some (fr1, eval), c2, .init, none⟩) (by simp [Stream.turn, hz]), h3 n m (by omega)]
              simp [emitted, hev, Res.bind, hz]
            | cons d' D' =>
              obtain ⟨N3, K3, c3, r3, hc3, hr3, h3⟩ := data_step hf hU hord (some (fr1, eval)) none _ c2 r2 _ hc2 hr2 (Nat.le_refl _)
              obtain ⟨N4, K4, h4⟩ := ih D' F c3 r3 fr1 (by simpa using hk) hc3 hr3 hfr1
              refine ⟨max (max N N2) (max N3 N4), K4 + 1 + K3 + 1 + K2 + K, fun n m hn => ?_⟩
              rw [show m + (K4 + 1 + K3 + 1 + K2 + K) = (m + K4 + 1 + K3 + 1 + K2) + K by omega, h1 n _ (by omega), hev]
              simp only [Res.bind]
              rw [h2 n _ (by omega), collect_again (s' := ⟨r2, some (fr1, eval), c2, .init, none⟩) (by simp [Stream.turn, hz]), h3 n _ (by omega),
                collect_item (s' := ⟨r3, some (fr1, eval), c3, .filterInit, none⟩) (b := d') (by simp [Stream.turn]), h4 n m (by omega)]
              simp only [emitted]
              simp [hev, Res.bind, hz]
          · cases hfil : filterRows d bits with
            | ok b =>
              obtain ⟨N4, K4, h4⟩ := ih D F c2 r2 fr1 (by simpa using hk) hc2 hr2 hfr1
              refine ⟨max N (max N2 N4), K4 + 1 + K2 + K, fun n m hn => ?_⟩
              rw [show m + (K4 + 1 + K2 + K) = (m + K4 + 1 + K2) + K by omega, h1 n _ (by omega), hev]
              simp only [Res.bind]
              rw [h2 n _ (by omega), collect_item (s' := ⟨r2, some (fr1, eval), c2, .filterInit, none⟩) (b := b)
                (by simp [Stream.turn, hz, hfil, Res.bind]), h4 n m (by omega)]
              simp only [emitted]
              simp [hev, Res.bind, hz, hfil]
            | err =>
              refine ⟨max N N2, 1 + K2 + K, fun n m hn => ?_⟩
              rw [show m + (1 + K2 + K) = (m + 1 + K2) + K by omega, h1 n _ (by omega), hev]
              simp only [Res.bind]
              rw [h2 n _ (by omega)]
              simp only [emitted]
              simp [Stream.collect, Stream.turn, hev, Res.bind, hz, hfil]
            | panic =>
              refine ⟨max N N2, 1 + K2 + K, fun n m hn => ?_⟩
              rw [show m + (1 + K2 + K) = (m + 1 + K2) + K by omega, h1 n _ (by omega), hev]
              simp only [Res.bind]
              rw [h2 n _ (by omega)]
              simp only [emitted]
              simp [Stream.collect, Stream.turn, hev, Res.bind, hz, hfil]

end Vx.Layout
