import Verif.Spec.Layout
/-! # Lemmas about the layout readers -/
namespace Vx.Layout
open Ipc (Bytes)

variable {α R : Type}

/-! ## Batches -/

theorem batches_nil (n : Nat) : Spec.batches n ([] : List α) = [] := by rw [Spec.batches]; simp

theorem batches_cons {n : Nat} {xs : List α} (hn : 0 < n) (hx : xs ≠ []) : Spec.batches n xs = xs.take n :: Spec.batches n (xs.drop n) := by
  rw [Spec.batches, dif_neg]
  rintro (h | h)
  · exact hx h
  · omega

/-- What a layout emits for its rows: `z` tells whether no rows make one empty batch. -/
def cut (z : Bool) (n : Nat) (xs : Rows α) : List (Rows α) := if xs = [] then (if z then [[]] else []) else Spec.batches n xs

theorem cut_of_ne {z : Bool} {n : Nat} {xs : Rows α} (h : xs ≠ []) : cut z n xs = Spec.batches n xs := by simp [cut, h]

theorem batches_flatten {n : Nat} (hn : 0 < n) (xs : List α) : (Spec.batches n xs).flatten = xs := by
  induction hl : xs.length using Nat.strongRecOn generalizing xs with
  | _ l ih =>
    by_cases hx : xs = []
    · subst hx; rw [batches_nil]; rfl
    · rw [batches_cons hn hx, List.flatten_cons, ih _ ?_ _ rfl, List.take_append_drop]
      have := List.length_pos_iff.mpr hx
      simp only [List.length_drop]; omega

theorem cut_flatten {z : Bool} {n : Nat} (hn : 0 < n) (xs : Rows α) : (cut z n xs).flatten = xs := by
  unfold cut
  split
  · next h => subst h; cases z <;> simp
  · exact batches_flatten hn xs

/-- What a flat layout emits. -/
theorem cut_true {n : Nat} (hn : 0 < n) (a : Rows α) :
    cut true n a = if n < a.length then a.take n :: cut true n (a.drop n) else [a] := by
  by_cases ha : a = []
  · subst ha; simp [cut]
  · rw [cut_of_ne ha, batches_cons hn ha]
    split
    · next h =>
      have : a.drop n ≠ [] := by
        intro hh
        have := congrArg List.length hh
        simp at this; omega
      rw [cut_of_ne this]
    · next h =>
      have h1 : a.take n = a := List.take_of_length_le (by omega)
      have h2 : a.drop n = [] := List.drop_of_length_le (by omega)
      rw [h1, h2, batches_nil]

/-! ## The interface of a reader -/

/-- Everything in the cache is what the file has at the range its path stands for. -/
def CacheOk (owner : Path → Option ByteRange) (file : Bytes) (c : Cache) : Prop :=
  ∀ p b, c p = some b → ∃ r, owner p = some r ∧ readAt file r = .ok b

/-- A well-formed request: something not in the cache yet, under the path that owns the range, and readable. -/
def MsgOk (owner : Path → Option ByteRange) (file : Bytes) (c : Cache) (m : Message) : Prop :=
  owner m.1 = some m.2 ∧ c m.1 = none ∧ ∃ b, readAt file m.2 = .ok b

/-- What one `read_next` must achieve for a reader that has the batches `bs` left. -/
def Post (owner : Path → Option ByteRange) (file : Bytes) (c : Cache) (rep : R → List (Rows α) → Prop) (bs : List (Rows α)) (r' : R) :
    Option (ReadResult α) → Prop
  | none => bs = [] ∧ rep r' []
  | some (.readMore ms) => ms ≠ [] ∧ rep r' bs ∧ ∀ m ∈ ms, MsgOk owner file c m
  | some (.batch b) => ∃ rest, bs = b :: rest ∧ rep r' rest

/-- `rep r bs`: "`r` has exactly the batches `bs` left" is maintained by `read_next`, which terminates. -/
def Law (owner : Path → Option ByteRange) (file : Bytes) (f : Nat → Cache → R → Res (Option (ReadResult α) × R)) (rep : R → List (Rows α) → Prop) :
    Prop :=
  ∀ c, CacheOk owner file c → ∀ r bs, rep r bs → ∃ N rr r', (∀ n, N ≤ n → f n c r = .ok (rr, r')) ∧ Post owner file c rep bs r' rr

variable {owner : Path → Option ByteRange} {file : Bytes} {f : Nat → Cache → R → Res (Option (ReadResult α) × R)}
  {rep : R → List (Rows α) → Prop}

/-! ## BufferedReader -/

/-- Children with the batches they have left. -/
inductive Reps (rep : R → List (Rows α) → Prop) : List R → List (List (Rows α)) → Prop
  | nil : Reps rep [] []
  | cons {r rs b bs} : rep r b → Reps rep rs bs → Reps rep (r :: rs) (b :: bs)

theorem bufferLoop_spec (hf : Law owner file f rep) {c : Cache} (hc : CacheOk owner file c) (bs : Nat) :
    ∀ (k : Nat) (layouts : List R) (bss : List (List (Rows α))) (arrays : List (Rows α)), (bss.map fun b => b.length + 1).sum ≤ k →
      Reps rep layouts bss →
      ∃ N o ls as, (∀ n, N ≤ n → ∀ j, N ≤ j → bufferLoop (f n c) bs j layouts arrays = .ok (o, ls, as)) ∧
        ∃ bss', Reps rep ls bss' ∧ arrays.flatten ++ bss.flatten.flatten = as.flatten ++ bss'.flatten.flatten ∧
          match o with
          | none => bs ≤ rowCount as ∨ ls = []
          | some ms => ms ≠ [] ∧ ∀ m ∈ ms, MsgOk owner file c m := by
  intro k
  induction k with
  | zero =>
    intro layouts bss arrays hk hr
    cases hr with
    | nil =>
      refine ⟨1, none, [], arrays, ?_, [], .nil, rfl, Or.inr rfl⟩
      intro n _ j hj
      obtain ⟨j, rfl⟩ := Nat.exists_eq_add_of_le' hj
      simp [bufferLoop]
    | cons h1 h2 => simp at hk
  | succ k ih =>
    intro layouts bss arrays hk hr
    by_cases hrow : rowCount arrays < bs
    case neg =>
      refine ⟨1, none, layouts, arrays, ?_, bss, hr, rfl, Or.inl (by omega)⟩
      intro n _ j hj
      obtain ⟨j, rfl⟩ := Nat.exists_eq_add_of_le' hj
      simp [bufferLoop, hrow]
    case pos =>
    cases hr with
    | nil =>
      refine ⟨1, none, [], arrays, ?_, [], .nil, rfl, Or.inr rfl⟩
      intro n _ j hj
      obtain ⟨j, rfl⟩ := Nat.exists_eq_add_of_le' hj
      simp [bufferLoop]
    | @cons r rs b bss h1 h2 =>
      obtain ⟨N, rr, r', hstep, hpost⟩ := hf c hc r b h1
      have hk' : b.length + 1 + (bss.map fun b => b.length + 1).sum ≤ k + 1 := by simpa using hk
      cases rr with
      | none =>
        obtain ⟨hb, _⟩ := hpost
        subst hb
        obtain ⟨N', o, ls, as, hrun, bss', hr', hfl, ho⟩ := ih rs bss arrays (by simp at hk'; omega) h2
        refine ⟨max N N' + 1, o, ls, as, ?_, bss', hr', by simpa using hfl, ho⟩
        intro n hn j hj
        obtain ⟨j, rfl⟩ := Nat.exists_eq_add_of_le' (show 1 ≤ j by omega)
        simp only [bufferLoop, hrow, if_true, hstep n (by omega), Res.bind]
        exact hrun n (by omega) j (by omega)
      | some o =>
        cases o with
        | readMore ms =>
          obtain ⟨hne, hrep, hms⟩ := hpost
          refine ⟨N + 1, some ms, r' :: rs, arrays, ?_, b :: bss, .cons hrep h2, rfl, hne, hms⟩
          intro n hn j hj
          obtain ⟨j, rfl⟩ := Nat.exists_eq_add_of_le' (show 1 ≤ j by omega)
          simp only [bufferLoop, hrow, if_true, hstep n (by omega), Res.bind]
        | batch a =>
          obtain ⟨rest, hb, hrep⟩ := hpost
          subst hb
          obtain ⟨N', o, ls, as, hrun, bss', hr', hfl, ho⟩ := ih (r' :: rs) (rest :: bss) (arrays ++ [a]) (by simp at hk' ⊢; omega) (.cons hrep h2)
          refine ⟨max N N' + 1, o, ls, as, ?_, bss', hr', by simpa using hfl, ho⟩
          intro n hn j hj
          obtain ⟨j, rfl⟩ := Nat.exists_eq_add_of_le' (show 1 ≤ j by omega)
          simp only [bufferLoop, hrow, if_true, hstep n (by omega), Res.bind]
          exact hrun n (by omega) j (by omega)

theorem rowCount_eq (as : List (Rows α)) : rowCount as = as.flatten.length := by simp [rowCount, List.length_flatten]

theorem takeRows_spec : ∀ (as : List (Rows α)) (n : Nat), n ≤ rowCount as →
    (takeRows n as).1.flatten = as.flatten.take n ∧ (takeRows n as).2.flatten = as.flatten.drop n ∧ ((takeRows n as).1 = [] ↔ n = 0) := by
  intro as
  induction as with
  | nil => intro n hn; simp [rowCount] at hn; subst hn; simp [takeRows]
  | cons a as ih =>
    intro n hn
    cases n with
    | zero => simp [takeRows]
    | succ n =>
      simp only [takeRows]
      split
      · next h =>
        simp only [List.flatten_cons, List.flatten_nil, List.append_nil]
        refine ⟨?_, ?_, by simp⟩
        · rw [List.take_append_of_le_length (by omega)]
        · rw [List.drop_append_of_le_length (by omega)]
      · next h =>
        have hn' : n + 1 - a.length ≤ rowCount as := by simp [rowCount] at hn ⊢; omega
        obtain ⟨h1, h2, _⟩ := ih _ hn'
        refine ⟨?_, ?_, by simp⟩
        · simp only [List.flatten_cons, h1]
          rw [List.take_append, List.take_of_length_le (l := a) (by omega)]
        · simp only [List.flatten_cons, h2]
          rw [List.drop_append, List.drop_of_length_le (l := a) (by omega), List.nil_append]

/-- A buffered reader has left what its arrays and children hold, cut into batches. -/
def RepBuffered (rep : R → List (Rows α) → Prop) (layouts : List R) (arrays : List (Rows α)) (n : Nat) (bs : List (Rows α)) : Prop :=
  0 < n ∧ ∃ bss, Reps rep layouts bss ∧ bs = Spec.batches n (arrays.flatten ++ bss.flatten.flatten)

theorem bufferedRead_spec (hf : Law owner file f rep) {c : Cache} (hc : CacheOk owner file c) {layouts : List R} {arrays : List (Rows α)}
    {n : Nat} {bs : List (Rows α)} (h : RepBuffered rep layouts arrays n bs) :
    ∃ N rr ls as, (∀ k, N ≤ k → bufferedRead (f k c) k layouts arrays n = .ok (rr, .buffered ls as n)) ∧
      match (rr : Option (ReadResult α)) with
      | none => bs = [] ∧ RepBuffered rep ls as n []
      | some (.readMore ms) => ms ≠ [] ∧ RepBuffered rep ls as n bs ∧ ∀ m ∈ ms, MsgOk owner file c m
      | some (.batch b) => ∃ rest, bs = b :: rest ∧ RepBuffered rep ls as n rest := by
  obtain ⟨hn, bss, hr, hbs⟩ := h
  by_cases hemp : (layouts.isEmpty && arrays.isEmpty) = true
  · simp only [Bool.and_eq_true, List.isEmpty_iff] at hemp
    obtain ⟨rfl, rfl⟩ := hemp
    cases hr
    simp only [List.flatten_nil, List.append_nil, batches_nil] at hbs
    refine ⟨0, none, [], [], by intro k _; simp [bufferedRead], hbs, hn, [], .nil, by simp [batches_nil]⟩
  · obtain ⟨N, o, ls, as, hrun, bss', hr', hfl, ho⟩ := bufferLoop_spec hf hc n _ layouts bss arrays (Nat.le_refl _) hr
    rw [hfl] at hbs
    cases o with
    | some ms =>
      refine ⟨N, some (.readMore ms), ls, as, ?_, ho.1, ⟨hn, bss', hr', hbs⟩, ho.2⟩
      intro k hk
      simp only [bufferedRead, hemp, if_false, Bool.false_eq_true, hrun k hk k hk, Res.bind]
    | none =>
      have hrun' : ∀ k, N ≤ k → bufferedRead (f k c) k layouts arrays n = .ok (packed (takeRows (if ls.isEmpty then min n (rowCount as) else n) as).1,
          .buffered ls (takeRows (if ls.isEmpty then min n (rowCount as) else n) as).2 n) := by
        intro k hk
        simp only [bufferedRead, hemp, if_false, Bool.false_eq_true, hrun k hk k hk, Res.bind]
      -- the number of rows taken is `min n` of what is left
      have key : ∃ t, t ≤ rowCount as ∧ (if ls.isEmpty then min n (rowCount as) else n) = t ∧
          as.flatten.take t = (as.flatten ++ bss'.flatten.flatten).take n ∧
          as.flatten.drop t ++ bss'.flatten.flatten = (as.flatten ++ bss'.flatten.flatten).drop n ∧
          (t = 0 ↔ as.flatten ++ bss'.flatten.flatten = []) := by
        by_cases hl : ls = []
        · subst hl
          cases hr'
          refine ⟨min n (rowCount as), by omega, by simp, ?_, ?_, ?_⟩
          · simp only [List.flatten_nil, List.append_nil]
            rw [rowCount_eq, ← List.take_take, List.take_of_length_le (l := as.flatten) (i := as.flatten.length) (by omega)]
          · simp only [List.flatten_nil, List.append_nil]
            rw [rowCount_eq]
            by_cases hle : n ≤ as.flatten.length
            · rw [Nat.min_eq_left hle]
            · rw [Nat.min_eq_right (by omega), List.drop_of_length_le (by omega), List.drop_of_length_le (by omega)]
          · simp only [List.flatten_nil, List.append_nil]
            rw [rowCount_eq]
            constructor
            · intro h
              exact List.eq_nil_of_length_eq_zero (by omega)
            · intro h; rw [h]; simp
        · have hle : n ≤ rowCount as := by
            rcases ho with h | h
            · exact h
            · exact absurd h hl
          refine ⟨n, hle, by simp [hl], ?_, ?_, ?_⟩
          · rw [List.take_append_of_le_length (by rw [← rowCount_eq]; exact hle)]
          · rw [List.drop_append_of_le_length (by rw [← rowCount_eq]; exact hle)]
          · constructor
            · intro h; omega
            · intro h
              have := congrArg List.length h
              simp only [List.length_append, List.length_nil] at this
              rw [rowCount_eq] at hle
              omega
      obtain ⟨t, ht, hteq, htake, hdrop, hzero⟩ := key
      rw [hteq] at hrun'
      obtain ⟨hT1, hT2, hT3⟩ := takeRows_spec as t ht
      have hrest : RepBuffered rep ls (takeRows t as).2 n (Spec.batches n ((as.flatten ++ bss'.flatten.flatten).drop n)) :=
        ⟨hn, bss', hr', by rw [hT2, hdrop]⟩
      by_cases ht0 : t = 0
      · have he := hzero.mp ht0
        refine ⟨N, none, ls, (takeRows t as).2, ?_, ?_, ?_⟩
        · intro k hk
          rw [hrun' k hk, hT3.mpr ht0]; rfl
        · rw [hbs, he, batches_nil]
        · rw [he, List.drop_nil, batches_nil] at hrest
          exact hrest
      · have he : as.flatten ++ bss'.flatten.flatten ≠ [] := fun h => ht0 (hzero.mpr h)
        refine ⟨N, some (.batch ((as.flatten ++ bss'.flatten.flatten).take n)), ls, (takeRows t as).2, ?_, _, ?_, hrest⟩
        · intro k hk
          rw [hrun' k hk]
          have : (takeRows t as).1.isEmpty = false := by
            simp only [List.isEmpty_eq_false_iff]
            exact fun h => ht0 (hT3.mp h)
          simp only [packed, this, Bool.false_eq_true, if_false, hT1, htake]
        · rw [hbs, batches_cons hn he]

/-! ## BatchReader -/

/-- A child together with the array already held for it, and the batches it stands for. -/
def Slot (rep : R → List (Rows α) → Prop) (r : R) (a : Option (Rows α)) (b : List (Rows α)) : Prop :=
  match a with
  | some x => ∃ rest, b = x :: rest ∧ rep r rest
  | none => rep r b

inductive Slots (rep : R → List (Rows α) → Prop) : List R → List (Option (Rows α)) → List (List (Rows α)) → Prop
  | nil : Slots rep [] [] []
  | cons {r rs a as b bs} : Slot rep r a b → Slots rep rs as bs → Slots rep (r :: rs) (a :: as) (b :: bs)

/-- The children's batches line up into the struct batches `bs`. -/
inductive Aligned (names : List Str) : List (List (Rows α)) → List (Rows α) → Prop
  | nil {bss} : (∀ b ∈ bss, b = []) → Aligned names bss []
  | cons {heads tails row rest} : heads.length = tails.length → fromFields (names.zip heads) = .ok row → Aligned names tails rest →
      Aligned names (List.zipWith List.cons heads tails) (row :: rest)

theorem Slots.none_of_empty {rs : List R} {as : List (Option (Rows α))} {bss : List (List (Rows α))} (h : Slots rep rs as bss)
    (he : ∀ b ∈ bss, b = []) : as.any Option.isSome = false := by
  induction h with
  | nil => rfl
  | @cons r rs a as b bs h1 h2 ih =>
    have hb := he b (by simp)
    have ih := ih (fun b hb => he b (by simp [hb]))
    cases a with
    | none => simpa using ih
    | some x => obtain ⟨rest, h, _⟩ := h1; rw [hb] at h; simp at h

theorem batchLoop_spec (hf : Law owner file f rep) {c : Cache} (hc : CacheOk owner file c) {rs : List R} {as : List (Option (Rows α))}
    {bss : List (List (Rows α))} (h : Slots rep rs as bss) : ∀ (seen : Bool),
    ((∀ b ∈ bss, b = []) ∧ seen = false) ∨ (∀ b ∈ bss, b ≠ []) →
    ∃ N o rs' as', (∀ n, N ≤ n → batchLoop (f n c) seen rs as = .ok (o, rs', as')) ∧ Slots rep rs' as' bss ∧
      match o with
      | none => ∀ b ∈ bss, b = []
      | some ms => (∀ m ∈ ms, MsgOk owner file c m) ∧ (ms = [] → ∀ a ∈ as', a.isSome) := by
  induction h with
  | nil =>
    intro seen _
    exact ⟨0, some [], [], [], by intro n _; simp [batchLoop], .nil, by simp, by simp⟩
  | @cons r rs a as b bss h1 h2 ih =>
    intro seen hs
    cases a with
    | some x =>
      obtain ⟨rest, hb, hrep⟩ := h1
      have hne : ∀ b' ∈ b :: bss, b' ≠ [] := by
        rcases hs with hs | hs
        · have := hs.1 b (by simp); rw [hb] at this; simp at this
        · exact hs
      obtain ⟨N, o, rs', as', hrun, hsl, ho⟩ := ih true (Or.inr fun b' hb' => hne b' (by simp [hb']))
      refine ⟨N, o, r :: rs', some x :: as', ?_, .cons ⟨rest, hb, hrep⟩ hsl, ?_⟩
      · intro n hn
        simp only [batchLoop, hrun n hn, Res.bind]
      · cases o with
        | none =>
          cases hsl with
          | nil => 
            rcases hs with hs | hs
            · exact hs.1
            · exfalso
              -- the loop over no children returns `some []`
              have := hrun N (Nat.le_refl _)
              cases h2
              simp [batchLoop] at this
          | @cons _ _ _ _ b'' bs'' _ _ => exact absurd (ho b'' (by simp)) (hne b'' (by simp))
        | some ms =>
          refine ⟨ho.1, fun hms a ha => ?_⟩
          simp only [List.mem_cons] at ha
          rcases ha with rfl | ha
          · rfl
          · exact ho.2 hms a ha
    | none =>
      obtain ⟨N, rr, r', hstep, hpost⟩ := hf c hc r b h1
      cases rr with
      | none =>
        obtain ⟨hb, hrep⟩ := hpost
        subst hb
        have hall : (∀ b' ∈ [] :: bss, b' = []) ∧ seen = false := by
          rcases hs with hs | hs
          · exact hs
          · exact absurd rfl (hs [] (by simp))
        have hany := h2.none_of_empty (fun b' hb' => hall.1 b' (by simp [hb']))
        refine ⟨N, none, r' :: rs, none :: as, ?_, .cons hrep h2, hall.1⟩
        intro n hn
        simp only [batchLoop, hstep n hn, Res.bind, hall.2, hany, Bool.or_self, Bool.false_eq_true, if_false]
      | some o =>
        cases o with
        | readMore ms =>
          obtain ⟨hne, hrep, hms⟩ := hpost
          have hs' : ((∀ b ∈ bss, b = []) ∧ seen = false) ∨ (∀ b ∈ bss, b ≠ []) := by
            rcases hs with hs | hs
            · exact Or.inl ⟨fun b' hb' => hs.1 b' (by simp [hb']), hs.2⟩
            · exact Or.inr fun b' hb' => hs b' (by simp [hb'])
          obtain ⟨N', o, rs', as', hrun, hsl, ho⟩ := ih seen hs'
          refine ⟨max N N', o.map (ms ++ ·), r' :: rs', none :: as', ?_, .cons hrep hsl, ?_⟩
          · intro n hn
            simp only [batchLoop, hstep n (by omega), hrun n (by omega), Res.bind]
          · cases o with
            | none =>
              simp only [Option.map]
              rcases hs with hs | hs
              · exact hs.1
              · exfalso
                cases hsl with
                | nil =>
                  have := hrun N' (Nat.le_refl _)
                  cases h2
                  simp [batchLoop] at this
                | @cons _ _ _ _ b'' bs'' _ _ => exact absurd (ho b'' (by simp)) (hs b'' (by simp))
            | some ms' =>
              refine ⟨?_, ?_⟩
              · intro m hm
                simp only [List.mem_append] at hm
                rcases hm with hm | hm
                · exact hms m hm
                · exact ho.1 m hm
              · intro h
                simp only [List.append_eq_nil_iff] at h
                exact absurd h.1 hne
        | batch x =>
          obtain ⟨rest, hb, hrep⟩ := hpost
          have hne : ∀ b' ∈ b :: bss, b' ≠ [] := by
            rcases hs with hs | hs
            · have := hs.1 b (by simp); rw [hb] at this; simp at this
            · exact hs
          obtain ⟨N', o, rs', as', hrun, hsl, ho⟩ := ih true (Or.inr fun b' hb' => hne b' (by simp [hb']))
          refine ⟨max N N', o, r' :: rs', some x :: as', ?_, .cons ⟨rest, hb, hrep⟩ hsl, ?_⟩
          · intro n hn
            simp only [batchLoop, hstep n (by omega), hrun n (by omega), Res.bind]
          · cases o with
            | none =>
              exfalso
              cases hsl with
              | nil =>
                have := hrun N' (Nat.le_refl _)
                cases h2
                simp [batchLoop] at this
              | @cons _ _ _ _ b'' bs'' _ _ => exact absurd (ho b'' (by simp)) (hne b'' (by simp))
            | some ms =>
              refine ⟨ho.1, fun hms a ha => ?_⟩
              simp only [List.mem_cons] at ha
              rcases ha with rfl | ha
              · rfl
              · exact ho.2 hms a ha

/-- A column reader has left the struct batches that its children's batches line up to. -/
def RepBatch (rep : R → List (Rows α) → Prop) (names : List Str) (children : List R) (arrays : List (Option (Rows α))) (bs : List (Rows α)) : Prop :=
  children ≠ [] ∧ ∃ bss, Slots rep children arrays bss ∧ Aligned names bss bs

theorem zipWith_cons_ne {β : Type} {heads : List β} {tails : List (List β)} : ∀ b ∈ List.zipWith List.cons heads tails, b ≠ [] := by
  induction heads generalizing tails with
  | nil => simp
  | cons h hs ih =>
    cases tails with
    | nil => simp
    | cons t ts =>
      intro b hb
      simp only [List.zipWith_cons_cons, List.mem_cons] at hb
      rcases hb with rfl | hb
      · simp
      · exact ih b hb

/-- With every slot filled, the arrays are the heads and the children have the tails left. -/
theorem Slots.heads {rs : List R} {as : List (Option (Rows α))} {bss : List (List (Rows α))} (h : Slots rep rs as bss) :
    ∀ (heads : List (Rows α)) (tails : List (List (Rows α))), heads.length = tails.length → bss = List.zipWith List.cons heads tails →
      (∀ a ∈ as, a.isSome) → Res.mapM Res.ofOption as = .ok heads ∧ Slots rep rs (rs.map fun _ => none) tails := by
  induction h with
  | nil =>
    intro heads tails hl hz _
    cases heads with
    | nil =>
      cases tails with
      | nil => exact ⟨rfl, .nil⟩
      | cons t ts => simp at hl
    | cons x xs =>
      cases tails with
      | nil => simp at hl
      | cons t ts => simp at hz
  | @cons r rs a as b bss h1 h2 ih =>
    intro heads tails hl hz ha
    cases heads with
    | nil => simp at hz
    | cons x xs =>
      cases tails with
      | nil => simp at hz
      | cons t ts =>
        simp only [List.zipWith_cons_cons, List.cons.injEq] at hz
        obtain ⟨hz1, hz2⟩ := hz
        obtain ⟨ih1, ih2⟩ := ih xs ts (by simpa using hl) hz2 (fun a' h => ha a' (by simp [h]))
        cases a with
        | none => simpa using ha none (by simp)
        | some y =>
          obtain ⟨rest, hb, hrep⟩ := h1
          rw [hz1] at hb
          simp only [List.cons.injEq] at hb
          obtain ⟨rfl, rfl⟩ := hb
          refine ⟨by simp [ih1], ?_⟩
          exact .cons hrep ih2

theorem Slots.length {rs : List R} {as : List (Option (Rows α))} {bss : List (List (Rows α))} (h : Slots rep rs as bss) :
    rs.length = bss.length := by
  induction h with
  | nil => rfl
  | cons _ _ ih => simp [ih]

theorem batchRead_spec (hf : Law owner file f rep) {c : Cache} (hc : CacheOk owner file c) {names : List Str} {children : List R}
    {arrays : List (Option (Rows α))} {bs : List (Rows α)} (h : RepBatch rep names children arrays bs) :
    ∃ N rr cs as, (∀ n, N ≤ n → batchRead (f n c) names children arrays = .ok (rr, .batch names cs as)) ∧
      match (rr : Option (ReadResult α)) with
      | none => bs = [] ∧ RepBatch rep names cs as []
      | some (.readMore ms) => ms ≠ [] ∧ RepBatch rep names cs as bs ∧ ∀ m ∈ ms, MsgOk owner file c m
      | some (.batch b) => ∃ rest, bs = b :: rest ∧ RepBatch rep names cs as rest := by
  obtain ⟨hne, bss, hsl, hal⟩ := h
  have hcase : ((∀ b ∈ bss, b = []) ∧ false = false) ∨ (∀ b ∈ bss, b ≠ []) := by
    cases hal with
    | nil h => exact Or.inl ⟨h, rfl⟩
    | cons _ _ _ => exact Or.inr zipWith_cons_ne
  obtain ⟨N, o, cs, as, hrun, hsl', ho⟩ := batchLoop_spec hf hc hsl false hcase
  have hlen := hsl.length
  have hlen' := hsl'.length
  have hcs : cs ≠ [] := by
    intro h; subst h
    simp only [List.length_nil] at hlen'
    exact hne (List.eq_nil_of_length_eq_zero (by omega))
  cases o with
  | none =>
    have hbs : bs = [] := by
      cases hal with
      | nil _ => rfl
      | @cons heads tails row rest hl _ _ =>
        exfalso
        cases heads with
        | nil =>
          have : children.length = 0 := by simp [hlen]
          exact hne (List.eq_nil_of_length_eq_zero this)
        | cons x xs =>
          cases tails with
          | nil => simp at hl
          | cons t ts => exact absurd (ho (x :: t) (by simp)) (by simp)
    subst hbs
    refine ⟨N, none, cs, as, ?_, rfl, hcs, bss, hsl', hal⟩
    intro n hn
    simp only [batchRead, hrun n hn, Res.bind]
  | some ms =>
    cases hm : ms with
    | cons m ms' =>
      subst hm
      refine ⟨N, some (.readMore (m :: ms')), cs, as, ?_, by simp, ⟨hcs, bss, hsl', hal⟩, ho.1⟩
      intro n hn
      simp only [batchRead, hrun n hn, Res.bind]
    | nil =>
      subst hm
      have hall := ho.2 rfl
      cases hal with
      | nil hemp =>
        exfalso
        have := hsl'.none_of_empty hemp
        cases hsl' with
        | nil => exact hcs rfl
        | @cons _ _ a _ _ _ _ _ =>
          have h1 := hall a (by simp)
          simp [h1] at this
      | @cons heads tails row rest hl hrow hrest =>
        obtain ⟨hm1, hm2⟩ := hsl'.heads heads tails hl rfl hall
        refine ⟨N, some (.batch row), cs, cs.map fun _ => none, ?_, rest, rfl, hcs, tails, hm2, hrest⟩
        intro n hn
        simp only [batchRead, hrun n hn, Res.bind, hm1, hrow, Res.ok_bind]

/-! ## One level, and the whole tree -/

/-- What a reader of one level has left, given what its children have left. -/
def RepNode (owner : Path → Option ByteRange) (file : Bytes) (env : Env α) (build : FbLayout → Scan → Rel → Res R) (rep : R → List (Rows α) → Prop) :
    Node α R → List (Rows α) → Prop
  | .flat range scan cache done cached, bs =>
    owner cache.path = some range ∧ 0 < scan.batchSize ∧
      if done then bs = [] else
      match cached with
      | some a => bs = cut true scan.batchSize a
      | none => ∃ d b a, cache.dtype.dtype = .ok d ∧ readAt file range = .ok b ∧ env.decode d b = .ok a ∧ bs = cut true scan.batchSize a
  | .buffered layouts arrays n, bs => RepBuffered rep layouts arrays n bs
  | .chunked fb scan cache, bs => ∃ rs, expandChunked (α := α) build fb scan cache = .ok (.buffered rs [] scan.batchSize) ∧
      RepBuffered rep rs [] scan.batchSize bs
  | .batch names children arrays, bs => RepBatch rep names children arrays bs
  | .column fb scan cache, bs => ∃ names rs, expandColumn (α := α) build fb scan cache = .ok (.batch names rs (rs.map fun _ => none)) ∧
      RepBatch rep names rs (rs.map fun _ => none) bs
  | .inlined child, bs => rep child bs
  | .inline fb scan cache, bs => ∃ r b d child, inlineRequest fb cache = .ok [(cache.absoluteId [0], r)] ∧ owner (cache.absoluteId [0]) = some r ∧
      readAt file r = .ok b ∧ env.decodeDType b = .ok d ∧ expandInline build fb scan cache d = .ok child ∧ rep child bs

theorem flatEmit_spec {env : Env α} {build : FbLayout → Scan → Rel → Res R} {c : Cache} {range : ByteRange} {scan : Scan} {cache : Rel}
    (ho : owner cache.path = some range) (hb : 0 < scan.batchSize) (a : Rows α) :
    Post owner file c (RepNode owner file env build rep) (cut true scan.batchSize a) (flatEmit range scan cache a : _ × Node α R).2
      (flatEmit range scan cache a : _ × Node α R).1 := by
  rw [cut_true hb]
  unfold flatEmit
  split
  · exact ⟨_, rfl, ho, hb, by simp⟩
  · exact ⟨[], rfl, ho, hb, by simp⟩

theorem node_law {env : Env α} {build : FbLayout → Scan → Rel → Res R} (hf : Law owner file f rep) :
    Law owner file (fun n c r => Node.next env n c build (f n c) r) (RepNode owner file env build rep) := by
  intro c hc r bs h
  cases r with
  | flat range scan cache done cached =>
    obtain ⟨ho, hb, h⟩ := h
    cases done with
    | true =>
      simp only [if_true] at h
      subst h
      exact ⟨0, none, .flat range scan cache true cached, by intro n _; simp [Node.next, flatNext], rfl, ho, hb, by simp⟩
    | false =>
      simp only [Bool.false_eq_true, if_false] at h
      cases cached with
      | some a =>
        subst h
        refine ⟨0, _, _, ?_, flatEmit_spec (env := env) (build := build) ho hb a⟩
        intro n _; simp [Node.next, flatNext]
      | none =>
        obtain ⟨d, b, a, hd, hr, hdec, hbs⟩ := h
        cases hget : c cache.path with
        | some buf =>
          obtain ⟨r', hr1, hr2⟩ := hc _ _ hget
          rw [ho] at hr1
          simp only [Option.some.injEq] at hr1
          subst hr1
          rw [hr] at hr2
          simp only [Res.ok.injEq] at hr2
          subst hr2 hbs
          refine ⟨0, _, _, ?_, flatEmit_spec (env := env) (build := build) ho hb a⟩
          intro n _
          simp [Node.next, flatNext, Rel.get, Rel.absoluteId, hget, hd, hdec]
        | none =>
          refine ⟨0, some (.readMore [(cache.path, range)]), .flat range scan cache false none, ?_, by simp, ?_, ?_⟩
          · intro n _
            simp [Node.next, flatNext, Rel.get, Rel.absoluteId, hget]
          · exact ⟨ho, hb, by simpa using ⟨d, hd, b, hr, a, hdec, hbs⟩⟩
          · intro m hm
            simp only [List.mem_singleton] at hm
            subst hm
            exact ⟨ho, hget, b, hr⟩
  | buffered layouts arrays n =>
    obtain ⟨N, rr, ls, as, hrun, hpost⟩ := bufferedRead_spec hf hc h
    refine ⟨N, rr, .buffered ls as n, hrun, ?_⟩
    cases rr with
    | none => exact hpost
    | some o => cases o <;> exact hpost
  | chunked fb scan cache =>
    obtain ⟨rs, hexp, h⟩ := h
    obtain ⟨N, rr, ls, as, hrun, hpost⟩ := bufferedRead_spec hf hc h
    refine ⟨N, rr, .buffered ls as scan.batchSize, ?_, ?_⟩
    · intro n hn
      simp only [Node.next, hexp, Res.ok_bind, hrun n hn]
    · cases rr with
      | none => exact hpost
      | some o => cases o <;> exact hpost
  | batch names children arrays =>
    obtain ⟨N, rr, cs, as, hrun, hpost⟩ := batchRead_spec hf hc h
    refine ⟨N, rr, .batch names cs as, hrun, ?_⟩
    cases rr with
    | none => exact hpost
    | some o => cases o <;> exact hpost
  | column fb scan cache =>
    obtain ⟨names, rs, hexp, h⟩ := h
    obtain ⟨N, rr, cs, as, hrun, hpost⟩ := batchRead_spec hf hc h
    refine ⟨N, rr, .batch names cs as, ?_, ?_⟩
    · intro n hn
      simp only [Node.next, hexp, Res.ok_bind, hrun n hn]
    · cases rr with
      | none => exact hpost
      | some o => cases o <;> exact hpost
  | inlined child =>
    obtain ⟨N, rr, r', hrun, hpost⟩ := hf c hc child bs h
    refine ⟨N, rr, .inlined r', ?_, ?_⟩
    · intro n hn
      simp only [Node.next, hrun n hn, Res.bind]
    · cases rr with
      | none => exact hpost
      | some o => cases o <;> exact hpost
  | inline fb scan cache =>
    obtain ⟨rg, b, d, child, hreq, ho, hrd, hdd, hch, hrep⟩ := h
    cases hget : c (cache.path ++ [0]) with
    | none =>
      refine ⟨0, some (.readMore [(cache.absoluteId [0], rg)]), .inline fb scan cache, ?_, by simp, ?_, ?_⟩
      · intro n _
        simp [Node.next, Rel.get, Rel.absoluteId, hget]
        simp [hreq, Rel.absoluteId]
      · exact ⟨rg, b, d, child, hreq, ho, hrd, hdd, hch, hrep⟩
      · intro m hm
        simp only [List.mem_singleton] at hm
        subst hm
        exact ⟨ho, hget, b, hrd⟩
    | some buf =>
      obtain ⟨r', hr1, hr2⟩ := hc _ _ hget
      have ho' : owner (cache.path ++ [0]) = some rg := ho
      rw [ho'] at hr1
      simp only [Option.some.injEq] at hr1
      subst hr1
      rw [hrd] at hr2
      simp only [Res.ok.injEq] at hr2
      subst hr2
      obtain ⟨N, rr, r', hrun, hpost⟩ := hf c hc child bs hrep
      refine ⟨N, rr, .inlined r', ?_, ?_⟩
      · intro n hn
        simp [Node.next, Rel.get, Rel.absoluteId, hget, hdd, hch, hrun n hn]
      · cases rr with
        | none => exact hpost
        | some o => cases o <;> exact hpost

/-- What a reader of depth `d` has left. -/
def RepSt (owner : Path → Option ByteRange) (file : Bytes) (env : Env α) : (d : Nat) → St α d → List (Rows α) → Prop
  | 0, r, _ => nomatch r
  | d + 1, r, bs => RepNode owner file env (readLayout env d) (RepSt owner file env d) r bs

theorem st_law (owner : Path → Option ByteRange) (file : Bytes) (env : Env α) : ∀ d : Nat,
    Law owner file (fun n c r => readNext env n c d r) (RepSt owner file env d)
  | 0 => fun _ _ r => nomatch r
  | d + 1 => node_law (env := env) (build := readLayout env d) (st_law owner file env d)

end Vx.Layout
