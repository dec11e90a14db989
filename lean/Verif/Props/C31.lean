import Verif.Props.C33
/-!
# C31: IPC message framing round trip

The full claim says that every truncation is reported. The code ends a stream cleanly when the cut falls on a message boundary or inside a
length prefix (there is no end marker), and a stream of fewer than four bytes makes the reader crash on first use
(`C31_empty_stream_crashes`). Proved here: what is read is always a prefix of what was written, and a clean end is only reported for
such cuts.
-/
namespace Vx.Ipc
open Vx.Ipc.Spec

/-- What can be written and read back: the message length fits `u32`, a page is shorter than 4 GiB, the reader knows the root encoding. -/
def ItemOk (C : Codec) (ctx : Nat → Bool) (i : Item) : Prop :=
  Fits C (itemMsg i) ∧
  match i with
  | .dtype _ => True
  | .batch n _ => ctx n.encoding = true
  | .page b => b.length < 2 ^ 32

/-- Writing any sequence succeeds, and every item starts (and the stream ends) at a position that is a multiple of 64. -/
theorem C31_write (C : Codec) (is : List Item) :
    ∃ w, writeItems C .new is = .ok w ∧ w.out = streamOf C is ∧ w.pos % 64 = 0 ∧
      ∀ j, ∃ wj, writeItems C .new (is.take j) = .ok wj ∧ wj.pos % 64 = 0 ∧ wj.out <+: w.out := by
  refine ⟨_, writeItems_eq C is .new rfl, by simp [Writer.new], ?_, fun j => ⟨_, writeItems_eq C _ .new rfl, ?_, ?_⟩⟩
  · simpa [Writer.pos, Writer.new] using streamOf_aligned C is
  · simpa [Writer.pos, Writer.new] using streamOf_aligned C (is.take j)
  · simp only [Writer.new, List.nil_append]
    refine ⟨streamOf C (is.drop j), ?_⟩
    simp only [streamOf]
    rw [← List.flatMap_append, List.take_append_drop]

/-! ## Loading messages -/

theorem load_frame {C : Codec} (hC : C.Lawful) {m : FbMsg} (hf : Fits C m) (rest msg : Bytes) (fin : Bool) :
    Reader.load C ⟨frame C m ++ rest, msg, fin⟩ = .ok (true, ⟨rest, payload C m, fin⟩) := by
  have h3 := alignUp_ge (4 + (C.enc m).length)
  have h4 := alignUp_mod (4 + (C.enc m).length)
  have hfl := frame_length C m
  have hlen : 4 ≤ (frame C m ++ rest).length := by rw [List.length_append]; omega
  have hpl := payload_length C m
  unfold Reader.load
  simp only [Reader.readInto, if_pos hlen, getU32_take4 hf, Res.ok_bind]
  have hne : (payload C m).length ≠ 2 ^ 32 - 1 := by unfold Fits at hf; omega
  have hne0 : (payload C m).length ≠ 0 := by omega
  rw [if_neg hne, if_neg hne0, frame_drop4, if_pos (by simp)]
  simp [dec_payload hC]

theorem load_short {C : Codec} {rest msg : Bytes} {fin : Bool} (h : rest.length < 4) :
    Reader.load C ⟨rest, msg, fin⟩ = .ok (false, ⟨rest, [], fin⟩) := by
  unfold Reader.load
  simp only [Reader.readInto, if_neg (show ¬ 4 ≤ rest.length by omega)]

theorem load_cut {C : Codec} {m : FbMsg} (hf : Fits C m) (rest msg : Bytes) (fin : Bool) (k : Nat) (h4 : 4 ≤ k)
    (hk : k < (frame C m).length) : Reader.load C ⟨(frame C m ++ rest).take k, msg, fin⟩ = .err := by
  have h3 := alignUp_ge (4 + (C.enc m).length)
  have h4' := alignUp_mod (4 + (C.enc m).length)
  have hfl := frame_length C m
  have hpl := payload_length C m
  have hlen : 4 ≤ ((frame C m ++ rest).take k).length := by rw [List.length_take, List.length_append]; omega
  unfold Reader.load
  have htake : (List.take k (frame C m ++ rest)).take 4 = (frame C m ++ rest).take 4 := by
    rw [List.take_take, Nat.min_eq_left h4]
  simp only [Reader.readInto, if_pos hlen, htake, getU32_take4 hf, Res.ok_bind]
  have hne : (payload C m).length ≠ 2 ^ 32 - 1 := by unfold Fits at hf; omega
  have hne0 : (payload C m).length ≠ 0 := by omega
  rw [if_neg hne, if_neg hne0, List.drop_take, frame_drop4, if_neg (by simp; omega)]
  rfl

/-! ## Reading one item -/

/-- What the reader does after the body of the current item: load the next message. -/
def after (C : Codec) (tail : Bytes) : Res Reader :=
  (Reader.load C ⟨tail, [], false⟩).bind (fun p => .ok (if p.1 then p.2 else { p.2 with finished := true }))

theorem next_eq (C : Codec) (tail msg : Bytes) :
    Reader.next C ⟨tail, msg, false⟩ = (after C tail).bind (fun r => .ok (msg, r)) := by
  unfold Reader.next after
  simp only [Bool.false_eq_true, if_false]
  cases Reader.load C ⟨tail, [], false⟩ <;> rfl

theorem readInto_append (a b : Bytes) : Reader.readInto (a ++ b) a.length = some (a, b) := by
  rw [Reader.readInto, if_pos (by simp)]; simp

theorem readInto_short {a : Bytes} {n : Nat} (h : a.length < n) : Reader.readInto a n = none := by
  rw [Reader.readInto, if_neg (by omega)]

theorem readOne_ok (C : Codec) (hC : C.Lawful) (ctx : Nat → Bool) (dtype : DType) (i : Item) (hi : ItemOk C ctx i) (tail : Bytes) :
    readOne C ctx dtype ⟨itemBody i ++ tail, payload C (itemMsg i), false⟩ = (after C tail).bind (fun r => .ok (some i, r)) := by
  have hd := dec_payload hC (itemMsg i)
  have hpeek : ∀ t, Reader.peek C ⟨t, payload C (itemMsg i), false⟩ = .ok (some (itemMsg i)) := by
    intro t; simp [Reader.peek, rootUnchecked, hd]
  cases i with
  | dtype d =>
    simp only [readOne, hpeek, Res.ok_bind, itemMsg, schemaMsg, itemBody, List.nil_append]
    simp only [itemMsg] at hpeek hd
    simp only [Reader.readDtype, ← schemaMsg.eq_1]
    rw [hpeek]
    simp only [Res.ok_bind, schemaMsg]
    simp only [← schemaMsg.eq_1, next_eq]
    cases after C tail with
    | err => rfl
    | panic => rfl
    | ok r => 
      simp only [Res.bind, Res.ok_bind, rootUnchecked, hd, Res.unwrap_some]
      simp only [schemaMsg, Res.ofOption_some, Res.ok_bind, C30_dtype_flatbuffer_round_trip]
  | batch n l =>
    have hs := splitBuffers_eq (preorder n) 0
    rw [Nat.zero_add] at hs
    have hw : (writeArray 0 n).encoding = n.encoding := by cases n; rfl
    have hctx := hi.2
    simp only at hctx
    have hrt := C32_tree_round_trip n
    rw [buffersOf_eq] at hrt
    simp only [itemMsg] at hpeek hd
    generalize hp : payload C (batchMsg n l) = pl at *
    have hdb : C.dec pl = some (.batch (some (writeArray 0 n)) l (batchBuffers 0 (preorder n)).1 (padded (preorder n)).length) := by
      rw [hd, batchMsg_eq]
    have hpb : ∀ t, Reader.peek C ⟨t, pl, false⟩ =
        .ok (some (.batch (some (writeArray 0 n)) l (batchBuffers 0 (preorder n)).1 (padded (preorder n)).length)) := by
      intro t; rw [hpeek, batchMsg_eq]
    have hread : (BufReader.fromFb pl).read C (padded (preorder n)) = .ok (none, ⟨.finished, some pl, preorder n⟩) := by
      simp [BufReader.read, BufReader.fromFb, BufReader.asBatch, rootUnchecked, hdb, FbMsg.asBatch, hs]
    have hinto : BufReader.intoArray C ctx dtype ⟨.finished, some pl, preorder n⟩ = .ok ⟨writeArray 0 n, l, dtype, preorder n⟩ := by
      simp [BufReader.intoArray, BufReader.asBatch, rootUnchecked, hdb, FbMsg.asBatch, View.tryNew, hw, hctx]
    simp only [itemMsg, hp]
    simp only [readOne, hpb, Res.ok_bind, Reader.maybeReadChunk, itemBody, readInto_append]
    simp only [Res.ofOption_some, Res.ok_bind, hread, Option.isSome_none, Bool.false_eq_true, if_false, next_eq]
    cases after C tail with
    | err => rfl
    | panic => rfl
    | ok r => simp [Res.bind, hinto, hrt]
  | page b =>
    have hb := hi.2
    simp only at hb
    have hge := alignUp_ge b.length
    have hm : pageMsg b = .page b.length (alignUp b.length - b.length) := by
      rw [pageMsg, Nat.mod_eq_of_lt hb, alignUp_pad]
    simp only [itemMsg] at hpeek hd
    generalize hp : payload C (pageMsg b) = pl at *
    have hpb : ∀ t, Reader.peek C ⟨t, pl, false⟩ = .ok (some (.page b.length (alignUp b.length - b.length))) := by
      intro t; rw [hpeek, hm]
    have hlen : (itemBody (.page b)).length = b.length + (alignUp b.length - b.length) := by
      simp [itemBody, padded]
    simp only [itemMsg, hp]
    simp only [readOne, hpb, Res.ok_bind, Reader.maybeReadPage, ← hlen, readInto_append]
    simp only [Res.ofOption_some, Res.ok_bind, next_eq]
    cases after C tail with
    | err => rfl
    | panic => rfl
    | ok r => simp [Res.bind, itemBody, padded]

theorem readOne_cut (C : Codec) (hC : C.Lawful) (ctx : Nat → Bool) (dtype : DType) (i : Item) (hi : ItemOk C ctx i) (rest : Bytes)
    (h : rest.length < (itemBody i).length) :
    readOne C ctx dtype ⟨rest, payload C (itemMsg i), false⟩ = .err := by
  have hd := dec_payload hC (itemMsg i)
  have hpeek : ∀ t, Reader.peek C ⟨t, payload C (itemMsg i), false⟩ = .ok (some (itemMsg i)) := by
    intro t; simp [Reader.peek, rootUnchecked, hd]
  cases i with
  | dtype d => simp [itemBody] at h
  | batch n l =>
    simp only [itemMsg] at hpeek hd
    generalize hp : payload C (batchMsg n l) = pl at *
    have hpb : ∀ t, Reader.peek C ⟨t, pl, false⟩ =
        .ok (some (.batch (some (writeArray 0 n)) l (batchBuffers 0 (preorder n)).1 (padded (preorder n)).length)) := by
      intro t; rw [hpeek, batchMsg_eq]
    simp only [itemBody] at h
    simp only [itemMsg, hp]
    simp only [readOne, hpb, Res.ok_bind, Reader.maybeReadChunk, readInto_short h]
    rfl
  | page b =>
    have hb := hi.2
    simp only at hb
    have hm : pageMsg b = .page b.length (alignUp b.length - b.length) := by
      rw [pageMsg, Nat.mod_eq_of_lt hb, alignUp_pad]
    simp only [itemMsg] at hpeek hd
    generalize hp : payload C (pageMsg b) = pl at *
    have hpb : ∀ t, Reader.peek C ⟨t, pl, false⟩ = .ok (some (.page b.length (alignUp b.length - b.length))) := by
      intro t; rw [hpeek, hm]
    have hlen : (itemBody (.page b)).length = b.length + (alignUp b.length - b.length) := by
      simp [itemBody, padded]
    simp only [itemMsg, hp]
    simp only [readOne, hpb, Res.ok_bind, Reader.maybeReadPage, ← hlen, readInto_short h]
    rfl

/-! ## Whole streams -/

theorem itemBytes_length (C : Codec) (i : Item) : (itemBytes C i).length = (frame C (itemMsg i)).length + (itemBody i).length := by
  rw [itemBytes, List.length_append]

theorem streamOf_cons (C : Codec) (i : Item) (is : List Item) : streamOf C (i :: is) = frame C (itemMsg i) ++ (itemBody i ++ streamOf C is) := by
  simp [streamOf, itemBytes, List.append_assoc]

/-- What reading a cut stream may return; `k` bytes of the stream are there. -/
def CutResult (C : Codec) (is : List Item) (k : Nat) (res : List Item × Outcome) : Prop :=
  res.1 <+: is ∧
  ((res.2 = .done ∧ (streamOf C res.1).length ≤ k ∧ (res.1 = is ∨ k < (streamOf C res.1).length + 4)) ∨
   (res.2 = .error ∧ k < (streamOf C is).length))

theorem readUpTo_cut (C : Codec) (hC : C.Lawful) (ctx : Nat → Bool) (dtype : DType) (is : List Item) :
    ∀ (i : Item) (k fuel : Nat), (∀ x ∈ i :: is, ItemOk C ctx x) → k + 2 ≤ fuel →
      CutResult C (i :: is) (k + (frame C (itemMsg i)).length)
        (readUpTo C ctx dtype fuel ⟨(itemBody i ++ streamOf C is).take k, payload C (itemMsg i), false⟩) := by
  induction is with
  | nil =>
    intro i k fuel hok hfuel
    obtain ⟨f, rfl⟩ : ∃ f, fuel = f + 2 := ⟨fuel - 2, by omega⟩
    have hi := hok i (by simp)
    by_cases hk : k < (itemBody i).length
    · have hcut := readOne_cut C hC ctx dtype i hi ((itemBody i ++ streamOf C []).take k) (by simp; omega)
      rw [readUpTo, hcut]
      refine ⟨by simp, .inr ⟨rfl, ?_⟩⟩
      rw [streamOf_cons]; simp [streamOf]; omega
    · have htake : (itemBody i ++ streamOf C []).take k = itemBody i ++ [] := by
        rw [List.take_of_length_le (by simp [streamOf]; omega)]; simp [streamOf]
      have hone := readOne_ok C hC ctx dtype i hi []
      have haf : after C [] = .ok ⟨[], [], true⟩ := by
        unfold after; rw [load_short (by simp)]; rfl
      rw [haf] at hone
      simp only [Res.bind] at hone
      rw [htake, readUpTo, hone]
      simp only [readUpTo, readOne, Reader.peek, if_true, Res.ok_bind]
      refine ⟨by simp, .inl ⟨rfl, ?_, .inl rfl⟩⟩
      rw [streamOf_cons]; simp [streamOf]; omega
  | cons j is ih =>
    intro i k fuel hok hfuel
    obtain ⟨f, rfl⟩ : ∃ f, fuel = f + 2 := ⟨fuel - 2, by omega⟩
    have hi := hok i (by simp)
    have hj := hok j (by simp)
    by_cases hk : k < (itemBody i).length
    · have hcut := readOne_cut C hC ctx dtype i hi ((itemBody i ++ streamOf C (j :: is)).take k) (by simp; omega)
      rw [readUpTo, hcut]
      refine ⟨by simp, .inr ⟨rfl, ?_⟩⟩
      rw [streamOf_cons]; simp only [List.length_append]; omega
    · have htake : (itemBody i ++ streamOf C (j :: is)).take k = itemBody i ++ (streamOf C (j :: is)).take (k - (itemBody i).length) := by
        rw [List.take_append, List.take_of_length_le (by omega)]
      have hone := readOne_ok C hC ctx dtype i hi ((streamOf C (j :: is)).take (k - (itemBody i).length))
      generalize hk' : k - (itemBody i).length = k' at *
      have hpre : (streamOf C [i]).length = (frame C (itemMsg i)).length + (itemBody i).length := by simp [streamOf, itemBytes]
      by_cases h4 : k' < 4
      · have haf : after C ((streamOf C (j :: is)).take k') = .ok ⟨(streamOf C (j :: is)).take k', [], true⟩ := by
          unfold after; rw [load_short (by simp; omega)]; rfl
        rw [haf] at hone
        simp only [Res.bind] at hone
        rw [htake, readUpTo, hone]
        simp only [readUpTo, readOne, Reader.peek, if_true, Res.ok_bind]
        refine ⟨by simp, .inl ⟨rfl, ?_, .inr ?_⟩⟩ <;> rw [hpre] <;> omega
      · by_cases hfr : k' < (frame C (itemMsg j)).length
        · have haf : after C ((streamOf C (j :: is)).take k') = .err := by
            unfold after; rw [streamOf_cons, load_cut hj.1 _ _ _ _ (by omega) hfr]; rfl
          rw [haf] at hone
          simp only [Res.bind] at hone
          rw [htake, readUpTo, hone]
          refine ⟨by simp, .inr ⟨rfl, ?_⟩⟩
          rw [streamOf_cons, streamOf_cons]; simp only [List.length_append]; omega
        · have htl : (streamOf C (j :: is)).take k' = frame C (itemMsg j) ++
              (itemBody j ++ streamOf C is).take (k' - (frame C (itemMsg j)).length) := by
            rw [streamOf_cons, List.take_append, List.take_of_length_le (by omega)]
          have haf : after C ((streamOf C (j :: is)).take k') = .ok ⟨(itemBody j ++ streamOf C is).take (k' - (frame C (itemMsg j)).length),
              payload C (itemMsg j), false⟩ := by
            unfold after; rw [htl, load_frame hC hj.1]; rfl
          rw [haf] at hone
          simp only [Res.bind] at hone
          obtain ⟨hp, hcase⟩ := ih j (k' - (frame C (itemMsg j)).length) (f + 1) (fun x hx => hok x (List.mem_cons_of_mem _ hx))
            (by have := frame_length C (itemMsg j); have := alignUp_ge (4 + (C.enc (itemMsg j)).length); omega)
          rw [htake, readUpTo, hone]
          simp only
          generalize readUpTo C ctx dtype (f + 1) _ = res at hp hcase ⊢
          obtain ⟨pre, o⟩ := res
          simp only at hp hcase ⊢
          have hlen1 : ∀ xs : List Item, (streamOf C (i :: xs)).length = (frame C (itemMsg i)).length + (itemBody i).length + (streamOf C xs).length := by
            intro xs; rw [streamOf_cons]; simp only [List.length_append]; omega
          refine ⟨by simpa using hp, ?_⟩
          rcases hcase with ⟨h1, h2, h3⟩ | ⟨h1, h2⟩
          · refine .inl ⟨h1, ?_, ?_⟩
            · rw [hlen1]; omega
            · rcases h3 with h3 | h3
              · exact .inl (by rw [h3])
              · right; rw [hlen1]; omega
          · exact .inr ⟨h1, by rw [hlen1]; omega⟩

theorem streamOf_length_ge (C : Codec) (is : List Item) : is.length ≤ (streamOf C is).length := by
  induction is with
  | nil => simp
  | cons i is ih =>
    rw [streamOf_cons]
    have h1 := frame_length C (itemMsg i)
    have h2 := alignUp_ge (4 + (C.enc (itemMsg i)).length)
    simp only [List.length_append, List.length_cons]; omega

theorem take_fuel (C : Codec) (hC : C.Lawful) (ctx : Nat → Bool) (dtype : DType) (i : Item) (is : List Item)
    (hok : ∀ x ∈ i :: is, ItemOk C ctx x) (k fuel : Nat) (hfuel : k + 1 ≤ fuel) (hk : (frame C (itemMsg i)).length ≤ k) :
    ∃ r, Reader.tryNew C ((streamOf C (i :: is)).take k) = .ok r ∧ CutResult C (i :: is) k (readUpTo C ctx dtype fuel r) := by
  have h := readUpTo_cut C hC ctx dtype is i (k - (frame C (itemMsg i)).length) fuel hok
    (by have := frame_length C (itemMsg i); have := alignUp_ge (4 + (C.enc (itemMsg i)).length); omega)
  rw [show k - (frame C (itemMsg i)).length + (frame C (itemMsg i)).length = k by omega] at h
  refine ⟨_, ?_, h⟩
  unfold Reader.tryNew
  rw [streamOf_cons, List.take_append, List.take_of_length_le (by omega), load_frame hC (hok i (by simp)).1]
  rfl

/-- Reading back what was written: every sequence of schemas, batches and pages is read back as exactly that sequence, followed by a clean
end. -/
theorem C31_round_trip (C : Codec) (hC : C.Lawful) (ctx : Nat → Bool) (dtype : DType) (is : List Item) (hne : is ≠ [])
    (hok : ∀ i ∈ is, ItemOk C ctx i) (w : Writer) (hw : writeItems C .new is = .ok w) : readAll C ctx dtype w.out = (is, .done) := by
  rw [writeItems_eq C is .new rfl] at hw
  simp only [Writer.new, List.nil_append, Res.ok.injEq] at hw
  rw [← hw]
  cases is with
  | nil => exact absurd rfl hne
  | cons i is =>
    have hge := streamOf_length_ge C (i :: is)
    have hfr : (frame C (itemMsg i)).length ≤ (streamOf C (i :: is)).length := by rw [streamOf_cons]; simp
    have h4 : 4 ≤ (frame C (itemMsg i)).length := by
      rw [frame_length]; have := alignUp_ge (4 + (C.enc (itemMsg i)).length); omega
    simp only [List.length_cons] at hge
    obtain ⟨r, hr, hp, hc⟩ := take_fuel C hC ctx dtype i is hok (streamOf C (i :: is)).length ((streamOf C (i :: is)).length + 1)
      (by omega) hfr
    rw [List.take_of_length_le (Nat.le_refl _)] at hr
    rw [readAll, hr]
    rcases hc with ⟨h1, h2, h3⟩ | ⟨_, h2⟩
    · have hall : (readUpTo C ctx dtype ((streamOf C (i :: is)).length + 1) r).1 = i :: is := by
        rcases h3 with h3 | h3
        · exact h3
        · obtain ⟨t, ht⟩ := hp
          have := congrArg (fun l => (streamOf C l).length) ht
          simp only [streamOf, List.flatMap_append, List.length_append] at this h3
          cases t with
          | nil => simpa using ht
          | cons x xs =>
            simp only [List.flatMap_cons, List.length_append, itemBytes_length] at this
            have h5 : 4 ≤ (frame C (itemMsg x)).length := by
              rw [frame_length]; have := alignUp_ge (4 + (C.enc (itemMsg x)).length); omega
            simp only [List.flatMap_cons, List.length_append, itemBytes_length] at h3 this
            omega
      show readUpTo C ctx dtype ((streamOf C (i :: is)).length + 1) r = (i :: is, .done)
      exact Prod.ext hall h1
    · omega

/-- Truncation: of any prefix of at least the first message's length prefix, the reader returns a prefix of what was written, never
anything else, and never crashes. It then reports an error, or a clean end — the latter only if the cut is at the end of the last
item returned or within the four bytes of the next length prefix. -/
theorem C31_truncated_partial (C : Codec) (hC : C.Lawful) (ctx : Nat → Bool) (dtype : DType) (is : List Item) (hne : is ≠ [])
    (hok : ∀ i ∈ is, ItemOk C ctx i) (k : Nat) (hk4 : 4 ≤ k) (hk : k ≤ (streamOf C is).length) :
    CutResult C is k (readAll C ctx dtype ((streamOf C is).take k)) := by
  cases is with
  | nil => exact absurd rfl hne
  | cons i is =>
    have hfits := (hok i (by simp)).1
    by_cases hfr : k < (frame C (itemMsg i)).length
    · have hcut : Reader.tryNew C ((streamOf C (i :: is)).take k) = .err := by
        unfold Reader.tryNew
        rw [streamOf_cons, load_cut hfits _ _ _ _ hk4 hfr]; rfl
      rw [readAll, hcut]
      refine ⟨by simp, .inr ⟨rfl, ?_⟩⟩
      rw [streamOf_cons]; simp only [List.length_append]; omega
    · obtain ⟨r, hr, h⟩ := take_fuel C hC ctx dtype i is hok k (((streamOf C (i :: is)).take k).length + 1)
        (by rw [List.length_take]; omega) (by omega)
      rw [readAll, hr]; exact h

/-- The defect: a stream of fewer than four bytes opens without an error, and using the reader then reads a message that does not exist
(undefined behaviour in the code, a crash here). -/
theorem C31_empty_stream_crashes (C : Codec) (hC : C.Lawful) (ctx : Nat → Bool) (dtype : DType) (src : Bytes) (h : src.length < 4) :
    readAll C ctx dtype src = ([], .crash) := by
  simp [readAll, Reader.tryNew, load_short h, readUpTo, readOne, Reader.peek, rootUnchecked, hC.dec_nil]

/-- The limit on pages is real: a page of 4 GiB or more is announced with its length modulo 2^32. -/
theorem C31_huge_page (b : Bytes) : pageMsg b = .page (b.length % 2 ^ 32) (alignUp b.length - b.length) := by
  rw [pageMsg, alignUp_pad]

/-! ## The stream writer's offsets -/

/-- Row numbers at the chunk boundaries. -/
def rowStarts (start : Nat) : List (Node × Nat) → List Nat
  | [] => [start]
  | (_, l) :: cs => start :: rowStarts (start + l) cs

/-- Byte positions at the chunk boundaries. -/
def byteStarts (C : Codec) (start : Nat) : List (Node × Nat) → List Nat
  | [] => [start]
  | (n, l) :: cs => start :: byteStarts C (start + (itemBytes C (.batch n l)).length) cs

/-- The offsets the stream writer reports are the positions at which the chunks' messages start and the running row counts. -/
theorem C31_chunk_offsets (C : Codec) (cs : List (Node × Nat)) : ∀ (w : Writer) (rows : Nat), w.pos % 64 = 0 →
    w.writeChunks C rows cs = .ok (⟨w.out ++ streamOf C (cs.map (fun p => .batch p.1 p.2))⟩, byteStarts C w.pos cs, rowStarts rows cs) := by
  induction cs with
  | nil => intro w rows _; simp [Writer.writeChunks, byteStarts, rowStarts, streamOf]
  | cons c cs ih =>
    intro w rows hw
    obtain ⟨n, l⟩ := c
    have h1 := writeItem_eq C w (.batch n l) hw
    simp only [writeItem] at h1
    have hw' : (⟨w.out ++ itemBytes C (.batch n l)⟩ : Writer).pos % 64 = 0 := by
      have := itemBytes_aligned C (.batch n l)
      simp only [Writer.pos, List.length_append] at hw ⊢; omega
    simp only [Writer.writeChunks, h1, Res.ok_bind, ih _ _ hw', byteStarts, rowStarts, Writer.pos, List.length_append]
    simp [streamOf, List.append_assoc]

/-! Non-vacuity: a schema, a batch with three buffers and a page. -/
def exampleItems : List Item := [.dtype (.prim .i32 true), .batch exampleNode 10, .page [1, 2, 3]]

theorem exampleItems_ok : ∀ i ∈ exampleItems, ItemOk Demo.codec (fun _ => true) i := by
  intro i hi
  simp only [exampleItems, List.mem_cons, List.not_mem_nil, or_false] at hi
  have small : ∀ m, (Demo.codec.enc m).length < 1000 → Fits Demo.codec m := by
    intro m h
    have := alignUp_lt (4 + (Demo.codec.enc m).length)
    unfold Fits; omega
  rcases hi with rfl | rfl | rfl
  · exact ⟨small _ (by show (Demo.unary _).length < 1000; decide +kernel), trivial⟩
  · exact ⟨exampleFits, rfl⟩
  · exact ⟨small _ (by show (Demo.unary _).length < 1000; decide +kernel), by simp⟩

example : ∃ w, writeItems Demo.codec .new exampleItems = .ok w ∧
    readAll Demo.codec (fun _ => true) .null w.out = (exampleItems, .done) := by
  obtain ⟨w, hw, _⟩ := C31_write Demo.codec exampleItems
  exact ⟨w, hw, C31_round_trip _ Demo.codec_lawful _ _ _ (by simp [exampleItems]) exampleItems_ok w hw⟩

end Vx.Ipc
