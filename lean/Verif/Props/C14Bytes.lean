import Verif.Model.DictBytes
import Verif.Props.C14
import Verif.Props.C21
import Verif.Props.C21View
import Verif.Props.C97
import Mathlib.Data.List.Dedup
import Mathlib.Data.List.Perm.Subperm
import Mathlib.Algebra.BigOperators.Group.List.Basic
/-!
# C14, byte by byte: the dictionary of a variable-length array

Model: `Model/DictBytes.lean`. The encoder that builds bytes and offsets is shown to build exactly the dictionary that `Dict.encode` builds
from the rows, whatever the hash function does, as long as the distinct values together stay below 4 GiB; beyond that the `u32` offsets
wrap around and the code loses data (`C14_bytes_offsets_wrap`).
-/
namespace Vx.DictBytes
open Vx.VarBin (Byte Arr ends)
open Vx.Spec

/-- What the hash table promises, when the closure answers for every stored key: it gives back a stored key the closure accepted, and
finds one if a key stored under this very hash is accepted. -/
structure RawMap.Ok (m : RawMap) : Prop where
  answers : ∀ es h eq, (∀ e ∈ es, ∃ b, eq e.2 = .ok b) → ∃ r, m.find es h eq = .ok r
  sound : ∀ es h eq k, m.find es h eq = .ok (some k) → (∃ h', (h', k) ∈ es) ∧ eq k = .ok true
  complete : ∀ es h eq, m.find es h eq = .ok none → ∀ k, (h, k) ∈ es → eq k ≠ .ok true

/-- The byte-level state and the state of the row-level encoder. -/
structure Sim (hash : List Byte → Nat) (st : Enc) (E : Dict.Enc (List Byte)) : Prop where
  codes : st.codes = E.codes
  bytes : st.bytes = E.values.flatten
  offsets : st.offsets = 0 :: ends 0 E.values
  entries : st.entries = E.lookup.map fun p => (hash p.1, p.2)

theorem lookupBytes_ok (vals : List (List Byte)) (k : Nat) (v : List Byte) (h : vals[k]? = some v) :
    lookupBytes (0 :: ends 0 vals) vals.flatten k = .ok v := by
  let a : Arr := ⟨false, 0 :: ends 0 vals, vals.flatten, .nonNullable⟩
  have hw : VarBin.WF a := by
    obtain ⟨h1, h2⟩ := VarBin.ends_mono 0 vals
    refine ⟨by simp [a], h1, fun o ho => by simpa [a] using h2 o ho, ?_, rfl⟩
    simp [FitsLen, mask, a]
  have hl : k < a.len := by
    have := (List.getElem?_eq_some_iff.mp h).1
    simpa [a, Arr.len, VarBin.ends_length] using this
  obtain ⟨x, h1, h2⟩ := VarBin.spanAt_ok hw hl
  have hs : VarBin.spans a = vals := by
    have := VarBin.spans_ends [] vals []
    simpa [VarBin.spans, a] using this
  rw [hs, h] at h2
  cases h2
  exact h1

/-- Bytes of the distinct values. -/
def distinctBytes (rs : List (Option (List Byte))) : Nat := ((rs.filterMap id).dedup.map List.length).sum

theorem sum_subperm {a b : List (List Byte)} (h : a.Subperm b) : (a.map List.length).sum ≤ (b.map List.length).sum := by
  obtain ⟨l, hp, hs⟩ := h
  rw [← (hp.map List.length).sum_nat]
  clear hp
  induction hs with
  | slnil => simp
  | cons x _ ih => simp; omega
  | cons_cons x _ ih => simp; omega

theorem step_some (E : Dict.Enc (List Byte)) (v : List Byte) :
    (∃ p ∈ E.lookup, p.1 = v ∧ Dict.step E (some v) = { E with codes := E.codes ++ [p.2] }) ∨
    ((∀ p ∈ E.lookup, p.1 ≠ v) ∧ Dict.step E (some v) =
      { lookup := E.lookup ++ [(v, E.values.length)], codes := E.codes ++ [E.values.length], values := E.values ++ [v] }) := by
  simp only [Dict.step]
  split
  · rename_i p hp
    exact .inl ⟨p, List.mem_of_find?_eq_some hp, by simpa using List.find?_some hp, rfl⟩
  · rename_i hn
    exact .inr ⟨fun p hp => by simpa using List.find?_eq_none.mp hn p hp, rfl⟩

theorem keys_small {base : Nat} {E : Dict.Enc (List Byte)} {done : List (Option (List Byte))} (h : Dict.Inv base [] E done)
    {rs : List (Option (List Byte))} (hk : ∀ p ∈ E.lookup, some p.1 ∈ rs) : E.values.flatten.length ≤ distinctBytes rs := by
  have h1 : E.values.flatten.length = ((E.lookup.map (·.1)).map List.length).sum := by
    rw [h.prefix_, List.flatten_append, List.length_append, List.length_flatten, List.length_flatten]
    simp
  rw [h1]
  refine sum_subperm (h.nodup.subperm ?_)
  intro v hv
  obtain ⟨p, hp, rfl⟩ := List.mem_map.mp hv
  rw [List.mem_dedup, List.mem_filterMap]
  exact ⟨_, hk p hp, rfl⟩

theorem step_sim (m : RawMap) (hm : m.Ok) (hash : List Byte → Nat) {base : Nat} {st : Enc} {E : Dict.Enc (List Byte)}
    {done : List (Option (List Byte))} (hs : Sim hash st E) (hi : Dict.Inv base [] E done) (r : Option (List Byte))
    (hb : (Dict.step E r).values.flatten.length < 4294967296) : ∃ st', step m hash st r = .ok st' ∧ Sim hash st' (Dict.step E r) := by
  cases r with
  | none => exact ⟨_, rfl, ⟨by simp [Dict.step, hs.codes], hs.bytes, hs.offsets, hs.entries⟩⟩
  | some v =>
    have hget : ∀ p ∈ E.lookup, E.values[p.2]? = some p.1 := by
      intro p hp
      obtain ⟨k, hk, rfl⟩ := List.getElem_of_mem hp
      rw [hi.lookup k hk, hi.prefix_, List.getElem?_append_right (by simp)]
      simp [List.getElem?_eq_getElem hk]
    have heq : ∀ p ∈ E.lookup, isEntry st v p.2 = .ok (v == p.1) := by
      intro p hp
      unfold isEntry
      rw [hs.offsets, hs.bytes, lookupBytes_ok _ _ _ (hget p hp)]
      rfl
    obtain ⟨r, hr⟩ := hm.answers st.entries (hash v) (isEntry st v) (by
      intro e he
      rw [hs.entries] at he
      obtain ⟨p, hp, rfl⟩ := List.mem_map.mp he
      exact ⟨_, heq p hp⟩)
    refine ⟨put hash st v r, by simp only [step]; rw [hr]; rfl, ?_⟩
    rcases step_some E v with ⟨p, hp2, hp1, hst⟩ | ⟨hno, hst⟩
    · rw [hst]
      cases r with
      | none =>
        exfalso
        refine hm.complete _ _ _ hr p.2 ?_ ?_
        · rw [hs.entries]
          exact List.mem_map.mpr ⟨p, hp2, by rw [hp1]⟩
        · rw [heq p hp2, hp1]; simp
      | some c =>
        obtain ⟨⟨h', hmem⟩, ht⟩ := hm.sound _ _ _ _ hr
        rw [hs.entries] at hmem
        obtain ⟨q, hq, hqe⟩ := List.mem_map.mp hmem
        have hqc : q.2 = c := by simpa using congrArg Prod.snd hqe
        rw [← hqc, heq q hq] at ht
        have hqv : v = q.1 := by simpa using ht
        have hpc : p.2 = c := by
          -- distinct keys: the same entry
          obtain ⟨i, hi1, hi2⟩ := List.getElem_of_mem hp2
          obtain ⟨j, hj1, hj2⟩ := List.getElem_of_mem hq
          have hnd := hi.nodup
          have hii : (E.lookup.map (·.1))[i]'(by simpa using hi1) = (E.lookup.map (·.1))[j]'(by simpa using hj1) := by
            simp [hi2, hj2, hp1, ← hqv]
          have := (List.Nodup.getElem_inj_iff hnd).mp hii
          subst this
          rw [← hi2, ← hqc, ← hj2]
        simp only [put]
        exact ⟨by simp [hs.codes, hpc], hs.bytes, hs.offsets, hs.entries⟩
    · rw [hst] at hb
      rw [hst]
      cases r with
      | some c =>
        exfalso
        obtain ⟨⟨h', hmem⟩, ht⟩ := hm.sound _ _ _ _ hr
        rw [hs.entries] at hmem
        obtain ⟨q, hq, hqe⟩ := List.mem_map.mp hmem
        have hqc : q.2 = c := by simpa using congrArg Prod.snd hqe
        rw [← hqc, heq q hq] at ht
        have hqv : v = q.1 := by simpa using ht
        exact hno q hq hqv.symm
      | none =>
        have hcode : st.offsets.length - 1 = E.values.length := by rw [hs.offsets]; simp [VarBin.ends_length]
        simp only at hb
        rw [List.flatten_append, List.length_append] at hb
        simp only [put]
        refine ⟨?_, ?_, ?_, ?_⟩
        · simp only [hcode, hs.codes]
        · simp [hs.bytes]
        · rw [VarBin.ends_append]
          simp only [hs.offsets, hs.bytes, asU32, List.cons_append, ends, List.length_append]
          rw [Nat.mod_eq_of_lt (by simpa using hb), Nat.zero_add]
        · simp only [hcode, hs.entries, List.map_append, List.map_cons, List.map_nil]

theorem step_keys (E : Dict.Enc (List Byte)) (r : Option (List Byte)) (rs : List (Option (List Byte))) (hk : ∀ p ∈ E.lookup, some p.1 ∈ rs)
    (hr : r ∈ rs) : ∀ p ∈ (Dict.step E r).lookup, some p.1 ∈ rs := by
  cases r with
  | none => exact hk
  | some v =>
    simp only [Dict.step]
    split
    · exact hk
    · intro p hp
      rcases List.mem_append.mp hp with h | h
      · exact hk p h
      · rw [List.mem_singleton.mp h]; exact hr

theorem fold_keys (all : List (Option (List Byte))) : ∀ (rs : List (Option (List Byte))) (E : Dict.Enc (List Byte)),
    (∀ p ∈ E.lookup, some p.1 ∈ all) → (∀ r ∈ rs, r ∈ all) → ∀ p ∈ (rs.foldl Dict.step E).lookup, some p.1 ∈ all
  | [], _, hk, _ => hk
  | r :: rs, E, hk, hr => fold_keys all rs _ (step_keys E r all hk (hr r (by simp))) (fun x hx => hr x (by simp [hx]))

theorem run_sim (m : RawMap) (hm : m.Ok) (hash : List Byte → Nat) {base : Nat} (all : List (Option (List Byte)))
    (hb : distinctBytes all < 4294967296) : ∀ (rs : List (Option (List Byte))) {st : Enc} {E : Dict.Enc (List Byte)}
    {done : List (Option (List Byte))}, Sim hash st E → Dict.Inv base [] E done → (∀ p ∈ E.lookup, some p.1 ∈ all) → (∀ r ∈ rs, r ∈ all) →
    ∃ st', run m hash st rs = .ok st' ∧ Sim hash st' (rs.foldl Dict.step E)
  | [], st, E, done, hs, _, _, _ => ⟨st, rfl, hs⟩
  | r :: rs, st, E, done, hs, hi, hk, hr => by
    have hi' := Dict.inv_step hi r
    have hk' := step_keys E r all hk (hr r (by simp))
    obtain ⟨st1, h1, h2⟩ := step_sim m hm hash hs hi r (Nat.lt_of_le_of_lt (keys_small hi' hk') hb)
    obtain ⟨st2, h3, h4⟩ := run_sim m hm hash all hb rs h2 hi' hk' (fun x hx => hr x (by simp [hx]))
    exact ⟨st2, by simp only [run]; rw [h1]; exact h3, h4⟩

/-- **C14, byte by byte.** For every hash function and hash table, and rows whose distinct values hold less than 4 GiB, the encoder
succeeds and its codes and dictionary are those of the row-level encoder: all C14 theorems apply to them. -/
theorem C14_bytes_refines (m : RawMap) (hm : m.Ok) (hash : List Byte → Nat) (nullable : Bool) (rs : List (Option (List Byte)))
    (hb : distinctBytes rs < 4294967296) :
    ∃ d, encode m hash nullable rs = .ok ((Dict.encode [] nullable rs).codes, d) ∧ VarBin.WF d ∧ d.nullable = nullable ∧
      VarBin.rows d = (Dict.encode [] nullable rs).values.rows ∧ d.len = (Dict.encode [] nullable rs).values.len ∧ d.bytes.length ≤ distinctBytes rs := by
  let E0 : Dict.Enc (List Byte) := { lookup := [], codes := [], values := if nullable then [[]] else [] }
  have h0 : Dict.Inv (if nullable then 1 else 0) [] E0 [] := by
    refine ⟨by cases nullable <;> rfl, by simp [E0], by simp [E0], rfl, by simp⟩
  have hs0 : Sim hash ⟨[], [], [], if nullable then [0, 0] else [0]⟩ E0 := by
    refine ⟨rfl, ?_, ?_, rfl⟩ <;> cases nullable <;> simp [E0, ends]
  obtain ⟨st, h1, h2⟩ := run_sim m hm hash rs hb rs hs0 h0 (by simp [E0]) (fun r hr => hr)
  have hinv := Dict.inv_fold rs h0
  have hsmall := keys_small hinv (rs := rs) (fold_keys rs rs E0 (by simp [E0]) (fun r hr => hr))
  have hE : Dict.encode [] nullable rs = ⟨(rs.foldl Dict.step E0).codes, ⟨(rs.foldl Dict.step E0).values,
      if nullable then Validity.ofVec ((List.replicate (rs.foldl Dict.step E0).values.length true).set 0 false) else .nonNullable⟩⟩ := rfl
  rw [hE]
  generalize rs.foldl Dict.step E0 = E at *
  have hlen : st.offsets.length = E.values.length + 1 := by rw [h2.offsets]; simp [VarBin.ends_length]
  have hpos : nullable = true → 0 < E.values.length := by
    intro h; rw [hinv.prefix_, h]; simp
  have hv : (if nullable then Validity.ofVec (false :: List.replicate (st.offsets.length - 2) true) else .nonNullable) =
      (if nullable then Validity.ofVec ((List.replicate E.values.length true).set 0 false) else .nonNullable : Validity) := by
    cases nullable with
    | false => rfl
    | true =>
      obtain ⟨k, hk⟩ : ∃ k, E.values.length = k + 1 := ⟨E.values.length - 1, by have := hpos rfl; omega⟩
      rw [hlen, hk]
      simp [List.replicate_succ]
  generalize hV : (if nullable then Validity.ofVec ((List.replicate E.values.length true).set 0 false) else .nonNullable : Validity) = V at *
  have hfit : FitsLen V E.values.length := by
    rw [← hV]
    cases nullable with
    | false => simp [FitsLen, mask]
    | true =>
      have hl := hpos rfl
      simp only [FitsLen, if_true, Dict.set_false_mask _ hl]
      simp; omega
  have hnull : nullable = V.nullable := by
    rw [← hV]
    cases nullable with
    | false => rfl
    | true => exact (Dict.ofVec_nullable _).symm
  have hspans : VarBin.spans ⟨nullable, 0 :: ends 0 E.values, E.values.flatten, V⟩ = E.values := by
    simpa [VarBin.spans] using VarBin.spans_ends [] E.values []
  have hal : Arr.len ⟨nullable, 0 :: ends 0 E.values, E.values.flatten, V⟩ = E.values.length := by simp [Arr.len, VarBin.ends_length]
  refine ⟨⟨nullable, 0 :: ends 0 E.values, E.values.flatten, V⟩, ?_, ?_, rfl, ?_, hal, hsmall⟩
  · unfold encode
    rw [h1]
    simp only [Res.ok_bind]
    rw [hv, h2.offsets, h2.bytes, h2.codes]
    have htn : VarBin.tryNew nullable (0 :: ends 0 E.values) E.values.flatten V = .ok ⟨nullable, 0 :: ends 0 E.values, E.values.flatten, V⟩ := by
      unfold VarBin.tryNew
      rw [show (nullable == V.nullable) = true by simp [hnull]]
      have : (0 :: ends 0 E.values).length = E.values.length + 1 := by simp [VarBin.ends_length]
      rw [this, Res.sub_of_le (by omega)]
      simp only [Res.guard, if_true, Res.ok_bind, Nat.add_sub_cancel]
      have hc : V.checkLen E.values.length = .ok () := by
        unfold Validity.checkLen
        cases V with
        | array a => simp only [FitsLen, mask] at hfit; simp [hfit]
        | _ => rfl
      rw [hc]; rfl
    rw [htn]
    rfl
  · obtain ⟨o1, o2⟩ := VarBin.ends_mono 0 E.values
    refine ⟨by simp, o1, fun o ho => by simpa using o2 o ho, ?_, hnull⟩
    rw [hal]; exact hfit
  · rw [VarBin.rows, hspans, hal]; rfl

/-- **C14, byte by byte, round trip.** Looking every code up in the dictionary gives back every row; the dictionary's values are pairwise
distinct, and exactly the null rows have the null entry. -/
theorem C14_bytes_round_trip (m : RawMap) (hm : m.Ok) (hash : List Byte → Nat) (a : Arr) (hw : VarBin.WF a)
    (hb : distinctBytes (VarBin.rows a) < 4294967296) :
    ∃ codes d, encodeVarBin m hash a = .ok (codes, d) ∧ VarBin.WF d ∧ d.nullable = a.nullable ∧ (∀ c ∈ codes, c < d.len) ∧
      codes.map (fun c => (VarBin.rows d)[c]?) = (VarBin.rows a).map some ∧ ((VarBin.rows d).filterMap id).Nodup := by
  have hnn : a.nullable = false → none ∉ VarBin.rows a := by
    intro h hm
    have hv : a.validity = .nonNullable := by
      have := hw.null
      rw [h] at this
      cases hv : a.validity <;> first | rfl | (rw [hv] at this; cases this)
    obtain ⟨i, hi⟩ := List.mem_iff_getElem?.mp hm
    have hl : i < a.len := by
      have := (List.getElem?_eq_some_iff.mp hi).1
      rwa [VarBin.rows_len hw] at this
    rw [VarBin.rows, hv, Vx.rows_getElem?] at hi
    have : i < (VarBin.spans a).length := by rw [VarBin.spans_length]; exact hl
    simp [mask, hl, this] at hi
  obtain ⟨d, h1, h2, h3, h4, h5, _⟩ := C14_bytes_refines m hm hash a.nullable (VarBin.rows a) hb
  obtain ⟨e1, e2, e3⟩ := Dict.C14_encode ([] : List Byte) a.nullable (VarBin.rows a) hnn
  obtain ⟨f1, f2, _, _⟩ := Dict.C14_dictionary ([] : List Byte) a.nullable (VarBin.rows a) hnn
  refine ⟨_, d, by unfold encodeVarBin; rw [VarBin.C21_iter a hw]; exact h1, h2, h3, ?_, ?_, by rw [h4]; exact f1⟩
  · intro c hc; rw [h5]; exact f2 c hc
  · apply List.ext_getElem?
    intro i
    rw [h4, List.getElem?_map, List.getElem?_map]
    have := Dict.rows_getElem? e1 i
    rw [e3] at this
    rw [this]
    cases hc : (Dict.encode [] a.nullable (VarBin.rows a)).codes[i]? with
    | none => rfl
    | some c =>
      have hlt := f2 c (List.mem_iff_getElem?.mpr ⟨i, hc⟩)
      have hl : c < (Dict.encode [] a.nullable (VarBin.rows a)).values.rows.length := by
        rw [PArr.rows_len e1.values]; exact hlt
      simp [List.getElem?_eq_getElem hl]

theorem rows_of_dict (nullable : Bool) (rs : List (Option (List Byte))) (hnn : nullable = false → none ∉ rs) :
    (Dict.encode [] nullable rs).codes.map (fun c => (Dict.encode [] nullable rs).values.rows[c]?) = rs.map some := by
  obtain ⟨e1, e2, e3⟩ := Dict.C14_encode ([] : List Byte) nullable rs hnn
  obtain ⟨_, f2, _, _⟩ := Dict.C14_dictionary ([] : List Byte) nullable rs hnn
  apply List.ext_getElem?
  intro i
  rw [List.getElem?_map, List.getElem?_map]
  have := Dict.rows_getElem? e1 i
  rw [e3] at this
  rw [this]
  cases hc : (Dict.encode [] nullable rs).codes[i]? with
  | none => rfl
  | some c =>
    have hlt := f2 c (List.mem_iff_getElem?.mpr ⟨i, hc⟩)
    have hl : c < (Dict.encode [] nullable rs).values.rows.length := by
      rw [PArr.rows_len e1.values]; exact hlt
    simp [List.getElem?_eq_getElem hl]

/-- **C14, byte by byte, view arrays.** A string column held as views is encoded into codes and a dictionary of views that stands for
distinct values and gives back every row, as long as the distinct values hold less than 2 GiB. -/
theorem C14_bytes_view (cast : VarBinCanon.Cast) (hc : VarBinCanon.Spec.StringCast cast) (m : RawMap) (hm : m.Ok) (hash : List Byte → Nat)
    (a : VarBinView.Arr) (rs : List (Option (List Byte))) (h : VarBinView.Denotes a rs) (hb : distinctBytes rs < 2147483648) :
    ∃ codes d ds, encodeView cast m hash true a = .ok (codes, true, d) ∧ VarBinView.Denotes d ds ∧ d.nullable = a.nullable ∧
      codes.map (fun c => ds[c]?) = rs.map some ∧ (ds.filterMap id).Nodup := by
  have hnn : a.nullable = false → none ∉ rs := by
    intro hn hmem
    have hv : a.validity = .nonNullable := by
      have := h.null
      rw [hn] at this
      cases hv : a.validity <;> first | rfl | (rw [hv] at this; cases this)
    obtain ⟨i, hi⟩ := List.mem_iff_getElem?.mp hmem
    have hk := h.mask
    rw [hv] at hk
    have hl := (List.getElem?_eq_some_iff.mp hi).1
    have h7 : (rs.map Option.isSome)[i]? = some true := by
      rw [← hk]
      simp [mask, hl]
    rw [List.getElem?_map, hi] at h7
    cases h7
  obtain ⟨d, h1, h2, h3, h4, h5, h6⟩ := C14_bytes_refines m hm hash a.nullable rs (by omega)
  obtain ⟨f1, f2, _, _⟩ := Dict.C14_dictionary ([] : List Byte) a.nullable rs hnn
  have hv := VarBinCanon.C97_varbin cast hc .u32 rfl d h2 (by omega)
  rw [if_pos (fun o ho => by
    have h7 := h2.inb o ho
    have h8 : (if PType.u32.bits = 64 then 2 ^ 63 else 2 ^ 31) = 2147483648 := rfl
    omega)] at hv
  obtain ⟨b, g1, g2, g3⟩ := hv
  refine ⟨(Dict.encode [] a.nullable rs).codes, b, VarBin.rows d, ?_, g2, g3.trans h3, ?_, by rw [h4]; exact f1⟩
  · unfold encodeView
    rw [VarBinView.C21_view_iter a rs h]
    simp only [VarBin.expect, Res.ok_bind]
    rw [h1]
    simp only [Res.ok_bind]
    rw [g1]
    rfl
  · rw [h4]
    exact rows_of_dict a.nullable rs hnn

/-- The dictionary of a byte column held as views comes back with the type of a string column. -/
theorem C14_bytes_view_becomes_text (cast : VarBinCanon.Cast) (m : RawMap) (hash : List Byte → Nat) (a : VarBinView.Arr)
    (r : List Nat × Bool × VarBinView.Arr) (h : encodeView cast m hash false a = .ok r) : r.2.1 = true := by
  simp only [encodeView, Res.bind_eq_ok] at h
  obtain ⟨rows, _, e, _, v, hv, h⟩ := h
  cases h
  refine VarBinCanon.C97_binary_becomes_text cast .u32 e.2 v ?_
  unfold VarBin.expect at hv
  split at hv
  · rename_i h'; cases hv; exact h'
  · cases hv

/-- From 4 GiB on, the `u32` offsets wrap around: a single value of exactly 2^32 bytes comes back empty. -/
theorem C14_bytes_offsets_wrap (m : RawMap) (hm : m.Ok) (hash : List Byte → Nat) (v : List Byte) (hl : v.length = 4294967296) :
    ∃ d, encode m hash false [some v] = .ok ([0], d) ∧ VarBin.rows d = [some []] ∧ [some v] ≠ VarBin.rows d := by
  have hf : m.find [] (hash v) (isEntry ⟨[], [], [], [0]⟩ v) = .ok none := by
    obtain ⟨r, hr⟩ := hm.answers [] (hash v) (isEntry ⟨[], [], [], [0]⟩ v) (by simp)
    cases r with
    | none => exact hr
    | some k => obtain ⟨⟨h', hk⟩, _⟩ := hm.sound _ _ _ _ hr; simp at hk
  have h0 : asU32 v.length = 0 := by rw [hl]; rfl
  have hrows : VarBin.rows ⟨false, [0, 0], v, .nonNullable⟩ = [some []] := by
    simp [VarBin.rows, VarBin.spans, Spec.slice, Spec.rows, Arr.len, mask]
  refine ⟨⟨false, [0, 0], v, .nonNullable⟩, ?_, hrows, ?_⟩
  · simp only [encode, run, step, Bool.false_eq_true, if_false]
    rw [hf]
    simp only [Res.ok_bind, put, List.nil_append, h0]
    rfl
  · rw [hrows]
    intro h
    have : v = [] := by simpa using h
    rw [this] at hl
    simp at hl

/-- A hash table that scans its entries in order, comparing hashes first. -/
def scanMap : RawMap where
  find := fun es h eq => .ok ((es.find? fun e => e.1 == h && (match eq e.2 with | .ok b => b | _ => false)).map Prod.snd)

theorem scanMap_ok : scanMap.Ok where
  answers := fun es h eq _ => ⟨_, rfl⟩
  sound := by
    intro es h eq k hk
    have h1 := Res.ok.inj hk
    obtain ⟨e, he, rfl⟩ := Option.map_eq_some_iff.mp h1
    have h2 := List.find?_some he
    simp only [Bool.and_eq_true] at h2
    refine ⟨⟨e.1, List.mem_of_find?_eq_some he⟩, ?_⟩
    cases hq : eq e.2 with
    | ok b => rw [hq] at h2; exact congrArg Res.ok h2.2
    | err => rw [hq] at h2; simp at h2
    | panic => rw [hq] at h2; simp at h2
  complete := by
    intro es h eq hn k hk ht
    have h1 := Res.ok.inj hn
    have h2 := Option.map_eq_none_iff.mp h1
    have := List.find?_eq_none.mp h2 (h, k) hk
    simp [ht] at this

/-- A value that long exists. -/
example : ∃ v : List Byte, v.length = 4294967296 := ⟨List.replicate 4294967296 0, List.length_replicate⟩
/-- All values under one hash, an empty value, nulls and repetitions. -/
example : encode scanMap (fun _ => 0) true [some [1#8, 2#8], none, some [], some [3#8], some [1#8, 2#8]] =
    .ok ([1, 0, 2, 3, 1], ⟨true, [0, 0, 2, 2, 3], [1#8, 2#8, 3#8], .array [false, true, true, true]⟩) := by decide +kernel
example : distinctBytes [some [1#8, 2#8], none, some [], some [3#8], some [1#8, 2#8]] = 3 := by decide +kernel
/-- The hypotheses of the view theorem are met by a concrete array with a null. -/
example : ∃ codes d ds, encodeView (VarBinCanon.shareCast fun _ => true) scanMap (fun _ => 0) true VarBinView.exArr = .ok (codes, true, d) ∧
    VarBinView.Denotes d ds ∧ d.nullable = VarBinView.exArr.nullable ∧ codes.map (fun c => ds[c]?) = [some (some [97#8]), some none] ∧
    (ds.filterMap id).Nodup :=
  C14_bytes_view _ (VarBinCanon.shareCast_ok _) scanMap scanMap_ok _ _ _ VarBinView.exArr_denotes (by decide +kernel)

end Vx.DictBytes
