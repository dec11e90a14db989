import Verif.Model.Patch
import Verif.Props.C18
/-! # Patching -/

namespace Vx
open Spec

theorem setLoop_spec (ps : List (Nat × α)) (hs : (ps.map (·.1)).Pairwise (· < ·)) (vals : List α) (hb : ∀ p ∈ ps, p.1 < vals.length) :
    ∃ v, setLoop vals ps = .ok v ∧ v.length = vals.length ∧ (∀ p ∈ ps, v[p.1]? = some p.2) ∧ (∀ j, j ∉ ps.map (·.1) → v[j]? = vals[j]?) := by
  induction ps generalizing vals with
  | nil => exact ⟨vals, rfl, rfl, by simp, by simp⟩
  | cons p ps ih =>
    obtain ⟨i, x⟩ := p
    have hpw := List.pairwise_cons.mp hs
    have h1 := hb (i, x) (by simp)
    simp only at h1
    obtain ⟨v, e1, e2, e4, e5⟩ := ih hpw.2 (vals.set i x) (by
      intro q hq
      have := hb q (by simp [hq])
      simpa using this)
    refine ⟨v, by simp [setLoop, h1, e1], by simpa using e2, ?_, ?_⟩
    · intro q hq
      rcases List.mem_cons.mp hq with rfl | hq
      · have hn : i ∉ ps.map (·.1) := by
          intro hm
          have := hpw.1 i hm
          simp only at this; omega
        simp only
        rw [e5 i hn]; simp [h1]
      · exact e4 q hq
    · intro j hj
      simp only [List.map_cons, List.mem_cons, not_or] at hj
      rw [e5 j hj.2, List.getElem?_set_ne (fun h => hj.1 h.symm)]

/-- Applying well-formed sparse patches replaces exactly the patched rows. -/
theorem patchSparse_ok {a : PArr α} {p : Sparse α} (hw : p.WF) (hv : p.PatchesValid) (hf : p.fill = none) (hl : p.len = a.len) :
    ∃ b, a.patchSparse p = .ok b ∧ b.validity = a.validity ∧ b.vals.length = a.vals.length ∧
      ∀ (j : Nat) (x : α), a.vals[j]? = some x → ∃ r : Option α, p.rows[j]? = some r ∧ b.vals[j]? = some (r.getD x) := by
  have hstr : (p.indices.map (fun i => i - p.offset)).Pairwise (· < ·) := by
    rw [List.pairwise_map]
    refine List.Pairwise.imp_of_mem ?_ hw.strict
    intro x y hx hy hxy
    have := hw.lower x hx
    omega
  have hvl : p.values.vals.length = p.indices.length := hw.lens.symm
  have hmf : ((p.indices.map (fun i => i - p.offset)).zip p.values.vals).map (·.1) = p.indices.map (fun i => i - p.offset) := by
    apply List.map_fst_zip
    simp [hvl]
  have hl' : p.len = a.vals.length := hl
  obtain ⟨v, h1, h2, h3, h4⟩ := setLoop_spec ((p.indices.map (fun i => i - p.offset)).zip p.values.vals) (by rw [hmf]; exact hstr) a.vals (by
      intro q hq
      have := (List.of_mem_zip (a := q.1) (b := q.2) hq).1
      obtain ⟨i, hi, he⟩ := List.mem_map.mp this
      have := hw.lower i hi
      have := hw.upper i hi
      omega)
  refine ⟨⟨v, a.validity⟩, ?_, rfl, h2, ?_⟩
  · simp [PArr.patchSparse, Sparse.resolved hw, PArr.patch, Res.assert, hvl, h1]
  · intro j x hx
    obtain ⟨hj, _⟩ := List.getElem?_eq_some_iff.mp hx
    refine ⟨_, Sparse.rows_getElem? p j (by omega), ?_⟩
    by_cases hm : p.offset + j ∈ p.indices
    · obtain ⟨k, hk, hke⟩ := List.mem_iff_getElem.mp hm
      have hkv : k < p.values.vals.length := by omega
      have hmem : (j, p.values.vals[k]) ∈ (p.indices.map (fun i => i - p.offset)).zip p.values.vals := by
        rw [List.mem_iff_getElem]
        refine ⟨k, by simp only [List.length_zip, List.length_map]; omega, ?_⟩
        simp [hke]
      have hk' : p.indices[k]? = some (p.offset + j) := by rw [List.getElem?_eq_getElem hk, hke]
      have hr := hv.vals hw hkv
      rw [patchOr_found hw.strict p.fill hk' hr]
      simpa using h3 _ hmem
    · rw [patchOr_none _ hm, hf]
      have := h4 j (by
        rw [hmf]
        intro hc
        obtain ⟨i, hi, he⟩ := List.mem_map.mp hc
        have := hw.lower i hi
        have : i = p.offset + j := by omega
        exact hm (this ▸ hi))
      rw [this, hx]; rfl

end Vx
