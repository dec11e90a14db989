import Verif.Model.TakeRows
import Verif.Lemmas.Chunked
import Verif.Props.C02FoR
import Verif.Props.C25
/-! Lemmas about taking rows by sorted index lists. -/
namespace Vx.TakeRows
open Chunked (offsets pre)

variable {α : Type}

/-! ## Sorted lists of numbers -/

theorem sorted_take : ∀ {ns : List Nat}, ns.Pairwise (· ≤ ·) → ∀ v, ns.take (ns.countP fun x => decide (x < v)) = ns.filter fun x => decide (x < v)
  | [], _, _ => rfl
  | n :: ns, hs, v => by
    rw [List.pairwise_cons] at hs
    by_cases h : n < v
    · simp [h, sorted_take hs.2 v]
    · have : ∀ x ∈ ns, ¬ x < v := fun x hx => by have := hs.1 x hx; omega
      have h0 : ns.countP (fun x => decide (x < v)) = 0 := by
        rw [List.countP_eq_zero]; intro x hx; simpa using this x hx
      have hf : ns.filter (fun x => decide (x < v)) = [] := by
        rw [List.filter_eq_nil_iff]; intro x hx; simpa using this x hx
      simp [h, h0, hf]

theorem sorted_drop : ∀ {ns : List Nat}, ns.Pairwise (· ≤ ·) → ∀ v, ns.drop (ns.countP fun x => decide (x < v)) = ns.filter fun x => decide (v ≤ x)
  | [], _, _ => rfl
  | n :: ns, hs, v => by
    rw [List.pairwise_cons] at hs
    by_cases h : n < v
    · have h2 : ¬ v ≤ n := by omega
      simp [h, h2, sorted_drop hs.2 v]
    · have : ∀ x ∈ ns, ¬ x < v := fun x hx => by have := hs.1 x hx; omega
      have h0 : ns.countP (fun x => decide (x < v)) = 0 := by
        rw [List.countP_eq_zero]; intro x hx; simpa using this x hx
      have hf : ns.filter (fun x => decide (v ≤ x)) = ns := by
        rw [List.filter_eq_self]; intro x hx; have := this x hx; simp; omega
      have h2 : v ≤ n := by omega
      simp [h, h0, hf, h2]

theorem countP_le_eq (ns : List Nat) (v : Nat) : (ns.countP fun x => decide (x ≤ v)) = ns.countP fun x => decide (x < v + 1) := by
  congr 1; funext x; simp [Nat.lt_succ_iff]

/-- The numbers of a range. -/
def within (lo hi : Nat) (ns : List Nat) : List Nat := ns.filter fun x => decide (lo ≤ x) && decide (x < hi)

theorem mem_within {lo hi : Nat} {ns : List Nat} {x : Nat} : x ∈ within lo hi ns ↔ x ∈ ns ∧ lo ≤ x ∧ x < hi := by simp [within]

theorem within_sorted {lo hi : Nat} {ns : List Nat} (h : ns.Pairwise (· ≤ ·)) : (within lo hi ns).Pairwise (· ≤ ·) := h.filter _

theorem countP_lt_mono (ns : List Nat) {lo hi : Nat} (h : lo ≤ hi) : (ns.countP fun x => decide (x < lo)) ≤ ns.countP fun x => decide (x < hi) :=
  List.countP_mono_left (by intro x _ hx; simp at hx ⊢; omega)

theorem sorted_slice {ns : List Nat} (hs : ns.Pairwise (· ≤ ·)) {lo hi : Nat} (h : lo ≤ hi) :
    (ns.drop (ns.countP fun x => decide (x < lo))).take ((ns.countP fun x => decide (x < hi)) - ns.countP fun x => decide (x < lo)) = within lo hi ns := by
  rw [sorted_drop hs]
  have hcount : ((ns.countP fun x => decide (x < hi)) - ns.countP fun x => decide (x < lo)) =
      (ns.filter fun x => decide (lo ≤ x)).countP fun x => decide (x < hi) := by
    have e : ∀ l : List Nat, (l.countP fun x => decide (x < hi)) = (l.countP fun x => decide (x < lo)) + (l.filter fun x => decide (lo ≤ x)).countP fun x => decide (x < hi) := by
      intro l
      induction l with
      | nil => rfl
      | cons x l ih =>
        simp only [List.countP_cons, List.filter_cons, ih]
        by_cases h1 : x < lo
        · have h2 : ¬ lo ≤ x := by omega
          have h3 : x < hi := by omega
          simp [h1, h2, h3]; omega
        · have h2 : lo ≤ x := by omega
          by_cases h3 : x < hi <;> simp [h1, h2, h3] <;> omega
    rw [e ns]; omega
  rw [hcount, sorted_take (hs.filter _), List.filter_filter]
  unfold within
  congr 1; funext x; exact Bool.and_comm _ _

/-- Cutting a range in two. -/
theorem within_split {ns : List Nat} (hs : ns.Pairwise (· ≤ ·)) {lo mid hi : Nat} (h1 : lo ≤ mid) (h2 : mid ≤ hi) :
    within lo hi ns = within lo mid ns ++ within mid hi ns := by
  induction ns with
  | nil => rfl
  | cons n ns ih =>
    rw [List.pairwise_cons] at hs
    have ih' := ih hs.2
    have unf : ∀ a b, within a b (n :: ns) = if a ≤ n ∧ n < b then n :: within a b ns else within a b ns := by
      intro a b; simp only [within, List.filter_cons]; by_cases h : a ≤ n <;> by_cases h' : n < b <;> simp [h, h']
    rw [unf, unf, unf]
    by_cases ha : n < lo
    · rw [if_neg (by omega), if_neg (by omega), if_neg (by omega)]; exact ih'
    · by_cases hb : n < mid
      · rw [if_pos (by omega), if_pos (by omega), if_neg (by omega), ih']; rfl
      · have hnil : within lo mid ns = [] := by
          unfold within; rw [List.filter_eq_nil_iff]
          intro x hx; have := hs.1 x hx; simp; omega
        rw [hnil, List.nil_append] at ih'
        rw [if_neg (c := lo ≤ n ∧ n < mid) (by omega), hnil, List.nil_append, ih']
        by_cases e4 : n < hi
        · rw [if_pos (by omega), if_pos (by omega)]
        · rw [if_neg (by omega), if_neg (by omega)]

theorem within_all {ns : List Nat} {lo hi : Nat} (h : ∀ x ∈ ns, lo ≤ x ∧ x < hi) : within lo hi ns = ns := by
  unfold within; rw [List.filter_eq_self]; intro x hx; simp [h x hx]

theorem within_within (ns : List Nat) {lo hi lo' hi' : Nat} (h1 : lo' ≤ lo) (h2 : hi ≤ hi') : within lo hi (within lo' hi' ns) = within lo hi ns := by
  unfold within; rw [List.filter_filter]; congr 1; funext x
  by_cases a : lo ≤ x <;> by_cases b : x < hi <;> simp [a, b] <;> omega

/-! ## Index arrays -/

/-- The index array holding these numbers. -/
def arr (t : IdxTy) (ns : List Nat) : Idx t := ⟨ns.map (BitVec.ofNat t.w), .nonNullable⟩

theorem limit_le (t : IdxTy) : t.limit ≤ 2 ^ t.w := by
  unfold IdxTy.limit; split
  · exact Nat.pow_le_pow_right (by omega) (by omega)
  · exact Nat.le_refl _

theorem key_ofNat (t : IdxTy) (n : Nat) (h : n < t.limit) : intKey t.signed (BitVec.ofNat t.w n) = (n : Int) := by
  have hl := limit_le t
  unfold IdxTy.limit at h hl
  unfold intKey
  have hmod : n % 2 ^ t.w = n := Nat.mod_eq_of_lt (by omega)
  split
  · next hsgn =>
    rw [if_pos hsgn] at h
    rw [BitVec.toInt_eq_toNat_of_lt, BitVec.toNat_ofNat, hmod]
    rw [BitVec.toNat_ofNat, hmod]
    by_cases hw : t.w = 0
    · rw [hw] at h hl ⊢; simp at h ⊢; omega
    · obtain ⟨k, hk⟩ : ∃ k, t.w = k + 1 := ⟨t.w - 1, by omega⟩
      rw [hk] at h ⊢; simp only [Nat.add_sub_cancel] at h; rw [Nat.pow_succ]; omega
  · rw [BitVec.toNat_ofNat, hmod]

theorem toNat_ofNat' (t : IdxTy) (n : Nat) (h : n < t.limit) : (BitVec.ofNat t.w n).toNat = n := by
  rw [BitVec.toNat_ofNat]; exact Nat.mod_eq_of_lt (Nat.lt_of_lt_of_le h (limit_le t))

theorem keys_map (t : IdxTy) {ns : List Nat} (h : ∀ x ∈ ns, x < t.limit) : (ns.map (BitVec.ofNat t.w)).map (intKey t.signed) = ns.map (fun n : Nat => (n : Int)) := by
  rw [List.map_map]; apply List.map_congr_left; intro n hn; exact key_ofNat t n (h n hn)

theorem search_arr (t : IdxTy) {ns : List Nat} (h : ∀ x ∈ ns, x < t.limit) (hs : ns.Pairwise (· ≤ ·)) (n : Nat) (hn : n < t.limit) :
    searchIdx t (arr t ns) n .left = .ok (ns.countP fun x => decide (x < n)) ∧ searchIdx t (arr t ns) n .right = .ok (ns.countP fun x => decide (x < n + 1)) := by
  have hsorted : ((ns.map (BitVec.ofNat t.w)).map (intKey t.signed)).Pairwise (· ≤ ·) := by
    rw [keys_map t h, List.pairwise_map]; exact hs.imp (by intro a b hab; omega)
  have key : ∀ side, searchIdx t (arr t ns) n side = .ok (Spec.insertionPoint (ns.map (fun n : Nat => (n : Int))) (n : Int) side) := by
    intro side
    simp only [searchIdx, castScalar, hn, if_true, Res.ok_bind, arr]
    have := searchSlice_key (intKey t.signed) (ns.map (BitVec.ofNat t.w)) (BitVec.ofNat t.w n) side hsorted
    rw [keys_map t h, key_ofNat t n hn] at this
    rw [show searchSlice (cmp t) = searchSlice (fun x y => compare (intKey t.signed x) (intKey t.signed y)) from rfl, this]
    simp only [Res.ok_bind, Spec.searchSorted]
    split <;> rfl
  constructor
  · rw [key, Spec.insertionPoint, List.countP_map]; congr 2; funext x; simp
  · rw [key, Spec.insertionPoint, List.countP_map]; congr 2; funext x; simp; omega

theorem slice_arr (t : IdxTy) {ns : List Nat} (hs : ns.Pairwise (· ≤ ·)) {lo hi : Nat} (h : lo ≤ hi) :
    (arr t ns).slice (ns.countP fun x => decide (x < lo)) (ns.countP fun x => decide (x < hi)) = .ok (arr t (within lo hi ns)) := by
  have h1 := countP_lt_mono ns h
  have h2 : (ns.countP fun x => decide (x < hi)) ≤ ns.length := List.countP_le_length
  simp only [PArr.slice, arr, sliceList, List.length_map]
  rw [if_neg (by omega), if_neg (by omega), if_neg (by omega)]
  simp only [Res.ok_bind, Validity.slice, ← List.map_drop, ← List.map_take, sorted_slice hs h]

theorem subtract_arr (t : IdxTy) {ms : List Nat} {off : Nat} (h : ∀ x ∈ ms, off ≤ x ∧ x < t.limit) (ho : off < t.limit) :
    subtractScalar t (arr t ms) (BitVec.ofNat t.w off) false = .ok (arr t (ms.map fun x => x - off)) := by
  simp only [subtractScalar, arr, nullable, ne_eq, not_true_eq_false, if_false, Validity.toLogical]
  split
  · next hz =>
    have : off = 0 := by have := congrArg BitVec.toNat hz; rw [toNat_ofNat' t off ho] at this; simpa using this
    subst this
    simp
  · have : Res.mapM (fun x => subChecked t x (BitVec.ofNat t.w off)) (ms.map (BitVec.ofNat t.w)) = .ok ((ms.map fun x => x - off).map (BitVec.ofNat t.w)) := by
      induction ms with
      | nil => rfl
      | cons m ms ih =>
        have hm := h m (by simp)
        have hsub : subChecked t (BitVec.ofNat t.w m) (BitVec.ofNat t.w off) = .ok (BitVec.ofNat t.w (m - off)) := by
          simp only [subChecked, key_ofNat t m hm.2, key_ofNat t off ho]
          rw [if_pos]
          · congr 1
            apply BitVec.eq_of_toNat_eq
            rw [BitVec.toNat_sub, toNat_ofNat' t _ hm.2, toNat_ofNat' t _ ho, toNat_ofNat' t _ (by omega)]
            have := limit_le t
            rw [show 2 ^ t.w - off + m = (m - off) + 2 ^ t.w by omega, Nat.add_mod_right, Nat.mod_eq_of_lt (by omega)]
          · constructor
            · split
              · have : (0 : Int) < 2 ^ (t.w - 1) := by exact_mod_cast Nat.two_pow_pos _
                omega
              · omega
            · omega
        simp only [List.map_cons, Res.mapM_cons, hsub, Res.ok_bind, ih (fun x hx => h x (by simp [hx]))]
    simp only [this, Res.ok_bind]

theorem takeBatch_arr (t : IdxTy) (batch : List α) {ms : List Nat} (h : ∀ x ∈ ms, x < batch.length ∧ x < t.limit) :
    ∃ rows, takeBatch t batch (arr t ms).vals = .ok rows ∧ rows.map some = ms.map fun i => batch[i]? := by
  induction ms with
  | nil => exact ⟨[], rfl, rfl⟩
  | cons m ms ih =>
    obtain ⟨rows, h1, h2⟩ := ih (fun x hx => h x (by simp [hx]))
    have hm := h m (by simp)
    refine ⟨batch[m]'hm.1 :: rows, ?_, by simp [h2, hm.1]⟩
    simp only [takeBatch, arr, List.map_cons, Res.mapM_cons, toNat_ofNat' t m hm.2, idx_lt hm.1, Res.ok_bind] at h1 ⊢
    simp only [h1, Res.ok_bind]

/-! ## The stream -/

theorem poll_spec (t : IdxTy) {ns : List Nat} (hl : ∀ x ∈ ns, x < t.limit) (hs : ns.Pairwise (· ≤ ·)) : ∀ (bs : List (List α)) (off : Nat),
    off + bs.flatten.length < t.limit →
    ∃ r, poll t (arr t ns) off bs = .ok r ∧ r.flatten.map some = (within off (off + bs.flatten.length) ns).map fun i => bs.flatten[i - off]?
  | [], off, _ => ⟨[], rfl, by
      have : within off (off + ([] : List (List α)).flatten.length) ns = [] := by
        unfold within; rw [List.filter_eq_nil_iff]; intro x _; simp
      rw [this]; rfl⟩
  | b :: bs, off, hlim => by
    by_cases hne : ns = []
    · subst hne; exact ⟨[], by simp [poll, arr, PArr.len], by simp [within]⟩
    have hlen : (arr t ns).len ≠ 0 := by simp [arr, PArr.len, hne]
    simp only [List.flatten_cons, List.length_append] at hlim ⊢
    obtain ⟨r, h1, h2⟩ := poll_spec t hl hs bs (off + b.length) (by omega)
    have hsplit := within_split hs (lo := off) (mid := off + b.length) (hi := off + (b.length + bs.flatten.length)) (by omega) (by omega)
    have hrest : (within (off + b.length) (off + (b.length + bs.flatten.length)) ns).map (fun i => (b ++ bs.flatten)[i - off]?) =
        (within (off + b.length) (off + b.length + bs.flatten.length) ns).map fun i => bs.flatten[i - (off + b.length)]? := by
      rw [Nat.add_assoc]
      apply List.map_congr_left
      intro i hi
      rw [mem_within] at hi
      rw [List.getElem?_append_right (by omega)]
      congr 1; omega
    simp only [poll, hlen, if_false]
    rw [(search_arr t hl hs off (by omega)).1, (search_arr t hl hs (off + b.length) (by omega)).1]
    simp only [Res.ok_bind]
    split
    · next heq =>
      refine ⟨r, h1, ?_⟩
      have hnil : within off (off + b.length) ns = [] := by
        rw [← sorted_slice hs (by omega : off ≤ off + b.length), ← heq]; simp
      rw [hsplit, hnil, List.nil_append, hrest]; exact h2
    · rw [slice_arr t hs (by omega)]
      simp only [Res.ok_bind]
      have hin : ∀ x ∈ within off (off + b.length) ns, off ≤ x ∧ x < t.limit := by
        intro x hx; rw [mem_within] at hx; exact ⟨hx.2.1, hl x hx.1⟩
      rw [subtract_arr t hin (by omega)]
      simp only [Res.ok_bind]
      obtain ⟨rows, t1, t2⟩ := takeBatch_arr t b (ms := (within off (off + b.length) ns).map fun x => x - off) (by
        intro x hx
        simp only [List.mem_map, mem_within] at hx
        obtain ⟨y, hy, rfl⟩ := hx
        exact ⟨by omega, by have := hl y hy.1; omega⟩)
      simp only [t1, h1, Res.ok_bind]
      refine ⟨rows :: r, rfl, ?_⟩
      rw [List.flatten_cons, List.map_append, t2, h2, hsplit, List.map_append, hrest, List.map_map]
      congr 1
      apply List.map_congr_left
      intro i hi
      rw [mem_within] at hi
      simp only [Function.comp]
      rw [List.getElem?_append_left (by omega)]

theorem rows_arr (t : IdxTy) (ns : List Nat) : (arr t ns).rows = (ns.map (BitVec.ofNat t.w)).map some := by
  have : ∀ l : List (BitVec t.w), Spec.rows l (Spec.mask l.length .nonNullable) = l.map some := by
    intro l
    induction l with
    | nil => rfl
    | cons x l ih => simp_all [Spec.rows, Spec.mask, List.replicate_succ]
  exact this _

theorem valid_arr (t : IdxTy) (ns : List Nat) : Spec.valid (arr t ns).rows = ns.map (BitVec.ofNat t.w) := by
  rw [rows_arr]; simp [Spec.valid]

theorem stats_arr (t : IdxTy) {ns : List Nat} (hl : ∀ x ∈ ns, x < t.limit) (hne : ns ≠ []) :
    let s := primStats (intElem t.signed t.w) (arr t ns)
    (∃ b, s.isSorted = some b ∧ (b = true ↔ ns.Pairwise (· ≤ ·))) ∧ (∃ b, s.isStrictSorted = some b ∧ (b = true ↔ ns.Pairwise (· < ·))) ∧
      s.nullCount = some 0 ∧ ∃ m, s.min = some (some m) ∧ 0 ≤ intKey t.signed m := by
  have hst := (C25_integer t.signed t.w (arr t ns) (by simp [arr, PArr.WF, Spec.FitsLen, Spec.mask]) (by rw [valid_arr]; simpa using hne)).1
  have hpw : ∀ (R : Int → Int → Prop) (S : Nat → Nat → Prop), (∀ a b : Nat, R a b ↔ S a b) →
      ((Spec.valid (arr t ns).rows).Pairwise (fun x y => R (intKey t.signed x) (intKey t.signed y)) ↔ ns.Pairwise S) := by
    intro R S hRS
    rw [valid_arr, ← List.pairwise_map (f := intKey t.signed) (R := R), keys_map t hl, List.pairwise_map]
    constructor <;> intro h <;> exact h.imp (by intro a b hab; simpa [hRS] using hab)
  obtain ⟨b1, s1, s2⟩ := hst.sorted
  obtain ⟨b2, s3, s4⟩ := hst.strict
  obtain ⟨m, m1, m2⟩ := hst.min
  refine ⟨⟨b1, s1, s2.trans (hpw (· ≤ ·) (· ≤ ·) (by simp))⟩, ⟨b2, s3, s4.trans (hpw (· < ·) (· < ·) (by simp))⟩, ?_, m, m1, ?_⟩
  · rw [hst.nullCount, rows_arr]
    congr 1
    rw [List.count_eq_zero]; simp
  · have := m2.1
    rw [valid_arr, List.mem_map] at this
    obtain ⟨n, hn, rfl⟩ := this
    rw [key_ofNat t n (hl n hn)]; omega

theorem tryNew_arr (t : IdxTy) {ns : List Nat} (hl : ∀ x ∈ ns, x < t.limit) (hs : ns.Pairwise (· ≤ ·)) : tryNew t (arr t ns) = .ok (arr t ns) := by
  by_cases hne : ns = []
  · subst hne; simp [tryNew, arr, PArr.len]
  · obtain ⟨⟨b, s1, s2⟩, _, s3, m, s4, s5⟩ := stats_arr t hl hne
    have hb := s2.mpr hs
    subst hb
    simp only [tryNew]
    rw [if_neg (by simp [arr, PArr.len, hne])]
    simp only [s1, s3, s4]
    simp
    intro _; omega

theorem takeRowsStream_arr (t : IdxTy) {ns : List Nat} (hl : ∀ x ∈ ns, x < t.limit) (hs : ns.Pairwise (· ≤ ·)) (bs : List (List α))
    (hlim : bs.flatten.length < t.limit) :
    ∃ r, takeRowsStream t (arr t ns) bs = .ok r ∧ r.flatten.map some = (within 0 bs.flatten.length ns).map fun i => bs.flatten[i]? := by
  obtain ⟨r, h1, h2⟩ := poll_spec t hl hs bs 0 (by omega)
  refine ⟨r, by simp only [takeRowsStream, tryNew_arr t hl hs, Res.ok_bind, h1], ?_⟩
  simpa using h2

end Vx.TakeRows
