import Verif.Spec.FromCurve
import Verif.Proofs.Moves

/-! The search and the edges of `assemble_pdcode`. -/

namespace Plc.FromCurve

open Plc.Core Plc.Cmp Plc.Moves List

theorem bsearchGo_ok {α : Type} (cmp : α → Int) (l : List α) {m : Nat} {x : α} (hm : l[m]? = some x) (h0 : cmp x = 0)
    (h1 : ∀ (j : Nat) (y : α), l[j]? = some y → j < m → 0 < cmp y) (h2 : ∀ (j : Nat) (y : α), l[j]? = some y → m < j → cmp y < 0) :
    ∀ (fuel lo hi : Nat), lo ≤ m → m < hi → hi ≤ l.length → hi - lo < fuel → bsearchGo cmp l fuel lo hi = some x
  | 0, lo, hi, _, _, _, hf => by omega
  | fuel + 1, lo, hi, ha, hb, hl, hf => by
    unfold bsearchGo
    rw [if_pos (by omega)]
    have hlt : (lo + hi) / 2 < l.length := by omega
    obtain ⟨y, hy⟩ : ∃ y, l[(lo + hi) / 2]? = some y := ⟨_, List.getElem?_eq_getElem hlt⟩
    rw [hy]
    simp only
    rcases lt_trichotomy ((lo + hi) / 2) m with hc | hc | hc
    · have := h1 _ _ hy hc
      rw [if_neg (by omega), if_pos this]
      exact bsearchGo_ok cmp l hm h0 h1 h2 fuel _ _ (by omega) hb hl (by omega)
    · rw [hc, hm] at hy
      cases hy
      rw [h0]
      simp
    · have := h2 _ _ hy hc
      rw [if_pos this]
      exact bsearchGo_ok cmp l hm h0 h1 h2 fuel _ _ ha hc (by omega) (by omega)

variable {K : Type} [LinearOrder K] {near : K → K → Bool}

theorem mem_strands {cc : List (Crossing K)} {t : Strand K} : t ∈ strands cc ↔ StrandOn cc (t.num, t.up) t.cmp t.s := by
  unfold strands StrandOn
  rw [List.mem_flatMap]
  constructor
  · rintro ⟨⟨x, i⟩, hp, ht⟩
    rw [List.mem_zipIdx_iff_getElem?] at hp
    simp only [List.mem_cons, List.not_mem_nil, or_false] at ht
    rcases ht with rfl | rfl
    · exact ⟨x, hp, by simp⟩
    · exact ⟨x, hp, by simp⟩
  · rintro ⟨x, hx, h⟩
    refine ⟨(x, t.num), List.mem_zipIdx_iff_getElem?.mpr hx, ?_⟩
    obtain ⟨n, c, s, u⟩ := t
    cases u
    · simp at h
      simp [h]
    · simp at h
      simp [h]

theorem strands_key {cc : List (Crossing K)} : (strands cc).map (fun t => (t.num, t.up)) =
    (List.range cc.length).flatMap (fun i => [(i, false), (i, true)]) := by
  unfold strands
  rw [List.map_flatMap]
  simp only [List.map_cons, List.map_nil]
  have h : List.range cc.length = cc.zipIdx.map Prod.snd := by rw [List.zipIdx_map_snd, List.range_eq_range']
  rw [h, List.flatMap_map]

theorem strands_nodup_key {cc : List (Crossing K)} : ((strands cc).map (fun t => (t.num, t.up))).Nodup := by
  rw [strands_key, List.nodup_flatMap]
  constructor
  · intro i _
    simp
  · refine List.nodup_range.imp ?_
    intro a b hab
    simp [Function.onFun, hab, Ne.symm hab]

theorem strands_nodup {cc : List (Crossing K)} : (strands cc).Nodup := List.Nodup.of_map _ strands_nodup_key

theorem strands_length {cc : List (Crossing K)} : (strands cc).length = 2 * cc.length := by
  have := congrArg List.length (strands_key (cc := cc))
  rw [List.length_map, List.length_flatMap] at this
  rw [this]
  simp [Nat.mul_comm]

/-- A strand is given by its crossing and height. -/
theorem strandOn_unique {cc : List (Crossing K)} {a : Nat × Bool} {c d : Nat} {s t : K} (h1 : StrandOn cc a c s) (h2 : StrandOn cc a d t) :
    c = d ∧ s = t := by
  obtain ⟨x, x1, x2⟩ := h1
  obtain ⟨y, y1, y2⟩ := h2
  rw [x1] at y1
  cases y1
  obtain ⟨i, u⟩ := a
  cases u
  · simp at x2 y2
    exact ⟨x2.1.symm.trans y2.1, x2.2.symm.trans y2.2⟩
  · simp at x2 y2
    exact ⟨x2.1.symm.trans y2.1, x2.2.symm.trans y2.2⟩

theorem strand_ext {cc : List (Crossing K)} {t t' : Strand K} (h1 : t ∈ strands cc) (h2 : t' ∈ strands cc) (h : (t.num, t.up) = (t'.num, t'.up)) : t = t' := by
  have a := mem_strands.mp h1
  have b := mem_strands.mp h2
  rw [h] at a
  obtain ⟨c1, c2⟩ := strandOn_unique a b
  obtain ⟨n, c, s, u⟩ := t
  obtain ⟨n', c', s', u'⟩ := t'
  simp at h c1 c2
  simp [h, c1, c2]

section

variable {nc : Nat} {cc : List (Crossing K)} (hr : ∀ a, near a a = true) (hS : Spread near nc cc)

include hS in
theorem apart' {t t' : Strand K} (h1 : t ∈ strands cc) (h2 : t' ∈ strands cc) (hc : t.cmp = t'.cmp) (hne : t ≠ t') : near t.s t'.s = false := by
  have a := mem_strands.mp h1
  have b := mem_strands.mp h2
  rw [hc] at a
  exact hS.apart _ _ _ _ _ a b (fun h => hne (strand_ext h1 h2 h))

include hr hS in
theorem s_ne {t t' : Strand K} (h1 : t ∈ strands cc) (h2 : t' ∈ strands cc) (hc : t.cmp = t'.cmp) (hne : t ≠ t') : t.s ≠ t'.s := by
  intro h
  have := apart' hS h1 h2 hc hne
  rw [h, hr] at this
  cases this

include hr in
theorem strandCmp_self (t : Strand K) : strandCmp near t t = 0 := by
  unfold strandCmp
  simp [hr]

/-- The order of strands. -/
def before (a b : Strand K) : Prop := b.cmp < a.cmp ∨ (a.cmp = b.cmp ∧ a.s < b.s)

include hr hS in
theorem strandCmp_neg {t t' : Strand K} (h1 : t ∈ strands cc) (h2 : t' ∈ strands cc) (hne : t ≠ t') :
    (strandCmp near t t' < 0 ↔ before t t') ∧ (0 < strandCmp near t t' ↔ before t' t) ∧ strandCmp near t t' ≠ 0 := by
  unfold strandCmp before
  by_cases hc : t.cmp = t'.cmp
  · rw [if_neg (by simpa using hc), apart' hS h1 h2 hc hne]
    have := s_ne hr hS h1 h2 hc hne
    rcases lt_or_gt_of_ne this with h | h
    · simp [h, not_lt.mpr h.le, hc]
    · simp [h, not_lt.mpr h.le, hc]
  · rw [if_pos hc]
    have hc' : ¬ t'.cmp = t.cmp := fun h => hc h.symm
    refine ⟨?_, ?_, ?_⟩
    · simp only [hc, false_and, or_false]
      omega
    · simp only [hc', false_and, or_false]
      omega
    · omega

theorem before_trans {a b c : Strand K} (h1 : before a b) (h2 : before b c) : before a c := by
  unfold before at *
  rcases h1 with h1 | ⟨h1, h1'⟩ <;> rcases h2 with h2 | ⟨h2, h2'⟩
  · left; omega
  · left; omega
  · left; omega
  · right; exact ⟨h1.trans h2, h1'.trans h2'⟩

include hr hS in
/-- The sorted strands. -/
theorem sorted_strands (qs : QSort) :
    (qs.sort (fun a b => decide (strandCmp near a b ≤ 0)) (strands cc)).Perm (strands cc) ∧
    (qs.sort (fun a b => decide (strandCmp near a b ≤ 0)) (strands cc)).Pairwise before := by
  have hp := qs.perm (fun a b => decide (strandCmp near a b ≤ 0)) (strands cc)
  have key : ∀ a b, a ∈ strands cc → b ∈ strands cc → (strandCmp near a b ≤ 0 ↔ a = b ∨ before a b) := by
    intro a b ha hb
    by_cases hab : a = b
    · subst hab
      simp [strandCmp_self hr]
    · obtain ⟨k1, k2, k3⟩ := strandCmp_neg hr hS ha hb hab
      simp only [hab, false_or]
      rw [← k1]
      omega
  have hs := qs.sorted (fun a b => decide (strandCmp near a b ≤ 0)) (strands cc)
    (fun a b ha hb => by
      rw [Bool.or_eq_true, decide_eq_true_eq, decide_eq_true_eq, key a b ha hb, key b a hb ha]
      by_cases hab : a = b
      · exact Or.inl (Or.inl hab)
      · obtain ⟨k1, k2, k3⟩ := strandCmp_neg hr hS ha hb hab
        rcases lt_or_gt_of_ne k3 with h | h
        · exact Or.inl (Or.inr (k1.mp h))
        · exact Or.inr (Or.inr (k2.mp h)))
    (fun a b c ha hb hc h1 h2 => by
      rw [decide_eq_true_eq, key _ _ ha hb] at h1
      rw [decide_eq_true_eq, key _ _ hb hc] at h2
      rw [decide_eq_true_eq, key _ _ ha hc]
      rcases h1 with rfl | h1
      · exact h2
      · rcases h2 with rfl | h2
        · exact Or.inr h1
        · exact Or.inr (before_trans h1 h2))
  refine ⟨hp, ?_⟩
  have hnd := hp.nodup_iff.mpr strands_nodup
  refine (hs.and hnd).imp_of_mem ?_
  intro a b ha hb hab
  rw [decide_eq_true_eq, key _ _ (hp.mem_iff.mp ha) (hp.mem_iff.mp hb)] at hab
  exact hab.1.resolve_left hab.2

variable {cs : List (Strand K)} (hp : cs.Perm (strands cc)) (hs : cs.Pairwise before)

include hr hS hp hs in
theorem not_double : double near cs = false := by
  have key : ∀ l : List (Strand K), (∀ t ∈ l, t ∈ strands cc) → l.Pairwise before → double near l = false := by
    intro l
    induction l with
    | nil => intros; rfl
    | cons a l ih =>
      cases l with
      | nil => intros; rfl
      | cons b l =>
        intro hm hw
        unfold double
        rw [ih (fun t ht => hm t (by simp [ht])) hw.tail, Bool.or_false, decide_eq_false_iff_not]
        have hab : before a b := (List.pairwise_cons.mp hw).1 b (by simp)
        have hne : b ≠ a := by
          rintro rfl
          unfold before at hab
          simp at hab
        exact (strandCmp_neg hr hS (hm b (by simp)) (hm a (by simp)) hne).2.2
  exact key cs (fun t ht => hp.mem_iff.mp ht) hs

include hr hS hp hs in
/-- Looking up finds the strand. -/
theorem look_ok {t : Strand K} (ht : t ∈ strands cc) : look near cs t.cmp t.s = .ok t := by
  obtain ⟨m, hm⟩ := List.mem_iff_getElem?.mp (hp.mem_iff.mpr ht)
  have hml := (List.getElem?_eq_some_iff.mp hm).1
  have hkey : ∀ x, strandCmp near ⟨0, t.cmp, t.s, false⟩ x = strandCmp near t x := fun x => rfl
  have hbs : bsearch (strandCmp near ⟨0, t.cmp, t.s, false⟩) cs = some t := by
    unfold bsearch
    refine bsearchGo_ok _ cs hm (by rw [hkey, strandCmp_self hr]) ?_ ?_ _ _ _ (Nat.zero_le _) hml (Nat.le_refl _) (by omega)
    · intro j y hy hjm
      rw [hkey]
      have hb : before y t := by
        have := List.pairwise_iff_getElem.mp hs j m (List.getElem?_eq_some_iff.mp hy).1 hml hjm
        rw [(List.getElem?_eq_some_iff.mp hy).2, (List.getElem?_eq_some_iff.mp hm).2] at this
        exact this
      have hne : t ≠ y := by
        rintro rfl
        unfold before at hb
        simp at hb
      exact (strandCmp_neg hr hS ht (hp.mem_iff.mp (List.mem_of_getElem? hy)) hne).2.1.mpr hb
    · intro j y hy hjm
      rw [hkey]
      have hb : before t y := by
        have := List.pairwise_iff_getElem.mp hs m j hml (List.getElem?_eq_some_iff.mp hy).1 hjm
        rw [(List.getElem?_eq_some_iff.mp hy).2, (List.getElem?_eq_some_iff.mp hm).2] at this
        exact this
      have hne : t ≠ y := by
        rintro rfl
        unfold before at hb
        simp at hb
      exact (strandCmp_neg hr hS ht (hp.mem_iff.mp (List.mem_of_getElem? hy)) hne).1.mpr hb
  unfold look
  rw [hbs]

end

end Plc.FromCurve
