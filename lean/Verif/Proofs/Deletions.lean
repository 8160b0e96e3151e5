import Verif.Model.Deletions
import Verif.Spec.Deletions
import Verif.Proofs.Moves

namespace Plc.Deletions

open Plc.Core Plc.Moves Plc.Cmp

variable {L L' : Slots} {edge edge' : List Edge} {c p : Nat} {gone : Option Nat}

theorem get_set2 {f g : Nat} {rf rg a b : Edge} (hf : edge[f]? = some rf) (hg : edge[g]? = some rg) (e : Nat) :
    ((edge.set g a).set f b)[e]? = if e = f then some b else if e = g then some a else edge[e]? := by
  have h1 := (List.getElem?_eq_some_iff.mp hf).1
  have h2 := (List.getElem?_eq_some_iff.mp hg).1
  by_cases he : e = f
  · subst he; simp [h1]
  · rw [List.getElem?_set_ne (Ne.symm he), if_neg he]
    by_cases hg' : e = g
    · subst hg'; simp [h2]
    · rw [List.getElem?_set_ne (Ne.symm hg'), if_neg hg']

theorem get_set1 {f : Nat} {rf a : Edge} (hf : edge[f]? = some rf) (e : Nat) :
    (edge.set f a)[e]? = if e = f then some a else edge[e]? := by
  have h1 := (List.getElem?_eq_some_iff.mp hf).1
  by_cases he : e = f
  · subst he; simp [h1]
  · rw [List.getElem?_set_ne (Ne.symm he), if_neg he]

/-- The two places of a strand. -/
theorem two_places {k j p : Nat} (hk : k < 4) (hj : j < 4) (h1 : k % 2 = p) (h2 : j % 2 = p) : j = k ∨ j = (k + 2) % 4 := by omega

/-- A set end is at its place. -/
theorem Holed.head_at (h : Holed L edge) {e : Nat} {r : Edge} (he : edge[e]? = some r) (hc : r.head ≠ UNSET_IDX) :
    L r.head r.headpos = some e := (h.head e r he).resolve_left fun q => hc q.1

theorem Holed.tail_at (h : Holed L edge) {e : Nat} {r : Edge} (he : edge[e]? = some r) (hc : r.tail ≠ UNSET_IDX) :
    L r.tail r.tailpos = some e := (h.tail e r he).resolve_left fun q => hc q.1

theorem Holed.lt (h : Holed L edge) {e : Nat} {r : Edge} (he : edge[e]? = some r) : e ≠ UNSET_IDX := by
  have h1 := (List.getElem?_eq_some_iff.mp he).1
  have := h.bound
  omega

/-- If all heads are old heads or loose, there are still no two opposite heads. -/
theorem twoIn_of (h : Holed L edge)
    (hold : ∀ (e : Nat) (r : Edge), edge'[e]? = some r → (r.head = UNSET_IDX ∧ r.headpos = UNSET_POS) ∨
      ∃ (e' : Nat) (r' : Edge), edge[e']? = some r' ∧ r'.head = r.head ∧ r'.headpos = r.headpos)
    (e e2 : Nat) (r t : Edge) (he : edge'[e]? = some r) (ht : edge'[e2]? = some t) (hrt : r.head = t.head) :
    t.headpos ≠ (r.headpos + 2) % 4 := by
  rcases hold e r he with q | ⟨e', r', q1, q2, q3⟩
  · rcases hold e2 t ht with q' | ⟨_, t', p1, p2, p3⟩
    · rw [q.2, q'.2]; decide
    · intro s0
      rcases h.head _ t' p1 with s | s
      · rw [← p3, s.2, q.2] at s0; revert s0; decide
      · rw [p2, ← hrt, q.1, h.small] at s; cases s
  · rcases hold e2 t ht with q' | ⟨_, t', p1, p2, p3⟩
    · rw [q'.2]; unfold UNSET_POS; omega
    · rw [← p3, ← q3]; exact h.twoIn _ _ r' t' q1 p1 (by rw [q2, p2, hrt])

theorem twoOut_of (h : Holed L edge)
    (hold : ∀ (e : Nat) (r : Edge), edge'[e]? = some r → (r.tail = UNSET_IDX ∧ r.tailpos = UNSET_POS) ∨
      ∃ (e' : Nat) (r' : Edge), edge[e']? = some r' ∧ r'.tail = r.tail ∧ r'.tailpos = r.tailpos)
    (e e2 : Nat) (r t : Edge) (he : edge'[e]? = some r) (ht : edge'[e2]? = some t) (hrt : r.tail = t.tail) :
    t.tailpos ≠ (r.tailpos + 2) % 4 := by
  rcases hold e r he with q | ⟨e', r', q1, q2, q3⟩
  · rcases hold e2 t ht with q' | ⟨_, t', p1, p2, p3⟩
    · rw [q.2, q'.2]; decide
    · intro s0
      rcases h.tail _ t' p1 with s | s
      · rw [← p3, s.2, q.2] at s0; revert s0; decide
      · rw [p2, ← hrt, q.1, h.small] at s; cases s
  · rcases hold e2 t ht with q' | ⟨_, t', p1, p2, p3⟩
    · rw [q'.2]; unfold UNSET_POS; omega
    · rw [← p3, ← q3]; exact h.twoOut _ _ r' t' q1 p1 (by rw [q2, p2, hrt])

open Classical in
/-- An edge whose ends at the places of `D` have become loose. -/
noncomputable def cut (D : Nat → Nat → Prop) (r : Edge) : Edge :=
  ⟨if D r.head r.headpos then UNSET_IDX else r.head, if D r.head r.headpos then UNSET_POS else r.headpos,
   if D r.tail r.tailpos then UNSET_IDX else r.tail, if D r.tail r.tailpos then UNSET_POS else r.tailpos⟩

/-- Emptying some places, and making the ends there loose. -/
theorem holed_cut (h : Holed L edge) (D : Nat → Nat → Prop) (hD : ∀ d k, D d k → ∃ e, L d k = some e)
    (hL0 : ∀ d k, D d k → L' d k = some UNSET_IDX) (hL1 : ∀ d k, ¬ D d k → L' d k = L d k) (hlen : edge'.length = edge.length)
    (hE : ∀ (e : Nat) (r : Edge), edge[e]? = some r → edge'[e]? = some (cut D r)) : Holed L' edge' := by
  have hE' : ∀ (e : Nat) (r' : Edge), edge'[e]? = some r' → ∃ r, edge[e]? = some r ∧ r' = cut D r := by
    intro e r' he
    have hl := (List.getElem?_eq_some_iff.mp he).1
    rw [hlen] at hl
    have h1 := hE e edge[e] (List.getElem?_eq_getElem hl)
    exact ⟨edge[e], List.getElem?_eq_getElem hl, Option.some.inj (he.symm.trans h1)⟩
  have hno : ∀ k, ¬ D UNSET_IDX k := by
    intro k q
    obtain ⟨e, he⟩ := hD _ _ q
    rw [h.small] at he; cases he
  refine ⟨?_, ?_, ?_, ?_, ?_, ?_, ?_, twoIn_of h ?_, twoOut_of h ?_⟩
  · intro k; rw [hL1 _ _ (hno k)]; exact h.small k
  · intro d k e he
    by_cases q : D d k
    · obtain ⟨e', he'⟩ := hD _ _ q
      exact h.pos _ _ _ he'
    · rw [hL1 _ _ q] at he; exact h.pos _ _ _ he
  · rw [hlen]; exact h.bound
  · intro e r' he
    obtain ⟨r, hr, rfl⟩ := hE' e r' he
    by_cases q : D r.head r.headpos
    · left; simp [cut, q]
    · simp only [cut, q, if_false]; rw [hL1 _ _ q]; exact h.head e r hr
  · intro e r' he
    obtain ⟨r, hr, rfl⟩ := hE' e r' he
    by_cases q : D r.tail r.tailpos
    · left; simp [cut, q]
    · simp only [cut, q, if_false]; rw [hL1 _ _ q]; exact h.tail e r hr
  · intro e r' he hne
    obtain ⟨r, hr, rfl⟩ := hE' e r' he
    by_cases q : D r.head r.headpos
    · exfalso; apply hne; simp [cut, q]
    · simp only [cut, q, if_false] at hne ⊢
      rintro ⟨q1, q2⟩
      by_cases q' : D r.tail r.tailpos
      · rw [if_pos q'] at q1; exact hne q1
      · rw [if_neg q'] at q1 q2; exact h.ne e r hr hne ⟨q1, q2⟩
  · intro d k e he he0
    by_cases q : D d k
    · rw [hL0 _ _ q] at he; exact absurd (Option.some.inj he).symm he0
    · rw [hL1 _ _ q] at he
      obtain ⟨r, hr, hr2⟩ := h.used d k e he he0
      refine ⟨cut D r, hE e r hr, ?_⟩
      rcases hr2 with ⟨q1, q2⟩ | ⟨q1, q2⟩
      · left; subst q1; subst q2; simp [cut, q]
      · right; subst q1; subst q2; simp [cut, q]
  · intro e r' he
    obtain ⟨r, hr, rfl⟩ := hE' e r' he
    by_cases q : D r.head r.headpos
    · left; simp [cut, q]
    · right; exact ⟨e, r, hr, by simp [cut, q], by simp [cut, q]⟩
  · intro e r' he
    obtain ⟨r, hr, rfl⟩ := hE' e r' he
    by_cases q : D r.tail r.tailpos
    · left; simp [cut, q]
    · right; exact ⟨e, r, hr, by simp [cut, q], by simp [cut, q]⟩

theorem cut_none {D : Nat → Nat → Prop} {r : Edge} (h1 : ¬ D r.head r.headpos) (h2 : ¬ D r.tail r.tailpos) : cut D r = r := by
  simp [cut, h1, h2]

theorem holed_through (h : Holed L edge) (hcl : Clear L edge c) (hc : c ≠ UNSET_IDX) {f g : Nat} {rf rg : Edge} (hf : edge[f]? = some rf)
    (hg : edge[g]? = some rg) (hfc : rf.head = c) (hp : rf.headpos % 2 = p) (hgc : rg.tail = c) (hgp : rg.tailpos = (rf.headpos + 2) % 4) :
    Holed (emptied (fun d k => if d = rf.tail ∧ k = rf.tailpos then some g else L d k) c p)
      ((edge.set g ⟨rg.head, rg.headpos, rf.tail, rf.tailpos⟩).set f ⟨UNSET_IDX, UNSET_POS, UNSET_IDX, UNSET_POS⟩) := by
  have hfh := h.head_at hf (by rw [hfc]; exact hc)
  have hgt := h.tail_at hg (by rw [hgc]; exact hc)
  have hfg0 := h.lt hf
  have hgg0 := h.lt hg
  have hk := h.pos _ _ _ hfh
  have hroot : rf.tail ≠ UNSET_IDX := by
    intro q
    have := hcl.rooted f rf hf hfc q
    rw [hgc, hgp] at hgt
    rw [this] at hgt
    exact hgg0 (Option.some.inj hgt).symm
  have hft := h.tail_at hf hroot
  have hfc' : rf.tail = c → f = g := by
    intro q
    have := hcl.noloop f rf hf hfc q
    rw [q, this] at hft
    rw [hgc, hgp] at hgt
    exact Option.some.inj (hft.symm.trans hgt)
  have heq : f = g → rf = rg := by rintro rfl; exact Option.some.inj (hf.symm.trans hg)
  have hE := fun e => get_set2 (a := ⟨rg.head, rg.headpos, rf.tail, rf.tailpos⟩) (b := ⟨UNSET_IDX, UNSET_POS, UNSET_IDX, UNSET_POS⟩) hf hg e
  rw [hfc] at hfh
  rw [hgc, hgp] at hgt
  -- places of the strand hold f and g only
  have hpl : ∀ k e, L c k = some e → k % 2 = p → (k = rf.headpos ∧ e = f) ∨ (k = rg.tailpos ∧ e = g) := by
    intro k e he hk2
    rcases two_places hk (h.pos _ _ _ he) hp hk2 with q | q
    · left; refine ⟨q, ?_⟩; rw [q] at he; exact Option.some.inj (he.symm.trans hfh)
    · right; refine ⟨by rw [hgp, q], ?_⟩; rw [q] at he; exact Option.some.inj (he.symm.trans hgt)
  have hkeep : ∀ d k e, L d k = some e → e ≠ f → e ≠ g →
      (emptied (fun d k => if d = rf.tail ∧ k = rf.tailpos then some g else L d k) c p) d k = some e := by
    intro d k e he h1 h2
    unfold emptied; beta_reduce
    rw [if_neg, if_neg]
    · exact he
    · rintro ⟨rfl, rfl⟩; exact h1 (Option.some.inj (he.symm.trans hft))
    · rintro ⟨rfl, q1, q2⟩; rcases hpl k e he q2 with q | q
      · exact h1 q.2
      · exact h2 q.2
  refine ⟨?_, ?_, ?_, ?_, ?_, ?_, ?_, ?_, ?_⟩
  · intro k
    unfold emptied; beta_reduce
    rw [if_neg (fun q => hc q.1.symm), if_neg (fun q => hroot q.1.symm)]
    exact h.small k
  · intro d k e he
    unfold emptied at he; beta_reduce at he
    split at he
    · next q => exact q.2.1
    · split at he
      · next q => rw [q.2]; exact h.pos _ _ _ hft
      · exact h.pos _ _ _ he
  · simp; exact h.bound
  · intro e r he
    rw [hE] at he
    split at he
    · cases he; left; exact ⟨rfl, rfl⟩
    · next hef =>
      split at he
      · next heg =>
        subst heg
        cases he
        rcases h.head e rg hg with q | q
        · left; exact q
        · right
          unfold emptied; beta_reduce
          have : ¬ (rg.head = c ∧ rg.headpos < 4 ∧ rg.headpos % 2 = p) := by
            rintro ⟨q1, _, q2⟩
            rw [q1] at q
            rcases hpl _ _ q q2 with q3 | q3
            · exact hef q3.2
            · exact h.ne e rg hg (by rw [q1]; exact hc) ⟨by rw [q1, hgc], q3.1⟩
          rw [if_neg this]
          split
          · rfl
          · exact q
      · next heg =>
        rcases h.head e r he with q | q
        · left; exact q
        · right; exact hkeep _ _ _ q hef heg
  · intro e r he
    rw [hE] at he
    split at he
    · cases he; left; exact ⟨rfl, rfl⟩
    · next hef =>
      split at he
      · next heg =>
        subst heg
        cases he
        right
        unfold emptied; beta_reduce
        rw [if_neg (fun q => hef (hfc' q.1).symm), if_pos ⟨rfl, rfl⟩]
      · next heg =>
        rcases h.tail e r he with q | q
        · left; exact q
        · right; exact hkeep _ _ _ q hef heg
  · intro e r he hr
    rw [hE] at he
    split at he
    · cases he; exact absurd rfl hr
    · next hef =>
      split at he
      · next heg =>
        subst heg
        cases he
        rintro ⟨q1, q2⟩
        simp only at q1 q2 hr
        have := h.head_at hg hr
        rw [q1, q2, hft] at this
        exact hef (Option.some.inj this).symm
      · exact h.ne e r he hr
  · intro d k e he he0
    unfold emptied at he; beta_reduce at he
    split at he
    · exact absurd (Option.some.inj he).symm he0
    · next hno =>
      split at he
      · next q =>
        cases he
        by_cases hfg : g = f
        · exfalso
          rw [heq hfg.symm] at q
          exact hno ⟨by rw [q.1, hgc], by rw [q.2, hgp]; omega, by rw [q.2, hgp]; omega⟩
        · refine ⟨⟨rg.head, rg.headpos, rf.tail, rf.tailpos⟩, by rw [hE, if_neg hfg, if_pos rfl], Or.inr ⟨q.1.symm, q.2.symm⟩⟩
      · next q =>
        obtain ⟨r, hr, hr2⟩ := h.used d k e he he0
        by_cases hef : e = f
        · subst hef
          cases hf.symm.trans hr
          exfalso
          rcases hr2 with q2 | q2
          · exact hno ⟨by rw [← q2.1, hfc], by rw [← q2.2]; exact hk, by rw [← q2.2]; exact hp⟩
          · exact q ⟨q2.1.symm, q2.2.symm⟩
        · by_cases heg : e = g
          · subst heg
            cases hg.symm.trans hr
            rcases hr2 with q2 | q2
            · exact ⟨⟨rg.head, rg.headpos, rf.tail, rf.tailpos⟩, by rw [hE, if_neg hef, if_pos rfl], Or.inl q2⟩
            · exfalso
              exact hno ⟨by rw [← q2.1, hgc], by rw [← q2.2, hgp]; omega, by rw [← q2.2, hgp]; omega⟩
          · exact ⟨r, by rw [hE, if_neg hef, if_neg heg]; exact hr, hr2⟩
  · refine twoIn_of h ?_
    intro e r he
    rw [hE] at he
    split at he
    · cases he; left; exact ⟨rfl, rfl⟩
    · split at he
      · next q => subst q; cases he; right; exact ⟨e, rg, hg, rfl, rfl⟩
      · right; exact ⟨e, r, he, rfl, rfl⟩
  · refine twoOut_of h ?_
    intro e r he
    rw [hE] at he
    split at he
    · cases he; left; exact ⟨rfl, rfl⟩
    · split at he
      · next q => subst q; cases he; right; exact ⟨f, rf, hf, rfl, rfl⟩
      · right; exact ⟨e, r, he, rfl, rfl⟩

/-- Taking out a strand leaves a diagram with holes. -/
theorem holed_taken (h : Holed L edge) (hcl : Clear L edge c) (hc : c ≠ UNSET_IDX) (hL : ∀ k, k < 4 → ∃ e, L c k = some e) (hp2 : p < 2)
    (T : TakenOut c p L edge L' edge' gone) : Holed L' edge' := by
  have hD : ∀ d k, (d = c ∧ k < 4 ∧ k % 2 = p) → ∃ e, L d k = some e := by
    rintro d k ⟨rfl, q, _⟩; exact hL k q
  have h0 : ∀ d k, (d = c ∧ k < 4 ∧ k % 2 = p) → emptied L c p d k = some UNSET_IDX := by
    intro d k q; unfold emptied; rw [if_pos q]
  have h1 : ∀ d k, ¬ (d = c ∧ k < 4 ∧ k % 2 = p) → emptied L c p d k = L d k := by
    intro d k q; unfold emptied; rw [if_neg q]
  cases T with
  | through f g rf rg hf hg hfc hp hgc hgp => exact holed_through h hcl hc hf hg hfc hp hgc hgp
  | entering f rf hf hfc hp ho =>
    have hfh := h.head_at hf (by rw [hfc]; exact hc)
    have hk := h.pos _ _ _ hfh
    rw [hfc] at hfh
    have hpl : ∀ k e, e ≠ UNSET_IDX → L c k = some e → k % 2 = p → k = rf.headpos ∧ e = f := by
      intro k e he0 he hk2
      rcases two_places hk (h.pos _ _ _ he) hp hk2 with q | q
      · rw [q] at he; exact ⟨q, Option.some.inj (he.symm.trans hfh)⟩
      · rw [q, ho] at he; exact absurd (Option.some.inj he).symm he0
    refine holed_cut h _ hD h0 h1 (by simp) ?_
    intro e r he
    rw [get_set1 hf]
    split
    · next q =>
      subst q
      cases hf.symm.trans he
      have q1 : rf.head = c ∧ rf.headpos < 4 ∧ rf.headpos % 2 = p := ⟨hfc, hk, hp⟩
      have q2 : ¬ (rf.tail = c ∧ rf.tailpos < 4 ∧ rf.tailpos % 2 = p) := by
        rintro ⟨s1, _, s3⟩
        have := h.tail_at hf (by rw [s1]; exact hc)
        rw [s1] at this
        exact h.ne e rf hf (by rw [hfc]; exact hc) ⟨by rw [hfc, s1], (hpl _ _ (h.lt hf) this s3).1.symm⟩
      simp only [cut, q1, q2, if_true, if_false, and_self]
    · next q =>
      rw [he, cut_none]
      · rintro ⟨s1, _, s3⟩
        have := h.head_at he (by rw [s1]; exact hc)
        rw [s1] at this
        exact q (hpl _ _ (h.lt he) this s3).2
      · rintro ⟨s1, _, s3⟩
        have := h.tail_at he (by rw [s1]; exact hc)
        rw [s1] at this
        exact q (hpl _ _ (h.lt he) this s3).2
  | leaving g rg hg hgc hp ho =>
    have hgt := h.tail_at hg (by rw [hgc]; exact hc)
    have hk := h.pos _ _ _ hgt
    rw [hgc] at hgt
    have hpl : ∀ k e, e ≠ UNSET_IDX → L c k = some e → k % 2 = p → k = rg.tailpos ∧ e = g := by
      intro k e he0 he hk2
      rcases two_places hk (h.pos _ _ _ he) hp hk2 with q | q
      · rw [q] at he; exact ⟨q, Option.some.inj (he.symm.trans hgt)⟩
      · rw [q, ho] at he; exact absurd (Option.some.inj he).symm he0
    refine holed_cut h _ hD h0 h1 (by simp) ?_
    intro e r he
    rw [get_set1 hg]
    split
    · next q =>
      subst q
      cases hg.symm.trans he
      have q1 : rg.tail = c ∧ rg.tailpos < 4 ∧ rg.tailpos % 2 = p := ⟨hgc, hk, hp⟩
      have q2 : ¬ (rg.head = c ∧ rg.headpos < 4 ∧ rg.headpos % 2 = p) := by
        rintro ⟨s1, _, s3⟩
        have s0 : rg.head ≠ UNSET_IDX := by rw [s1]; exact hc
        have := h.head_at hg s0
        rw [s1] at this
        exact h.ne e rg hg s0 ⟨by rw [hgc, s1], (hpl _ _ (h.lt hg) this s3).1⟩
      simp only [cut, q1, q2, if_true, if_false, and_self]
    · next q =>
      rw [he, cut_none]
      · rintro ⟨s1, _, s3⟩
        have := h.head_at he (by rw [s1]; exact hc)
        rw [s1] at this
        exact q (hpl _ _ (h.lt he) this s3).2
      · rintro ⟨s1, _, s3⟩
        have := h.tail_at he (by rw [s1]; exact hc)
        rw [s1] at this
        exact q (hpl _ _ (h.lt he) this s3).2
  | nothing e0 e2 =>
    have hpl : ∀ k e, L c k = some e → k % 2 = p → e = UNSET_IDX := by
      intro k e he hk2
      have h4 := h.pos _ _ _ he
      have : k = p ∨ k = p + 2 := by omega
      rcases this with q | q
      · rw [q, e0] at he; exact (Option.some.inj he).symm
      · rw [q, e2] at he; exact (Option.some.inj he).symm
    refine holed_cut h _ hD h0 h1 rfl ?_
    intro e r he
    rw [he, cut_none]
    · rintro ⟨s1, _, s3⟩
      have := h.head_at he (by rw [s1]; exact hc)
      rw [s1] at this
      exact h.lt he (hpl _ _ this s3)
    · rintro ⟨s1, _, s3⟩
      have := h.tail_at he (by rw [s1]; exact hc)
      rw [s1] at this
      exact h.lt he (hpl _ _ this s3)

/-- After one strand has been taken out the other one can be. -/
theorem clear_taken (h : Holed L edge) (hcl : Clear L edge c) (hc : c ≠ UNSET_IDX) (T : TakenOut c p L edge L' edge' gone) :
    Clear L' edge' c := by
  have hem : ∀ (M : Slots) (k : Nat), M c k = some UNSET_IDX → emptied M c p c k = some UNSET_IDX := by
    intro M k q; unfold emptied; split
    · rfl
    · exact q
  cases T with
  | through f g rf rg hf hg hfc hp hgc hgp =>
    have hgt := h.tail_at hg (by rw [hgc]; exact hc)
    rw [hgc, hgp] at hgt
    have hroot : rf.tail ≠ UNSET_IDX := by
      intro q
      have := hcl.rooted f rf hf hfc q
      rw [this] at hgt
      exact h.lt hg (Option.some.inj hgt).symm
    have hft := h.tail_at hf hroot
    have hfc' : rf.tail = c → f = g := by
      intro q
      have := hcl.noloop f rf hf hfc q
      rw [q, this] at hft
      exact Option.some.inj (hft.symm.trans hgt)
    constructor
    · intro e r he h1 h2
      rw [get_set2 hf hg] at he
      split at he
      · cases he; exact absurd h1.symm hc
      · next q1 =>
        split at he
        · next q2 => cases he; exact absurd (q2.trans (hfc' h2).symm) q1
        · exact hcl.noloop e r he h1 h2
    · intro e r he h1 h2
      rw [get_set2 hf hg] at he
      split at he
      · cases he; exact absurd h1.symm hc
      · split at he
        · cases he; exact absurd h2 hroot
        · have := hcl.rooted e r he h1 h2
          apply hem
          rw [if_neg]
          · exact this
          · rintro ⟨q1, q2⟩
            rw [q1, q2, hft] at this
            exact h.lt hf (Option.some.inj this)
  | entering f rf hf hfc hp ho =>
    constructor
    · intro e r he h1 h2
      rw [get_set1 hf] at he
      split at he
      · cases he; exact absurd h1.symm hc
      · exact hcl.noloop e r he h1 h2
    · intro e r he h1 h2
      rw [get_set1 hf] at he
      split at he
      · cases he; exact absurd h1.symm hc
      · exact hem _ _ (hcl.rooted e r he h1 h2)
  | leaving g rg hg hgc hp ho =>
    constructor
    · intro e r he h1 h2
      rw [get_set1 hg] at he
      split at he
      · cases he; exact absurd h2.symm hc
      · exact hcl.noloop e r he h1 h2
    · intro e r he h1 h2
      rw [get_set1 hg] at he
      split at he
      · exfalso
        cases he
        simp only at h1
        have h3 := hcl.noloop g rg hg h1 hgc
        have h4 := h.head_at hg (by rw [h1]; exact hc)
        have h5 := h.pos _ _ _ h4
        have h6 : (rg.tailpos + 2) % 4 = rg.headpos := by omega
        rw [h6, ← h1, h4] at ho
        exact h.lt hg (Option.some.inj ho)
      · exact hem _ _ (hcl.rooted e r he h1 h2)
  | nothing h0 h2 =>
    exact ⟨hcl.noloop, fun e r he h1 h2 => hem _ _ (hcl.rooted e r he h1 h2)⟩

theorem slot_some {cross : List Cross} {c k e : Nat} (h : slot cross c k = some e) : c < cross.length ∧ k < 4 := by
  unfold slot at h
  split at h
  · next hk =>
    cases q : cross[c]? with
    | none => rw [q] at h; cases h
    | some x => exact ⟨(List.getElem?_eq_some_iff.mp q).1, hk⟩
  · cases h

theorem setSlot_slot {cross : List Cross} {c k e0 : Nat} (h : slot cross c k = some e0) (e : Nat) :
    ∃ cross', setSlot cross c k e = .ok cross' ∧ cross'.map Cross.sign = cross.map Cross.sign ∧
      ∀ d j, slot cross' d j = if d = c ∧ j = k then some e else slot cross d j := by
  obtain ⟨hc, hk⟩ := slot_some h
  obtain ⟨cross', h1, h2, h3⟩ := setSlot_ok hc hk e
  refine ⟨cross', h1, ?_, ?_⟩
  · apply List.ext_getElem?
    intro i
    simp only [List.getElem?_map]
    cases q : cross[i]? with
    | none =>
      have : cross'[i]? = none := by rw [List.getElem?_eq_none_iff] at q ⊢; omega
      rw [this]
    | some x =>
      obtain ⟨x', q1, q2, _⟩ := h3 i x q
      rw [q1]; simp [q2]
  · intro d j
    by_cases hj : j < 4
    · unfold slot
      rw [if_pos hj, if_pos hj]
      cases q : cross[d]? with
      | none =>
        have : cross'[d]? = none := by rw [List.getElem?_eq_none_iff] at q ⊢; omega
        rw [this, if_neg]
        · rintro ⟨rfl, _⟩; rw [List.getElem?_eq_none_iff] at q; omega
      | some x =>
        obtain ⟨x', q1, _, q3⟩ := h3 d x q
        rw [q1]
        simp only [Option.map_some]
        rw [q3, Nat.mod_eq_of_lt hj]
        split <;> rfl
    · rw [if_neg (fun q => hj (by rw [q.2]; exact hk))]
      unfold slot
      rw [if_neg hj, if_neg hj]

/-- Components after the edge `gone`, if any, has been used up. -/
def purgeGone (gone : Option Nat) (comp : List Comp) : List Comp :=
  match gone with
  | some f => purgeComps f comp
  | none => comp

theorem splice_ok {cross : List Cross} {comp : List Comp} {f g e0 : Nat} {rf rg : Edge} (hf : edge[f]? = some rf) (hg : edge[g]? = some rg)
    (hs : slot cross rf.tail rf.tailpos = some e0) :
    ∃ cross', splice (cross, edge, comp) f g = .ok (cross', (edge.set g ⟨rg.head, rg.headpos, rf.tail, rf.tailpos⟩).set f unsetEdge, purgeComps f comp) ∧
      cross'.map Cross.sign = cross.map Cross.sign ∧
      ∀ d j, slot cross' d j = if d = rf.tail ∧ j = rf.tailpos then some g else slot cross d j := by
  obtain ⟨cross', h1, h2, h3⟩ := setSlot_slot hs g
  have hlf := (List.getElem?_eq_some_iff.mp hf).1
  have hlg := (List.getElem?_eq_some_iff.mp hg).1
  refine ⟨cross', ?_, h2, h3⟩
  unfold splice
  simp only [rd_ok hf, rd_ok hg, ok_bind, wr_lt hlg, h1]
  rw [wr_lt (by simpa using hlf)]
  rfl

/-- One turn of the loop takes out one strand. -/
theorem strand_ok {cross : List Cross} {comp : List Comp} (h : Holed L edge) (hcl : Clear L edge c) (hp : p < 2) (hc : c < cross.length)
    (hcu : c ≠ UNSET_IDX) (hA : ∀ d k, (d = c → p ≤ k % 2) → slot cross d k = L d k) :
    ∃ cross' edge' L' gone, strand c p (cross, edge, comp) = .ok (cross', edge', purgeGone gone comp) ∧ TakenOut c p L edge L' edge' gone ∧
      cross'.map Cross.sign = cross.map Cross.sign ∧ ∀ d k, (d = c → p + 1 ≤ k % 2) → slot cross' d k = L' d k := by
  have hx : cross[c]? = some cross[c] := List.getElem?_eq_getElem hc
  have ha : L c p = some (cross[c].at p) := by
    rw [← hA c p (fun _ => by omega)]; unfold slot; rw [if_pos (by omega), hx]; rfl
  have hb : L c (p + 2) = some (cross[c].at (p + 2)) := by
    rw [← hA c (p + 2) (fun _ => by omega)]; unfold slot; rw [if_pos (by omega), hx]; rfl
  unfold strand
  simp only [rd_ok hx, ok_bind, Cross.rdPos_lt (show p < 4 by omega), Cross.rdPos_lt (show p + 2 < 4 by omega)]
  generalize cross[c].at p = a at *
  generalize cross[c].at (p + 2) = b at *
  have hp2 : (p + 2 + 2) % 4 = p := by omega
  have hp3 : (p + 2) % 4 = p + 2 := by omega
  -- splicing
  have key : ∀ f g rf rg, edge[f]? = some rf → edge[g]? = some rg → rf.head = c → rf.headpos % 2 = p → rg.tail = c →
      rg.tailpos = (rf.headpos + 2) % 4 →
      ∃ cross' edge' L' gone, splice (cross, edge, comp) f g = .ok (cross', edge', purgeGone gone comp) ∧ TakenOut c p L edge L' edge' gone ∧
        cross'.map Cross.sign = cross.map Cross.sign ∧ ∀ d k, (d = c → p + 1 ≤ k % 2) → slot cross' d k = L' d k := by
    intro f g rf rg hf hg q1 q2 q3 q4
    have hgt := h.tail_at hg (by rw [q3]; exact hcu)
    rw [q3, q4] at hgt
    have hroot : rf.tail ≠ UNSET_IDX := by
      intro q
      have := hcl.rooted f rf hf q1 q
      rw [this] at hgt
      exact h.lt hg (Option.some.inj hgt).symm
    have hft := h.tail_at hf hroot
    have hs : slot cross rf.tail rf.tailpos = some f := by
      rw [hA, hft]
      intro s
      have := hcl.noloop f rf hf q1 s
      omega
    obtain ⟨cross', h1, h2, h3⟩ := splice_ok (comp := comp) hf hg hs
    refine ⟨cross', _, _, some f, h1, TakenOut.through f g rf rg hf hg q1 q2 q3 q4, h2, ?_⟩
    intro d k hk
    rw [h3]
    unfold emptied
    beta_reduce
    rw [if_neg (c := d = c ∧ k < 4 ∧ k % 2 = p) (fun s => by have := hk s.1; omega)]
    split
    · rfl
    · exact hA d k (fun s => by have := hk s; omega)
  have hkeep : ∀ d k, (d = c → p + 1 ≤ k % 2) → slot cross d k = emptied L c p d k := by
    intro d k hk
    unfold emptied
    rw [if_neg (fun s => by have := hk s.1; omega)]
    exact hA d k (fun s => by have := hk s; omega)
  -- a single edge
  have one : ∀ q e, (q = p ∨ q = p + 2) → L c q = some e → e ≠ UNSET_IDX → L c ((q + 2) % 4) = some UNSET_IDX →
      ∃ cross' edge' L' gone, (do
        let r ← rd edge e
        if r.head = c then do
          let edge ← wr edge e { r with head := UNSET_IDX, headpos := UNSET_POS }
          .ok (cross, edge, comp)
        else if r.tail = c then do
          let edge ← wr edge e { r with tail := UNSET_IDX, tailpos := UNSET_POS }
          .ok (cross, edge, comp)
        else .ok (cross, edge, comp) : Res State) = .ok (cross', edge', purgeGone gone comp) ∧ TakenOut c p L edge L' edge' gone ∧
        cross'.map Cross.sign = cross.map Cross.sign ∧ ∀ d k, (d = c → p + 1 ≤ k % 2) → slot cross' d k = L' d k := by
    intro q e hq he he0 ho
    obtain ⟨r, hr, hr2⟩ := h.used c q e he he0
    have hl := (List.getElem?_eq_some_iff.mp hr).1
    rw [rd_ok hr, ok_bind]
    rcases hr2 with ⟨s1, s2⟩ | ⟨s1, s2⟩
    · rw [if_pos s1, wr_lt hl, ok_bind]
      exact ⟨_, _, _, none, rfl, TakenOut.entering e r hr s1 (by omega) (by rw [s2]; exact ho), rfl, hkeep⟩
    · have hh : r.head ≠ c := by
        intro s3
        have s4 := hcl.noloop e r hr s3 s1
        have s5 := h.head_at hr (by rw [s3]; exact hcu)
        have s6 := h.pos _ _ _ s5
        have s7 : r.headpos = (q + 2) % 4 := by omega
        rw [s3, s7, ho] at s5
        exact he0 (Option.some.inj s5).symm
      rw [if_neg hh, if_pos s1, wr_lt hl, ok_bind]
      exact ⟨_, _, _, none, rfl, TakenOut.leaving e r hr s1 (by omega) (by rw [s2]; exact ho), rfl, hkeep⟩
  by_cases ha0 : a = UNSET_IDX
  · subst ha0
    rw [if_neg (fun s => s.1 rfl), if_neg (not_not.mpr rfl)]
    by_cases hb0 : b = UNSET_IDX
    · subst hb0
      rw [if_pos rfl]
      exact ⟨_, _, _, none, rfl, TakenOut.nothing ha hb, rfl, hkeep⟩
    · rw [if_neg hb0]
      exact one (p + 2) b (Or.inr rfl) hb hb0 (by rw [hp2]; exact ha)
  · by_cases hb0 : b = UNSET_IDX
    · subst hb0
      rw [if_neg (fun s => s.2 rfl), if_pos ha0, if_neg ha0]
      exact one p a (Or.inl rfl) ha ha0 (by rw [hp3]; exact hb)
    · rw [if_pos ⟨ha0, hb0⟩]
      obtain ⟨ra, hra, hra2⟩ := h.used c p a ha ha0
      obtain ⟨rb, hrb, hrb2⟩ := h.used c (p + 2) b hb hb0
      simp only [rd_ok hra, rd_ok hrb, ok_bind]
      rcases hra2 with ⟨s1, s2⟩ | ⟨s1, s2⟩
      · rcases hrb2 with ⟨t1, t2⟩ | ⟨t1, t2⟩
        · exact absurd (by rw [t2, s2, hp3]) (h.twoIn a b ra rb hra hrb (by rw [s1, t1]))
        · rw [if_pos ⟨s1, t1⟩]
          exact key a b ra rb hra hrb s1 (by omega) t1 (by omega)
      · rcases hrb2 with ⟨t1, t2⟩ | ⟨t1, t2⟩
        · by_cases hab : ra.head = c
          · have s4 := hcl.noloop a ra hra hab s1
            have s5 := h.head_at hra (by rw [hab]; exact hcu)
            have s6 := h.pos _ _ _ s5
            have s7 : ra.headpos = p + 2 := by omega
            rw [hab, s7] at s5
            have : a = b := Option.some.inj (s5.symm.trans hb)
            subst this
            cases hra.symm.trans hrb
            rw [if_pos ⟨hab, s1⟩]
            exact key a a ra ra hra hra hab (by omega) s1 (by omega)
          · rw [if_neg (fun s => hab s.1), if_pos ⟨t1, s1⟩]
            exact key b a rb ra hrb hra t1 (by omega) s1 (by omega)
        · exact absurd (by rw [t2, s2, hp3]) (h.twoOut a b ra rb hra hrb (by rw [s1, t1]))

/-- The places of the strand are empty afterwards, those of the other strand are as before. -/
theorem taken_here (T : TakenOut c p L edge L' edge' gone) {k : Nat} (hk : k < 4) (hkp : k % 2 = p) : L' c k = some UNSET_IDX := by
  cases T <;> (unfold emptied; rw [if_pos ⟨rfl, hk, hkp⟩])

theorem taken_other (hcl : Clear L edge c) (T : TakenOut c p L edge L' edge' gone) {k : Nat} (hkp : k % 2 ≠ p) : L' c k = L c k := by
  cases T with
  | through f g rf rg hf hg hfc hp hgc hgp =>
    unfold emptied
    beta_reduce
    rw [if_neg (fun q => hkp q.2.2), if_neg]
    rintro ⟨q1, q2⟩
    have := hcl.noloop f rf hf hfc q1.symm
    omega
  | entering f rf hf hfc hp ho => unfold emptied; rw [if_neg (fun q => hkp q.2.2)]
  | leaving g rg hg hgc hp ho => unfold emptied; rw [if_neg (fun q => hkp q.2.2)]
  | nothing h0 h2 => unfold emptied; rw [if_neg (fun q => hkp q.2.2)]

theorem setSign_slot {cross : List Cross} {c : Nat} (hc : c < cross.length) (o : Or) :
    ∃ cross', setSign cross c o = .ok cross' ∧ (∀ d j, slot cross' d j = slot cross d j) ∧
      ∀ d, cross'[d]?.map Cross.sign = if d = c then some o else cross[d]?.map Cross.sign := by
  refine ⟨cross.set c { cross[c] with sign := o }, ?_, ?_, ?_⟩
  · unfold setSign
    rw [rd_lt hc, ok_bind, wr_lt hc]
  · intro d j
    unfold slot
    by_cases hd : d = c
    · subst hd
      rw [List.getElem?_set_self hc, List.getElem?_eq_getElem hc]
      rfl
    · rw [List.getElem?_set_ne (Ne.symm hd)]
  · intro d
    by_cases hd : d = c
    · subst hd; rw [if_pos rfl, List.getElem?_set_self hc]; rfl
    · rw [if_neg hd, List.getElem?_set_ne (Ne.symm hd)]

end Plc.Deletions
