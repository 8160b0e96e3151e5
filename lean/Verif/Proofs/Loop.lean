import Verif.Spec.Loop
import Verif.Proofs.Renamed
import Mathlib.Data.Finset.Card

namespace Plc

open Plc.Core List

section

variable {cross cross' cross'' : List Cross} {edge edge' edge'' : List Edge} {τ σ ρ τ' σ' ρ' : Nat → Nat} {rev : Nat → Bool}

open Classical in
/-- Some preimage under a map that is a bijection of `0, …, n-1`. -/
noncomputable def back (n : Nat) (f : Nat → Nat) (y : Nat) : Nat :=
  if h : ∃ x, x < n ∧ f x = y then Classical.choose h else 0

theorem back_spec {n : Nat} {f : Nat → Nat} (h1 : ∀ c, c < n → f c < n)
    (h2 : ∀ c d, c < n → d < n → f c = f d → c = d) {y : Nat} (hy : y < n) :
    back n f y < n ∧ f (back n f y) = y := by
  have h := surj_of_inj h1 h2 hy
  unfold back
  rw [dif_pos h]
  exact Classical.choose_spec h

theorem back_left {n : Nat} {f : Nat → Nat} (h1 : ∀ c, c < n → f c < n)
    (h2 : ∀ c d, c < n → d < n → f c = f d → c = d) {x : Nat} (hx : x < n) : back n f (f x) = x := by
  obtain ⟨a, b⟩ := back_spec h1 h2 (h1 x hx)
  exact h2 _ _ a hx b

/-- Renaming (without turning edges around) can be undone. -/
theorem Renamed.symm (h : Renamed cross edge cross' edge' τ σ ρ (fun _ => false)) (hC : Consistent cross edge) :
    Renamed cross' edge' cross edge (back edge.length τ) (back cross.length σ)
      (fun c => (4 - ρ (back cross.length σ c)) % 4) (fun _ => false) where
  len := h.len.symm
  elen := h.elen.symm
  slt := fun c hc => by rw [h.len] at hc ⊢; exact (back_spec h.slt h.sinj hc).1
  sinj := fun c d hc hd he => by
    rw [h.len] at hc hd
    rw [← (back_spec h.slt h.sinj hc).2, he, (back_spec h.slt h.sinj hd).2]
  tlt := fun c hc => by rw [h.elen] at hc ⊢; exact (back_spec h.tlt h.tinj hc).1
  tinj := fun c d hc hd he => by
    rw [h.elen] at hc hd
    rw [← (back_spec h.tlt h.tinj hc).2, he, (back_spec h.tlt h.tinj hd).2]
  rho := fun c => Nat.mod_lt _ (by decide)
  cross := by
    intro c' x' hx'
    have hc' : c' < cross.length := by rw [← h.len]; exact (List.getElem?_eq_some_iff.mp hx').1
    obtain ⟨a, b⟩ := back_spec h.slt h.sinj hc'
    obtain ⟨x1, h1, h2⟩ := h.cross _ cross[back cross.length σ c'] (List.getElem?_eq_getElem a)
    rw [b, hx'] at h1
    cases h1
    refine ⟨_, List.getElem?_eq_getElem a, fun k => ?_⟩
    rw [h2]
    have hr := h.rho (back cross.length σ c')
    have e : ∀ z : Cross, z.at (k + (4 - ρ (back cross.length σ c')) % 4 + ρ (back cross.length σ c')) = z.at k := by
      intro z
      rw [at_lt, at_lt z k]
      congr 1
      omega
    rw [e, back_left h.tlt h.tinj]
    have := hC.slot_edge_lt (slot_of_lt a (Nat.mod_lt k (by decide : 0 < 4)))
    rwa [← at_lt] at this
  edge := by
    intro e' r' he
    obtain ⟨e, r, h1, rfl, rfl⟩ := h.pre he
    have hlt := (List.getElem?_eq_some_iff.mp h1).1
    have hh := slot_lt (hC.head e r h1)
    have ht := slot_lt (hC.tail e r h1)
    rw [back_left h.tlt h.tinj hlt, h1]
    unfold moveEdge
    simp only [Bool.false_eq_true, if_false]
    rw [back_left h.slt h.sinj hh.1, back_left h.slt h.sinj ht.1]
    have q1 := h.rho r.head
    have q2 := h.rho r.tail
    have e1 : ((r.headpos + 4 - ρ r.head) % 4 + 4 - (4 - ρ r.head) % 4) % 4 = r.headpos := by omega
    have e2 : ((r.tailpos + 4 - ρ r.tail) % 4 + 4 - (4 - ρ r.tail) % 4) % 4 = r.tailpos := by omega
    rw [e1, e2]

/-- Signs are carried along. -/
def SameSigns (cross cross' : List Cross) (σ : Nat → Nat) : Prop :=
  ∀ (c : Nat) (x : Cross), cross[c]? = some x → ∃ x', cross'[σ c]? = some x' ∧ x'.sign = x.sign

end

namespace LoopRemoved

variable {cross cross' cross'' : List Cross} {edge edge' edge'' : List Edge} {c e0 e1 e2 : Nat}
  {τ σ ρ τ' σ' ρ' : Nat → Nat}

/-- Every edge that stays has a name in the second diagram. -/
theorem tsurj (h : LoopRemoved cross edge c e0 e1 e2 cross' edge' τ σ ρ) {g : Nat} (hg : g < edge.length)
    (h1 : g ≠ e1) (h2 : g ≠ e2) : ∃ f, f < edge'.length ∧ τ f = g := by
  obtain ⟨r0, r1, r2, _, a1, a2, _⟩ := h.loop
  have l1 := (List.getElem?_eq_some_iff.mp a1).1
  have l2 := (List.getElem?_eq_some_iff.mp a2).1
  have hcard : (((Finset.range edge.length).erase e1).erase e2).card = edge'.length := by
    rw [Finset.card_erase_of_mem, Finset.card_erase_of_mem, Finset.card_range]
    · have := h.elen; omega
    · simpa using l1
    · simp only [Finset.mem_erase, Finset.mem_range]; exact ⟨h.ne12.symm, l2⟩
  have := Finset.surjOn_of_injOn_of_card_le (s := Finset.range edge'.length)
    (t := ((Finset.range edge.length).erase e1).erase e2) τ
    (by
      intro x hx
      simp only [Finset.coe_range, Set.mem_Iio] at hx
      have := h.tlt x hx
      simp only [Finset.coe_erase, Finset.coe_range, Set.mem_sdiff, Set.mem_Iio, Set.mem_singleton_iff]
      exact ⟨⟨this.1, this.2.1⟩, this.2.2⟩)
    (by
      intro x hx y hy he
      simp only [Finset.coe_range, Set.mem_Iio] at hx hy
      exact h.tinj x y hx hy he)
    (by rw [hcard, Finset.card_range])
  obtain ⟨f, f1, f2⟩ := this (by
    simp only [Finset.coe_erase, Finset.coe_range, Set.mem_sdiff, Set.mem_Iio, Set.mem_singleton_iff]
    exact ⟨⟨hg, h1⟩, h2⟩ : g ∈ _)
  simp only [Finset.coe_range, Set.mem_Iio] at f1
  exact ⟨f, f1, f2⟩

/-- What is written at a place of the second diagram. -/
theorem slot_eq (h : LoopRemoved cross edge c e0 e1 e2 cross' edge' τ σ ρ) {d k g f : Nat} (hd : d < cross'.length)
    (hk : k < 4) (hs : slot cross (σ d) ((k + ρ d) % 4) = some g) (hf : f < edge'.length)
    (he : τ f = if g = e2 then e0 else g) : slot cross' d k = some f := by
  obtain ⟨_, x, hx, hg⟩ := slot_eq_some.mp hs
  rw [← at_lt] at hg
  obtain ⟨x1, a1, _, a3⟩ := h.cross d cross'[d] (List.getElem?_eq_getElem hd)
  rw [hx] at a1
  cases a1
  obtain ⟨b1, b2⟩ := a3 k
  rw [hg, ← he] at b2
  rw [slot_of_lt hd hk, h.tinj _ _ b1 hf b2]

theorem consistent (h : LoopRemoved cross edge c e0 e1 e2 cross' edge' τ σ ρ) (hC : Consistent cross edge) :
    Consistent cross' edge' where
  count := by
    have := h.len; have := h.elen; have := hC.count; omega
  head := by
    intro f r' hr
    have hf := (List.getElem?_eq_some_iff.mp hr).1
    obtain ⟨p1, p2, p3, p4, r, q, a1, a2, a3, a4, a5, a6⟩ := h.edge f r' hr
    have := hC.head _ q a2
    rw [← a5, ← a6] at this
    refine h.slot_eq p1 p2 this hf ?_
    have := (h.tlt f hf).2.2
    by_cases he : τ f = e0
    · simp [he]
    · rw [if_neg he, if_neg this]
  tail := by
    intro f r' hr
    have hf := (List.getElem?_eq_some_iff.mp hr).1
    obtain ⟨p1, p2, p3, p4, r, q, a1, a2, a3, a4, a5, a6⟩ := h.edge f r' hr
    have := hC.tail _ r a1
    rw [← a3, ← a4] at this
    refine h.slot_eq p3 p4 this hf ?_
    rw [if_neg (h.tlt f hf).2.2]
  ends_ne := by
    intro f r' hr he
    have hf := (List.getElem?_eq_some_iff.mp hr).1
    obtain ⟨p1, p2, p3, p4, r, q, a1, a2, a3, a4, a5, a6⟩ := h.edge f r' hr
    rw [Prod.mk.injEq] at he
    have e1 : q.head = r.tail := by rw [← a5, ← a3, he.1]
    have e2' : q.headpos = r.tailpos := by rw [← a6, ← a4, he.1, he.2]
    by_cases he0 : τ f = e0
    · rw [if_pos he0] at a2
      have b1 := hC.head _ q a2
      have b2 := hC.tail _ r a1
      rw [e1, e2', b2, he0] at b1
      exact h.ne02 (Option.some.inj b1)
    · rw [if_neg he0, a1] at a2
      cases a2
      exact hC.ends_ne _ r a1 (by rw [Prod.mk.injEq]; exact ⟨e1, e2'⟩)

theorem oriented (h : LoopRemoved cross edge c e0 e1 e2 cross' edge' τ σ ρ)
    (hO : Oriented cross edge) : Oriented cross' edge' where
  through_head := by
    intro f r' hr
    have hf := (List.getElem?_eq_some_iff.mp hr).1
    obtain ⟨p1, p2, p3, p4, r, q, a1, a2, a3, a4, a5, a6⟩ := h.edge f r' hr
    obtain ⟨g, s, b1, b2, b3⟩ := hO.through_head _ q a2
    obtain ⟨r0, r1, r2, c0, c1, c2, d1, d2, _, d4, d5, d6, d7⟩ := h.loop
    have hne := (h.slt r'.head p1).2
    have g1 : g ≠ e1 := by
      rintro rfl
      rw [c1] at b1
      cases b1
      exact hne (by rw [a5, ← b2, d2])
    have g2 : g ≠ e2 := by
      rintro rfl
      rw [c2] at b1
      cases b1
      exact hne (by rw [a5, ← b2, d6])
    obtain ⟨f', f1, f2⟩ := h.tsurj (List.getElem?_eq_some_iff.mp b1).1 g1 g2
    refine ⟨f', edge'[f'], List.getElem?_eq_getElem f1, ?_⟩
    obtain ⟨p1', p2', p3', p4', s', q', a1', a2', a3', a4', a5', a6'⟩ := h.edge f' _ (List.getElem?_eq_getElem f1)
    rw [f2, b1] at a1'
    cases a1'
    have e := h.sinj _ _ p3' p1 (by rw [a3', a5, b2])
    refine ⟨e, ?_⟩
    rw [b3, ← a6] at a4'
    rw [e] at a4'
    omega
  through_tail := by
    intro f r' hr
    have hf := (List.getElem?_eq_some_iff.mp hr).1
    obtain ⟨p1, p2, p3, p4, r, q, a1, a2, a3, a4, a5, a6⟩ := h.edge f r' hr
    obtain ⟨g, s, b1, b2, b3⟩ := hO.through_tail _ r a1
    obtain ⟨r0, r1, r2, c0, c1, c2, d1, d2, _, d4, d5, d6, d7⟩ := h.loop
    have hne := (h.slt r'.tail p3).2
    have g1 : g ≠ e1 := by
      rintro rfl
      rw [c1] at b1
      cases b1
      exact hne (by rw [a3, ← b2, d1])
    have g0 : g ≠ e0 := by
      rintro rfl
      rw [c0] at b1
      cases b1
      exact hne (by rw [a3, ← b2, d4])
    by_cases g2 : g = e2
    · -- the edge before was `e2`, now it is `e0`
      subst g2
      obtain ⟨f', f1, f2⟩ := h.tsurj (List.getElem?_eq_some_iff.mp c0).1 h.ne01 h.ne02
      refine ⟨f', edge'[f'], List.getElem?_eq_getElem f1, ?_⟩
      obtain ⟨p1', p2', p3', p4', s', q', a1', a2', a3', a4', a5', a6'⟩ := h.edge f' _ (List.getElem?_eq_getElem f1)
      rw [if_pos f2, b1] at a2'
      cases a2'
      have e := h.sinj _ _ p1' p3 (by rw [a5', a3, b2])
      refine ⟨e, ?_⟩
      rw [b3, ← a4] at a6'
      rw [e] at a6'
      omega
    · obtain ⟨f', f1, f2⟩ := h.tsurj (List.getElem?_eq_some_iff.mp b1).1 g1 g2
      refine ⟨f', edge'[f'], List.getElem?_eq_getElem f1, ?_⟩
      obtain ⟨p1', p2', p3', p4', s', q', a1', a2', a3', a4', a5', a6'⟩ := h.edge f' _ (List.getElem?_eq_getElem f1)
      rw [if_neg (by rw [f2]; exact g0), f2, b1] at a2'
      cases a2'
      have e := h.sinj _ _ p1' p3 (by rw [a5', a3, b2])
      refine ⟨e, ?_⟩
      rw [b3, ← a4] at a6'
      rw [e] at a6'
      omega

/-- Renaming the second diagram. -/
theorem comp_right (h : LoopRemoved cross edge c e0 e1 e2 cross' edge' τ σ ρ)
    (h' : Renamed cross'' edge'' cross' edge' τ' σ' ρ' (fun _ => false)) (hC : Consistent cross'' edge'')
    (hS : SameSigns cross'' cross' σ') :
    LoopRemoved cross edge c e0 e1 e2 cross'' edge'' (fun f => τ (τ' f)) (fun d => σ (σ' d))
      (fun d => (ρ (σ' d) + 4 - ρ' d) % 4) where
  len := by rw [h.len, h'.len]
  elen := by rw [h.elen, h'.elen]
  loop := h.loop
  ne01 := h.ne01
  ne02 := h.ne02
  ne12 := h.ne12
  slt := fun d hd => h.slt _ (by rw [h'.len]; exact h'.slt d hd)
  sinj := fun d d' hd hd' he => h'.sinj d d' hd hd' (h.sinj _ _ (by rw [h'.len]; exact h'.slt d hd)
    (by rw [h'.len]; exact h'.slt d' hd') he)
  tlt := fun d hd => h.tlt _ (by rw [h'.elen]; exact h'.tlt d hd)
  tinj := fun d d' hd hd' he => h'.tinj d d' hd hd' (h.tinj _ _ (by rw [h'.elen]; exact h'.tlt d hd)
    (by rw [h'.elen]; exact h'.tlt d' hd') he)
  cross := by
    intro d x'' hx
    have hd := (List.getElem?_eq_some_iff.mp hx).1
    obtain ⟨x', h1, h2⟩ := h'.cross d x'' hx
    obtain ⟨x'2, h1', h2'⟩ := hS d x'' hx
    rw [h1] at h1'
    cases h1'
    obtain ⟨x, h3, h4, h5⟩ := h.cross _ x' h1
    have hlt : ∀ k, x''.at k < edge''.length := by
      intro k
      have := hC.slot_edge_lt (slot_of_lt hd (Nat.mod_lt k (by decide : 0 < 4)))
      rw [← at_lt] at this
      obtain ⟨_, e⟩ := List.getElem?_eq_some_iff.mp hx
      rwa [e] at this
    refine ⟨x, h3, by rw [← h2', h4], fun k => ⟨hlt k, ?_⟩⟩
    have hr := h'.rho d
    have e1 : x'.at (k + 4 - ρ' d) = τ' (x''.at k) := by
      rw [h2, at_lt, at_lt x'' k]; congr 2; omega
    have e2 : x.at (k + 4 - ρ' d + ρ (σ' d)) = x.at (k + (ρ (σ' d) + 4 - ρ' d) % 4) := by
      rw [at_lt, at_lt x (k + _)]; congr 1; omega
    obtain ⟨_, q⟩ := h5 (k + 4 - ρ' d)
    rw [e1, e2] at q
    exact q
  edge := by
    intro f r'' hr
    have p1 := slot_lt (hC.head f r'' hr)
    have p2 := slot_lt (hC.tail f r'' hr)
    have h1 := h'.edge f r'' hr
    unfold moveEdge at h1
    simp only [Bool.false_eq_true, if_false] at h1
    obtain ⟨_, _, _, _, r, q, a1, a2, a3, a4, a5, a6⟩ := h.edge _ _ h1
    simp only at a3 a4 a5 a6
    refine ⟨p1.1, p1.2, p2.1, p2.2, r, q, a1, a2, a3, ?_, a5, ?_⟩
    · have := h'.rho r''.tail
      rw [← a4]
      omega
    · have := h'.rho r''.head
      rw [← a6]
      omega

theorem shift_adj {h t q : Nat} (hh : h < 4) (ht : t < 4) (hq : q < 4) (ha : h = (t + 1) % 4 ∨ t = (h + 1) % 4) :
    (h + 4 - q) % 4 = ((t + 4 - q) % 4 + 1) % 4 ∨ (t + 4 - q) % 4 = ((h + 4 - q) % 4 + 1) % 4 := by
  rcases ha with rfl | rfl
  · left; omega
  · right; omega

/-- Renaming the first diagram. -/
theorem comp_left {cross2 : List Cross} {edge2 : List Edge} {τ2 σ2 ρ2 : Nat → Nat}
    (h : LoopRemoved cross edge c e0 e1 e2 cross' edge' τ σ ρ)
    (h' : Renamed cross edge cross2 edge2 τ2 σ2 ρ2 (fun _ => false)) (hC : Consistent cross edge)
    (hS : SameSigns cross cross2 σ2) :
    LoopRemoved cross2 edge2 (σ2 c) (τ2 e0) (τ2 e1) (τ2 e2) cross' edge' (fun f => τ2 (τ f)) (fun d => σ2 (σ d))
      (fun d => (ρ d + 4 - ρ2 (σ d)) % 4) := by
  obtain ⟨r0, r1, r2, c0, c1, c2, d1, d2, d3, d4, d5, d6, d7⟩ := h.loop
  have l0 := (List.getElem?_eq_some_iff.mp c0).1
  have l1 := (List.getElem?_eq_some_iff.mp c1).1
  have l2 := (List.getElem?_eq_some_iff.mp c2).1
  have hcl : c < cross.length := by rw [← d1]; exact (slot_lt (hC.head _ _ c1)).1
  exact {
    len := by rw [h'.len, h.len]
    elen := by rw [h'.elen, h.elen]
    loop := by
      have k0 := h'.edge _ _ c0
      have k1 := h'.edge _ _ c1
      have k2 := h'.edge _ _ c2
      unfold moveEdge at k0 k1 k2
      simp only [Bool.false_eq_true, if_false] at k0 k1 k2
      have q := h'.rho c
      have w1 := (slot_lt (hC.head _ _ c1)).2
      have w2 := (slot_lt (hC.tail _ _ c1)).2
      refine ⟨_, _, _, k0, k1, k2, ?_, ?_, ?_, ?_, ?_, ?_, ?_⟩
      · simp only [d1]
      · simp only [d2]
      · simp only [d1, d2]
        exact shift_adj w1 w2 q d3
      · simp only [d4]
      · simp only [d4, d5, d2]
        exact Renamed.shift2 w2 q
      · simp only [d6]
      · simp only [d6, d7, d1]
        exact Renamed.shift2 w1 q
    ne01 := fun he => h.ne01 (h'.tinj _ _ l0 l1 he)
    ne02 := fun he => h.ne02 (h'.tinj _ _ l0 l2 he)
    ne12 := fun he => h.ne12 (h'.tinj _ _ l1 l2 he)
    slt := fun d hd => by
      have := h.slt d hd
      exact ⟨by rw [h'.len]; exact h'.slt _ this.1, fun he => this.2 (h'.sinj _ _ this.1 hcl he)⟩
    sinj := fun d d' hd hd' he => h.sinj d d' hd hd' (h'.sinj _ _ (h.slt d hd).1 (h.slt d' hd').1 he)
    tlt := fun f hf => by
      have := h.tlt f hf
      exact ⟨by rw [h'.elen]; exact h'.tlt _ this.1, fun he => this.2.1 (h'.tinj _ _ this.1 l1 he),
        fun he => this.2.2 (h'.tinj _ _ this.1 l2 he)⟩
    tinj := fun d d' hd hd' he => h.tinj d d' hd hd' (h'.tinj _ _ (h.tlt d hd).1 (h.tlt d' hd').1 he)
    cross := by
      intro d x' hx
      have hd := (List.getElem?_eq_some_iff.mp hx).1
      obtain ⟨x, b1, b2, b3⟩ := h.cross d x' hx
      obtain ⟨y, y1, y2⟩ := h'.cross _ x b1
      obtain ⟨y', y1', y2'⟩ := hS _ x b1
      rw [y1] at y1'
      cases y1'
      refine ⟨y, y1, by rw [b2, y2'], fun k => ⟨(b3 k).1, ?_⟩⟩
      have hr := h'.rho (σ d)
      have e1 : y.at (k + (ρ d + 4 - ρ2 (σ d)) % 4) = τ2 (x.at (k + ρ d)) := by
        rw [y2, at_lt, at_lt x (k + ρ d)]; congr 2; omega
      have hxl : x.at (k + ρ d) < edge.length := by
        obtain ⟨hh, rfl⟩ := List.getElem?_eq_some_iff.mp b1
        have := hC.slot_edge_lt (slot_of_lt hh (Nat.mod_lt (k + ρ d) (by decide : 0 < 4)))
        rwa [← at_lt] at this
      rw [e1, (b3 k).2]
      by_cases he : x.at (k + ρ d) = e2
      · rw [if_pos he, if_pos (by rw [he])]
      · rw [if_neg he, if_neg (fun hh => he (h'.tinj _ _ hxl l2 hh))]
    edge := by
      intro f r' hr
      have hf := (List.getElem?_eq_some_iff.mp hr).1
      obtain ⟨p1, p2, p3, p4, r, q, a1, a2, a3, a4, a5, a6⟩ := h.edge f r' hr
      have k1 := h'.edge _ _ a1
      have k2 := h'.edge _ _ a2
      unfold moveEdge at k1 k2
      simp only [Bool.false_eq_true, if_false] at k1 k2
      have ee : (if τ2 (τ f) = τ2 e0 then τ2 e2 else τ2 (τ f)) = τ2 (if τ f = e0 then e2 else τ f) := by
        by_cases he : τ f = e0
        · rw [if_pos he, if_pos (by rw [he])]
        · rw [if_neg he, if_neg (fun hh => he (h'.tinj _ _ (h.tlt f hf).1 l0 hh))]
      refine ⟨p1, p2, p3, p4, _, _, k1, by rw [ee]; exact k2, by simp only [a3], ?_, by simp only [a5], ?_⟩
      · have := h'.rho (σ r'.tail)
        simp only [← a3, ← a4]
        omega
      · have := h'.rho (σ r'.head)
        simp only [← a5, ← a6]
        omega }

end LoopRemoved

end Plc
