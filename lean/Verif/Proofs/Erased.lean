import Verif.Spec.Erased
import Verif.Proofs.Loop
import Verif.Proofs.Places
import Verif.Proofs.MovesDel2

/-! What is left when strands are pulled off crossings is again a diagram. -/

namespace Plc

open Plc.Core Plc.Places List Plc.Comps

section

variable {W : List (Nat × Nat)} {a b e g : Nat}

theorem lastOf_mem (hW : (W.map (·.1)).Nodup) (h : (a, b) ∈ W) : lastOf W a = b := by
  unfold lastOf
  induction W with
  | nil => simp at h
  | cons p W ih =>
    rw [List.map_cons, List.nodup_cons] at hW
    rw [List.find?_cons]
    rcases List.mem_cons.mp h with rfl | h'
    · simp
    · have : (p.1 == a) = false := by
        rw [beq_eq_false_iff_ne]
        rintro rfl
        exact hW.1 (List.mem_map.mpr ⟨_, h', rfl⟩)
      rw [this]
      exact ih hW.2 h'

theorem firstOf_mem (hW : (W.map (·.2)).Nodup) (h : (a, b) ∈ W) : firstOf W b = a := by
  unfold firstOf
  induction W with
  | nil => simp at h
  | cons p W ih =>
    rw [List.map_cons, List.nodup_cons] at hW
    rw [List.find?_cons]
    rcases List.mem_cons.mp h with rfl | h'
    · simp
    · have : (p.2 == b) = false := by
        rw [beq_eq_false_iff_ne]
        rintro rfl
        exact hW.1 (List.mem_map.mpr ⟨_, h', rfl⟩)
      rw [this]
      exact ih hW.2 h'

theorem lastOf_not (h : g ∉ W.map (·.1)) : lastOf W g = g := by
  unfold lastOf
  rw [List.find?_eq_none.mpr]
  intro p hp
  rw [beq_iff_eq]
  rintro rfl
  exact h (List.mem_map_of_mem hp)

theorem firstOf_not (h : e ∉ W.map (·.2)) : firstOf W e = e := by
  unfold firstOf
  rw [List.find?_eq_none.mpr]
  intro p hp
  rw [beq_iff_eq]
  rintro rfl
  exact h (List.mem_map_of_mem (f := Prod.snd) hp)

end

/-- The strands of `W` lead through the crossings `X` along the edges `G`; besides them nothing but edges of `G` ends there. -/
structure Bypass (edge : List Edge) (X G : List Nat) (W : List (Nat × Nat)) : Prop where
  fst : (W.map (·.1)).Nodup
  snd : (W.map (·.2)).Nodup
  kept : ∀ p ∈ W, p.1 ∉ G
  gone : ∀ p ∈ W, p.2 ∈ G
  lt : ∀ p ∈ W, p.1 < edge.length ∧ p.2 < edge.length
  tail : ∀ (e : Nat) (r : Edge), edge[e]? = some r → (r.tail ∈ X ↔ e ∈ G)
  head : ∀ (e : Nat) (r : Edge), edge[e]? = some r → (r.head ∉ X ↔ (e ∉ G ∧ e ∉ W.map (·.1)) ∨ e ∈ W.map (·.2))

namespace Bypass

variable {edge : List Edge} {X G : List Nat} {W : List (Nat × Nat)}

theorem first_of_kept (h : Bypass edge X G W) {e : Nat} (he : e ∉ G) : firstOf W e = e := by
  apply firstOf_not
  intro hm
  obtain ⟨p, hp, rfl⟩ := List.mem_map.mp hm
  exact he (h.gone p hp)

theorem first_last (h : Bypass edge X G W) {g : Nat} (hg : g ∉ G) : firstOf W (lastOf W g) = g := by
  by_cases hm : g ∈ W.map (·.1)
  · obtain ⟨p, hp, rfl⟩ := List.mem_map.mp hm
    rw [lastOf_mem h.fst (show (p.1, p.2) ∈ W from hp), firstOf_mem h.snd (show (p.1, p.2) ∈ W from hp)]
  · rw [lastOf_not hm, h.first_of_kept hg]

theorem last_lt (h : Bypass edge X G W) {g : Nat} (hg : g < edge.length) : lastOf W g < edge.length := by
  by_cases hm : g ∈ W.map (·.1)
  · obtain ⟨p, hp, rfl⟩ := List.mem_map.mp hm
    rw [lastOf_mem h.fst (show (p.1, p.2) ∈ W from hp)]
    exact (h.lt p hp).2
  · rwa [lastOf_not hm]

theorem last_head (h : Bypass edge X G W) {g : Nat} (hg : g ∉ G) {r : Edge} (hr : edge[lastOf W g]? = some r) : r.head ∉ X := by
  rw [h.head _ _ hr]
  by_cases hm : g ∈ W.map (·.1)
  · obtain ⟨p, hp, rfl⟩ := List.mem_map.mp hm
    rw [lastOf_mem h.fst (show (p.1, p.2) ∈ W from hp)]
    exact .inr (List.mem_map_of_mem (f := Prod.snd) hp)
  · rw [lastOf_not hm]
    exact .inl ⟨hg, hm⟩

/-- An edge which ends at a crossing that stays is the last one of a new edge. -/
theorem exists_last (h : Bypass edge X G W) {e : Nat} {r : Edge} (hr : edge[e]? = some r) (hx : r.head ∉ X) :
    firstOf W e < edge.length ∧ firstOf W e ∉ G ∧ lastOf W (firstOf W e) = e := by
  rcases (h.head e r hr).mp hx with ⟨h1, h2⟩ | h1
  · rw [h.first_of_kept h1, lastOf_not h2]
    exact ⟨(List.getElem?_eq_some_iff.mp hr).1, h1, rfl⟩
  · obtain ⟨p, hp, rfl⟩ := List.mem_map.mp h1
    rw [firstOf_mem h.snd (show (p.1, p.2) ∈ W from hp), lastOf_mem h.fst (show (p.1, p.2) ∈ W from hp)]
    exact ⟨(h.lt p hp).1, h.kept p hp, rfl⟩

end Bypass

namespace Erased

variable {cross cross' cross'' : List Cross} {edge edge' edge'' : List Edge} {X G : List Nat} {W : List (Nat × Nat)}
  {τ σ ρ τ' σ' ρ' : Nat → Nat}

/-- What is written at a place of the second diagram. -/
theorem slot_eq (h : Erased cross edge X G W cross' edge' τ σ ρ) {d k g f : Nat} (hd : d < cross'.length)
    (hk : k < 4) (hs : slot cross (σ d) ((k + ρ d) % 4) = some g) (hf : f < edge'.length)
    (he : τ f = firstOf W g) : slot cross' d k = some f := by
  obtain ⟨_, x, hx, hg⟩ := slot_eq_some.mp hs
  rw [← at_lt] at hg
  obtain ⟨x1, a1, _, a3⟩ := h.cross d cross'[d] (List.getElem?_eq_getElem hd)
  rw [hx] at a1
  cases a1
  obtain ⟨b1, b2⟩ := a3 k
  rw [hg, ← he] at b2
  rw [slot_of_lt hd hk, h.tinj _ _ b1 hf b2]

/-- The ends of an edge, as places of the first diagram. -/
theorem ends (h : Erased cross edge X G W cross' edge' τ σ ρ) {f : Nat} (hf : f < edge'.length) :
    (σ (tl edge'[f]!).1, ((tl edge'[f]!).2 + ρ (tl edge'[f]!).1) % 4) = tl edge[τ f]! ∧
    (σ (hd edge'[f]!).1, ((hd edge'[f]!).2 + ρ (hd edge'[f]!).1) % 4) = hd edge[lastOf W (τ f)]! := by
  have g := List.getElem?_eq_getElem hf
  obtain ⟨_, _, _, _, r, q, a1, a2, a3, a4, a5, a6⟩ := h.edge f _ g
  have e1 : edge[τ f]! = r := by
    obtain ⟨hl, he⟩ := List.getElem?_eq_some_iff.mp a1
    simp [hl, he]
  have e2 : edge[lastOf W (τ f)]! = q := by
    obtain ⟨hl, he⟩ := List.getElem?_eq_some_iff.mp a2
    simp [hl, he]
  have e3 : edge'[f]! = edge'[f] := by simp [hf]
  rw [e1, e2, e3]
  simp only [tl, hd, a3, a4, a5, a6, and_self]

theorem consistent (h : Erased cross edge X G W cross' edge' τ σ ρ) (B : Bypass edge X G W) (hC : Consistent cross edge) :
    Consistent cross' edge' := by
  have key : ∀ (f : Nat) (r' : Edge), edge'[f]? = some r' →
      slot cross' r'.head r'.headpos = some f ∧ slot cross' r'.tail r'.tailpos = some f := by
    intro f r' hr
    have hf := (List.getElem?_eq_some_iff.mp hr).1
    obtain ⟨p1, p2, p3, p4, r, q, a1, a2, a3, a4, a5, a6⟩ := h.edge f r' hr
    constructor
    · have := hC.head _ q a2
      rw [← a5, ← a6] at this
      exact h.slot_eq p1 p2 this hf (B.first_last (h.tlt f hf).2).symm
    · have := hC.tail _ r a1
      rw [← a3, ← a4] at this
      exact h.slot_eq p3 p4 this hf (B.first_of_kept (h.tlt f hf).2).symm
  have ne : ∀ (f : Nat) (r' : Edge), edge'[f]? = some r' → (r'.head, r'.headpos) ≠ (r'.tail, r'.tailpos) := by
    intro f r' hr he
    have hf := (List.getElem?_eq_some_iff.mp hr).1
    obtain ⟨p1, p2, p3, p4, r, q, a1, a2, a3, a4, a5, a6⟩ := h.edge f r' hr
    rw [Prod.mk.injEq] at he
    have e1 : q.head = r.tail := by rw [← a5, ← a3, he.1]
    have e2' : q.headpos = r.tailpos := by rw [← a6, ← a4, he.1, he.2]
    have b1 := hC.head _ q a2
    have b2 := hC.tail _ r a1
    rw [e1, e2', b2] at b1
    have hlast : lastOf W (τ f) = τ f := (Option.some.inj b1).symm
    rw [hlast, a1] at a2
    cases a2
    exact hC.ends_ne _ r a1 (by rw [Prod.mk.injEq]; exact ⟨e1, e2'⟩)
  refine ⟨?_, fun f r hr => (key f r hr).1, fun f r hr => (key f r hr).2, ne⟩
  -- every place is an end of one edge
  have hcard : (Finset.range edge'.length ×ˢ (Finset.univ : Finset Bool)).card = (P cross').card := by
    apply Finset.card_bij (fun p _ => if p.2 then hd edge'[p.1]! else tl edge'[p.1]!)
    · rintro ⟨f, s⟩ hp
      rw [Finset.mem_product, Finset.mem_range] at hp
      have g := List.getElem?_eq_getElem hp.1
      obtain ⟨p1, p2, p3, p4, -⟩ := h.edge f _ g
      have e3 : edge'[f]! = edge'[f] := by simp [hp.1]
      cases s
      · simp only [Bool.false_eq_true, if_false, e3]
        exact mem_P.mpr ⟨p3, p4⟩
      · simp only [if_true, e3]
        exact mem_P.mpr ⟨p1, p2⟩
    · rintro ⟨f, s⟩ hp ⟨f', s'⟩ hp' he
      rw [Finset.mem_product, Finset.mem_range] at hp hp'
      have g := List.getElem?_eq_getElem hp.1
      have g' := List.getElem?_eq_getElem hp'.1
      have e3 : edge'[f]! = edge'[f] := by simp [hp.1]
      have e3' : edge'[f']! = edge'[f'] := by simp [hp'.1]
      have k := key _ _ g
      have k' := key _ _ g'
      have n := ne _ _ g
      simp only [e3, e3'] at he
      have same : f = f' := by
        cases s <;> cases s' <;> simp only [Bool.false_eq_true, if_false, if_true, hd, tl, Prod.mk.injEq] at he <;>
          (have k1 := k.1; have k2 := k.2; have k3 := k'.1; have k4 := k'.2; simp only [← he.1, ← he.2] at k3 k4; simp_all)
      subst same
      have : s = s' := by
        cases s <;> cases s' <;> simp only [Bool.false_eq_true, if_false, if_true, hd, tl] at he ⊢
        · exact absurd he.symm n
        · exact absurd he n
      rw [this]
    · rintro ⟨d, k⟩ hp
      have hp' := mem_P.mp hp
      simp only at hp'
      obtain ⟨u1, u2⟩ := h.slt d hp'.1
      have hsl := slot_of_lt (k := (k + ρ d) % 4) u1 (Nat.mod_lt _ (by decide))
      set g := cross[σ d].at ((k + ρ d) % 4) with hg
      obtain ⟨r, r1, r2⟩ := hC.slots hsl
      have e4 : edge[g]! = r := by
        obtain ⟨hl, he⟩ := List.getElem?_eq_some_iff.mp r1
        simp [hl, he]
      rcases r2 with ⟨r2, r3⟩ | ⟨r2, r3⟩
      · obtain ⟨q1, q2, q3⟩ := B.exists_last r1 (by rw [r2]; exact u2)
        obtain ⟨f, f1, f2⟩ := h.tonto _ q1 q2
        refine ⟨(f, true), by simp [f1], ?_⟩
        simp only [if_true]
        have E := (h.ends f1).2
        rw [f2, q3, e4] at E
        obtain ⟨p1, p2, -⟩ := h.edge f _ (List.getElem?_eq_getElem f1)
        have e3 : edge'[f]! = edge'[f] := by simp [f1]
        rw [e3] at E ⊢
        simp only [hd, r2, r3, Prod.mk.injEq] at E ⊢
        have := h.sinj _ _ p1 hp'.1 E.1
        rw [this] at E
        exact ⟨this, by omega⟩
      · have q2 : g ∉ G := fun hg' => u2 (by rw [← r2]; exact (B.tail _ _ r1).mpr hg')
        obtain ⟨f, f1, f2⟩ := h.tonto _ (List.getElem?_eq_some_iff.mp r1).1 q2
        refine ⟨(f, false), by simp [f1], ?_⟩
        simp only [Bool.false_eq_true, if_false]
        have E := (h.ends f1).1
        rw [f2, e4] at E
        obtain ⟨-, -, p1, p2, -⟩ := h.edge f _ (List.getElem?_eq_getElem f1)
        have e3 : edge'[f]! = edge'[f] := by simp [f1]
        rw [e3] at E ⊢
        simp only [tl, r2, r3, Prod.mk.injEq] at E ⊢
        have := h.sinj _ _ p1 hp'.1 E.1
        rw [this] at E
        exact ⟨this, by omega⟩
  have hP : (P cross').card = cross'.length * 4 := by simp [P]
  rw [hP, Finset.card_product, Finset.card_range] at hcard
  simp at hcard
  omega

theorem oriented (h : Erased cross edge X G W cross' edge' τ σ ρ) (B : Bypass edge X G W)
    (hO : Oriented cross edge) : Oriented cross' edge' where
  through_head := by
    intro f r' hr
    have hf := (List.getElem?_eq_some_iff.mp hr).1
    obtain ⟨p1, p2, p3, p4, r, q, a1, a2, a3, a4, a5, a6⟩ := h.edge f r' hr
    obtain ⟨g, s, b1, b2, b3⟩ := hO.through_head _ q a2
    have hne := (h.slt r'.head p1).2
    have g1 : g ∉ G := fun hg => hne (by rw [a5, ← b2]; exact (B.tail _ _ b1).mpr hg)
    obtain ⟨f', f1, f2⟩ := h.tonto _ (List.getElem?_eq_some_iff.mp b1).1 g1
    refine ⟨f', edge'[f'], List.getElem?_eq_getElem f1, ?_⟩
    obtain ⟨p1', p2', p3', p4', s', q', a1', a2', a3', a4', a5', a6'⟩ := h.edge f' _ (List.getElem?_eq_getElem f1)
    rw [f2, b1] at a1'
    cases a1'
    have e := h.sinj _ _ p3' p1 (by rw [a3', a5, b2])
    refine ⟨e, ?_⟩
    rw [b3, ← a6] at a4'
    rw [e] at a4'
    omega
  through_tail := by
    intro f r' hr
    have hf := (List.getElem?_eq_some_iff.mp hr).1
    obtain ⟨p1, p2, p3, p4, r, q, a1, a2, a3, a4, a5, a6⟩ := h.edge f r' hr
    obtain ⟨g, s, b1, b2, b3⟩ := hO.through_tail _ r a1
    have hne := (h.slt r'.tail p3).2
    obtain ⟨q1, q2, q3⟩ := B.exists_last b1 (by rw [b2, ← a3]; exact hne)
    obtain ⟨f', f1, f2⟩ := h.tonto _ q1 q2
    refine ⟨f', edge'[f'], List.getElem?_eq_getElem f1, ?_⟩
    obtain ⟨p1', p2', p3', p4', s', q', a1', a2', a3', a4', a5', a6'⟩ := h.edge f' _ (List.getElem?_eq_getElem f1)
    rw [f2, q3, b1] at a2'
    cases a2'
    have e := h.sinj _ _ p1' p3 (by rw [a5', a3, b2])
    refine ⟨e, ?_⟩
    rw [b3, ← a4] at a6'
    rw [e] at a6'
    omega

/-- Renaming the second diagram. -/
theorem comp_right (h : Erased cross edge X G W cross' edge' τ σ ρ)
    (h' : Renamed cross'' edge'' cross' edge' τ' σ' ρ' (fun _ => false)) (hC : Consistent cross'' edge'')
    (hS : SameSigns cross'' cross' σ') :
    Erased cross edge X G W cross'' edge'' (fun f => τ (τ' f)) (fun d => σ (σ' d))
      (fun d => (ρ (σ' d) + 4 - ρ' d) % 4) where
  slt := fun d hd => h.slt _ (by rw [h'.len]; exact h'.slt d hd)
  sinj := fun d d' hd hd' he => h'.sinj d d' hd hd' (h.sinj _ _ (by rw [h'.len]; exact h'.slt d hd)
    (by rw [h'.len]; exact h'.slt d' hd') he)
  sonto := by
    intro c hc hX
    obtain ⟨d, d1, d2⟩ := h.sonto c hc hX
    rw [h'.len] at d1
    obtain ⟨b1, b2⟩ := back_spec h'.slt h'.sinj d1
    exact ⟨_, b1, by rw [b2, d2]⟩
  tlt := fun d hd => h.tlt _ (by rw [h'.elen]; exact h'.tlt d hd)
  tinj := fun d d' hd hd' he => h'.tinj d d' hd hd' (h.tinj _ _ (by rw [h'.elen]; exact h'.tlt d hd)
    (by rw [h'.elen]; exact h'.tlt d' hd') he)
  tonto := by
    intro c hc hX
    obtain ⟨d, d1, d2⟩ := h.tonto c hc hX
    rw [h'.elen] at d1
    obtain ⟨b1, b2⟩ := back_spec h'.tlt h'.tinj d1
    exact ⟨_, b1, by rw [b2, d2]⟩
  cross := by
    intro d x'' hx
    have hd := (List.getElem?_eq_some_iff.mp hx).1
    obtain ⟨x', h1, h2⟩ := h'.cross d x'' hx
    obtain ⟨x'2, h1', h2'⟩ := hS d x'' hx
    rw [h1] at h1'
    cases h1'
    obtain ⟨x, h3, h4, h5⟩ := h.cross _ x' h1
    have hlt : ∀ k, x''.at k < edge''.length := by
      intro k
      have := hC.slot_edge_lt (slot_of_lt hd (Nat.mod_lt k (by decide : 0 < 4)))
      rw [← at_lt] at this
      obtain ⟨_, e⟩ := List.getElem?_eq_some_iff.mp hx
      rwa [e] at this
    refine ⟨x, h3, by rw [← h2', h4], fun k => ⟨hlt k, ?_⟩⟩
    have hr := h'.rho d
    have e1 : x'.at (k + 4 - ρ' d) = τ' (x''.at k) := by
      rw [h2, at_lt, at_lt x'' k]; congr 2; omega
    have e2 : x.at (k + 4 - ρ' d + ρ (σ' d)) = x.at (k + (ρ (σ' d) + 4 - ρ' d) % 4) := by
      rw [at_lt, at_lt x (k + _)]; congr 1; omega
    obtain ⟨_, q⟩ := h5 (k + 4 - ρ' d)
    rw [e1, e2] at q
    exact q
  edge := by
    intro f r'' hr
    have p1 := slot_lt (hC.head f r'' hr)
    have p2 := slot_lt (hC.tail f r'' hr)
    have h1 := h'.edge f r'' hr
    unfold moveEdge at h1
    simp only [Bool.false_eq_true, if_false] at h1
    obtain ⟨_, _, _, _, r, q, a1, a2, a3, a4, a5, a6⟩ := h.edge _ _ h1
    simp only at a3 a4 a5 a6
    refine ⟨p1.1, p1.2, p2.1, p2.2, r, q, a1, a2, a3, ?_, a5, ?_⟩
    · have := h'.rho r''.tail
      rw [← a4]
      omega
    · have := h'.rho r''.head
      rw [← a6]
      omega

theorem follows (h : Erased cross edge X G W cross' edge' τ σ ρ) (B : Bypass edge X G W) {f g : Nat} (hf : f < edge'.length)
    (hg : g < edge'.length) (hfl : Follows cross edge (lastOf W (τ f)) (τ g)) :
    Follows cross' edge' f g := by
  obtain ⟨s, s1, s2⟩ := hfl
  obtain ⟨_, _, _, _, r, hh, k1, k2, _, _, k5, k6⟩ := h.edge f edge'[f] (List.getElem?_eq_getElem hf)
  rw [k2] at s1
  cases s1
  refine ⟨_, List.getElem?_eq_getElem hf, ?_⟩
  refine h.slot_eq (g := τ g) (by assumption) (Nat.mod_lt _ (by decide)) ?_ hg (B.first_of_kept (h.tlt g hg).2).symm
  rw [k5, show ((edge'[f].headpos + 2) % 4 + ρ edge'[f].head) % 4 = (s.headpos + 2) % 4 by omega]
  exact s2

end Erased

end Plc
