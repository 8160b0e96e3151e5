import Verif.Spec.Renamed
import Verif.Proofs.Planar

namespace Plc

open Plc.Core Plc.Cmp Plc.Faces

theorem surj_of_inj {n : Nat} {f : Nat → Nat} (h1 : ∀ c, c < n → f c < n)
    (h2 : ∀ c d, c < n → d < n → f c = f d → c = d) {y : Nat} (hy : y < n) : ∃ x, x < n ∧ f x = y := by
  have := Finset.surjOn_of_injOn_of_card_le (s := Finset.range n) (t := Finset.range n) f
    (by intro x hx; simp at hx ⊢; exact h1 x hx)
    (by intro x hx y hy h; simp at hx hy; exact h2 x y hx hy h) (Nat.le_refl _)
  obtain ⟨x, hx, h⟩ := this (by simpa using hy)
  exact ⟨x, by simpa using hx, h⟩

namespace Renamed

variable {cross cross' cross'' : List Cross} {edge edge' edge'' : List Edge} {τ σ ρ τ' σ' ρ' : Nat → Nat}
  {rev rev' : Nat → Bool}

theorem slot (h : Renamed cross edge cross' edge' τ σ ρ rev) {c k e : Nat} (hs : slot cross c k = some e) :
    Plc.slot cross' (σ c) ((k + 4 - ρ c) % 4) = some (τ e) := by
  obtain ⟨hk, x, hx, rfl⟩ := slot_eq_some.mp hs
  obtain ⟨x', hx', ha⟩ := h.cross c x hx
  refine slot_eq_some.mpr ⟨Nat.mod_lt _ (by decide), x', hx', ?_⟩
  rw [ha, at_lt, at_lt x k]
  have := h.rho c
  congr 2
  omega

theorem pre (h : Renamed cross edge cross' edge' τ σ ρ rev) {e' : Nat} {r' : Edge} (he : edge'[e']? = some r') :
    ∃ e r, edge[e]? = some r ∧ τ e = e' ∧ r' = moveEdge σ ρ (rev e) r := by
  have hlt := (List.getElem?_eq_some_iff.mp he).1
  rw [h.elen] at hlt
  obtain ⟨e, h1, h2⟩ := surj_of_inj h.tlt h.tinj hlt
  have h3 := h.edge e edge[e] (List.getElem?_eq_getElem h1)
  rw [h2, he] at h3
  exact ⟨e, edge[e], List.getElem?_eq_getElem h1, h2, Option.some.inj h3⟩

theorem place_inj (h : Renamed cross edge cross' edge' τ σ ρ rev) {c k d l : Nat} (hc : c < cross.length)
    (hd : d < cross.length) (hk : k < 4) (hl : l < 4)
    (he : (σ c, (k + 4 - ρ c) % 4) = (σ d, (l + 4 - ρ d) % 4)) : (c, k) = (d, l) := by
  rw [Prod.mk.injEq] at he
  have hcd := h.sinj c d hc hd he.1
  subst hcd
  have := h.rho c
  have h2 := he.2
  congr 1
  omega

theorem consistent (h : Renamed cross edge cross' edge' τ σ ρ rev) (hC : Consistent cross edge) :
    Consistent cross' edge' where
  count := by rw [h.len, h.elen]; exact hC.count
  head := by
    intro e' r' he
    obtain ⟨e, r, h1, rfl, rfl⟩ := h.pre he
    unfold moveEdge
    split
    · exact h.slot (hC.tail e r h1)
    · exact h.slot (hC.head e r h1)
  tail := by
    intro e' r' he
    obtain ⟨e, r, h1, rfl, rfl⟩ := h.pre he
    unfold moveEdge
    split
    · exact h.slot (hC.head e r h1)
    · exact h.slot (hC.tail e r h1)
  ends_ne := by
    intro e' r' he
    obtain ⟨e, r, h1, rfl, rfl⟩ := h.pre he
    have hh := slot_lt (hC.head e r h1)
    have ht := slot_lt (hC.tail e r h1)
    have hne := hC.ends_ne e r h1
    unfold moveEdge
    split
    · intro heq
      exact hne (h.place_inj ht.1 hh.1 ht.2 hh.2 heq).symm
    · intro heq
      exact hne (h.place_inj hh.1 ht.1 hh.2 ht.2 heq)

/-- `rev` is the same all along a strand. -/
def Along (cross : List Cross) (edge : List Edge) (rev : Nat → Bool) : Prop :=
  ∀ e f, Follows cross edge e f → rev e = rev f

theorem follows_of_ends (hC : Consistent cross edge) {e f : Nat} {r s : Edge} (hr : edge[e]? = some r)
    (hs : edge[f]? = some s) (h1 : s.tail = r.head) (h2 : s.tailpos = (r.headpos + 2) % 4) :
    Follows cross edge e f := by
  refine ⟨r, hr, ?_⟩
  have := hC.tail f s hs
  rwa [h1, h2] at this

theorem shift2 {k q : Nat} (hk : k < 4) (hq : q < 4) : ((k + 2) % 4 + 4 - q) % 4 = ((k + 4 - q) % 4 + 2) % 4 := by
  omega

theorem oriented (h : Renamed cross edge cross' edge' τ σ ρ rev) (hC : Consistent cross edge)
    (hO : Oriented cross edge) (hA : Along cross edge rev) : Oriented cross' edge' where
  through_head := by
    intro e' r' he
    obtain ⟨e, r, h1, rfl, rfl⟩ := h.pre he
    cases hb : rev e with
    | false =>
      obtain ⟨f, s, g1, g2, g3⟩ := hO.through_head e r h1
      have hf := hA e f (follows_of_ends hC h1 g1 g2 g3)
      refine ⟨τ f, _, h.edge f s g1, ?_, ?_⟩
      · rw [← hf, hb]; simp [moveEdge, g2]
      · rw [← hf, hb]
        simp only [moveEdge, Bool.false_eq_true, if_false]
        rw [g2, g3]
        exact shift2 (slot_lt (hC.head e r h1)).2 (h.rho _)
    | true =>
      obtain ⟨f, s, g1, g2, g3⟩ := hO.through_tail e r h1
      have ht := (slot_lt (hC.tail e r h1)).2
      have hh := (slot_lt (hC.head f s g1)).2
      have hf := hA f e (follows_of_ends hC g1 h1 g2.symm (by omega))
      refine ⟨τ f, _, h.edge f s g1, ?_, ?_⟩
      · rw [hf, hb]; simp [moveEdge, g2]
      · rw [hf, hb]
        simp only [moveEdge, if_true]
        rw [g2, g3]
        exact shift2 ht (h.rho _)
  through_tail := by
    intro e' r' he
    obtain ⟨e, r, h1, rfl, rfl⟩ := h.pre he
    cases hb : rev e with
    | true =>
      obtain ⟨f, s, g1, g2, g3⟩ := hO.through_head e r h1
      have hf := hA e f (follows_of_ends hC h1 g1 g2 g3)
      refine ⟨τ f, _, h.edge f s g1, ?_, ?_⟩
      · rw [← hf, hb]; simp [moveEdge, g2]
      · rw [← hf, hb]
        simp only [moveEdge, if_true]
        rw [g2, g3]
        exact shift2 (slot_lt (hC.head e r h1)).2 (h.rho _)
    | false =>
      obtain ⟨f, s, g1, g2, g3⟩ := hO.through_tail e r h1
      have ht := (slot_lt (hC.tail e r h1)).2
      have hh := (slot_lt (hC.head f s g1)).2
      have hf := hA f e (follows_of_ends hC g1 h1 g2.symm (by omega))
      refine ⟨τ f, _, h.edge f s g1, ?_, ?_⟩
      · rw [hf, hb]; simp [moveEdge, g2]
      · rw [hf, hb]
        simp only [moveEdge, Bool.false_eq_true, if_false]
        rw [g2, g3]
        exact shift2 ht (h.rho _)

theorem follows (h : Renamed cross edge cross' edge' τ σ ρ rev) (hC : Consistent cross edge)
    (hO : Oriented cross edge) (hA : Along cross edge rev) {e f : Nat} (hf : Follows cross edge e f) :
    if rev e then Follows cross' edge' (τ f) (τ e) else Follows cross' edge' (τ e) (τ f) := by
  have hab := hA e f hf
  obtain ⟨r, h1, h2⟩ := hf
  cases hb : rev e with
  | false =>
    simp only [Bool.false_eq_true, if_false]
    refine ⟨_, h.edge e r h1, ?_⟩
    rw [hb]
    simp only [moveEdge, Bool.false_eq_true, if_false]
    rw [← shift2 (slot_lt (hC.head e r h1)).2 (h.rho _)]
    exact h.slot h2
  | true =>
    simp only [if_true]
    obtain ⟨f', s, g1, g2, g3⟩ := hO.through_head e r h1
    have hff : f' = f := by
      have := hC.tail f' s g1
      rw [g2, g3, h2] at this
      exact (Option.some.inj this).symm
    subst hff
    refine ⟨_, h.edge f' s g1, ?_⟩
    rw [← hab, hb]
    simp only [moveEdge, if_true]
    rw [g2, g3, ← shift2 (Nat.mod_lt _ (by decide)) (h.rho _)]
    have hh := (slot_lt (hC.head e r h1)).2
    rw [show ((r.headpos + 2) % 4 + 2) % 4 = r.headpos by omega]
    exact h.slot (hC.head e r h1)

theorem connected (h : Renamed cross edge cross' edge' τ σ ρ rev)
    (hc : Connected cross edge) : Connected cross' edge' := by
  intro c' d' hc' hd'
  rw [h.len] at hc' hd'
  obtain ⟨c, c1, rfl⟩ := surj_of_inj h.slt h.sinj hc'
  obtain ⟨d, d1, rfl⟩ := surj_of_inj h.slt h.sinj hd'
  have key : ∀ d, Relation.ReflTransGen (Joined edge) c d → Relation.ReflTransGen (Joined edge') (σ c) (σ d) := by
    intro d hd
    induction hd with
    | refl => exact Relation.ReflTransGen.refl
    | tail _ hj ih =>
      refine ih.tail ?_
      obtain ⟨r, hr, hj⟩ := hj
      obtain ⟨e, he, rfl⟩ := List.getElem_of_mem hr
      have h2 := h.edge e edge[e] (List.getElem?_eq_getElem he)
      refine ⟨_, List.mem_of_getElem? h2, ?_⟩
      unfold moveEdge
      rcases hj with ⟨h1, h2⟩ | ⟨h1, h2⟩ <;> split <;> simp [h1, h2]
  exact key d (hc c d c1 d1)

/-- The renamed side. -/
def side (τ : Nat → Nat) (rev : Nat → Bool) (s : Nat × Or) : Nat × Or :=
  (τ s.1, if rev s.1 then (match s.2 with | .pos => .neg | .neg => .pos | .unset => .unset) else s.2)

theorem side_D (h : Renamed cross edge cross' edge' τ σ ρ rev) {s : Nat × Or} (hs : s ∈ D edge) :
    side τ rev s ∈ D edge' := by
  rw [mem_D] at hs ⊢
  obtain ⟨e, o⟩ := s
  unfold side
  refine ⟨by rw [h.elen]; exact h.tlt _ hs.1, ?_⟩
  simp only at hs ⊢
  rcases hs.2 with rfl | rfl <;> cases rev e <;> simp

theorem side_inj (h : Renamed cross edge cross' edge' τ σ ρ rev) {s t : Nat × Or} (hs : s ∈ D edge)
    (ht : t ∈ D edge) (he : side τ rev s = side τ rev t) : s = t := by
  rw [mem_D] at hs ht
  obtain ⟨e, o⟩ := s
  obtain ⟨f, p⟩ := t
  unfold side at he
  rw [Prod.mk.injEq] at he
  have hef := h.tinj e f hs.1 ht.1 he.1
  subst hef
  have h2 := he.2
  simp only at hs ht h2
  rcases hs.2 with rfl | rfl <;> rcases ht.2 with rfl | rfl <;> cases hb : rev e <;> simp [hb] at h2 ⊢

theorem side_surj (h : Renamed cross edge cross' edge' τ σ ρ rev) {s' : Nat × Or} (hs : s' ∈ D edge') :
    ∃ s ∈ D edge, side τ rev s = s' := by
  rw [mem_D, h.elen] at hs
  obtain ⟨e', o'⟩ := s'
  obtain ⟨e, h1, rfl⟩ := surj_of_inj h.tlt h.tinj hs.1
  simp only at hs
  cases hb : rev e with
  | false => exact ⟨(e, o'), mem_D.mpr ⟨h1, hs.2⟩, by simp [side, hb]⟩
  | true =>
    rcases hs.2 with rfl | rfl
    · exact ⟨(e, .neg), mem_D.mpr ⟨h1, Or.inr rfl⟩, by simp [side, hb]⟩
    · exact ⟨(e, .pos), mem_D.mpr ⟨h1, Or.inl rfl⟩, by simp [side, hb]⟩

theorem turns (h : Renamed cross edge cross' edge' τ σ ρ rev) (hC : Consistent cross edge) {s t : Nat × Or}
    (ht : Turns edge s t) : Turns edge' (side τ rev s) (side τ rev t) := by
  obtain ⟨c, k, ⟨r, h1, h2⟩, ⟨r', h3, h4⟩⟩ := ht
  have hk : k < 4 := by
    rcases h2 with ⟨_, _, h2⟩ | ⟨_, _, h2⟩
    · rw [← h2]; exact (slot_lt (hC.head _ _ h1)).2
    · rw [← h2]; exact (slot_lt (hC.tail _ _ h1)).2
  have hq := h.rho c
  refine ⟨σ c, (k + 4 - ρ c) % 4, ⟨_, h.edge _ _ h1, ?_⟩, ⟨_, h.edge _ _ h3, ?_⟩⟩
  · unfold side moveEdge
    simp only
    cases rev s.1
    · rcases h2 with ⟨a, b, c'⟩ | ⟨a, b, c'⟩ <;> subst b <;> subst c' <;> simp [a]
    · rcases h2 with ⟨a, b, c'⟩ | ⟨a, b, c'⟩ <;> subst b <;> subst c' <;> simp [a]
  · have hsh : ((k + 3) % 4 + 4 - ρ c) % 4 = ((k + 4 - ρ c) % 4 + 3) % 4 := by omega
    unfold side moveEdge
    simp only
    cases rev t.1
    · rcases h4 with ⟨a, b, c'⟩ | ⟨a, b, c'⟩ <;> simp [a, b, c', hsh]
    · rcases h4 with ⟨a, b, c'⟩ | ⟨a, b, c'⟩ <;> simp [a, b, c', hsh]

theorem reach (h : Renamed cross edge cross' edge' τ σ ρ rev) (hC : Consistent cross edge) {s t : Nat × Or}
    (ht : Relation.ReflTransGen (Turns edge) s t) :
    Relation.ReflTransGen (Turns edge') (side τ rev s) (side τ rev t) := by
  induction ht with
  | refl => exact Relation.ReflTransGen.refl
  | tail _ hj ih => exact ih.tail (h.turns hC hj)

theorem reach_back (h : Renamed cross edge cross' edge' τ σ ρ rev) (hC : Consistent cross edge) {s u : Nat × Or}
    (hs : s ∈ D edge) (ht : Relation.ReflTransGen (Turns edge') (side τ rev s) u) :
    ∃ t ∈ D edge, u = side τ rev t ∧ Relation.ReflTransGen (Turns edge) s t := by
  have hC' := h.consistent hC
  induction ht with
  | refl => exact ⟨s, hs, rfl, Relation.ReflTransGen.refl⟩
  | tail _ hj ih =>
    obtain ⟨t, h1, rfl, h3⟩ := ih
    have e1 := (turns_iff hC t (nd cross edge t)).mpr ⟨h1, rfl⟩
    have e2 := h.turns hC e1
    rw [turns_iff hC'] at hj e2
    refine ⟨nd cross edge t, (injOn_nd hC).maps _ h1, ?_, h3.tail e1⟩
    rw [← hj.2, e2.2]

theorem plane (h : Renamed cross edge cross' edge' τ σ ρ rev) (hC : Consistent cross edge)
    (hP : PlaneFaces cross edge) : PlaneFaces cross' edge' := by
  obtain ⟨reps, r1, r2, r3, r4⟩ := hP
  have r2' : ∀ s ∈ reps, s ∈ D edge := fun s hs => (Planar.mem_all rfl s).mp (r2 s hs)
  refine ⟨reps.map (side τ rev), by rw [List.length_map, r1, h.len], ?_, ?_, ?_⟩
  · intro s hs
    obtain ⟨t, ht, rfl⟩ := List.mem_map.mp hs
    exact (Planar.mem_all rfl _).mpr (h.side_D (r2' t ht))
  · rw [List.pairwise_map]
    refine List.Pairwise.imp_of_mem ?_ r3
    intro x y hx hy hn hr
    obtain ⟨t, ht, he, hr'⟩ := h.reach_back hC (r2' x hx) hr
    rw [h.side_inj (r2' y hy) ht he] at hn
    exact hn hr'
  · intro s hs
    obtain ⟨t, ht, rfl⟩ := h.side_surj ((Planar.mem_all rfl s).mp hs)
    obtain ⟨r, hr, h2⟩ := r4 t ((Planar.mem_all rfl t).mpr ht)
    exact ⟨_, List.mem_map_of_mem hr, h.reach hC h2⟩

theorem shift_add {k p q : Nat} (hk : k < 4) (hp : p < 4) (hq : q < 4) :
    ((k + 4 - p) % 4 + 4 - q) % 4 = (k + 4 - (p + q) % 4) % 4 := by
  omega

theorem trans (h : Renamed cross edge cross' edge' τ σ ρ rev) (h' : Renamed cross' edge' cross'' edge'' τ' σ' ρ' rev')
    (hC : Consistent cross edge) :
    Renamed cross edge cross'' edge'' (fun e => τ' (τ e)) (fun c => σ' (σ c))
      (fun c => (ρ c + ρ' (σ c)) % 4) (fun e => xor (rev e) (rev' (τ e))) where
  len := by rw [h'.len, h.len]
  elen := by rw [h'.elen, h.elen]
  slt := fun c hc => by have := h'.slt _ (by rw [h.len]; exact h.slt c hc); rwa [h.len] at this
  sinj := fun c d hc hd he => h.sinj c d hc hd (h'.sinj _ _ (by rw [h.len]; exact h.slt c hc)
    (by rw [h.len]; exact h.slt d hd) he)
  tlt := fun c hc => by have := h'.tlt _ (by rw [h.elen]; exact h.tlt c hc); rwa [h.elen] at this
  tinj := fun c d hc hd he => h.tinj c d hc hd (h'.tinj _ _ (by rw [h.elen]; exact h.tlt c hc)
    (by rw [h.elen]; exact h.tlt d hd) he)
  rho := fun c => Nat.mod_lt _ (by decide)
  cross := by
    intro c x hx
    obtain ⟨x', h1, h2⟩ := h.cross c x hx
    obtain ⟨x'', h3, h4⟩ := h'.cross _ x' h1
    refine ⟨x'', h3, fun k => ?_⟩
    rw [h4, h2]
    congr 2
    rw [at_lt, at_lt x (k + _)]
    congr 1
    omega
  edge := by
    intro e r hr
    have h1 := h.edge e r hr
    have h2 := h'.edge _ _ h1
    rw [h2]
    congr 1
    have hh := (slot_lt (hC.head e r hr)).2
    have ht := (slot_lt (hC.tail e r hr)).2
    have e1 := shift_add hh (h.rho r.head) (h'.rho (σ r.head))
    have e2 := shift_add ht (h.rho r.tail) (h'.rho (σ r.tail))
    unfold moveEdge
    cases rev e <;> cases rev' (τ e) <;> simp [e1, e2]

theorem of_resort (h : Resort cross edge cross' edge' σ ρ) :
    Renamed cross edge cross' edge' id σ ρ (fun _ => false) where
  len := h.len
  elen := h.elen
  slt := h.lt
  sinj := h.inj
  tlt := fun _ h => h
  tinj := fun _ _ _ _ h => h
  rho := h.rho
  cross := fun c x hx => ⟨_, h.cross c x hx, fun k => rotL_at x (ρ c) k⟩
  edge := fun e r hr => by
    rw [id, h.edge e r hr]
    rfl

end Renamed

end Plc
