import Verif.Proofs.SplitCut

/-! A plane piece of a diagram is a plane diagram. -/

namespace Plc.Split

open Plc.Core Plc.Cmp Plc.Buffers Plc.Moves Plc.BigonDel Plc.Comps Plc.PermM Plc.Planar List

/-- A piece with its new numbers: all places are as they were. -/
structure Cut (cross : List Cross) (edge : List Edge) (lab : Nat → Prop) (X G : List Nat) (cross' : List Cross) (edge' : List Edge)
    (τ σ : Nat → Nat) : Prop where
  whole : Whole cross edge lab
  loose : Loose cross edge
  hX : ∀ c, c ∈ X ↔ c < cross.length ∧ ¬ ∃ k e, slot cross c k = some e ∧ lab e
  hG : ∀ e, e ∈ G ↔ e < edge.length ∧ ¬ lab e
  erased : Erased cross edge X G [] cross' edge' τ σ (fun _ => 0)
  count : edge'.length = 2 * cross'.length

namespace Cut

variable {cross cross' : List Cross} {edge edge' : List Edge} {lab : Nat → Prop} {X G : List Nat} {τ σ : Nat → Nat}

/-- Records of the piece. -/
theorem record (C : Cut cross edge lab X G cross' edge' τ σ) {f : Nat} {r' : Edge} (hr : edge'[f]? = some r') :
    ∃ r, edge[τ f]? = some r ∧ r ≠ freeEdge ∧ lab (τ f) ∧ r'.head < cross'.length ∧ r'.tail < cross'.length ∧ σ r'.head = r.head ∧
      σ r'.tail = r.tail ∧ r'.headpos = r.headpos ∧ r'.tailpos = r.tailpos := by
  have hf := (List.getElem?_eq_some_iff.mp hr).1
  obtain ⟨h1, h2, h3, h4, r, q, e1, e2, e3, e4, e5, e6⟩ := C.erased.edge f r' hr
  have : lastOf [] (τ f) = τ f := rfl
  rw [this, e1] at e2
  cases e2
  have ht := C.erased.tlt f hf
  have hl : lab (τ f) := by
    by_contra hl
    exact ht.2 ((C.hG _).mpr ⟨ht.1, hl⟩)
  refine ⟨r, e1, C.whole.not_free C.loose e1 hl, hl, h1, h3, e5, e3, ?_, ?_⟩
  · omega
  · omega

/-- Places of the piece. -/
theorem slot_up (C : Cut cross edge lab X G cross' edge' τ σ) {d k f : Nat} (h : slot cross' d k = some f) :
    slot cross (σ d) k = some (τ f) ∧ f < edge'.length := by
  obtain ⟨hd, hk⟩ := slot_lt h
  rw [slot_of_lt hd hk] at h
  cases h
  obtain ⟨x, x1, -, x2⟩ := C.erased.cross d _ (List.getElem?_eq_getElem hd)
  obtain ⟨a, b⟩ := x2 k
  refine ⟨?_, a⟩
  rw [b]
  obtain ⟨hl, rfl⟩ := List.getElem?_eq_some_iff.mp x1
  rw [slot_of_lt hl hk]
  rfl

theorem slot_down (C : Cut cross edge lab X G cross' edge' τ σ) {d k f : Nat} (hd : d < cross'.length)
    (h : slot cross (σ d) k = some (τ f)) (hf : f < edge'.length) : slot cross' d k = some f := by
  have hk := (slot_lt h).2
  have h' := slot_of_lt hd hk
  obtain ⟨a, b⟩ := C.slot_up h'
  rw [h] at a
  rw [h', C.erased.tinj f _ hf b (Option.some.inj a)]

/-- Edges at crossings of the piece are edges of the piece. -/
theorem pre (C : Cut cross edge lab X G cross' edge' τ σ) {d k e : Nat} (hd : d < cross'.length) (h : slot cross (σ d) k = some e) :
    ∃ f, f < edge'.length ∧ τ f = e := by
  have hk := (slot_lt h).2
  obtain ⟨a, b⟩ := C.slot_up (slot_of_lt hd hk)
  rw [h] at a
  exact ⟨_, b, (Option.some.inj a).symm⟩

theorem consistent (C : Cut cross edge lab X G cross' edge' τ σ) : Consistent cross' edge' where
  count := C.count
  head f r' hr := by
    obtain ⟨r, r1, r2, r3, r4, r5, r6, r7, r8, r9⟩ := C.record hr
    have := (C.loose.ends _ r r1 r2).1
    rw [← r6, ← r8] at this
    exact C.slot_down r4 this (List.getElem?_eq_some_iff.mp hr).1
  tail f r' hr := by
    obtain ⟨r, r1, r2, r3, r4, r5, r6, r7, r8, r9⟩ := C.record hr
    have := (C.loose.ends _ r r1 r2).2.1
    rw [← r7, ← r9] at this
    exact C.slot_down r5 this (List.getElem?_eq_some_iff.mp hr).1
  ends_ne f r' hr := by
    obtain ⟨r, r1, r2, r3, r4, r5, r6, r7, r8, r9⟩ := C.record hr
    have := (C.loose.ends _ r r1 r2).2.2
    rw [← r6, ← r7, ← r8, ← r9] at this
    intro hc
    simp only [Prod.mk.injEq] at hc
    exact this (by rw [hc.1, hc.2])

/-- An edge of the diagram which has an end in the piece. -/
theorem rec_of (C : Cut cross edge lab X G cross' edge' τ σ) {e c k d : Nat} {q : Edge} (hq : edge[e]? = some q) (hd : d < cross'.length)
    (hs : slot cross c k = some e) (hc : σ d = c) : ∃ f r', edge'[f]? = some r' ∧ τ f = e ∧ σ r'.head = q.head ∧ σ r'.tail = q.tail ∧
      r'.headpos = q.headpos ∧ r'.tailpos = q.tailpos ∧ r'.head < cross'.length ∧ r'.tail < cross'.length := by
  subst hc
  obtain ⟨f, hf, rfl⟩ := C.pre hd hs
  obtain ⟨r, r1, r2, r3, r4, r5, r6, r7, r8, r9⟩ := C.record (List.getElem?_eq_getElem hf)
  rw [hq] at r1
  cases r1
  exact ⟨f, _, List.getElem?_eq_getElem hf, rfl, r6, r7, r8, r9, r4, r5⟩

theorem oriented (C : Cut cross edge lab X G cross' edge' τ σ)
    (hh : ∀ (e : Nat) (r : Edge), edge[e]? = some r → r ≠ freeEdge → ∃ (e' : Nat) (r' : Edge), edge[e']? = some r' ∧
      r'.tail = r.head ∧ r'.tailpos = (r.headpos + 2) % 4)
    (ht : ∀ (e : Nat) (r : Edge), edge[e]? = some r → r ≠ freeEdge → ∃ (e' : Nat) (r' : Edge), edge[e']? = some r' ∧
      r'.head = r.tail ∧ r'.headpos = (r.tailpos + 2) % 4) : Oriented cross' edge' where
  through_head f r' hr := by
    obtain ⟨r, r1, r2, r3, r4, r5, r6, r7, r8, r9⟩ := C.record hr
    obtain ⟨e, q, q1, q2, q3⟩ := hh _ r r1 r2
    have hqf : q ≠ freeEdge := by
      rintro rfl
      simp only [freeEdge, UNSET_POS] at q3
      omega
    obtain ⟨g, s, s1, s2, s3, s4, s5, s6, s7, s8⟩ := C.rec_of q1 r4 (C.loose.ends _ q q1 hqf).2.1 (r6.trans q2.symm)
    refine ⟨g, s, s1, ?_, by rw [s6, q3, r8]⟩
    exact C.erased.sinj _ _ s8 r4 (by rw [s4, q2, r6])
  through_tail f r' hr := by
    obtain ⟨r, r1, r2, r3, r4, r5, r6, r7, r8, r9⟩ := C.record hr
    obtain ⟨e, q, q1, q2, q3⟩ := ht _ r r1 r2
    have hqf : q ≠ freeEdge := by
      rintro rfl
      simp only [freeEdge, UNSET_POS] at q3
      omega
    obtain ⟨g, s, s1, s2, s3, s4, s5, s6, s7, s8⟩ := C.rec_of q1 r5 (C.loose.ends _ q q1 hqf).1 (r7.trans q2.symm)
    refine ⟨g, s, s1, ?_, by rw [s5, q3, r9]⟩
    exact C.erased.sinj _ _ s7 r5 (by rw [s3, q2, r7])

theorem nonempty (C : Cut cross edge lab X G cross' edge' τ σ) : cross' ≠ [] := by
  obtain ⟨e, r, r1, r2, r3⟩ := C.whole.some
  obtain ⟨f, hf, -⟩ := C.erased.tonto e (List.getElem?_eq_some_iff.mp r1).1 (fun hc => ((C.hG e).mp hc).2 r3)
  have := C.count
  rintro rfl
  simp only [List.length_nil] at this
  omega

theorem connected (C : Cut cross edge lab X G cross' edge' τ σ) : Connected cross' edge' := by
  apply Planar.connected_of
  intro g hg c d hc hd hgc
  -- an edge has `g` at both ends
  have key : ∀ a b, Linked cross a b → (∃ d k, d < cross'.length ∧ slot cross (σ d) k = some a ∧ g d) →
      ∃ d k, d < cross'.length ∧ slot cross (σ d) k = some b ∧ g d := by
    intro a b hab h0
    induction hab with
    | refl => exact h0
    | tail _ hbc ih =>
      obtain ⟨d, k, hd, hs, hgd⟩ := ih
      obtain ⟨c0, p, q, h1, h2⟩ := hbc
      -- the crossing where they meet
      obtain ⟨r, r1, r2⟩ := C.loose.slots _ _ _ hs
      obtain ⟨f, s, s1, s2, s3, s4, s5, s6, s7, s8⟩ := C.rec_of r1 hd hs rfl
      have hgs := hg s (List.mem_of_getElem? s1)
      have both : g s.head ∧ g s.tail := by
        rcases r2 with ⟨u, v⟩ | ⟨u, v⟩
        · have : d = s.head := C.erased.sinj _ _ hd s7 (by rw [s3, u])
          rw [this] at hgd
          exact ⟨hgd, hgs.mp hgd⟩
        · have : d = s.tail := C.erased.sinj _ _ hd s8 (by rw [s4, u])
          rw [this] at hgd
          exact ⟨hgs.mpr hgd, hgd⟩
      obtain ⟨r', r3, r4⟩ := C.loose.slots _ _ _ h1
      rw [r1] at r3
      cases r3
      rcases r4 with ⟨u, v⟩ | ⟨u, v⟩
      · exact ⟨s.head, q, s7, by rw [s3, u]; exact h2, both.1⟩
      · exact ⟨s.tail, q, s8, by rw [s4, u]; exact h2, both.2⟩
  have ha := slot_of_lt hc (k := 0) (by decide)
  have hb := slot_of_lt hd (k := 0) (by decide)
  obtain ⟨a1, a2⟩ := C.slot_up ha
  obtain ⟨b1, b2⟩ := C.slot_up hb
  have la := C.erased.tlt _ a2
  have lb := C.erased.tlt _ b2
  have lab_of : ∀ f, f < edge'.length → lab (τ f) := by
    intro f hf
    have ht := C.erased.tlt f hf
    by_contra hl
    exact ht.2 ((C.hG _).mpr ⟨ht.1, hl⟩)
  have hl := C.whole.joint _ _ la.1 lb.1 (lab_of _ a2) (lab_of _ b2)
  obtain ⟨d', k, hd', hs, hg'⟩ := key _ _ hl ⟨c, 0, hc, a1, hgc⟩
  -- from `d'` along the edge to `d`
  obtain ⟨r, r1, r2⟩ := C.loose.slots _ _ _ hs
  obtain ⟨f, s, s1, s2, s3, s4, s5, s6, s7, s8⟩ := C.rec_of r1 hd' hs rfl
  have hgs := hg s (List.mem_of_getElem? s1)
  have both : g s.head ∧ g s.tail := by
    rcases r2 with ⟨u, v⟩ | ⟨u, v⟩
    · have : d' = s.head := C.erased.sinj _ _ hd' s7 (by rw [s3, u])
      rw [this] at hg'
      exact ⟨hg', hgs.mp hg'⟩
    · have : d' = s.tail := C.erased.sinj _ _ hd' s8 (by rw [s4, u])
      rw [this] at hg'
      exact ⟨hgs.mpr hg', hg'⟩
  obtain ⟨r', r3, r4⟩ := C.loose.slots _ _ _ b1
  rw [r1] at r3
  cases r3
  rcases r4 with ⟨u, v⟩ | ⟨u, v⟩
  · have : d = s.head := C.erased.sinj _ _ hd s7 (by rw [s3, u])
    rw [this]
    exact both.1
  · have : d = s.tail := C.erased.sinj _ _ hd s8 (by rw [s4, u])
    rw [this]
    exact both.2

/-- Sides of the piece. -/
theorem ends_up (C : Cut cross edge lab X G cross' edge' τ σ) {s : Nat × Or} {c k : Nat} (h : SideEnds edge' s c k) :
    SideEnds edge (τ s.1, s.2) (σ c) k ∧ c < cross'.length := by
  obtain ⟨r', hr, h⟩ := h
  obtain ⟨r, r1, r2, r3, r4, r5, r6, r7, r8, r9⟩ := C.record hr
  rcases h with ⟨h1, rfl, rfl⟩ | ⟨h1, rfl, rfl⟩
  · exact ⟨⟨r, r1, .inl ⟨h1, r6.symm, r8.symm⟩⟩, r4⟩
  · exact ⟨⟨r, r1, .inr ⟨h1, r7.symm, r9.symm⟩⟩, r5⟩

theorem begins_up (C : Cut cross edge lab X G cross' edge' τ σ) {s : Nat × Or} {c k : Nat} (h : SideBegins edge' s c k) :
    SideBegins edge (τ s.1, s.2) (σ c) k ∧ c < cross'.length := by
  obtain ⟨r', hr, h⟩ := h
  obtain ⟨r, r1, r2, r3, r4, r5, r6, r7, r8, r9⟩ := C.record hr
  rcases h with ⟨h1, rfl, rfl⟩ | ⟨h1, rfl, rfl⟩
  · exact ⟨⟨r, r1, .inl ⟨h1, r7.symm, r9.symm⟩⟩, r5⟩
  · exact ⟨⟨r, r1, .inr ⟨h1, r6.symm, r8.symm⟩⟩, r4⟩

theorem turns_up (C : Cut cross edge lab X G cross' edge' τ σ) {s t : Nat × Or} (h : Turns edge' s t) :
    Turns edge (τ s.1, s.2) (τ t.1, t.2) := by
  obtain ⟨c, k, h1, h2⟩ := h
  exact ⟨σ c, k, (C.ends_up h1).1, (C.begins_up h2).1⟩

theorem turns_down (C : Cut cross edge lab X G cross' edge' τ σ) {s : Nat × Or} {t : Nat × Or} (hs : s.1 < edge'.length)
    (h : Turns edge (τ s.1, s.2) t) : ∃ t' : Nat × Or, t'.1 < edge'.length ∧ (τ t'.1, t'.2) = t ∧ Turns edge' s t' := by
  obtain ⟨c, k, ⟨r, hr, h1⟩, ⟨q, hq, h2⟩⟩ := h
  obtain ⟨r0, r1, r2, r3, r4, r5, r6, r7, r8, r9⟩ := C.record (List.getElem?_eq_getElem hs)
  simp only at hr
  rw [hr] at r1
  cases r1
  -- the crossing in the piece
  obtain ⟨d, hd, hdc, hse⟩ : ∃ d, d < cross'.length ∧ σ d = c ∧ SideEnds edge' s d k := by
    rcases h1 with ⟨a, rfl, rfl⟩ | ⟨a, rfl, rfl⟩
    · exact ⟨_, r4, r6, ⟨_, List.getElem?_eq_getElem hs, .inl ⟨a, rfl, r8⟩⟩⟩
    · exact ⟨_, r5, r7, ⟨_, List.getElem?_eq_getElem hs, .inr ⟨a, rfl, r9⟩⟩⟩
  have hqf : q ≠ freeEdge := by
    rintro rfl
    rcases h2 with ⟨-, -, h3⟩ | ⟨-, -, h3⟩ <;> simp only [freeEdge, UNSET_POS] at h3 <;> omega
  obtain ⟨q1, q2, -⟩ := C.loose.ends _ q hq hqf
  obtain ⟨t1, t2⟩ := t
  rcases h2 with ⟨a, u, v⟩ | ⟨a, u, v⟩
  · obtain ⟨f, s', s1, s2, s3, s4, s5, s6, s7, s8⟩ := C.rec_of hq hd q2 (hdc.trans u.symm)
    refine ⟨(f, t2), (List.getElem?_eq_some_iff.mp s1).1, by rw [s2], d, k, hse, s', s1, .inl ⟨a, ?_, s6.trans v⟩⟩
    exact C.erased.sinj _ _ s8 hd (by rw [s4, u, hdc])
  · obtain ⟨f, s', s1, s2, s3, s4, s5, s6, s7, s8⟩ := C.rec_of hq hd q1 (hdc.trans u.symm)
    refine ⟨(f, t2), (List.getElem?_eq_some_iff.mp s1).1, by rw [s2], d, k, hse, s', s1, .inr ⟨a, ?_, s5.trans v⟩⟩
    exact C.erased.sinj _ _ s7 hd (by rw [s3, u, hdc])

theorem reach_up (C : Cut cross edge lab X G cross' edge' τ σ) {s t : Nat × Or} (h : Relation.ReflTransGen (Turns edge') s t) :
    Relation.ReflTransGen (Turns edge) (τ s.1, s.2) (τ t.1, t.2) := by
  induction h with
  | refl => exact .refl
  | tail _ h ih => exact ih.tail (C.turns_up h)

theorem reach_down (C : Cut cross edge lab X G cross' edge' τ σ) {s u t : Nat × Or} (hs : s.1 < edge'.length) (hu : u = (τ s.1, s.2))
    (h : Relation.ReflTransGen (Turns edge) u t) :
    ∃ t' : Nat × Or, t'.1 < edge'.length ∧ (τ t'.1, t'.2) = t ∧ Relation.ReflTransGen (Turns edge') s t' := by
  induction h with
  | refl => exact ⟨s, hs, hu.symm, .refl⟩
  | tail _ h ih =>
    obtain ⟨t', t1, t2, t3⟩ := ih
    rw [← t2] at h
    obtain ⟨v, v1, v2, v3⟩ := C.turns_down t1 h
    exact ⟨v, v1, v2, t3.tail v3⟩

theorem mem_sides {m : Nat} {s : Nat × Or} : s ∈ allSides m ↔ s.1 < m ∧ (s.2 = .pos ∨ s.2 = .neg) := by
  obtain ⟨e, o⟩ := s
  unfold allSides
  rw [List.mem_append, List.mem_map, List.mem_map]
  constructor
  · rintro (⟨a, b, c⟩ | ⟨a, b, c⟩)
    · cases c
      exact ⟨List.mem_range.mp b, .inl rfl⟩
    · cases c
      exact ⟨List.mem_range.mp b, .inr rfl⟩
  · rintro ⟨a, b | b⟩
    · exact .inl ⟨e, List.mem_range.mpr a, by rw [← b]⟩
    · exact .inr ⟨e, List.mem_range.mpr a, by rw [← b]⟩

theorem planeFaces (C : Cut cross edge lab X G cross' edge' τ σ) (h : PlanePart cross edge lab) : PlaneFaces cross' edge' := by
  obtain ⟨cs, reps, h1, h2, h3, h4, h5, h6⟩ := h
  have hlab : ∀ f, f < edge'.length → lab (τ f) := by
    intro f hf
    have ht := C.erased.tlt f hf
    by_contra hl
    exact ht.2 ((C.hG _).mpr ⟨ht.1, hl⟩)
  -- as many crossings
  have hcs : cs.length = cross'.length := by
    have hp : cs.Perm ((List.range cross'.length).map σ) := by
      rw [List.perm_ext_iff_of_nodup h1 (List.nodup_range.map_on (fun a ha b hb hab =>
        C.erased.sinj a b (List.mem_range.mp ha) (List.mem_range.mp hb) hab))]
      intro c
      rw [h2 c, List.mem_map]
      constructor
      · rintro ⟨k, e, he, hl⟩
        obtain ⟨d, hd, rfl⟩ := C.erased.sonto c (slot_lt he).1 (fun hc => ((C.hX c).mp hc).2 ⟨k, e, he, hl⟩)
        exact ⟨d, List.mem_range.mpr hd, rfl⟩
      · rintro ⟨d, hd, rfl⟩
        rw [List.mem_range] at hd
        obtain ⟨a, b⟩ := C.slot_up (slot_of_lt hd (k := 0) (by decide))
        exact ⟨0, _, a, hlab _ b⟩
    rw [hp.length_eq]
    simp
  -- sides with their new numbers
  have hpre : ∀ s ∈ reps, ∃ s' : Nat × Or, s' ∈ allSides edge'.length ∧ (τ s'.1, s'.2) = s := by
    intro s hs
    obtain ⟨a, b⟩ := h4 s hs
    obtain ⟨a1, a2⟩ := mem_sides.mp a
    obtain ⟨f, hf, hff⟩ := C.erased.tonto s.1 a1 (fun hc => ((C.hG _).mp hc).2 b)
    exact ⟨(f, s.2), mem_sides.mpr ⟨hf, a2⟩, by rw [hff]⟩
  obtain ⟨reps', q1, q2⟩ : ∃ reps' : List (Nat × Or), reps'.map (fun s => (τ s.1, s.2)) = reps ∧ ∀ s ∈ reps', s ∈ allSides edge'.length := by
    clear h3 h5 h6 h4
    induction reps with
    | nil => exact ⟨[], rfl, by simp⟩
    | cons s l ih =>
      obtain ⟨l', a, b⟩ := ih (fun s hs => hpre s (by simp [hs]))
      obtain ⟨s', c1, c2⟩ := hpre s (by simp)
      refine ⟨s' :: l', by simp [a, c2], ?_⟩
      intro x hx
      rcases List.mem_cons.mp hx with rfl | hx
      · exact c1
      · exact b x hx
  subst q1
  refine ⟨reps', by rw [List.length_map] at h3; omega, q2, ?_, ?_⟩
  · rw [List.pairwise_map] at h5
    exact h5.imp (fun hn hr => hn (C.reach_up hr))
  · intro s hs
    obtain ⟨a1, a2⟩ := mem_sides.mp hs
    obtain ⟨r, hr, hrs⟩ := h6 (τ s.1, s.2) (mem_sides.mpr ⟨(C.erased.tlt _ a1).1, a2⟩) (hlab _ a1)
    obtain ⟨r', hr', rfl⟩ := List.mem_map.mp hr
    obtain ⟨t, t1, t2, t3⟩ := C.reach_down (mem_sides.mp (q2 r' hr')).1 rfl hrs
    refine ⟨r', hr', ?_⟩
    simp only [Prod.mk.injEq] at t2
    have : t = s := by
      obtain ⟨t, o⟩ := t
      obtain ⟨s, o'⟩ := s
      simp only at t2 t1 a1
      rw [C.erased.tinj t s t1 a1 t2.1, t2.2]
    rw [this] at t3
    exact t3

theorem follows (C : Cut cross edge lab X G cross' edge' τ σ) {f g : Nat} (hf : f < edge'.length) (hg : g < edge'.length)
    (h : Follows cross edge (τ f) (τ g)) : Follows cross' edge' f g := by
  obtain ⟨r, r1, r2⟩ := h
  obtain ⟨r0, q1, q2, q3, q4, q5, q6, q7, q8, q9⟩ := C.record (List.getElem?_eq_getElem hf)
  rw [r1] at q1
  cases q1
  refine ⟨_, List.getElem?_eq_getElem hf, ?_⟩
  rw [← q6, ← q8] at r2
  exact C.slot_down q4 r2 hg

end Cut
end Plc.Split
