import Verif.Proofs.EraseFull
import Verif.Proofs.LensFaces

/-! Pulling two strands apart, when what is left is one diagram. -/

namespace Plc

open Plc.Core Plc.Cmp Plc.Places Plc.Faces Plc.Buffers Plc.Moves Plc.Comps Plc.Planar Plc.BigonDel Plc.Isotopy Plc.Ok List

variable {cross : List Cross} {edge : List Edge} {s : Site}

namespace LensAt

variable (L : LensAt cross edge s) (hC : Consistent cross edge) (hO : Oriented cross edge)

include L hC hO

theorem head_iff {e : Nat} (he : e < edge.length) :
    ((hd edge[e]!).1 = s.c0 ∨ (hd edge[e]!).1 = s.c1) ↔ (e = s.a0 ∨ e = s.a1 ∨ e = s.b0 ∨ e = s.b1) := by
  constructor
  · rintro (h | h)
    · rcases L.in_c0 hC hO he h with q | ⟨q, -⟩ | ⟨q, -⟩ <;> simp [q]
    · rcases L.in_c1 hC hO he h with q | ⟨q, -⟩ | ⟨q, -⟩ <;> simp [q]
  · rintro (rfl | rfl | rfl | rfl)
    · exact .inl L.ha0
    · exact .inr L.ha1
    · exact L.bin.1
    · exact L.bin.2

theorem tail_iff {e : Nat} (he : e < edge.length) :
    ((tl edge[e]!).1 = s.c0 ∨ (tl edge[e]!).1 = s.c1) ↔ (e = s.a1 ∨ e = s.a2 ∨ e = s.b1 ∨ e = s.b2) := by
  constructor
  · exact L.out_of hC hO he
  · rintro (rfl | rfl | rfl | rfl)
    · exact .inl L.ta1
    · exact .inr L.ta2
    · rw [L.tb1]; exact L.bin.1
    · rw [L.tb2]; exact L.bin.2

/-- The strands which are pulled apart. -/
theorem bypass (h1 : s.a0 ≠ s.a2) (h2 : s.b0 ≠ s.b2) (h3 : ¬ (s.b0 = s.a2 ∧ s.b2 = s.a0)) :
    Bypass edge [s.c0, s.c1] [s.a1, s.a2, s.b1, s.b2] (pairs s) := by
  have b0a0 := L.b0a0
  have b1a0 := L.b1a0
  have b0a1 := L.b0a1
  have b1a1 := L.b1a1
  have a0a1 := L.a0a1
  have b0b1 := L.b0b1
  have a1a2 := L.a1a2
  have b1b2 := L.b1b2
  have b1a2 := L.b1a2
  have b2a1 := L.b2a1
  have b2a2 := L.b2a2
  have tail : ∀ (e : Nat) (r : Edge), edge[e]? = some r → (r.tail ∈ [s.c0, s.c1] ↔ e ∈ [s.a1, s.a2, s.b1, s.b2]) := by
    intro e r hr
    obtain ⟨g1, g2⟩ := getBang hr
    have := L.tail_iff hC hO g2
    rw [g1] at this
    simpa [tl] using this
  have head : ∀ (e : Nat) (r : Edge), edge[e]? = some r →
      (r.head ∉ [s.c0, s.c1] ↔ (e ≠ s.a0 ∧ e ≠ s.a1 ∧ e ≠ s.b0 ∧ e ≠ s.b1)) := by
    intro e r hr
    obtain ⟨g1, g2⟩ := getBang hr
    have := L.head_iff hC hO g2
    rw [g1] at this
    simp only [hd] at this
    simp only [List.mem_cons, List.not_mem_nil, or_false]
    rw [this]
    push Not
    rfl
  unfold pairs
  by_cases k1 : s.b0 = s.a2
  · rw [if_pos k1]
    have k2 : s.b2 ≠ s.a0 := fun q => h3 ⟨k1, q⟩
    refine ⟨by simp, by simp, ?_, by simp, ?_, tail, ?_⟩
    · simp only [List.mem_cons, List.not_mem_nil, or_false]
      rintro p rfl
      simp only
      omega
    · simp only [List.mem_cons, List.not_mem_nil, or_false]
      rintro p rfl
      exact ⟨L.la0, L.lb2⟩
    · intro e r hr
      rw [head e r hr]
      simp only [List.map_cons, List.map_nil, List.mem_cons, List.not_mem_nil, or_false]
      omega
  · rw [if_neg k1]
    by_cases k2 : s.b2 = s.a0
    · rw [if_pos k2]
      refine ⟨by simp, by simp, ?_, by simp, ?_, tail, ?_⟩
      · simp only [List.mem_cons, List.not_mem_nil, or_false]
        rintro p rfl
        simp only
        omega
      · simp only [List.mem_cons, List.not_mem_nil, or_false]
        rintro p rfl
        exact ⟨L.lb0, L.la2⟩
      · intro e r hr
        rw [head e r hr]
        simp only [List.map_cons, List.map_nil, List.mem_cons, List.not_mem_nil, or_false]
        omega
    · rw [if_neg k2]
      refine ⟨?_, ?_, ?_, by simp, ?_, tail, ?_⟩
      · simp [Ne.symm b0a0]
      · simp [Ne.symm b2a2]
      · simp only [List.mem_cons, List.not_mem_nil, or_false]
        rintro p (rfl | rfl) <;> simp only <;> omega
      · simp only [List.mem_cons, List.not_mem_nil, or_false]
        rintro p (rfl | rfl)
        · exact ⟨L.la0, L.la2⟩
        · exact ⟨L.lb0, L.lb2⟩
      · intro e r hr
        rw [head e r hr]
        simp only [List.map_cons, List.map_nil, List.mem_cons, List.not_mem_nil, or_false]
        omega

omit hO in
theorem fol : Follows cross edge s.a0 s.a1 ∧ Follows cross edge s.a1 s.a2 ∧ Follows cross edge s.b0 s.b1 ∧
    Follows cross edge s.b1 s.b2 :=
  ⟨(follows_iff hC _ _).mpr ⟨L.la0, L.na0⟩, (follows_iff hC _ _).mpr ⟨L.la1, L.na1⟩, (follows_iff hC _ _).mpr ⟨L.lb0, L.nb0⟩,
    (follows_iff hC _ _).mpr ⟨L.lb1, L.nb1⟩⟩

omit hO in
theorem thru : Bypass.Thru cross edge [s.a1, s.a2, s.b1, s.b2] (pairs s) := by
  obtain ⟨f1, f2, f3, f4⟩ := L.fol hC
  unfold pairs
  intro p hp
  split at hp
  · next k =>
    rw [List.mem_singleton] at hp
    subst hp
    rw [k] at f3
    exact .step (.step (.step (.step .refl f1 (by simp)) f2 (by simp)) f3 (by simp)) f4 (by simp)
  · split at hp
    · next k =>
      rw [List.mem_singleton] at hp
      subst hp
      rw [← k] at f1
      exact .step (.step (.step (.step .refl f3 (by simp)) f4 (by simp)) f1 (by simp)) f2 (by simp)
    · rw [List.mem_cons, List.mem_singleton] at hp
      rcases hp with rfl | rfl
      · exact .step (.step .refl f1 (by simp)) f2 (by simp)
      · exact .step (.step .refl f3 (by simp)) f4 (by simp)

end LensAt

/-- Going across a strand. -/
theorem Planar.step_over (hC : Consistent cross edge) (hO : Oriented cross edge) {x u : Nat} (hx : x < edge.length)
    (hu : u < edge.length) (hne : x ≠ u) (hh : (hd edge[x]!).1 = (hd edge[u]!).1) {f : Dart → K} (hf : FaceFn cross edge f)
    {z : Nat → K} (hz : ∀ e, e < edge.length → z e = f (e, .pos) + f (e, .neg)) (hzu : z (nx cross edge u) = z u) :
    f (nx cross edge x, .pos) = f (x, .pos) + z u := by
  rcases two_in hC hO hx hu hne hh with r | r
  · obtain ⟨q1, q2, q3, q4⟩ := right_of hC hO hx hu r hf
    rw [q3, q2, ← hzu, hz _ (nx_spec hC hO hu).1, ← add_assoc, CharTwo.add_self_eq_zero, zero_add]
  · obtain ⟨q1, q2, q3, q4⟩ := right_of hC hO hu hx r hf
    rw [← q2, ← q1, hz _ hu]
    have := CharTwo.add_self_eq_zero (f (u, .neg))
    rw [add_comm (f (u, .pos)), ← add_assoc, this, zero_add]

/-- What is left of the two strands is the same after the two crossings as it was before. -/
theorem LensAt.sides (L : LensAt cross edge s) (hC : Consistent cross edge) (hO : Oriented cross edge) {f : Dart → K}
    (hf : FaceFn cross edge f) {z : Nat → K} (hz : ∀ e, e < edge.length → z e = f (e, .pos) + f (e, .neg))
    (a1 : z s.a1 = z s.a0) (a2 : z s.a2 = z s.a1) (b1 : z s.b1 = z s.b0) (b2 : z s.b2 = z s.b1) :
    f (s.a2, .pos) = f (s.a0, .pos) ∧ f (s.b2, .pos) = f (s.b0, .pos) := by
  have tw : ∀ a b : K, a + b + b = a := fun a b => by rw [add_assoc, CharTwo.add_self_eq_zero, add_zero]
  rcases L.hb with ⟨x, y⟩ | ⟨x, y⟩
  · have s1 := step_over hC hO L.la0 L.lb0 (Ne.symm L.b0a0) (L.ha0.trans x.symm) hf hz (by rw [L.nb0, b1])
    have s2 := step_over hC hO L.la1 L.lb1 (Ne.symm L.b1a1) (L.ha1.trans y.symm) hf hz (by rw [L.nb1, b2])
    have s3 := step_over hC hO L.lb0 L.la0 L.b0a0 (x.trans L.ha0.symm) hf hz (by rw [L.na0, a1])
    have s4 := step_over hC hO L.lb1 L.la1 L.b1a1 (y.trans L.ha1.symm) hf hz (by rw [L.na1, a2])
    rw [L.na0] at s1
    rw [L.na1, s1, b1, tw] at s2
    rw [L.nb0] at s3
    rw [L.nb1, s3, a1, tw] at s4
    exact ⟨s2, s4⟩
  · have s1 := step_over hC hO L.la0 L.lb1 (Ne.symm L.b1a0) (L.ha0.trans y.symm) hf hz (by rw [L.nb1, b2])
    have s2 := step_over hC hO L.la1 L.lb0 (Ne.symm L.b0a1) (L.ha1.trans x.symm) hf hz (by rw [L.nb0, b1])
    have s3 := step_over hC hO L.lb0 L.la1 L.b0a1 (x.trans L.ha1.symm) hf hz (by rw [L.na1, a2])
    have s4 := step_over hC hO L.lb1 L.la0 L.b1a0 (y.trans L.ha0.symm) hf hz (by rw [L.na0, a1])
    rw [L.na0] at s1
    rw [L.na1, s1, b1, tw] at s2
    rw [L.nb0] at s3
    rw [L.nb1, s3, a1, tw] at s4
    exact ⟨s2, s4⟩

/-- Reading new edges at old numbers. -/
theorem Erased.inv {X G : List Nat} {W : List (Nat × Nat)} {cross' : List Cross} {edge' : List Edge} {τ σ ρ : Nat → Nat}
    (E : Erased cross edge X G W cross' edge' τ σ ρ) : ∃ ι : Nat → Nat, (∀ f, f < edge'.length → ι (τ f) = f) ∧
      ∀ e, e < edge.length → e ∉ G → ι e < edge'.length ∧ τ (ι e) = e := by
  have hex : ∀ e, ∃ f, e < edge.length → e ∉ G → f < edge'.length ∧ τ f = e := by
    intro e
    by_cases h : e < edge.length ∧ e ∉ G
    · obtain ⟨f, f1, f2⟩ := E.tonto e h.1 h.2
      exact ⟨f, fun _ _ => ⟨f1, f2⟩⟩
    · exact ⟨0, fun h1 h2 => absurd ⟨h1, h2⟩ h⟩
  choose ι hι using hex
  refine ⟨ι, fun f hf => ?_, hι⟩
  obtain ⟨h1, h2⟩ := E.tlt f hf
  obtain ⟨g1, g2⟩ := hι _ h1 h2
  exact E.tinj _ _ g1 hf g2

/-- Cycles bound in what is left. -/
theorem LensAt.exact_after (L : LensAt cross edge s) (hC : Consistent cross edge) (hO : Oriented cross edge) (hE : Exact cross edge)
    (h1 : s.a0 ≠ s.a2) (h2 : s.b0 ≠ s.b2) (h3 : ¬ (s.b0 = s.a2 ∧ s.b2 = s.a0)) {cross' : List Cross} {edge' : List Edge}
    {τ σ ρ : Nat → Nat} (E : Erased cross edge [s.c0, s.c1] [s.a1, s.a2, s.b1, s.b2] (pairs s) cross' edge' τ σ ρ)
    (hC' : Consistent cross' edge') : Exact cross' edge' := by
  have B := L.bypass hC hO h1 h2 h3
  refine E.exact B hC hC' hO hE ?_
  intro z'
  obtain ⟨ι, i1, i2⟩ := E.inv
  let fA := if s.b2 = s.a0 then s.b0 else s.a0
  let fB := if s.b0 = s.a2 then s.a0 else s.b0
  let own : Nat → Nat := fun e => if e = s.a1 ∨ e = s.a2 then fA else if e = s.b1 ∨ e = s.b2 then fB else e
  have b0a0 := L.b0a0
  have b1a0 := L.b1a0
  have b0a1 := L.b0a1
  have b1a1 := L.b1a1
  have a0a1 := L.a0a1
  have b0b1 := L.b0b1
  have a1a2 := L.a1a2
  have b1b2 := L.b1b2
  have b1a2 := L.b1a2
  have b2a1 := L.b2a1
  have b2a2 := L.b2a2
  have oa1 : own s.a1 = own s.a0 := by
    simp only [own, fA, fB]
    grind
  have oa2 : own s.a2 = own s.a1 := by simp [own]
  have ob1 : own s.b1 = own s.b0 := by
    simp only [own, fA, fB]
    grind
  have ob2 : own s.b2 = own s.b1 := by
    simp only [own, fA, fB]
    grind
  refine ⟨fun e => z' (ι (own e)), ?_, ?_, ?_, ?_⟩
  · intro f hf
    have := (E.tlt f hf).2
    simp only [List.mem_cons, List.not_mem_nil, or_false] at this
    push Not at this
    have ho : own (τ f) = τ f := by
      simp only [own]
      rw [if_neg (by omega), if_neg (by omega)]
    simp only
    rw [ho, i1 f hf]
  · intro p hp
    simp only
    unfold pairs at hp
    split at hp
    · next k =>
      rw [List.mem_singleton] at hp
      subst hp
      simp only
      rw [ob2, ob1, k, oa2, oa1]
    · split at hp
      · next k =>
        rw [List.mem_singleton] at hp
        subst hp
        simp only
        rw [oa2, oa1, ← k, ob2, ob1]
      · rw [List.mem_cons, List.mem_singleton] at hp
        rcases hp with rfl | rfl
        · simp only
          rw [oa2, oa1]
        · simp only
          rw [ob2, ob1]
  · intro e he hx
    simp only
    rw [List.mem_cons, List.mem_singleton] at hx
    rcases (L.head_iff hC hO he).mp hx with rfl | rfl | rfl | rfl
    · rw [L.na0, oa1]
    · rw [L.na1, oa2]
    · rw [L.nb0, ob1]
    · rw [L.nb1, ob2]
  · intro f hf hz p hp
    obtain ⟨q1, q2⟩ := L.sides hC hO hf hz (by simp only [oa1]) (by simp only [oa2]) (by simp only [ob1]) (by simp only [ob2])
    unfold pairs at hp
    split at hp
    · next k =>
      rw [List.mem_singleton] at hp
      subst hp
      simp only
      rw [q2, k, q1]
    · split at hp
      · next k =>
        rw [List.mem_singleton] at hp
        subst hp
        simp only
        rw [q1, ← k, q2]
      · rw [List.mem_cons, List.mem_singleton] at hp
        rcases hp with rfl | rfl
        · exact q1
        · exact q2

theorem Separates.not {lab : Nat → Prop} {c0 c1 : Nat} (S : Separates cross edge c0 c1 lab) :
    Separates cross edge c0 c1 (fun e => ¬ lab e) where
  along := fun e he => not_congr (S.along e he)
  at_ := fun e x he hx h h0 h1 => not_congr (S.at_ e x he hx h h0 h1)

/-- With one strand, what is left is connected. -/
theorem Erased.connected_one {X G : List Nat} {a b : Nat} {cross' : List Cross} {edge' : List Edge} {τ σ ρ : Nat → Nat}
    (E : Erased cross edge X G [(a, b)] cross' edge' τ σ ρ) (B : Bypass edge X G [(a, b)]) (hcon : Connected cross edge) :
    Connected cross' edge' := by
  refine E.connected B hcon ?_
  intro g _
  refine ⟨∃ f, f < edge'.length ∧ τ f = a ∧ g edge'[f]!.tail, ?_⟩
  intro f hf hm
  have hm' : τ f = a := by simpa using hm
  constructor
  · exact fun h => ⟨f, hf, hm', h⟩
  · rintro ⟨f', q1, q2, q3⟩
    rw [E.tinj _ _ hf q1 (hm'.trans q2.symm)]
    exact q3

theorem pick_lab {a0 a1 b0 b1 : Nat} (h1 : b0 ≠ a0) (h2 : b1 ≠ a0) (h3 : b0 ≠ a1) (h4 : b1 ≠ a1) (A B : Prop) (R : Nat → Prop) :
    ∃ lab : Nat → Prop, (lab a0 ↔ A) ∧ (lab a1 ↔ A) ∧ (lab b0 ↔ B) ∧ (lab b1 ↔ B) ∧
      ∀ e, e ≠ a0 → e ≠ a1 → e ≠ b0 → e ≠ b1 → (lab e ↔ R e) := by
  refine ⟨fun e => if e = a0 ∨ e = a1 then A else if e = b0 ∨ e = b1 then B else R e, ?_, ?_, ?_, ?_, ?_⟩
  · simp
  · simp
  · simp [h1, h3]
  · simp [h2, h4]
  · intro e n0 n1 n2 n3
    simp [n0, n1, n2, n3]

/-- What is left is connected unless something separates the strands. -/
theorem LensAt.connected_after (L : LensAt cross edge s) (hC : Consistent cross edge) (hO : Oriented cross edge)
    (hcon : Connected cross edge) (h1 : s.a0 ≠ s.a2) (h2 : s.b0 ≠ s.b2) (h3 : ¬ (s.b0 = s.a2 ∧ s.b2 = s.a0))
    {cross' : List Cross} {edge' : List Edge}
    {τ σ ρ : Nat → Nat} (E : Erased cross edge [s.c0, s.c1] [s.a1, s.a2, s.b1, s.b2] (pairs s) cross' edge' τ σ ρ)
    (hsep : ∀ lab, Separates cross edge s.c0 s.c1 lab → lab s.a0 → lab s.b0) : Connected cross' edge' := by
  have B := L.bypass hC hO h1 h2 h3
  by_cases k1 : s.b0 = s.a2
  · have hp : pairs s = [(s.a0, s.b2)] := if_pos k1
    rw [hp] at E B
    exact E.connected_one B hcon
  by_cases k2 : s.b2 = s.a0
  · have hp : pairs s = [(s.b0, s.a2)] := by unfold pairs; rw [if_neg k1, if_pos k2]
    rw [hp] at E B
    exact E.connected_one B hcon
  have hp : pairs s = [(s.a0, s.a2), (s.b0, s.b2)] := by unfold pairs; rw [if_neg k1, if_neg k2]
  rw [hp] at E B
  have b0a0 := L.b0a0
  have b1a0 := L.b1a0
  have b0a1 := L.b0a1
  have b1a1 := L.b1a1
  have a0a1 := L.a0a1
  have b0b1 := L.b0b1
  have a1a2 := L.a1a2
  have b1b2 := L.b1b2
  have b1a2 := L.b1a2
  have b2a1 := L.b2a1
  have b2a2 := L.b2a2
  refine E.connected B hcon ?_
  intro g hg
  obtain ⟨fa, fa1, fa2⟩ := E.tonto s.a0 L.la0 (by simp only [List.mem_cons, List.not_mem_nil, or_false]; omega)
  obtain ⟨fb, fb1, fb2⟩ := E.tonto s.b0 L.lb0 (by simp only [List.mem_cons, List.not_mem_nil, or_false]; omega)
  have la : lastOf [(s.a0, s.a2), (s.b0, s.b2)] s.a0 = s.a2 := lastOf_mem B.fst (by simp)
  have lb : lastOf [(s.a0, s.a2), (s.b0, s.b2)] s.b0 = s.b2 := lastOf_mem B.fst (by simp)
  -- the value at a crossing that stays
  let gh : Nat → Prop := fun c => ∃ d, d < cross'.length ∧ σ d = c ∧ g d
  have ends : ∀ f, f < edge'.length → (g edge'[f]!.tail ↔ gh (tl edge[τ f]!).1) ∧
      (g edge'[f]!.tail ↔ gh (hd edge[lastOf [(s.a0, s.a2), (s.b0, s.b2)] (τ f)]!).1) := by
    intro f hf
    obtain ⟨e1, e2⟩ := E.ends hf
    obtain ⟨p1, p2, p3, p4, -⟩ := E.edge f _ (bang hf)
    rw [← e1, ← e2]
    have hgg := hg _ (List.mem_of_getElem? (bang hf))
    constructor
    · refine ⟨fun q => ⟨_, p3, rfl, q⟩, ?_⟩
      rintro ⟨d, d1, d2, d3⟩
      rw [E.sinj _ _ d1 p3 d2] at d3
      exact d3
    · rw [← hgg]
      refine ⟨fun q => ⟨_, p1, rfl, q⟩, ?_⟩
      rintro ⟨d, d1, d2, d3⟩
      rw [E.sinj _ _ d1 p1 d2] at d3
      exact d3
  obtain ⟨lab, la0, la1, lb0, lb1, lo⟩ := pick_lab (a0 := s.a0) (a1 := s.a1) (b0 := s.b0) (b1 := s.b1) b0a0 b1a0 b0a1 b1a1
    (g edge'[fa]!.tail) (g edge'[fb]!.tail) (fun e => gh (hd edge[e]!).1)
  have S : Separates cross edge s.c0 s.c1 lab := by
    constructor
    · intro e he
      by_cases q0 : e = s.a0
      · rw [q0, L.na0, la0, la1]
      by_cases q1 : e = s.a1
      · rw [q1, L.na1, la1, lo _ (by omega) (by omega) (by omega) (by omega), (ends fa fa1).2, fa2, la]
      by_cases q2 : e = s.b0
      · rw [q2, L.nb0, lb0, lb1]
      by_cases q3 : e = s.b1
      · rw [q3, L.nb1, lb1, lo _ (by omega) (by omega) (by omega) (by omega), (ends fb fb1).2, fb2, lb]
      rw [lo e q0 q1 q2 q3]
      have hn := (nx_spec hC hO he).1
      have ht := tl_nx hC hO he
      have hnG : ¬ (nx cross edge e = s.a1 ∨ nx cross edge e = s.a2 ∨ nx cross edge e = s.b1 ∨ nx cross edge e = s.b2) := by
        rw [← L.tail_iff hC hO hn, ht, L.head_iff hC hO he]
        omega
      obtain ⟨f, f1, f2⟩ := E.tonto _ hn (by simpa using hnG)
      have hf := ends f f1
      rw [f2, ht] at hf
      rw [← hf.1]
      by_cases r0 : nx cross edge e = s.a0
      · rw [r0, la0, E.tinj _ _ fa1 f1 (by rw [fa2, f2, r0])]
      by_cases r2 : nx cross edge e = s.b0
      · rw [r2, lb0, E.tinj _ _ fb1 f1 (by rw [fb2, f2, r2])]
      rw [lo _ r0 (fun q => hnG (.inl q)) r2 (fun q => hnG (.inr (.inr (.inl q)))), hf.2, lastOf_not]
      simp only [List.map_cons, List.map_nil, List.mem_cons, List.not_mem_nil, or_false]
      rintro (q | q)
      · exact r0 q
      · exact r2 q
    · intro e x he hx hex n0 n1
      have k : ∀ y, y < edge.length → (hd edge[y]!).1 = (hd edge[e]!).1 → (lab y ↔ gh (hd edge[e]!).1) := by
        intro y hy hye
        have hn : ¬ (y = s.a0 ∨ y = s.a1 ∨ y = s.b0 ∨ y = s.b1) := by
          rw [← L.head_iff hC hO hy, hye]
          rintro (q | q)
          · exact n0 q
          · exact n1 q
        rw [lo y (by omega) (by omega) (by omega) (by omega), hye]
      rw [k e he rfl, k x hx hex.symm]
  have hiff : g edge'[fa]!.tail ↔ g edge'[fb]!.tail := by
    rw [← la0, ← lb0]
    refine ⟨hsep lab S, fun q => ?_⟩
    by_contra hn
    exact hsep _ S.not hn q
  refine ⟨g edge'[fa]!.tail, ?_⟩
  intro f hf hm
  simp only [List.map_cons, List.map_nil, List.mem_cons, List.not_mem_nil, or_false] at hm
  rcases hm with hm | hm
  · rw [E.tinj _ _ hf fa1 (hm.trans fa2.symm)]
  · rw [E.tinj _ _ hf fb1 (hm.trans fb2.symm), hiff]

end Plc

namespace Plc

open Plc.Core Plc.Cmp Plc.Places Plc.Faces Plc.Buffers Plc.Moves Plc.Comps Plc.Planar Plc.BigonDel Plc.Isotopy Plc.Ok List

/-- A component contains an edge if and only if it contains the next one. -/
theorem mem_comp_nx {cross : List Cross} {edge : List Edge} (hC : Consistent cross edge) (hO : Oriented cross edge) {comps : List Comp}
    (hK : GoodComps cross edge (retag comps)) {c : Comp} (hc : c ∈ comps) {e : Nat} (he : e < edge.length) :
    nx cross edge e ∈ c.edge ↔ e ∈ c.edge := by
  obtain ⟨h1, h2, h3, h4⟩ := goodComps_of_retag hK
  have fwd : ∀ e, e < edge.length → e ∈ c.edge → nx cross edge e ∈ c.edge := by
    intro e _ hm
    obtain ⟨j, hj⟩ := List.mem_iff_getElem?.mp hm
    obtain ⟨e', q1, q2⟩ := h4 c hc j e hj
    rw [((follows_iff hC _ _).mp q2).2]
    exact List.mem_of_getElem? q1
  exact ⟨fun h => closed_back hC hO (S := fun e => e ∈ c.edge) fwd he h, fwd e he⟩

/-- Two components with a common edge are the same. -/
theorem comp_unique {cross : List Cross} {edge : List Edge} {comps : List Comp} (hK : GoodComps cross edge (retag comps)) {i j : Nat}
    {c d : Comp} (hc : comps[i]? = some c) (hd : comps[j]? = some d) {e : Nat} (he : e ∈ c.edge) (he' : e ∈ d.edge) : i = j := by
  obtain ⟨h1, -⟩ := goodComps_of_retag hK
  have hnd : (comps.flatMap (·.edge)).Nodup := by rw [h1]; exact List.nodup_range
  rw [List.nodup_flatMap, List.pairwise_iff_getElem] at hnd
  obtain ⟨hi, rfl⟩ := List.getElem?_eq_some_iff.mp hc
  obtain ⟨hj, rfl⟩ := List.getElem?_eq_some_iff.mp hd
  rcases Nat.lt_trichotomy i j with h | h | h
  · exact absurd he' (hnd.2 i j hi hj h he)
  · exact h
  · exact absurd he (hnd.2 j i hj hi h he')

/-- Tags of what is left. -/
theorem Rest.tags_ok {pd : Io.Pd} (hN : Neat pd) {G : List Nat} {comps' : List Comp} {m : Nat} {τ : Nat → Nat}
    (R : Rest pd.comp G comps' m τ) : (comps'.map (·.tag)).Nodup ∧ (∀ k ∈ comps', k.tag < 65 → ∀ k' ∈ comps', k.tag ≤ k'.tag) := by
  have htag : ∀ c' ∈ comps', ∃ c ∈ pd.comp, c.tag = c'.tag := by
    intro c' hc'
    obtain ⟨c, h1, h2, -⟩ := R.of c' hc'
    exact ⟨c, h1, h2⟩
  refine ⟨R.tags.nodup_iff.mpr (hN.tags.sublist (List.Sublist.map _ List.filter_sublist)), ?_⟩
  intro c hc hlt c' hc'
  obtain ⟨d, d1, d2⟩ := htag c hc
  obtain ⟨d', d3, d4⟩ := htag c' hc'
  rw [← d2, ← d4]
  exact hN.letters d d1 (by rw [d2]; exact hlt) d' d3

theorem joined_ok (qs : QSort) {pd : Io.Pd} (hN : Neat pd) {s : Site} (hL : Lens pd.cross pd.edge s) (h1 : s.a0 ≠ s.a2)
    (h2 : s.b0 ≠ s.b2) (h3 : ¬ (s.b0 = s.a2 ∧ s.b2 = s.a0))
    (hsep : ∀ lab, Separates pd.cross pd.edge s.c0 s.c1 lab → lab s.a0 → lab s.b0) :
    ∃ (caps : Io.Caps) (pd' : Io.Pd) (τ σ ρ : Nat → Nat), joined qs pd s = .ok (.code caps pd') ∧ Neat pd' ∧
      (∀ q : QSort, pdOk q caps pd' = .ok true) ∧ caps.verts = pd'.cross.length ∧ caps.edges = pd'.edge.length ∧
      pd'.cross.length + 2 = pd.cross.length ∧ pd'.edge.length + 4 = pd.edge.length ∧ pd'.face.length + 2 = pd.face.length ∧
      Erased pd.cross pd.edge [s.c0, s.c1] [s.a1, s.a2, s.b1, s.b2] (pairs s) pd'.cross pd'.edge τ σ ρ ∧
      (pd'.comp.map (·.tag)).Perm (pd.comp.map (·.tag)) ∧
      (∀ c' ∈ pd'.comp, ∃ c ∈ pd.comp, c.tag = c'.tag ∧ ∀ f, f < pd'.edge.length → (f ∈ c'.edge ↔ τ f ∈ c.edge)) := by
  have hT := hN.tidy
  have hP := hT.plane
  have hC := hP.consistent
  have hO := hP.oriented
  have hcnt := hC.count
  have hs := hT.small
  have L := hL.at hC hO
  have B := L.bypass hC hO h1 h2 h3
  have hc0 : s.c0 < pd.cross.length := by rw [← L.ha0]; exact (mem_P.mp (hd_mem hC L.la0).1).1
  have hc1 : s.c1 < pd.cross.length := by rw [← L.ha1]; exact (mem_P.mp (hd_mem hC L.la1).1).1
  obtain ⟨c1, cidx, e1, eidx, cross1, edge1, τ, σ, ν, κ, r1, r2, r3, r4, r5, r6, E, T, S, r10, r11⟩ :=
    erase_ok qs hC B (by
      simp only [List.mem_cons, List.not_mem_nil, or_false]
      rintro c (rfl | rfl)
      · exact hc0
      · exact hc1) (by
      simp only [List.mem_cons, List.not_mem_nil, or_false]
      rintro e (rfl | rfl | rfl | rfl)
      · exact L.la1
      · exact L.la2
      · exact L.lb1
      · exact L.lb2)
  have hle : edge1.length ≤ pd.edge.length := by
    rw [r5]
    exact (List.length_filter_le _ _).trans (by simp)
  have hC1 := E.consistent B hC
  have hO1 := E.oriented B hO
  obtain ⟨cross2, edge2, σ2, ρ2, b1, R2, S2, -, -⟩ := regenCrossings_renamed qs hC1 (by omega)
  obtain ⟨cross3, edge3, comps3, τ3, σ3, ρ3, g1, E3, hC3, hO3, K3, R3, g7, g8⟩ := compact_rest qs hC hO B (L.thru hC) (by omega)
    hT.goodComps E T hle r10 r11 R2 S2
  have hne3 : cross3 ≠ [] := by
    intro hnil
    have hk : s.a0 ∉ [s.a1, s.a2, s.b1, s.b2] ∨ s.b0 ∉ [s.a1, s.a2, s.b1, s.b2] := by
      have q1 := L.a0a1
      have q2 := L.b1a0
      have q3 := L.b0a1
      have q4 := L.b0b1
      simp only [List.mem_cons, List.not_mem_nil, or_false]
      omega
    have : ∃ f, f < edge3.length := by
      rcases hk with hk | hk
      · obtain ⟨f, f1, -⟩ := E3.tonto _ L.la0 hk
        exact ⟨f, f1⟩
      · obtain ⟨f, f1, -⟩ := E3.tonto _ L.lb0 hk
        exact ⟨f, f1⟩
    obtain ⟨f, hf⟩ := this
    have := (E3.edge f _ (List.getElem?_eq_getElem hf)).1
    rw [hnil] at this
    simp at this
  have hcon3 := L.connected_after hC hO hP.connected h1 h2 h3 E3 hsep
  have hP3 : PlaneDiagram cross3 edge3 :=
    ⟨hC3, hO3, hne3, hcon3, planeFaces_of_exact hC3 hcon3 hne3 (L.exact_after hC hO hP.exact h1 h2 h3 E3 hC3)⟩
  have hcard : cross3.length + 2 = pd.cross.length := by
    rw [E3.card]
    have e1 : (Finset.range pd.cross.length).filter (fun c => c ∉ [s.c0, s.c1]) = Finset.range pd.cross.length \ {s.c0, s.c1} := by
      ext c
      simp
    have e2 : ({s.c0, s.c1} : Finset Nat) ⊆ Finset.range pd.cross.length := by
      intro c hc
      rw [Finset.mem_insert, Finset.mem_singleton] at hc
      rw [Finset.mem_range]
      rcases hc with rfl | rfl
      · exact hc0
      · exact hc1
    have e3 := Finset.card_sdiff_add_card_eq_card e2
    rw [Finset.card_pair L.ne, Finset.card_range] at e3
    rw [e1, e3]
  have hcnt3 := hC3.count
  have hall : pd.comp.filter (fun c => c.edge.any (fun e => decide (e ∉ [s.a1, s.a2, s.b1, s.b2]))) = pd.comp := by
    rw [List.filter_eq_self]
    intro c hc
    rw [List.any_eq_true]
    obtain ⟨-, -, n3, -⟩ := goodComps_of_retag hT.goodComps
    obtain ⟨e, he⟩ := List.exists_mem_of_ne_nil _ (n3 c hc)
    have m0 := mem_comp_nx hC hO hT.goodComps hc L.la0
    have m1 := mem_comp_nx hC hO hT.goodComps hc L.la1
    have m2 := mem_comp_nx hC hO hT.goodComps hc L.lb0
    have m3 := mem_comp_nx hC hO hT.goodComps hc L.lb1
    rw [L.na0] at m0
    rw [L.na1] at m1
    rw [L.nb0] at m2
    rw [L.nb1] at m3
    have q1 := L.a0a1
    have q2 := L.b1a0
    have q3 := L.b0a1
    have q4 := L.b0b1
    by_cases hg : e ∈ [s.a1, s.a2, s.b1, s.b2]
    · have : s.a0 ∈ c.edge ∨ s.b0 ∈ c.edge := by
        simp only [List.mem_cons, List.not_mem_nil, or_false] at hg
        rcases hg with rfl | rfl | rfl | rfl
        · exact .inl (m0.mp he)
        · exact .inl (m0.mp (m1.mp he))
        · exact .inr (m2.mp he)
        · exact .inr (m2.mp (m3.mp he))
      by_cases k2 : s.b2 = s.a0
      · refine ⟨s.b0, ?_, ?_⟩
        · rcases this with q | q
          · rw [← k2] at q
            exact m2.mp (m3.mp q)
          · exact q
        · simp only [List.mem_cons, List.not_mem_nil, or_false, decide_eq_true_eq]
          omega
      · by_cases k1 : s.b0 = s.a2
        · refine ⟨s.a0, ?_, ?_⟩
          · rcases this with q | q
            · exact q
            · rw [k1] at q
              exact m0.mp (m1.mp q)
          · simp only [List.mem_cons, List.not_mem_nil, or_false, decide_eq_true_eq]
            omega
        · rcases this with q | q
          · refine ⟨s.a0, q, ?_⟩
            simp only [List.mem_cons, List.not_mem_nil, or_false, decide_eq_true_eq]
            omega
          · refine ⟨s.b0, q, ?_⟩
            simp only [List.mem_cons, List.not_mem_nil, or_false, decide_eq_true_eq]
            omega
    · exact ⟨e, he, decide_eq_true hg⟩
  have htags := R3.tags
  rw [hall] at htags
  obtain ⟨t1, t2⟩ := R3.tags_ok hN
  obtain ⟨pd', w1, w2, w3, w4, w5, w6, -⟩ := withFaces_ok qs (maxfaces := (Io.capsNew (pd.cross.length - 2)).faces) (uid := 0) hP3 g7 g8
    K3 (by omega) (by simp only [Io.capsNew]; omega) t1 t2
  have hlen : comps3.length = pd.comp.length := by simpa using htags.length_eq
  have hf1 := hT.goodFaces.count
  have hf2 := w2.tidy.goodFaces.count
  rw [w3] at hf2
  have hok : ∀ q : QSort, pdOk q ⟨cross3.length, edge3.length, pd.comp.length, (Io.capsNew (pd.cross.length - 2)).faces⟩ pd' =
      .ok true := by
    intro q
    refine w2.ok q ?_ ?_ ?_
    · rw [w4]
    · rw [w5, hlen]
    · simp only [Io.capsNew]; omega
  have le : ∀ {p : Prop} [Decidable p], p → assertC (decide p) = .ok () := fun hp => assertC_ok (decide_eq_true hp)
  refine ⟨_, pd', τ3, σ3, ρ3, ?_, w2, hok, by rw [w3], by rw [w4], by rw [w3]; exact hcard, by rw [w4]; omega, by omega,
    by rw [w3, w4]; exact E3, by rw [w5]; exact htags, by rw [w5, w4]; exact R3.of⟩
  unfold joined
  rw [r1, ok_bind]
  simp only
  rw [r2, ok_bind]
  simp only
  rw [r6, ok_bind]
  simp only
  rw [b1, ok_bind]
  simp only
  rw [g1, ok_bind]
  simp only
  rw [w1, ok_bind, hok qs, ok_bind, assertC_ok rfl, ok_bind, le (by omega), ok_bind, le (by rw [w3]; omega), ok_bind,
    le (by rw [w4]; omega), ok_bind]

end Plc
