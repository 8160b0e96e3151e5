import Verif.Proofs.Planar
import Batteries.Lean.Except

/-! # C22 and C27 on connected plane diagrams -/

namespace Plc

open Plc.Core Plc.Cmp Plc.Places Plc.Orbit Plc.Faces Plc.Strands Plc.Planar

/-- **C22.** On a connected plane diagram, given room for the faces, `pd_regenerate_faces`
returns: no face is longer than the number of edges there. -/
theorem C22_faces_plane (qs : QSort) (maxfaces : Nat) (cross : List Cross) (edge : List Edge)
    (hC : Consistent cross edge) (hO : Oriented cross edge) (h0 : cross ≠ [])
    (hsmall : 2 * edge.length < 2 ^ 31) (hroom : cross.length + 2 ≤ maxfaces)
    (hcon : Connected cross edge) (hP : PlaneFaces cross edge) :
    ∃ faces, regenFaces qs maxfaces cross edge = .ok faces := by
  have hI := injOn_nd hC
  obtain ⟨reps, r1, r2', r3', r4'⟩ := reps_of_plane hC hP
  rcases regenFaces_cases qs (maxfaces := maxfaces) hC h0 hsmall with
    ⟨starts, s1, s2, s3, ⟨s4, faces, f1, f2, f3⟩ | ⟨hn, h⟩⟩ | ⟨h, ⟨d, hd, hbig⟩ | ⟨st, t1, t2, t3⟩⟩
  · exact ⟨faces, f1⟩
  · have a := sep_le hI s1 r2' s2 r4'
    have b := sep_le hI r2' s1 r3' s3
    omega
  · have := per_le_edges hC hO hcon hP hd
    omega
  · have := sep_le hI t1 r2' t2 r4'
    omega

/-- **C22.** And then no face has both sides of the same edge. -/
theorem C22_sides_differ (cross : List Cross) (edge : List Edge) (hC : Consistent cross edge)
    (hO : Oriented cross edge) (hcon : Connected cross edge) (hP : PlaneFaces cross edge) (e : Nat)
    (he : e < edge.length) : ¬ Relation.ReflTransGen (Turns edge) (e, .pos) (e, .neg) := by
  rw [reach_iff hC (mem_D.mpr ⟨he, Or.inl rfl⟩)]
  exact sides_differ hC hO hcon hP he

theorem Planar.signSum_even {cross : List Cross} (hs : ∀ x ∈ cross, x.sign ≠ .unset) {A B : Comp}
    (h : 2 ∣ meetCount cross A B) : 2 ∣ signSum cross A B := by
  have key : ∀ l : List Nat, (∀ c ∈ l, c < cross.length) →
      ((l.map (fun c => if Meets cross A B c then signOf cross c else 0)).sum -
        ((l.countP (fun c => decide (Meets cross A B c)) : Nat) : Int)) % 2 = 0 := by
    intro l
    induction l with
    | nil => intro _; rfl
    | cons c l ih =>
      intro hl
      have ih' := ih (fun c hc => hl c (by simp [hc]))
      rw [List.map_cons, List.sum_cons, List.countP_cons]
      by_cases hm : Meets cross A B c
      · simp only [hm, if_true, decide_true]
        have hx := List.getElem?_eq_getElem (hl c (by simp))
        have h2 := hs _ (List.getElem_mem (hl c (by simp)))
        have : signOf cross c = 1 ∨ signOf cross c = -1 := by
          unfold signOf
          rw [hx]
          simp only
          generalize (cross[c]'(hl c (by simp))).sign = a at h2
          cases a <;> simp_all
        rcases this with h3 | h3 <;> rw [h3] <;> push_cast <;> omega
      · simp only [hm, if_false, decide_false, Bool.false_eq_true]
        push_cast
        omega
  have := key (List.range cross.length) (fun c hc => List.mem_range.mp hc)
  unfold signSum
  unfold meetCount at h
  omega

/-- **C27.** On a connected plane diagram twice the linking number of two different components
is the sum of the signs of the crossings where they meet: nothing is rounded. -/
theorem C27_linking_half (cross : List Cross) (edge : List Edge) (comps : List Comp)
    (hC : Consistent cross edge) (hO : Oriented cross edge) (hK : CompsOf cross edge comps)
    (hcon : Connected cross edge) (hP : PlaneFaces cross edge)
    (hs : ∀ x ∈ cross, x.sign ≠ .unset) (c1 c2 : Nat) (A B : Comp)
    (hA : comps[c1]? = some A) (hB : comps[c2]? = some B) (hne : c1 ≠ c2) :
    ∃ v, linkingNumber cross edge comps c1 c2 = .ok v ∧ 2 * v = signSum cross A B := by
  refine ⟨_, C27_linking_number cross edge comps hC hO hK hs c1 c2 A B hA hB hne, ?_⟩
  exact Int.mul_tdiv_cancel' (signSum_even hs (even_meet hC hO hcon hP hK hA hB hne))

/-- **C27.** Likewise for the unsigned linking number. -/
theorem C27_unsigned_half (cross : List Cross) (edge : List Edge) (comps : List Comp)
    (hC : Consistent cross edge) (hO : Oriented cross edge) (hK : CompsOf cross edge comps)
    (hcon : Connected cross edge) (hP : PlaneFaces cross edge) (c1 c2 : Nat) (A B : Comp)
    (hA : comps[c1]? = some A) (hB : comps[c2]? = some B) (hne : c1 ≠ c2) :
    ∃ v, unsignedLinkingNumber cross edge comps c1 c2 = .ok v ∧ 2 * v = meetCount cross A B := by
  refine ⟨_, C27_unsigned cross edge comps hC hO hK c1 c2 A B hA hB hne, ?_⟩
  have := even_meet hC hO hcon hP hK hA hB hne
  omega

/-! A Hopf link is connected and plane. -/

theorem hopf2_connected : Connected hopf2 hopf2Edge := by
  intro c d hc hd
  have h01 : Joined hopf2Edge 0 1 := ⟨⟨0, 0, 1, 0⟩, by decide, Or.inl ⟨rfl, rfl⟩⟩
  have h10 : Joined hopf2Edge 1 0 := ⟨⟨0, 0, 1, 0⟩, by decide, Or.inr ⟨rfl, rfl⟩⟩
  have : hopf2.length = 2 := rfl
  match c, d, hc, hd with
  | 0, 0, _, _ => exact .refl
  | 0, 1, _, _ => exact .single h01
  | 1, 0, _, _ => exact .single h10
  | 1, 1, _, _ => exact .refl

theorem Planar.hopf_two : ∀ d ∈ D hopf2Edge, (nd hopf2 hopf2Edge)^[2] d = d := by decide

theorem hopf2_planeFaces : PlaneFaces hopf2 hopf2Edge := by
  have hC : Consistent hopf2 hopf2Edge := by decide
  refine ⟨[(0, .pos), (0, .neg), (2, .pos), (2, .neg)], rfl, by decide, ?_, ?_⟩
  · have : ∀ x ∈ ([(0, .pos), (0, .neg), (2, .pos), (2, .neg)] : List Dart), ∀ y,
        Relation.ReflTransGen (Turns hopf2Edge) x y ↔
        y ∈ (List.range 2).map (fun i => (nd hopf2 hopf2Edge)^[i] x) := by
      intro x hx y
      have hD : x ∈ D hopf2Edge := by revert x; decide
      exact reach_range hC hD (by decide) (hopf_two x hD)
    refine List.Pairwise.imp_of_mem (R := fun x y => y ∉ (List.range 2).map
      (fun i => (nd hopf2 hopf2Edge)^[i] x)) ?_ (by decide)
    intro x y hx _ h
    rwa [this x hx]
  · intro s hs
    have : ∃ r ∈ ([(0, .pos), (0, .neg), (2, .pos), (2, .neg)] : List Dart), r ∈ D hopf2Edge ∧
        s ∈ (List.range 2).map (fun i => (nd hopf2 hopf2Edge)^[i] r) := by
      revert s; decide
    obtain ⟨r, h1, h2, h3⟩ := this
    exact ⟨r, h1, (reach_range hC h2 (by decide) (hopf_two r h2)).mpr h3⟩

/-- The part of `pd_regenerate_faces` before the faces are sorted. -/
def Planar.preFaces (maxfaces : Nat) (cross : List Cross) (edge : List Edge) : Res (List Face) := do
  assertC (cross.length > 0)
  assertC (edge.length > 1)
  let (a, lens) ← facesLoop cross edge maxfaces 0 0 .pos
    ⟨List.replicate edge.length none, List.replicate edge.length none⟩ []
  let bufs ← fillFaces a.pos a.neg 0 (lens.map (fun k => List.replicate k (0, .neg)))
  canonAll (bufs.map (fun b => (⟨b.map Prod.fst, b.map Prod.snd⟩ : Face)))

theorem Planar.regenFaces_of_pre (qs : QSort) {maxfaces : Nat} {cross : List Cross} {edge : List Edge}
    {l : List Face} (h : preFaces maxfaces cross edge = .ok l) (hl : l.length = cross.length + 2) :
    regenFaces qs maxfaces cross edge = .ok (qs.sort faceLe l) := by
  have e : regenFaces qs maxfaces cross edge = preFaces maxfaces cross edge >>= fun faces =>
      if (qs.sort faceLe faces).length ≠ cross.length + 2 then .error .die else .ok (qs.sort faceLe faces) := by
    unfold regenFaces preFaces
    simp only [bind_assoc]
  rw [e, h, ok_bind, if_neg]
  rw [(qs.perm faceLe l).length_eq, hl]
  simp

/-- Two curves crossing once, as on a torus, beside a loop with a kink. -/
def torusKink : List Cross := [⟨0, 1, 0, 1, .pos⟩, ⟨2, 2, 3, 3, .pos⟩]
def torusKinkEdge : List Edge := [⟨0, 0, 0, 2⟩, ⟨0, 1, 0, 3⟩, ⟨1, 0, 1, 1⟩, ⟨1, 3, 1, 2⟩]
def torusKinkComps : List Comp := [⟨[2, 3], 65⟩, ⟨[0], 66⟩, ⟨[1], 67⟩]

/-- C27 needs the hypotheses on the diagram. Two curves that cross once, beside a plane component,
pass the count `nfaces = ncross + 2` at the end of `pd_regenerate_faces`, which does not test whether
the diagram is connected, and `pd_linking_number` then rounds 1/2 to 0. -/
theorem C27_half_false :
    Consistent torusKink torusKinkEdge ∧ Oriented torusKink torusKinkEdge ∧
    CompsOf torusKink torusKinkEdge torusKinkComps ∧
    (∀ qs, ∃ faces, regenFaces qs 4 torusKink torusKinkEdge = .ok faces) ∧
    linkingNumber torusKink torusKinkEdge torusKinkComps 1 2 = .ok 0 ∧
    signSum torusKink ⟨[0], 66⟩ ⟨[1], 67⟩ = 1 := by
  refine ⟨by decide, by decide, ⟨by decide, ?_⟩, ?_, by decide, by decide⟩
  · intro c hc e e' he hf
    obtain ⟨r, h1, h2⟩ := hf
    have hlt := (List.getElem?_eq_some_iff.mp h1).1
    have key : ∀ c ∈ torusKinkComps, ∀ e, e < 4 → e ∈ c.edge → ∀ r, torusKinkEdge[e]? = some r →
        ∀ e', slot torusKink r.head ((r.headpos + 2) % 4) = some e' → e' ∈ c.edge := by
      intro c hc e he
      match e, he with
      | 0, _ | 1, _ | 2, _ | 3, _ =>
        all_goals
          intro hm r hr e' h'
          cases hr
          revert hm
          cases (Option.some.inj h')
          revert c
          decide
    exact key c hc e hlt he r h1 e' h2
  · intro qs
    obtain ⟨l, h1, h2⟩ : ∃ l, preFaces 4 torusKink torusKinkEdge = .ok l ∧ l.length = torusKink.length + 2 :=
      ⟨_, rfl, rfl⟩
    exact ⟨_, regenFaces_of_pre qs h1 h2⟩

end Plc
