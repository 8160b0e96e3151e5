import Verif.Proofs.SymGroup
import Verif.Props.Symmetry

/-! # C93: finding the symmetries of a curve, and the groups of symmetries -/

namespace Plc.Symmetry

open Plc.Core Plc.FindCrossings Plc.RandomPolygon Plc.Equilateral Plc.Motions Plc.Measure Plc.Nearest

theorem near_nearest {L : SCurve} {A : Mat} {l m : Loc} {p : V3} (hp : vert L l = some p) (h : Near L A l m) :
    NearestVert L (image A p) m := by
  have e : vertAt L l = p := by unfold vertAt; rw [hp]; rfl
  obtain ⟨h1, h2⟩ := h
  refine ⟨_, vertAt_eq h1, ?_⟩
  intro m' w hw
  have e' : vertAt L m' = w := by unfold vertAt; rw [hw]; rfl
  have := h2 m' ⟨w, hw⟩
  rwa [e, e'] at this

/-- **C93.** `plc_build_symmetry` sends every vertex to a vertex nearest to its image, and every vertex is the target of exactly one; it
fails only if two vertices would have to share one target. -/
theorem C93_build (qs : QSort) (big : ℝ) (A : Mat) (L : SCurve) (hL : SearchableCurve L)
    (hr : ∀ l p, vert L l = some p → ∃ m q, vert L m = some q ∧ distSq (image A p) q < big) :
    (∃ (s : Sym) (τ : Loc → Loc), buildSymmetry qs big A L = .ok (some s) ∧ s.transform = A ∧
      (∀ l p, vert L l = some p → Plc.sent s l = some (τ l) ∧ NearestVert L (image A p) (τ l)) ∧
      ∀ m, HasVert L m → ∃! l, HasVert L l ∧ τ l = m) ∨
    buildSymmetry qs big A L = .ok none ∧ ∃ l l' m p p', l ≠ l' ∧ vert L l = some p ∧ vert L l' = some p' ∧
      NearestVert L (image A p) m ∧ NearestVert L (image A p') m := by
  have hready : Ready big A L := by
    refine ⟨hL.comps, hL.full, hL.fits, ?_⟩
    intro l hl
    obtain ⟨m, q, hq, hb⟩ := hr l _ (vertAt_eq hl)
    have e : vertAt L m = q := by unfold vertAt; rw [hq]; rfl
    exact ⟨m, ⟨q, hq⟩, by rw [e]; exact hb⟩
  rcases build_ok qs big L A hready with ⟨l, m, x, hl, hm, hne, h1, h2, h3⟩ | ⟨s, τ, h1, h2, h3⟩
  · exact .inr ⟨h3, l, m, x, _, _, hne, vertAt_eq hl, vertAt_eq hm, near_nearest (vertAt_eq hl) h1, near_nearest (vertAt_eq hm) h2⟩
  · refine .inl ⟨s, τ, h1, h2, ?_, ?_⟩
    · intro l p hp
      obtain ⟨a, b, _⟩ := h3 l ⟨p, hp⟩
      exact ⟨a, near_nearest hp b⟩
    · intro m hm
      classical
      have hmem : ∀ l, l ∈ L.locs.toFinset ↔ HasVert L l := fun l => by rw [List.mem_toFinset]; exact mem_locs L l
      obtain ⟨l, hl, hlm⟩ := Finset.surj_on_of_inj_on_of_card_le (s := L.locs.toFinset) (t := L.locs.toFinset) (fun l _ => τ l)
        (fun l hl => (hmem _).mpr (h3 l ((hmem l).mp hl)).2.1.1)
        (fun l m hl hm h => (h3 l ((hmem l).mp hl)).2.2 m ((hmem m).mp hm) h) (le_refl _) m ((hmem m).mpr hm)
      refine ⟨l, ⟨(hmem l).mp hl, hlm.symm⟩, ?_⟩
      rintro l' ⟨hl', hlm'⟩
      exact (h3 l' hl').2.2 l ((hmem l).mp hl) (by rw [hlm', hlm])

/-- **C93.** If the matrix carries every vertex to within `d` of a vertex, and vertices are more than `2 d` apart, the symmetry is built, and
sends each vertex to that one. -/
theorem C93_exact (qs : QSort) (big d : ℝ) (A : Mat) (L : SCurve) (hL : SearchableCurve L) (hA : Rigid A) (hb : d ^ 2 < big) (τ : Loc → Loc)
    (hτ : ∀ l p, vert L l = some p → ∃ q, vert L (τ l) = some q ∧ apart (image A p) q ≤ d)
    (hd : ∀ l m p q, vert L l = some p → vert L m = some q → l ≠ m → 2 * d < apart p q) :
    ∃ s, buildSymmetry qs big A L = .ok (some s) ∧ s.transform = A ∧ ∀ l, HasVert L l → Plc.sent s l = some (τ l) := by
  have hτ' : ∀ l, HasVert L l → HasVert L (τ l) ∧ apart (image A (vertAt L l)) (vertAt L (τ l)) ≤ d := by
    intro l hl
    obtain ⟨q, hq, h⟩ := hτ l _ (vertAt_eq hl)
    have e : vertAt L (τ l) = q := by unfold vertAt; rw [hq]; rfl
    exact ⟨⟨q, hq⟩, by rw [e]; exact h⟩
  exact build_exact qs big L A (ready_of hL hb τ hτ') hA d τ hτ' (fun l m hl hm => hd l m _ _ (vertAt_eq hl) (vertAt_eq hm))

theorem composeLoop_ok (L : SCurve) (A B : Sym) (α β : Loc → Loc) :
    ∀ (ls : List Loc) (t : List (List Loc)), (∀ l ∈ ls, (∃ y, sentBy t l = some y) ∧ Plc.sent A l = some (α l) ∧ Plc.sent B (α l) = some (β (α l))) →
      ∃ t', composeLoop A B ls t = .ok t' ∧ (∀ l ∈ ls, sentBy t' l = some (β (α l))) ∧ ∀ l, l ∉ ls → sentBy t' l = sentBy t l := by
  intro ls
  induction ls with
  | nil => intro t _; exact ⟨t, rfl, by simp, by simp⟩
  | cons l ls ih =>
    intro t h
    obtain ⟨⟨y, hy⟩, h1, h2⟩ := h l List.mem_cons_self
    obtain ⟨t1, a1, a2, a3⟩ := wr2_ok (x := β (α l)) hy
    obtain ⟨t', b1, b2, b3⟩ := ih t1 (by
      intro m hm
      obtain ⟨⟨z, hz⟩, h3⟩ := h m (List.mem_cons_of_mem _ hm)
      refine ⟨?_, h3⟩
      by_cases hml : m = l
      · exact ⟨_, hml ▸ a2⟩
      · exact ⟨z, by rw [a3 m hml]; exact hz⟩)
    refine ⟨t', ?_, ?_, ?_⟩
    · unfold composeLoop
      rw [rd2_sent h1, ok_bind, rd2_sent h2, ok_bind, a1, ok_bind]
      exact b1
    · intro m hm
      by_cases hml : m ∈ ls
      · exact b2 m hml
      · have : m = l := (List.mem_cons.mp hm).resolve_right hml
        subst this
        rw [b3 m hml]; exact a2
    · intro m hm
      rw [b3 m (fun h => hm (List.mem_cons_of_mem _ h)), a3 m (fun h => hm (h ▸ List.mem_cons_self))]

/-- **C93.** `plc_compose_symmetries` does first the one, then the other, with points and with vertices; errors add up at most. -/
theorem C93_compose (L : SCurve) (A B : Sym) (α β : Loc → Loc) (hα : ∀ l, HasVert L l → HasVert L (α l) ∧ Plc.sent A l = some (α l))
    (hβ : ∀ l, HasVert L l → HasVert L (β l) ∧ Plc.sent B l = some (β l)) :
    ∃ s, compose L A B = .ok s ∧ (∀ p, image s.transform p = image B.transform (image A.transform p)) ∧
      (∀ l, HasVert L l → Plc.sent s l = some (β (α l))) ∧
      ∀ (f : Loc → V3) (a b : ℝ), Rigid B.transform → (∀ l, HasVert L l → apart (image A.transform (f l)) (f (α l)) ≤ a) →
        (∀ l, HasVert L l → apart (image B.transform (f l)) (f (β l)) ≤ b) →
        ∀ l, HasVert L l → apart (image s.transform (f l)) (f (β (α l))) ≤ a + b := by
  obtain ⟨t', h1, h2, _⟩ := composeLoop_ok L A B α β L.locs (noTargets L) (by
    intro l hl
    have hl := (mem_locs L l).mp hl
    exact ⟨⟨_, noTargets_sent L l hl⟩, (hα l hl).2, (hβ _ (hα l hl).1).2⟩)
  have hmul : ∀ p, image (B.transform.mul A.transform) p = image B.transform (image A.transform p) := fun p => app_mul _ _ p
  refine ⟨⟨B.transform.mul A.transform, t'⟩, ?_, hmul, fun l hl => h2 l ((mem_locs L l).mpr hl), ?_⟩
  · unfold compose
    rw [h1, ok_bind]
  · intro f a b hB ha hb l hl
    rw [hmul]
    have h3 := apart_triangle (image B.transform (image A.transform (f l))) (image B.transform (f (α l))) (f (β (α l)))
    rw [hB] at h3
    have := ha l hl
    have := hb _ (hα l hl).1
    linarith

/-- **C93.** A curve the rotations by multiples of `2 π / n` carry to itself up to `d`, with vertices more than `3 d` apart:
`plc_rotation_group` makes the group of these rotations, acting on the vertices. -/
theorem C93_rotation_group (qs : QSort) (big d : ℝ) (L : SCurve) (hL : SearchableCurve L) (u : V3) (r : ℝ) (hu : dotOf u u = 1)
    (hr : 1 / 2 ^ 52 ≤ r) (n : Nat) [NeZero n] (h0 : 0 ≤ d) (hb : d ^ 2 < big)
    (hnear : ∀ k : Nat, 0 < k → k < n → ∀ l p, vert L l = some p → ∃ m q, vert L m = some q ∧
      ∀ p', Turned u ((k : ℝ) * (2 * Real.pi / (n : ℝ))) p p' → apart p' q ≤ d)
    (hfar : ∀ l m p q, vert L l = some p → vert L m = some q → l ≠ m → 3 * d < apart p q) :
    ∃ (G : SymGroup) (M : Multiplicative (ZMod n) → Mat) (t : Multiplicative (ZMod n) → Loc → Loc),
      rotationGroup qs big L (V3.scale r u) (n : Int) = .ok (some G) ∧ Acts (HasVert L) G (cyc n) M t ∧ (∀ a, Rigid (M a)) ∧
      (∀ a p, Turned u ((nat a : ℝ) * (2 * Real.pi / (n : ℝ))) p (image (M a) p)) ∧
      ∀ a l p q, vert L l = some p → vert L (t a l) = some q → apart (image (M a) p) q ≤ d := by
  have hn : 0 < n := Nat.pos_of_ne_zero (NeZero.ne n)
  have hrot := fun k : Nat => rotation_rod u r ((k : ℝ) * (2 * Real.pi / (n : ℝ))) hu hr
  obtain ⟨Ms, hMs⟩ : ∃ Ms : Nat → Mat, ∀ k, Ms k = if k = 0 then identityMatrix else (hrot k).choose := ⟨_, fun _ => rfl⟩
  have hMrod : ∀ (k : Nat) p, image (Ms k) p = rod u ((k : ℝ) * (2 * Real.pi / (n : ℝ))) p := by
    intro k p
    rw [hMs]
    split
    · rename_i hk
      rw [hk, image_identity]
      simp [rod_zero]
    · exact (hrot k).choose_spec.2 p
  have hMr : ∀ k, 0 < k → k < n → rotationMatrix (V3.scale r u) ((k : ℝ) * (2 * Real.pi / (n : ℝ))) = .ok (Ms k) := by
    intro k hk _
    rw [hMs, if_neg (by omega)]
    exact (hrot k).choose_spec.1
  have hex : ∀ k l, ∃ m, k < n → HasVert L l → HasVert L m ∧ apart (image (Ms k) (vertAt L l)) (vertAt L m) ≤ d := by
    intro k l
    by_cases hk : k < n ∧ HasVert L l
    · rcases Nat.eq_zero_or_pos k with hk0 | hk0
      · refine ⟨l, fun _ hl => ⟨hl, ?_⟩⟩
        rw [hMs, if_pos hk0, image_identity, apart_self]
        exact h0
      · obtain ⟨m, q, hq, hall⟩ := hnear k hk0 hk.1 l _ (vertAt_eq hk.2)
        have e : vertAt L m = q := by unfold vertAt; rw [hq]; rfl
        refine ⟨m, fun _ _ => ⟨⟨q, hq⟩, ?_⟩⟩
        rw [e, hMrod]
        exact hall _ (rod_turned u _ _ hu)
    · exact ⟨l, fun h1 h2 => absurd ⟨h1, h2⟩ hk⟩
  choose τ hτ using hex
  have hA : Almost L n Ms τ d := by
    refine ⟨?_, ?_, ?_, hτ, fun l m hl hm => hfar l m _ _ (vertAt_eq hl) (vertAt_eq hm)⟩
    · intro p; rw [hMs, if_pos rfl, image_identity]
    · intro a b p _ _
      rw [hMrod, hMrod, hMrod, rod_add u _ _ p hu, ← rod_period u _ ((a + b) / n) p]
      congr 1
      have hdm : ((a + b : Nat) : ℝ) = (((a + b) % n : Nat) : ℝ) + (n : ℝ) * (((a + b) / n : Nat) : ℝ) := by
        exact_mod_cast (Nat.mod_add_div (a + b) n).symm
      have hn' : (n : ℝ) ≠ 0 := by positivity
      push_cast at hdm
      have : ((a : ℝ) + b) * (2 * Real.pi / n) = ((((a + b) % n : Nat) : ℝ) + (n : ℝ) * (((a + b) / n : Nat) : ℝ)) * (2 * Real.pi / n) := by rw [← hdm]
      field_simp at this ⊢
      linarith
    · intro k p q
      rw [hMrod, hMrod]
      exact apart_rod u _ p q hu
  have hS : ∀ k, ∃ s, k < n → buildSymmetry qs big (Ms k) L = .ok (some s) ∧ s.transform = Ms k ∧ ∀ l, HasVert L l → Plc.sent s l = some (τ k l) := by
    intro k
    by_cases hk : k < n
    · obtain ⟨s, hs⟩ := hA.build hL hb qs k hk
      exact ⟨s, fun _ => hs⟩
    · exact ⟨⟨identityMatrix, []⟩, fun h => absurd h hk⟩
  choose S hS using hS
  obtain ⟨G, hG⟩ : ∃ G : SymGroup, G = ⟨some (S 0) :: (List.range (n - 1)).map fun j => some (S (1 + j)),
    0 :: (List.range (n - 1)).map fun i => n - (i + 1)⟩ := ⟨_, rfl⟩
  have hlen : G.sym.length = n := by rw [hG]; simp; omega
  have hget : ∀ k, k < n → G.sym[k]? = some (some (S k)) := by
    intro k hk
    rw [hG]
    rcases k with _ | k
    · rfl
    · simp only [List.getElem?_cons_succ, List.getElem?_map]
      rw [List.getElem?_range (by omega)]
      simp [Nat.add_comm]
  have hinv : ∀ k, k < n → G.inverse[k]? = some (if k = 0 then 0 else n - k) := by
    intro k hk
    rw [hG]
    rcases k with _ | k
    · rfl
    · simp only [List.getElem?_cons_succ, List.getElem?_map]
      rw [List.getElem?_range (by omega)]
      simp
  have hrg : rotationGroup qs big L (V3.scale r u) (n : Int) = .ok (some G) := by
    unfold rotationGroup
    have hid : Ms 0 = identityMatrix := by rw [hMs, if_pos rfl]
    have h1 := (hS 0 hn).1
    rw [hid] at h1
    rw [if_neg (by omega), h1, ok_bind, Int.toNat_natCast,
      rotationSyms_ok qs big L (V3.scale r u) n Ms S hMr (fun k hk hkn => (hS k hkn).1) (n - 1) 1 (by omega) (by omega), ok_bind, ← hG,
      scan_all (fun k hk => ⟨_, hget k (by rw [hlen] at hk; exact hk)⟩)]
  refine ⟨G, fun a => Ms (nat a), fun a => τ (nat a), hrg, hA.acts G hlen (fun k hk => ⟨S k, hget k hk, (hS k hk).2⟩) hinv,
    fun a => hA.rigid _, ?_, ?_⟩
  · intro a p
    rw [hMrod]
    exact rod_turned u _ p hu
  · intro a l p q hp hq
    have e1 : vertAt L l = p := by unfold vertAt; rw [hp]; rfl
    have e2 : vertAt L (τ (nat a) l) = q := by unfold vertAt; rw [hq]; rfl
    have := (hτ (nat a) l (nat_lt a) ⟨p, hp⟩).2
    rwa [e1, e2] at this

theorem mirror_mirrored (u p : V3) (hu : dotOf u u = 1) : Mirrored u p (mirror u p) := by
  have h : dotOf (mirror u p) u = -dotOf p u := by
    simp only [mirror, V3.sub, V3.scale, dotOf] at *
    linear_combination (-2 * (p.x * u.x + p.y * u.y + p.z * u.z)) * hu
  refine ⟨h, ?_⟩
  unfold perp
  rw [h]
  simp only [mirror, V3.sub, V3.scale]
  refine V3.ext' ?_ ?_ ?_ <;> ring

/-- **C93.** A curve the reflection carries to itself up to `d`, with vertices more than `3 d` apart: `plc_reflection_group` makes the
group of the reflection and the identity, acting on the vertices. -/
theorem C93_reflection_group (qs : QSort) (big d : ℝ) (L : SCurve) (hL : SearchableCurve L) (u : V3) (r : ℝ) (hu : dotOf u u = 1)
    (hr : 1 / 2 ^ 52 ≤ r) (h0 : 0 ≤ d) (hb : d ^ 2 < big)
    (hnear : ∀ l p, vert L l = some p → ∃ m q, vert L m = some q ∧ ∀ p', Mirrored u p p' → apart p' q ≤ d)
    (hfar : ∀ l m p q, vert L l = some p → vert L m = some q → l ≠ m → 3 * d < apart p q) :
    ∃ (G : SymGroup) (M : Multiplicative (ZMod 2) → Mat) (t : Multiplicative (ZMod 2) → Loc → Loc),
      reflectionGroup qs big L (V3.scale r u) = .ok (some G) ∧ Acts (HasVert L) G (cyc 2) M t ∧ (∀ a, Rigid (M a)) ∧
      (∀ a p, if nat a = 0 then image (M a) p = p else Mirrored u p (image (M a) p)) ∧
      ∀ a l p q, vert L l = some p → vert L (t a l) = some q → apart (image (M a) p) q ≤ d := by
  obtain ⟨R, hR1, hR2⟩ := reflection_mirror u r hu hr
  obtain ⟨Ms, hMs⟩ : ∃ Ms : Nat → Mat, ∀ k, Ms k = if k = 0 then identityMatrix else R := ⟨_, fun _ => rfl⟩
  have hM0 : ∀ p, image (Ms 0) p = p := by intro p; rw [hMs, if_pos rfl, image_identity]
  have hM1 : ∀ p, image (Ms 1) p = mirror u p := by intro p; rw [hMs, if_neg (by omega), hR2]
  have hex : ∀ k l, ∃ m, k < 2 → HasVert L l → HasVert L m ∧ apart (image (Ms k) (vertAt L l)) (vertAt L m) ≤ d := by
    intro k l
    by_cases hk : k < 2 ∧ HasVert L l
    · have : k = 0 ∨ k = 1 := by omega
      rcases this with rfl | rfl
      · refine ⟨l, fun _ hl => ⟨hl, ?_⟩⟩
        rw [hM0, apart_self]
        exact h0
      · obtain ⟨m, q, hq, hall⟩ := hnear l _ (vertAt_eq hk.2)
        have e : vertAt L m = q := by unfold vertAt; rw [hq]; rfl
        refine ⟨m, fun _ _ => ⟨⟨q, hq⟩, ?_⟩⟩
        rw [e, hM1]
        exact hall _ (mirror_mirrored u _ hu)
    · exact ⟨l, fun h1 h2 => absurd ⟨h1, h2⟩ hk⟩
  choose τ hτ using hex
  have hA : Almost L 2 Ms τ d := by
    refine ⟨hM0, ?_, ?_, hτ, fun l m hl hm => hfar l m _ _ (vertAt_eq hl) (vertAt_eq hm)⟩
    · intro a b p ha hb
      have ha' : a = 0 ∨ a = 1 := by omega
      have hb' : b = 0 ∨ b = 1 := by omega
      rcases ha' with rfl | rfl <;> rcases hb' with rfl | rfl <;> simp only [Nat.add_zero, Nat.zero_add, Nat.reduceAdd, Nat.reduceMod, Nat.zero_mod, hM0, hM1]
      rw [mirror_mirror u p hu]
    · intro k p q
      rw [hMs]
      split
      · rw [image_identity, image_identity]
      · rw [hR2, hR2]; exact apart_mirror u p q hu
  obtain ⟨s0, a1, a2, a3⟩ := hA.build hL hb qs 0 (by omega)
  obtain ⟨s1, b1, b2, b3⟩ := hA.build hL hb qs 1 (by omega)
  have hid : Ms 0 = identityMatrix := by rw [hMs, if_pos rfl]
  have hre : Ms 1 = R := by rw [hMs, if_neg (by omega)]
  have hget : ∀ k, k < 2 → ∃ s, (SymGroup.mk [some s0, some s1] [0, 1]).sym[k]? = some (some s) ∧ s.transform = Ms k ∧
      ∀ l, HasVert L l → Plc.sent s l = some (τ k l) := by
    intro k hk
    have : k = 0 ∨ k = 1 := by omega
    rcases this with rfl | rfl
    · exact ⟨s0, rfl, a2, a3⟩
    · exact ⟨s1, rfl, b2, b3⟩
  have hg : reflectionGroup qs big L (V3.scale r u) = .ok (some ⟨[some s0, some s1], [0, 1]⟩) := by
    unfold reflectionGroup
    rw [hid] at a1
    rw [hre] at b1
    rw [a1, ok_bind, hR1, ok_bind, b1, ok_bind, scan_all (fun k hk => by obtain ⟨s, hs, _⟩ := hget k hk; exact ⟨s, hs⟩)]
  refine ⟨⟨[some s0, some s1], [0, 1]⟩, fun a => Ms (nat a), fun a => τ (nat a), hg, hA.acts _ rfl hget ?_, fun a => hA.rigid _, ?_, ?_⟩
  · intro k hk
    have : k = 0 ∨ k = 1 := by omega
    rcases this with rfl | rfl <;> rfl
  · intro a p
    have := nat_lt a
    have : nat a = 0 ∨ nat a = 1 := by omega
    rcases this with h | h
    · rw [if_pos h]; show image (Ms (nat a)) p = p; rw [h]; exact hM0 p
    · rw [if_neg (by omega)]; show Mirrored u p (image (Ms (nat a)) p); rw [h, hM1]; exact mirror_mirrored u p hu
  · intro a l p q hp hq
    have e1 : vertAt L l = p := by unfold vertAt; rw [hp]; rfl
    have e2 : vertAt L (τ (nat a) l) = q := by unfold vertAt; rw [hq]; rfl
    have := (hτ (nat a) l (nat_lt a) ⟨p, hp⟩).2
    rwa [e1, e2] at this

theorem nat_surj {n : Nat} [NeZero n] (k : Nat) (hk : k < n) : ∃ a : Multiplicative (ZMod n), nat a = k := ⟨cyc n ⟨k, hk⟩, nat_cyc _⟩

theorem symmetrized {K : Type} [Group K] [Fintype K] {n : Nat} {G : SymGroup} {e : Fin n ≃ K} {M : K → Mat} {t : K → Loc → Loc} (L : SCurve) (d : ℝ)
    (hG : Acts (HasVert L) G e M t) (hM : ∀ a, Rigid (M a))
    (hd : ∀ a l p q, vert L l = some p → vert L (t a l) = some q → apart (image (M a) p) q ≤ d) :
    ∃ L', symmetrize L (some G) = .ok L' ∧ SameFrame L L' ∧ (∀ l p, vert L l = some p → ∃ p', vert L' l = some p' ∧ apart p' p ≤ d) ∧
      ∀ a l p, vert L' l = some p → ∃ m, vert L' m = some (image (M a) p) := by
  have hf : Given L (vertAt L) := fun l hl => vertAt_eq hl
  obtain ⟨L', f', h1, h2, h3, h4, h5, _⟩ := C92_symmetrize L (vertAt L) hf hG
  refine ⟨L', h1, h2, ?_, ?_⟩
  · intro l p hp
    have hl : HasVert L l := ⟨p, hp⟩
    have hp' := h4 l ((h3 l).mpr hl)
    refine ⟨_, hp', C92_moves_little L (vertAt L) hf hG hM L' h1 l p _ hp hp' d ?_⟩
    intro a
    exact hd a l p _ hp (vertAt_eq (hG.stays a l hl))
  · intro a l p hp
    have hl : HasVert L l := (h3 l).mp ⟨p, hp⟩
    refine ⟨t a l, ?_⟩
    have e1 : f' l = p := by
      have := h4 l ⟨p, hp⟩
      rw [hp] at this
      exact (Option.some.inj this).symm
    rw [h4 _ ((h3 _).mpr (hG.stays a l hl)), h5 a l hl, e1]

/-- **C93.** Symmetrizing over that group: every vertex moves by `d` at most, and afterwards every rotation carries vertices to vertices
exactly. -/
theorem C93_rotation_symmetrized (qs : QSort) (big d : ℝ) (L : SCurve) (hL : SearchableCurve L) (u : V3) (r : ℝ) (hu : dotOf u u = 1)
    (hr : 1 / 2 ^ 52 ≤ r) (n : Nat) (hn : 0 < n) (h0 : 0 ≤ d) (hb : d ^ 2 < big)
    (hnear : ∀ k : Nat, 0 < k → k < n → ∀ l p, vert L l = some p → ∃ m q, vert L m = some q ∧
      ∀ p', Turned u ((k : ℝ) * (2 * Real.pi / (n : ℝ))) p p' → apart p' q ≤ d)
    (hfar : ∀ l m p q, vert L l = some p → vert L m = some q → l ≠ m → 3 * d < apart p q) :
    ∃ G L', rotationGroup qs big L (V3.scale r u) (n : Int) = .ok (some G) ∧ symmetrize L (some G) = .ok L' ∧ SameFrame L L' ∧
      (∀ l p, vert L l = some p → ∃ p', vert L' l = some p' ∧ apart p' p ≤ d) ∧
      ∀ k : Nat, k < n → ∀ l p, vert L' l = some p → ∃ m q, vert L' m = some q ∧ Turned u ((k : ℝ) * (2 * Real.pi / (n : ℝ))) p q := by
  haveI : NeZero n := ⟨by omega⟩
  obtain ⟨G, M, t, h1, h2, h3, h4, h5⟩ := C93_rotation_group qs big d L hL u r hu hr n h0 hb hnear hfar
  obtain ⟨L', k1, k2, k3, k4⟩ := symmetrized L d h2 h3 h5
  refine ⟨G, L', h1, k1, k2, k3, ?_⟩
  intro k hk l p hp
  obtain ⟨a, ha⟩ := nat_surj (n := n) k hk
  obtain ⟨m, hm⟩ := k4 a l p hp
  exact ⟨m, _, hm, by have := h4 a p; rwa [ha] at this⟩

/-- **C93.** The same for a reflection. -/
theorem C93_reflection_symmetrized (qs : QSort) (big d : ℝ) (L : SCurve) (hL : SearchableCurve L) (u : V3) (r : ℝ) (hu : dotOf u u = 1)
    (hr : 1 / 2 ^ 52 ≤ r) (h0 : 0 ≤ d) (hb : d ^ 2 < big)
    (hnear : ∀ l p, vert L l = some p → ∃ m q, vert L m = some q ∧ ∀ p', Mirrored u p p' → apart p' q ≤ d)
    (hfar : ∀ l m p q, vert L l = some p → vert L m = some q → l ≠ m → 3 * d < apart p q) :
    ∃ G L', reflectionGroup qs big L (V3.scale r u) = .ok (some G) ∧ symmetrize L (some G) = .ok L' ∧ SameFrame L L' ∧
      (∀ l p, vert L l = some p → ∃ p', vert L' l = some p' ∧ apart p' p ≤ d) ∧
      ∀ l p, vert L' l = some p → ∃ m q, vert L' m = some q ∧ Mirrored u p q := by
  obtain ⟨G, M, t, h1, h2, h3, h4, h5⟩ := C93_reflection_group qs big d L hL u r hu hr h0 hb hnear hfar
  obtain ⟨L', k1, k2, k3, k4⟩ := symmetrized L d h2 h3 h5
  refine ⟨G, L', h1, k1, k2, k3, ?_⟩
  intro l p hp
  obtain ⟨a, ha⟩ := nat_surj (n := 2) 1 (by omega)
  obtain ⟨m, hm⟩ := k4 a l p hp
  have := h4 a p
  rw [if_neg (by omega)] at this
  exact ⟨m, _, hm, this⟩

/-- **C93.** A group of no rotations is a NULL pointer which is written through; an axis of (almost) no length stops the program. -/
theorem C93_refused (qs : QSort) (big : ℝ) (L : SCurve) (axis : V3) (n : Int) : (n ≤ 0 → rotationGroup qs big L axis n = .error .ub) ∧
    (apart axis ⟨0, 0, 0⟩ < 1 / 2 ^ 52 → reflectionMatrix axis = .error .die ∧ ∀ t, rotationMatrix axis t = .error .die) := by
  refine ⟨fun h => ?_, fun h => ?_⟩
  · unfold rotationGroup; rw [if_pos h]
  · have hc : norm3 axis < eps ∧ -norm3 axis < eps := by
      rw [norm3_eq]
      have := apart_nonneg axis ⟨0, 0, 0⟩
      unfold eps
      exact ⟨h, by linarith⟩
    refine ⟨?_, fun t => ?_⟩
    · unfold reflectionMatrix; rw [if_pos hc]
    · unfold rotationMatrix; rw [if_pos hc]

end Plc.Symmetry
