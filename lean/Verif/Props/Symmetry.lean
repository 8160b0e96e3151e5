import Verif.Proofs.Symmetry

/-! # C92: symmetrizing a curve -/

namespace Plc.Symmetry

open Plc.Core Plc.FindCrossings Plc.RandomPolygon Plc.Equilateral Plc.Motions Plc.Measure Plc.Nearest

variable {K : Type} [Group K] [Fintype K] {n : Nat} {G : SymGroup} {e : Fin n ≃ K} {M : K → Mat} {t : K → Loc → Loc}

/-- The vertices of a curve, as a function. -/
def Given (L : SCurve) (f : Loc → V3) : Prop := ∀ l, HasVert L l → vert L l = some (f l)

theorem given_vertAt {L : SCurve} {f : Loc → V3} (h : Given L f) {l : Loc} (hl : HasVert L l) : vertAt L l = f l := by
  unfold vertAt
  rw [h l hl]; rfl

theorem avg_given {L : SCurve} {f : Loc → V3} (h : Given L f) (hG : Acts (HasVert L) G e M t) {l : Loc} (hl : HasVert L l) :
    avg M t (vertAt L) l = avg M t f l := by
  unfold avg part
  congr 1
  funext a
  rw [given_vertAt h (hG.stays a l hl)]

/-- **C92.** If the symmetries of a curve form a group which acts on its vertices, then `plc_symmetrize` ends, changes nothing but vertices,
and leaves a curve every symmetry carries vertex by vertex to itself; every vertex is the average of what the symmetries say about it. -/
theorem C92_symmetrize (L : SCurve) (f : Loc → V3) (hf : Given L f) (hG : Acts (HasVert L) G e M t) :
    ∃ (L' : SCurve) (f' : Loc → V3), symmetrize L (some G) = .ok L' ∧ SameFrame L L' ∧ (∀ l, HasVert L' l ↔ HasVert L l) ∧ Given L' f' ∧
      Symmetric (HasVert L) M t f' ∧ ∀ l, HasVert L l → f' l = mean fun a => image (M a⁻¹) (f (t a l)) := by
  obtain ⟨L', h1, h2, h3⟩ := symmetrize_ok L hG
  have hiff : ∀ l, HasVert L' l ↔ HasVert L l := by
    intro l
    refine ⟨?_, h2.hasVert⟩
    rintro ⟨p, hp⟩
    obtain ⟨c, hc, hv⟩ := vert_eq.mp hp
    have hi : l.1 < L.cp.length := by rw [← h2.2.1]; exact (List.getElem?_eq_some_iff.mp hc).1
    have := (h2.2.2 l.1 L.cp[l.1] c (List.getElem?_eq_getElem hi) hc).2.2.1
    have hj : l.2 < L.cp[l.1].vt.length := by rw [← this]; exact (List.getElem?_eq_some_iff.mp hv).1
    exact ⟨_, vert_eq.mpr ⟨_, List.getElem?_eq_getElem hi, List.getElem?_eq_getElem hj⟩⟩
  refine ⟨L', avg M t f, h1, h2, hiff, ?_, ?_, fun _ _ => rfl⟩
  · intro l hl
    rw [h3 l ((hiff l).mp hl), avg_given hf hG ((hiff l).mp hl)]
  · intro a l hl
    exact avg_symmetric hG f a l hl

theorem sum_sq_mean (x : K → ℝ) (g : ℝ) : ∑ a, (x a - (∑ b, x b) / (Fintype.card K : ℝ)) ^ 2 ≤ ∑ a, (x a - g) ^ 2 := by
  have hc : (0 : ℝ) < Fintype.card K := by
    have : 0 < Fintype.card K := Fintype.card_pos_iff.mpr ⟨1⟩
    positivity
  have key : ∀ c : ℝ, ∑ a, (x a - c) ^ 2 = ∑ a, x a ^ 2 - 2 * c * (∑ a, x a) + (Fintype.card K : ℝ) * c ^ 2 := by
    intro c
    have : ∀ a, (x a - c) ^ 2 = x a ^ 2 - 2 * c * x a + c ^ 2 := fun a => by ring
    simp only [this, Finset.sum_add_distrib, Finset.sum_sub_distrib, ← Finset.mul_sum, Finset.sum_const, Finset.card_univ, nsmul_eq_mul]
  rw [key, key]
  obtain ⟨S, hS⟩ : ∃ S, S = ∑ a, x a := ⟨_, rfl⟩
  obtain ⟨N, hN⟩ : ∃ N : ℝ, N = Fintype.card K := ⟨_, rfl⟩
  rw [← hS, ← hN]
  rw [← hN] at hc
  have h1 : N * (S / N) ^ 2 = S ^ 2 / N := by field_simp
  have h2 : 2 * (S / N) * S = 2 * (S ^ 2 / N) := by field_simp
  have h3 : 0 ≤ (N * g - S) ^ 2 / N := by positivity
  have h4 : (N * g - S) ^ 2 / N = N * g ^ 2 - 2 * g * S + S ^ 2 / N := by field_simp; ring
  rw [h1, h2]
  linarith

theorem mean_best (x : K → V3) (g : V3) : ∑ a, distSq (x a) (mean x) ≤ ∑ a, distSq (x a) g := by
  simp only [distSq, mean, Finset.sum_add_distrib]
  have h1 := sum_sq_mean (fun a => (x a).x) g.x
  have h2 := sum_sq_mean (fun a => (x a).y) g.y
  have h3 := sum_sq_mean (fun a => (x a).z) g.z
  linarith

theorem distSq_rigid {A : Mat} (h : Rigid A) (p q : V3) : distSq (image A p) (image A q) = distSq p q := by
  have := h p q
  unfold apart at this
  exact (Real.sqrt_inj (by unfold distSq; positivity) (by unfold distSq; positivity)).mp this

theorem sum_over (hV : Acts V G e M t) (S : Finset Loc) (hS : ∀ l, l ∈ S ↔ V l) (F : Loc → ℝ) (a : K) :
    ∑ l ∈ S, F (t a l) = ∑ l ∈ S, F l := by
  refine Finset.sum_bij' (fun l _ => t a l) (fun l _ => t a⁻¹ l) ?_ ?_ ?_ ?_ ?_
  · intro l hl; exact (hS _).mpr (hV.stays a l ((hS l).mp hl))
  · intro l hl; exact (hS _).mpr (hV.stays _ l ((hS l).mp hl))
  · intro l hl
    rw [← hV.mul _ _ l ((hS l).mp hl), inv_mul_cancel, hV.one l ((hS l).mp hl)]
  · intro l hl
    rw [← hV.mul _ _ l ((hS l).mp hl), mul_inv_cancel, hV.one l ((hS l).mp hl)]
  · intro l _; rfl

/-- **C92.** With rotations and reflections for matrices, the curve left by `plc_symmetrize` is the nearest symmetric one: for no
symmetric choice of the vertices the sum of the squares of the distances to the vertices before is smaller. -/
theorem C92_nearest (L : SCurve) (f : Loc → V3) (hf : Given L f) (hG : Acts (HasVert L) G e M t) (hM : ∀ a, Rigid (M a))
    (L' : SCurve) (f' : Loc → V3) (h : symmetrize L (some G) = .ok L') (hf' : Given L' f') (S : Finset Loc) (hS : ∀ l, l ∈ S ↔ HasVert L l)
    (g : Loc → V3) (hg : Symmetric (HasVert L) M t g) : ∑ l ∈ S, distSq (f l) (f' l) ≤ ∑ l ∈ S, distSq (f l) (g l) := by
  obtain ⟨L'', h1, h2, h3⟩ := symmetrize_ok L hG
  rw [h] at h1
  cases h1
  have hf'' : ∀ l, HasVert L l → f' l = avg M t f l := by
    intro l hl
    have := hf' l (h2.hasVert hl)
    rw [h3 l hl, avg_given hf hG hl] at this
    exact (Option.some.inj this).symm
  have hc : (0 : ℝ) < Fintype.card K := by
    have : 0 < Fintype.card K := Fintype.card_pos_iff.mpr ⟨1⟩
    positivity
  have key : ∀ g : Loc → V3, Symmetric (HasVert L) M t g →
      ∑ l ∈ S, ∑ a, distSq (part M t f l a) (g l) = Fintype.card K * ∑ l ∈ S, distSq (f l) (g l) := by
    intro g hg
    rw [Finset.sum_comm]
    have : ∀ a, ∑ l ∈ S, distSq (part M t f l a) (g l) = ∑ l ∈ S, distSq (f l) (g l) := by
      intro a
      rw [← sum_over hG S hS (fun l => distSq (f l) (g l)) a]
      apply Finset.sum_congr rfl
      intro l hl
      have hl := (hS l).mp hl
      unfold part
      have e1 : g l = image (M a⁻¹) (g (t a l)) := by rw [hg a l hl, ← hG.mulM, inv_mul_cancel, hG.oneM]
      conv_lhs => rw [e1]
      exact distSq_rigid (hM _) _ _
    rw [Finset.sum_congr rfl (fun a _ => this a), Finset.sum_const, Finset.card_univ, nsmul_eq_mul]
  have h4 := key (avg M t f) (fun a l hl => avg_symmetric hG f a l hl)
  have h5 := key g hg
  have h6 : ∑ l ∈ S, ∑ a, distSq (part M t f l a) (avg M t f l) ≤ ∑ l ∈ S, ∑ a, distSq (part M t f l a) (g l) :=
    Finset.sum_le_sum fun l _ => mean_best _ _
  rw [h4, h5] at h6
  rw [Finset.sum_congr rfl (fun l hl => by rw [hf'' l ((hS l).mp hl)])]
  exact le_of_mul_le_mul_left h6 hc

/-- **C92.** No vertex moves further than the symmetries were wrong about it. -/
theorem C92_moves_little (L : SCurve) (f : Loc → V3) (hf : Given L f) (hG : Acts (HasVert L) G e M t) (hM : ∀ a, Rigid (M a))
    (L' : SCurve) (h : symmetrize L (some G) = .ok L') (l : Loc) (p p' : V3) (hp : vert L l = some p) (hp' : vert L' l = some p') (d : ℝ)
    (hd : ∀ a, apart (image (M a) p) (f (t a l)) ≤ d) : apart p' p ≤ d := by
  obtain ⟨L'', h1, h2, h3⟩ := symmetrize_ok L hG
  rw [h] at h1
  cases h1
  have hl : HasVert L l := ⟨p, hp⟩
  have e1 : p = f l := by
    have := hf l hl
    rw [hp] at this
    exact Option.some.inj this
  rw [h3 l hl, avg_given hf hG hl] at hp'
  cases hp'
  subst e1
  exact avg_near hG f d hM l hl hd

/-- **C92.** A curve which is symmetric stays as it is. -/
theorem C92_symmetric_kept (L : SCurve) (f : Loc → V3) (hf : Given L f) (hG : Acts (HasVert L) G e M t)
    (hs : Symmetric (HasVert L) M t f) : symmetrize L (some G) = .ok L := by
  obtain ⟨L', h1, h2, h3⟩ := symmetrize_ok L hG
  rw [h1]
  congr 1
  obtain ⟨addr, cp⟩ := L
  obtain ⟨addr', cp'⟩ := L'
  obtain ⟨ha, hlen, hc⟩ := h2
  simp only at ha hlen hc
  rw [SCurve.mk.injEq]
  refine ⟨ha, List.ext_getElem hlen ?_⟩
  intro i hi hi'
  obtain ⟨c1, c2, c3, c4, c5⟩ := hc i cp[i] cp'[i] (List.getElem?_eq_getElem hi') (List.getElem?_eq_getElem hi)
  have hvt : cp'[i].vt = cp[i].vt := by
    refine List.ext_getElem c3 ?_
    intro j hj hj'
    have hv : vert ⟨addr, cp⟩ (i, j) = some cp[i].vt[j] := vert_eq.mpr ⟨_, List.getElem?_eq_getElem hi', List.getElem?_eq_getElem hj'⟩
    have hv' : vert ⟨addr', cp'⟩ (i, j) = some cp'[i].vt[j] := vert_eq.mpr ⟨_, List.getElem?_eq_getElem hi, List.getElem?_eq_getElem hj⟩
    have hl : HasVert ⟨addr, cp⟩ (i, j) := ⟨_, hv⟩
    rw [h3 _ hl, avg_given hf hG hl, avg_fixed hG f hs _ hl, ← hf _ hl, hv] at hv'
    exact (Option.some.inj hv').symm
  rcases hA : cp'[i] with ⟨a1, a2, a3, a4, a5⟩
  rcases hB : cp[i] with ⟨b1, b2, b3, b4, b5⟩
  rw [hA, hB] at c1 c2 c4 c5 hvt
  simp only at c1 c2 c4 c5 hvt
  rw [c1, c2, c4, c5, hvt]

/-- A buffer with one vector for each vertex, as a function. -/
def GivenBuf (L : SCurve) (buf : List V3) (f : Loc → V3) : Prop :=
  ∀ l, HasVert L l → ∃ k : Nat, Vtx.vertexNum L.strands l.1 (l.2 : Int) = .ok (k : Int) ∧ buf[k]? = some (f l)

theorem bufGet_iff (L : SCurve) (buf : List V3) (l : Loc) (hl : HasVert L l) (p : V3) :
    bufGet L buf l = .ok p ↔ ∃ k : Nat, Vtx.vertexNum L.strands l.1 (l.2 : Int) = .ok (k : Int) ∧ buf[k]? = some p := by
  obtain ⟨w, h1, h2, _, _⟩ := C45_pair L.strands l.1 l.2 (isVertex hl)
  have hnum : L.num l = .ok w.toNat := by
    unfold SCurve.num
    rw [h1, ok_bind, if_neg (by omega)]
  unfold bufGet
  rw [hnum, ok_bind, h1]
  constructor
  · intro h
    exact ⟨w.toNat, by rw [Int.toNat_of_nonneg h2], rd_eq_ok.mp h⟩
  · rintro ⟨k, hk, hb⟩
    have : w = (k : Int) := by injection hk
    exact rd_ok (by rw [this]; simpa using hb)

/-- **C92.** `plc_symmetrize_variation` does the same for a vector at each vertex. -/
theorem C92_variation (L : SCurve) (buf : List V3) (f : Loc → V3) (hb : (buf.length : Int) = Vtx.numVerts L.strands) (hf : GivenBuf L buf f)
    (hG : Acts (HasVert L) G e M t) :
    ∃ (buf' : List V3) (f' : Loc → V3), symmetrizeVariation L buf (some G) = .ok buf' ∧ buf'.length = buf.length ∧ GivenBuf L buf' f' ∧
      Symmetric (HasVert L) M t f' ∧ (∀ l, HasVert L l → f' l = mean fun a => image (M a⁻¹) (f (t a l))) ∧
      (Symmetric (HasVert L) M t f → ∀ l, HasVert L l → f' l = f l) := by
  have hsz : buf.length = L.size := by unfold SCurve.size; omega
  obtain ⟨buf', h1, h2, h3⟩ := symmetrizeVariation_ok L buf f hsz (fun l hl => (bufGet_iff L buf l hl _).mpr (hf l hl)) hG
  exact ⟨buf', avg M t f, h1, by rw [h2, hsz], fun l hl => (bufGet_iff L buf' l hl _).mp (h3 l hl),
    fun a l hl => avg_symmetric hG f a l hl, fun _ _ => rfl, fun hs l hl => avg_fixed hG f hs l hl⟩

/-! ## Checking -/

theorem dist3_eq' (a b : V3) : dist3 a b = apart a b := dist3_eq a b

theorem checkLoop_ok (get : Loc → Res V3) (f : Loc → V3) (A : Sym) (τ : Loc → Loc) :
    ∀ (ls : List Loc) (m : ℝ), (∀ l ∈ ls, get l = .ok (f l) ∧ Plc.sent A l = some (τ l) ∧ get (τ l) = .ok (f (τ l))) →
      ∃ r, checkLoop get A ls m = .ok r ∧ m ≤ r ∧ (∀ l ∈ ls, apart (image A.transform (f l)) (f (τ l)) ≤ r) ∧
        (r = m ∨ ∃ l ∈ ls, r = apart (image A.transform (f l)) (f (τ l))) := by
  intro ls
  induction ls with
  | nil => intro m _; exact ⟨m, rfl, le_refl _, by simp, .inl rfl⟩
  | cons l ls ih =>
    intro m h
    obtain ⟨h1, h2, h3⟩ := h l List.mem_cons_self
    obtain ⟨m', hm'⟩ : ∃ m', m' = if m > apart (image A.transform (f l)) (f (τ l)) then m else apart (image A.transform (f l)) (f (τ l)) := ⟨_, rfl⟩
    have hmax : m' = max m (apart (image A.transform (f l)) (f (τ l))) := by
      rw [hm']
      split
      · rw [max_eq_left (by linarith)]
      · rw [max_eq_right (by linarith)]
    obtain ⟨r, r1, r2, r3, r4⟩ := ih m' (fun x hx => h x (List.mem_cons_of_mem _ hx))
    refine ⟨r, ?_, le_trans (by rw [hmax]; exact le_max_left _ _) r2, ?_, ?_⟩
    · unfold checkLoop
      rw [h1, ok_bind, rd2_sent h2, ok_bind, h3, ok_bind]
      dsimp only
      rw [dist3_eq', app_image, ← hm']
      exact r1
    · intro x hx
      rcases List.mem_cons.mp hx with rfl | hx
      · exact le_trans (by rw [hmax]; exact le_max_right _ _) r2
      · exact r3 x hx
    · rcases r4 with r4 | ⟨x, hx, r4⟩
      · rcases le_total (apart (image A.transform (f l)) (f (τ l))) m with hle | hle
        · exact .inl (by rw [r4, hmax, max_eq_left hle])
        · exact .inr ⟨l, List.mem_cons_self, by rw [r4, hmax, max_eq_right hle]⟩
      · exact .inr ⟨x, List.mem_cons_of_mem _ hx, r4⟩

/-- **C92.** `plc_symmetry_check` answers with the largest distance between the image of a vertex and the vertex it should be. -/
theorem C92_check (L : SCurve) (f : Loc → V3) (hf : Given L f) (A : Sym) (τ : Loc → Loc)
    (hτ : ∀ l, HasVert L l → HasVert L (τ l) ∧ Plc.sent A l = some (τ l)) :
    ∃ r, symmetryCheck L L.get (some A) = .ok r ∧ (∀ l, HasVert L l → apart (image A.transform (f l)) (f (τ l)) ≤ r) ∧
      (r = 0 ∨ ∃ l, HasVert L l ∧ r = apart (image A.transform (f l)) (f (τ l))) := by
  obtain ⟨r, h1, h2, h3, h4⟩ := checkLoop_ok L.get f A τ L.locs 0 (by
    intro l hl
    have hl := (mem_locs L l).mp hl
    exact ⟨get_eq (hf l hl), (hτ l hl).2, get_eq (hf _ (hτ l hl).1)⟩)
  refine ⟨r, h1, fun l hl => h3 l ((mem_locs L l).mpr hl), ?_⟩
  rcases h4 with h4 | ⟨l, hl, h4⟩
  · exact .inl h4
  · exact .inr ⟨l, (mem_locs L l).mp hl, h4⟩

theorem groupCheckLoop_ok (L : SCurve) (get : Loc → Res V3) (R : Sym → ℝ) : ∀ (ss : List (Option Sym)) (m : ℝ), 
    (∀ s, some s ∈ ss → symmetryCheck L get (some s) = .ok (R s)) → (∀ s ∈ ss, s ≠ none) →
    ∃ r, groupCheckLoop L get ss m = .ok r ∧ m ≤ r ∧ (∀ s, some s ∈ ss → R s ≤ r) ∧ (r = m ∨ ∃ s, some s ∈ ss ∧ r = R s) := by
  intro ss
  induction ss with
  | nil => intro m _ _; exact ⟨m, rfl, le_refl _, by simp, .inl rfl⟩
  | cons s ss ih =>
    intro m h hn
    obtain ⟨s, rfl⟩ : ∃ s', s = some s' := Option.ne_none_iff_exists'.mp (hn s List.mem_cons_self)
    have h1 := h s List.mem_cons_self
    obtain ⟨m', hm'⟩ : ∃ m', m' = if m > R s then m else R s := ⟨_, rfl⟩
    have hmax : m' = max m (R s) := by
      rw [hm']
      split
      · rw [max_eq_left (by linarith)]
      · rw [max_eq_right (by linarith)]
    obtain ⟨r, r1, r2, r3, r4⟩ := ih m' (fun x hx => h x (List.mem_cons_of_mem _ hx)) (fun x hx => hn x (List.mem_cons_of_mem _ hx))
    refine ⟨r, ?_, le_trans (by rw [hmax]; exact le_max_left _ _) r2, ?_, ?_⟩
    · unfold groupCheckLoop
      rw [h1, ok_bind, ← hm']
      exact r1
    · intro x hx
      rcases List.mem_cons.mp hx with hx | hx
      · cases hx
        exact le_trans (by rw [hmax]; exact le_max_right _ _) r2
      · exact r3 x hx
    · rcases r4 with r4 | ⟨x, hx, r4⟩
      · rcases le_total (R s) m with hle | hle
        · exact .inl (by rw [r4, hmax, max_eq_left hle])
        · exact .inr ⟨s, List.mem_cons_self, by rw [r4, hmax, max_eq_right hle]⟩
      · exact .inr ⟨x, List.mem_cons_of_mem _ hx, r4⟩

/-- **C92.** `plc_symmetry_group_check` answers with the largest error of a symmetry at a vertex; it is 0 exactly if the curve is symmetric. -/
theorem C92_group_check (L : SCurve) (f : Loc → V3) (hf : Given L f) (hG : Acts (HasVert L) G e M t) :
    ∃ r, groupCheck L L.get (some G) = .ok r ∧ (∀ a l, HasVert L l → apart (image (M a) (f l)) (f (t a l)) ≤ r) ∧
      (r = 0 ∨ ∃ a l, HasVert L l ∧ r = apart (image (M a) (f l)) (f (t a l))) ∧ (r = 0 ↔ Symmetric (HasVert L) M t f) := by
  have hsym : ∀ s, s ∈ G.sym → ∃ (a : K) (s' : Sym), s = some s' ∧ s'.transform = M a ∧ ∀ l, HasVert L l → Plc.sent s' l = some (t a l) := by
    intro s hs
    obtain ⟨i, hi, rfl⟩ := List.getElem_of_mem hs
    obtain ⟨s', h1, h2, h3⟩ := hG.sym ⟨i, by rw [← hG.size]; exact hi⟩
    simp only at h1
    rw [List.getElem?_eq_getElem hi] at h1
    exact ⟨_, s', Option.some.inj h1, h2, h3⟩
  have hck : ∀ s, some s ∈ G.sym → ∃ (a : K) (r : ℝ), (s.transform = M a ∧ ∀ l, HasVert L l → Plc.sent s l = some (t a l)) ∧
      symmetryCheck L L.get (some s) = .ok r ∧
      (∀ l, HasVert L l → apart (image (M a) (f l)) (f (t a l)) ≤ r) ∧ (r = 0 ∨ ∃ l, HasVert L l ∧ r = apart (image (M a) (f l)) (f (t a l))) := by
    intro s hs
    obtain ⟨a, s', h0, h1, h2⟩ := hsym _ hs
    cases h0
    obtain ⟨r, r1, r2, r3⟩ := C92_check L f hf s (t a) (fun l hl => ⟨hG.stays a l hl, h2 l hl⟩)
    rw [h1] at r2 r3
    exact ⟨a, r, ⟨h1, h2⟩, r1, r2, r3⟩
  classical
  obtain ⟨R, hR⟩ : ∃ R : Sym → ℝ, ∀ s, some s ∈ G.sym → ∃ (a : K), (s.transform = M a ∧ ∀ l, HasVert L l → Plc.sent s l = some (t a l)) ∧
      symmetryCheck L L.get (some s) = .ok (R s) ∧
      (∀ l, HasVert L l → apart (image (M a) (f l)) (f (t a l)) ≤ R s) ∧ (R s = 0 ∨ ∃ l, HasVert L l ∧ R s = apart (image (M a) (f l)) (f (t a l))) := by
    refine ⟨fun s => if h : some s ∈ G.sym then (hck s h).choose_spec.choose else 0, ?_⟩
    intro s hs
    simp only [hs, dif_pos]
    exact ⟨_, (hck s hs).choose_spec.choose_spec⟩
  obtain ⟨r, r1, r2, r3, r4⟩ := groupCheckLoop_ok L L.get R G.sym 0 (fun s hs => by obtain ⟨_, _, h, _⟩ := hR s hs; exact h)
    (by intro s hs h; obtain ⟨_, _, h', _⟩ := hsym s hs; rw [h] at h'; simp at h')
  have hall : ∀ a l, HasVert L l → apart (image (M a) (f l)) (f (t a l)) ≤ r := by
    intro a l hl
    obtain ⟨s, s1, s2, s3⟩ := hG.sym (e.symm a)
    rw [Equiv.apply_symm_apply] at s2 s3
    have hmem : some s ∈ G.sym := List.mem_of_getElem? s1
    obtain ⟨b, ⟨b1, b2⟩, _, b3, _⟩ := hR s hmem
    have e1 : t a l = t b l := by
      have := b2 l hl
      rw [s3 l hl] at this
      exact Option.some.inj this
    have := b3 l hl
    rw [← b1, s2, ← e1] at this
    exact le_trans this (r3 s hmem)
  refine ⟨r, r1, hall, ?_, ?_⟩
  · rcases r4 with r4 | ⟨s, hs, r4⟩
    · exact .inl r4
    · obtain ⟨a, _, _, _, h | ⟨l, hl, h⟩⟩ := hR s hs
      · exact .inl (by rw [r4, h])
      · exact .inr ⟨a, l, hl, by rw [r4, h]⟩
  · constructor
    · intro h0 a l hl
      have h1 := hall a l hl
      rw [h0] at h1
      exact (apart_zero (le_antisymm h1 (apart_nonneg _ _))).symm
    · intro hs
      have hz : ∀ a l, HasVert L l → apart (image (M a) (f l)) (f (t a l)) = 0 := by
        intro a l hl
        rw [hs a l hl, apart_self]
      rcases r4 with r4 | ⟨s, hs, r4⟩
      · exact r4
      · obtain ⟨a, _, _, _, h | ⟨l, hl, h⟩⟩ := hR s hs
        · rw [r4, h]
        · rw [r4, h, hz a l hl]

/-- **C92.** Without a group nothing is changed, and nothing is wrong. -/
theorem C92_no_group (L : SCurve) (buf : List V3) : symmetrize L none = .ok L ∧ symmetrizeVariation L buf none = .ok buf ∧
    groupCheck L L.get none = .ok 0 := ⟨rfl, rfl, rfl⟩

end Plc.Symmetry
