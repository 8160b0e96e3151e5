import Verif.Spec.Symmetry
import Verif.Props.Vertex
import Verif.Proofs.Nearest

/-! # Lemmas about symmetries of curves: symmetrizing -/

namespace Plc.Symmetry

open Plc.Core Plc.FindCrossings Plc.RandomPolygon Plc.Equilateral Plc.Motions Plc.Measure Plc.Nearest

theorem app_image (A : Mat) (p : V3) : A.app p = image A p := rfl

theorem rd2_sent {s : Sym} {l m : Loc} (h : sent s l = some m) : rd2 s.target l = .ok m := by
  unfold sent at h
  rcases h1 : s.target[l.1]? with _ | row
  · rw [h1] at h; simp at h
  · rw [h1] at h
    simp only [Option.bind_some] at h
    unfold rd2
    rw [rd_ok h1, ok_bind, rd_ok h]

theorem get_eq {L : SCurve} {l : Loc} {p : V3} (h : vert L l = some p) : L.get l = .ok p := by
  unfold vert at h
  rcases h1 : L.cp[l.1]? with _ | c
  · rw [h1] at h; simp at h
  · rw [h1] at h
    simp only [Option.bind_some] at h
    unfold SCurve.get
    rw [rd_ok h1, ok_bind, rd_ok h]

theorem mem_locs (L : SCurve) (l : Loc) : l ∈ L.locs ↔ HasVert L l := by
  unfold SCurve.locs HasVert vert
  rw [List.mem_flatMap]
  constructor
  · rintro ⟨⟨c, i⟩, hc, hl⟩
    obtain ⟨v, hv, rfl⟩ := List.mem_map.mp hl
    have hc' := List.mem_zipIdx_iff_getElem?.mp hc
    have hv := List.mem_range.mp hv
    refine ⟨c.vt[v], ?_⟩
    simp only at hc' ⊢
    rw [hc', Option.bind_some, List.getElem?_eq_getElem hv]
  · rintro ⟨p, hp⟩
    rcases h1 : L.cp[l.1]? with _ | c
    · rw [h1] at hp; simp at hp
    · rw [h1, Option.bind_some] at hp
      refine ⟨(c, l.1), List.mem_zipIdx_iff_getElem?.mpr h1, List.mem_map.mpr ⟨l.2, List.mem_range.mpr ?_, rfl⟩⟩
      exact (List.getElem?_eq_some_iff.mp hp).1

theorem isVertex {L : SCurve} {l : Loc} (h : HasVert L l) : Vtx.IsVertex L.strands l.1 (l.2 : Int) := by
  obtain ⟨p, hp⟩ := h
  unfold vert at hp
  rcases h1 : L.cp[l.1]? with _ | c
  · rw [h1] at hp; simp at hp
  · rw [h1, Option.bind_some] at hp
    have := (List.getElem?_eq_some_iff.mp hp).1
    refine ⟨⟨c.vt.length, c.isOpen⟩, ?_, by omega, by simpa using this⟩
    unfold SCurve.strands
    rw [List.getElem?_map, h1]; rfl

/-- The numbers of the vertices. -/
structure Numbers (V : Loc → Prop) (size : Nat) (num : Loc → Res Nat) : Prop where
  ok : ∀ l, V l → ∃ k, num l = .ok k ∧ k < size
  inj : ∀ l m k, V l → V m → num l = .ok k → num m = .ok k → l = m

theorem num_numbers (L : SCurve) : Numbers (HasVert L) L.size L.num := by
  have key : ∀ l, HasVert L l → ∃ w : Int, Vtx.vertexNum L.strands l.1 (l.2 : Int) = .ok w ∧ 0 ≤ w ∧ w < Vtx.numVerts L.strands := by
    intro l hl
    obtain ⟨w, h1, h2, h3, _⟩ := C45_pair L.strands l.1 l.2 (isVertex hl)
    exact ⟨w, h1, h2, h3⟩
  constructor
  · intro l hl
    obtain ⟨w, h1, h2, h3⟩ := key l hl
    refine ⟨w.toNat, ?_, ?_⟩
    · unfold SCurve.num
      rw [h1, ok_bind, if_neg (by omega)]
    · unfold SCurve.size; omega
  · intro l m k hl hm h1 h2
    obtain ⟨w, a1, a2, a3⟩ := key l hl
    obtain ⟨x, b1, b2, b3⟩ := key m hm
    unfold SCurve.num at h1 h2
    rw [a1, ok_bind, if_neg (by omega)] at h1
    rw [b1, ok_bind, if_neg (by omega)] at h2
    have e1 : w.toNat = k := by injection h1
    have e2 : x.toNat = k := by injection h2
    have hwx : w = x := by omega
    obtain ⟨c1, c2⟩ := C45_injective L.strands l.1 m.1 l.2 m.2 (isVertex hl) (isVertex hm) (by rw [a1, b1, hwx])
    exact Prod.ext c1 (by omega)

/-- Something vertices can be read from and written to. -/
structure Store (S : Type) (V : Loc → Prop) (Good : S → Prop) (get : S → Loc → Res V3) (set : S → Loc → V3 → Res S) : Prop where
  set_ok : ∀ s l p, Good s → V l → ∃ s', set s l p = .ok s' ∧ Good s' ∧ get s' l = .ok p ∧ ∀ m, V m → m ≠ l → get s' m = get s m

variable {K : Type} [Group K] {n : Nat} {V : Loc → Prop} {G : SymGroup} {e : Fin n ≃ K} {M : K → Mat} {t : K → Loc → Loc}

theorem at_ok (hG : Acts V G e M t) (i : Fin n) : ∃ s, G.at i = .ok s ∧ s.transform = M (e i) ∧ ∀ l, V l → rd2 s.target l = .ok (t (e i) l) := by
  obtain ⟨s, h1, h2, h3⟩ := hG.sym i
  refine ⟨s, ?_, h2, fun l hl => rd2_sent (h3 l hl)⟩
  unfold SymGroup.at
  rw [rd_ok h1]

/-- What element `a` adds to the average. -/
noncomputable def part (M : K → Mat) (t : K → Loc → Loc) (f : Loc → V3) (l : Loc) (a : K) : V3 := image (M a⁻¹) (f (t a l))

/-- The average over the orbit. -/
noncomputable def avg [Fintype K] (M : K → Mat) (t : K → Loc → Loc) (f : Loc → V3) (l : Loc) : V3 := mean fun a => part M t f l a

theorem avgLoop_ok (hG : Acts V G e M t) (get : Loc → Res V3) (f : Loc → V3) (l : Loc) (hl : V l)
    (hf : ∀ a, get (t a l) = .ok (f (t a l))) :
    ∀ (k i : Nat) (acc : V3), i + k = n → ∃ r : V3, avgLoop G get l k i acc = .ok r ∧
      r.x = acc.x + 1 / (n : ℝ) * ∑ j ∈ Finset.univ.filter (fun j : Fin n => i ≤ j), (part M t f l (e j)).x ∧
      r.y = acc.y + 1 / (n : ℝ) * ∑ j ∈ Finset.univ.filter (fun j : Fin n => i ≤ j), (part M t f l (e j)).y ∧
      r.z = acc.z + 1 / (n : ℝ) * ∑ j ∈ Finset.univ.filter (fun j : Fin n => i ≤ j), (part M t f l (e j)).z := by
  intro k
  induction k with
  | zero =>
    intro i acc hi
    have : Finset.univ.filter (fun j : Fin n => i ≤ j) = ∅ := by
      ext j; simp; omega
    refine ⟨acc, rfl, ?_, ?_, ?_⟩ <;> rw [this] <;> simp
  | succ k ih =>
    intro i acc hi
    have hin : i < n := by omega
    obtain ⟨s, h1, _, h3⟩ := at_ok hG ⟨i, hin⟩
    obtain ⟨s', k1, k2, _⟩ := at_ok hG (e.symm (e ⟨i, hin⟩)⁻¹)
    have hinv := hG.inv ⟨i, hin⟩
    simp only at h1 hinv
    have hstep : avgLoop G get l (k + 1) i acc =
        avgLoop G get l k (i + 1) (add acc (V3.scale (1 / (n : ℝ)) (part M t f l (e ⟨i, hin⟩)))) := by
      conv_lhs => unfold avgLoop
      rw [h1, ok_bind, h3 l hl, ok_bind, rd_ok hinv, ok_bind, k1, ok_bind, hf, ok_bind, hG.size, k2]
      simp only [Equiv.apply_symm_apply]
      rfl
    obtain ⟨r, r1, r2, r3, r4⟩ := ih (i + 1) (add acc (V3.scale (1 / (n : ℝ)) (part M t f l (e ⟨i, hin⟩)))) (by omega)
    have hset : Finset.univ.filter (fun j : Fin n => i ≤ j) = insert ⟨i, hin⟩ (Finset.univ.filter (fun j : Fin n => i + 1 ≤ j)) := by
      ext j
      simp only [Finset.mem_filter, Finset.mem_univ, true_and, Finset.mem_insert, Fin.ext_iff]
      omega
    have hnot : (⟨i, hin⟩ : Fin n) ∉ Finset.univ.filter (fun j : Fin n => i + 1 ≤ j) := by simp
    refine ⟨r, by rw [hstep]; exact r1, ?_, ?_, ?_⟩ <;> rw [hset, Finset.sum_insert hnot]
    · rw [r2]; simp only [add, V3.scale]; ring
    · rw [r3]; simp only [add, V3.scale]; ring
    · rw [r4]; simp only [add, V3.scale]; ring

theorem avgLoop_eq [Fintype K] (hG : Acts V G e M t) (get : Loc → Res V3) (f : Loc → V3) (l : Loc) (hl : V l)
    (hf : ∀ a, get (t a l) = .ok (f (t a l))) : avgLoop G get l G.sym.length 0 ⟨0, 0, 0⟩ = .ok (avg M t f l) := by
  obtain ⟨r, h1, hx, hy, hz⟩ := avgLoop_ok hG get f l hl hf n 0 ⟨0, 0, 0⟩ (by omega)
  rw [hG.size, h1]
  have hall : Finset.univ.filter (fun j : Fin n => 0 ≤ (j : Nat)) = Finset.univ := by ext; simp
  have hc : (Fintype.card K : ℝ) = n := by rw [← Fintype.card_congr e, Fintype.card_fin]
  rw [hall] at hx hy hz
  congr 1
  refine V3.ext' ?_ ?_ ?_
  · rw [hx]; simp only [avg, mean, hc]
    rw [← Equiv.sum_comp e (fun a => (part M t f l a).x)]; ring
  · rw [hy]; simp only [avg, mean, hc]
    rw [← Equiv.sum_comp e (fun a => (part M t f l a).y)]; ring
  · rw [hz]; simp only [avg, mean, hc]
    rw [← Equiv.sum_comp e (fun a => (part M t f l a).z)]; ring

theorem image_mean [Fintype K] (A : Mat) (f : K → V3) : image A (mean f) = mean fun a => image A (f a) := by
  simp only [image, mean]
  refine V3.ext' ?_ ?_ ?_ <;>
  · simp only [Finset.sum_add_distrib, ← Finset.mul_sum]
    ring

/-- The averages are symmetric. -/
theorem avg_symmetric [Fintype K] (hG : Acts V G e M t) (f : Loc → V3) (a : K) (l : Loc) (hl : V l) :
    avg M t f (t a l) = image (M a) (avg M t f l) := by
  unfold avg
  rw [image_mean]
  have hpart : ∀ b, part M t f (t a l) b = image (M a) (part M t f l (b * a)) := by
    intro b
    unfold part
    rw [← hG.mul b a l hl, ← hG.mulM]
    congr 2
    group
  simp only [mean, hpart]
  refine V3.ext' ?_ ?_ ?_ <;> simp only <;> congr 1
  · exact Equiv.sum_comp (Equiv.mulRight a) (fun b => (image (M a) (part M t f l b)).x)
  · exact Equiv.sum_comp (Equiv.mulRight a) (fun b => (image (M a) (part M t f l b)).y)
  · exact Equiv.sum_comp (Equiv.mulRight a) (fun b => (image (M a) (part M t f l b)).z)

/-- The vertices in `C` are done, the others are as before. -/
structure Halfway (S : Type) (V : Loc → Prop) (Good : S → Prop) (get : S → Loc → Res V3) (num : Loc → Res Nat) (size : Nat)
    (f F : Loc → V3) (C : Loc → Prop) (s : S) (cov : List Bool) : Prop where
  good : Good s
  len : cov.length = size
  done : ∀ l, V l → C l → get s l = .ok (F l) ∧ ∃ k, num l = .ok k ∧ cov[k]? = some true
  rest : ∀ l, V l → ¬ C l → get s l = .ok (f l) ∧ ∃ k, num l = .ok k ∧ cov[k]? = some false

theorem pushLoop_ok {S : Type} {Good : S → Prop} {get : S → Loc → Res V3} {set : S → Loc → V3 → Res S} {num : Loc → Res Nat} {size : Nat}
    (hS : Store S V Good get set) (hN : Numbers V size num) (hG : Acts V G e M t) (f F : Loc → V3) (l : Loc) (hl : V l)
    (hF : ∀ a, image (M a) (F l) = F (t a l)) :
    ∀ (k i : Nat) (s : S) (cov : List Bool) (C : Loc → Prop), i + k = n → Halfway S V Good get num size f F C s cov →
      ∃ s' cov', pushLoop G set num l (F l) k i s cov = .ok (s', cov') ∧
        Halfway S V Good get num size f F (fun m => C m ∨ ∃ j : Fin n, i ≤ j ∧ m = t (e j) l) s' cov' := by
  intro k
  induction k with
  | zero =>
    intro i s cov C hi hP
    refine ⟨s, cov, rfl, hP.good, hP.len, ?_, ?_⟩
    · rintro m hm (h | ⟨j, hj, _⟩)
      · exact hP.done m hm h
      · have := j.2; omega
    · intro m hm h
      exact hP.rest m hm (fun c => h (.inl c))
  | succ k ih =>
    intro i s cov C hi hP
    have hin : i < n := by omega
    obtain ⟨g, h1, h2, h3⟩ := at_ok hG ⟨i, hin⟩
    simp only at h1
    obtain ⟨T, hT⟩ : ∃ T, T = t (e ⟨i, hin⟩) l := ⟨_, rfl⟩
    have hVT : V T := hT ▸ hG.stays _ _ hl
    obtain ⟨s', s1, s2, s3, s4⟩ := hS.set_ok s T (F T) hP.good hVT
    obtain ⟨m, m1, m2⟩ := hN.ok T hVT
    have hm : m < cov.length := by rw [hP.len]; exact m2
    have hstep : pushLoop G set num l (F l) (k + 1) i s cov = pushLoop G set num l (F l) k (i + 1) s' (cov.set m true) := by
      conv_lhs => unfold pushLoop
      rw [h1, ok_bind, h3 l hl, ok_bind, h2, app_image, hF, ← hT, s1, ok_bind, m1, ok_bind, wr_lt hm, ok_bind]
    have hP' : Halfway S V Good get num size f F (fun x => C x ∨ x = T) s' (cov.set m true) := by
      refine ⟨s2, by simpa using hP.len, ?_, ?_⟩
      · intro x hx hc
        by_cases hxT : x = T
        · subst hxT
          exact ⟨s3, m, m1, by simp [hm]⟩
        · have hC : C x := hc.resolve_right hxT
          obtain ⟨d1, q, d2, d3⟩ := hP.done x hx hC
          refine ⟨by rw [s4 x hx hxT]; exact d1, q, d2, ?_⟩
          rw [List.getElem?_set]
          by_cases hqm : m = q
          · exact absurd (hN.inj x T q hx hVT d2 (hqm ▸ m1)) hxT
          · rw [if_neg hqm]; exact d3
      · intro x hx hc
        have hxT : x ≠ T := fun h => hc (.inr h)
        obtain ⟨d1, q, d2, d3⟩ := hP.rest x hx (fun h => hc (.inl h))
        refine ⟨by rw [s4 x hx hxT]; exact d1, q, d2, ?_⟩
        rw [List.getElem?_set]
        by_cases hqm : m = q
        · exact absurd (hN.inj x T q hx hVT d2 (hqm ▸ m1)) hxT
        · rw [if_neg hqm]; exact d3
    obtain ⟨s'', cov'', r1, r2⟩ := ih (i + 1) s' (cov.set m true) (fun x => C x ∨ x = T) (by omega) hP'
    refine ⟨s'', cov'', by rw [hstep]; exact r1, r2.good, r2.len, ?_, ?_⟩
    · intro x hx hc
      refine r2.done x hx ?_
      rcases hc with hc | ⟨j, hj, hxj⟩
      · exact .inl (.inl hc)
      · rcases Nat.eq_or_lt_of_le hj with h | h
        · refine .inl (.inr ?_)
          have hji : j = ⟨i, hin⟩ := Fin.ext h.symm
          rw [hxj, hT, hji]
        · exact .inr ⟨j, h, hxj⟩
    · intro x hx hc
      refine r2.rest x hx ?_
      rintro ((h | h) | ⟨j, hj, hxj⟩)
      · exact hc (.inl h)
      · exact hc (.inr ⟨⟨i, hin⟩, le_refl _, h.trans hT⟩)
      · exact hc (.inr ⟨j, by omega, hxj⟩)

theorem symLoop_ok [Fintype K] {S : Type} {Good : S → Prop} {get : S → Loc → Res V3} {set : S → Loc → V3 → Res S} {num : Loc → Res Nat}
    {size : Nat} (hS : Store S V Good get set) (hN : Numbers V size num) (hG : Acts V G e M t) (f : Loc → V3) :
    ∀ (ls : List Loc) (s : S) (cov : List Bool) (C : Loc → Prop), (∀ l ∈ ls, V l) → (∀ a l, V l → C l → C (t a l)) →
      Halfway S V Good get num size f (avg M t f) C s cov →
      ∃ s' cov' C', symLoop G get set num ls s cov = .ok s' ∧ Halfway S V Good get num size f (avg M t f) C' s' cov' ∧
        (∀ l, C l → C' l) ∧ ∀ l ∈ ls, C' l := by
  intro ls
  induction ls with
  | nil =>
    intro s cov C _ _ hP
    exact ⟨s, cov, C, rfl, hP, fun _ h => h, by simp⟩
  | cons l ls ih =>
    intro s cov C hV hC hP
    have hl := hV l List.mem_cons_self
    have hV' : ∀ m ∈ ls, V m := fun m hm => hV m (List.mem_cons_of_mem _ hm)
    by_cases hc : C l
    · obtain ⟨_, k, k1, k2⟩ := hP.done l hl hc
      obtain ⟨s', cov', C', r1, r2, r3, r4⟩ := ih s cov C hV' hC hP
      refine ⟨s', cov', C', ?_, r2, r3, ?_⟩
      · unfold symLoop
        rw [k1, ok_bind, rd_ok k2, ok_bind, if_pos rfl]
        exact r1
      · intro m hm
        rcases List.mem_cons.mp hm with rfl | hm
        · exact r3 _ hc
        · exact r4 m hm
    · obtain ⟨_, k, k1, k2⟩ := hP.rest l hl hc
      have hback : ∀ a, ¬ C (t a l) := by
        intro a h
        have := hC a⁻¹ (t a l) (hG.stays a l hl) h
        rw [← hG.mul _ _ l hl, inv_mul_cancel, hG.one l hl] at this
        exact hc this
      have ha : avgLoop G (get s) l G.sym.length 0 ⟨0, 0, 0⟩ = .ok (avg M t f l) :=
        avgLoop_eq hG (get s) f l hl (fun a => (hP.rest (t a l) (hG.stays a l hl) (hback a)).1)
      obtain ⟨s1, cov1, p1, p2⟩ := pushLoop_ok hS hN hG f (avg M t f) l hl (fun a => (avg_symmetric hG f a l hl).symm) n 0 s cov C (by omega) hP
      obtain ⟨s', cov', C', r1, r2, r3, r4⟩ := ih s1 cov1 _ hV' (by
        rintro a m hm (h | ⟨j, _, hj⟩)
        · exact .inl (hC a m hm h)
        · refine .inr ⟨e.symm (a * e j), by omega, ?_⟩
          rw [hj, Equiv.apply_symm_apply, hG.mul _ _ l hl]) p2
      refine ⟨s', cov', C', ?_, r2, fun m h => r3 m (.inl h), ?_⟩
      · unfold symLoop
        rw [k1, ok_bind, rd_ok k2, ok_bind, if_neg (by simp), ha, ok_bind, hG.size, p1, ok_bind]
        exact r1
      · intro m hm
        rcases List.mem_cons.mp hm with rfl | hm
        · refine r3 _ (.inr ⟨e.symm 1, by omega, ?_⟩)
          rw [Equiv.apply_symm_apply, hG.one _ hl]
        · exact r4 m hm

theorem symLoop_all [Fintype K] {S : Type} {Good : S → Prop} {get : S → Loc → Res V3} {set : S → Loc → V3 → Res S} {num : Loc → Res Nat}
    {size : Nat} (hS : Store S V Good get set) (hN : Numbers V size num) (hG : Acts V G e M t) (f : Loc → V3) (ls : List Loc)
    (hls : ∀ l, l ∈ ls ↔ V l) (s : S) (hs : Good s) (hf : ∀ l, V l → get s l = .ok (f l)) :
    ∃ s', symLoop G get set num ls s (List.replicate size false) = .ok s' ∧ Good s' ∧ ∀ l, V l → get s' l = .ok (avg M t f l) := by
  obtain ⟨s', cov', C', r1, r2, _, r4⟩ := symLoop_ok hS hN hG f ls s (List.replicate size false) (fun _ => False) (fun l h => (hls l).mp h)
    (fun _ _ _ h => h.elim) ⟨hs, by simp, fun _ _ h => h.elim, fun l hl _ => by
      obtain ⟨k, k1, k2⟩ := hN.ok l hl
      exact ⟨hf l hl, k, k1, by simp [k2]⟩⟩
  exact ⟨s', r1, r2.good, fun l hl => (r2.done l hl (r4 l ((hls l).mpr hl))).1⟩

theorem get_of {L : SCurve} {l : Loc} {p : V3} (h : L.get l = .ok p) : vert L l = some p := by
  unfold SCurve.get at h
  obtain ⟨c, h1, h2⟩ := bind_ok_iff.mp h
  unfold vert
  rw [rd_eq_ok.mp h1, Option.bind_some]
  exact rd_eq_ok.mp h2

theorem vert_eq {L : SCurve} {l : Loc} {p : V3} : vert L l = some p ↔ ∃ c, L.cp[l.1]? = some c ∧ c.vt[l.2]? = some p := by
  unfold vert
  rcases h1 : L.cp[l.1]? with _ | c <;> simp

theorem _root_.Plc.SameFrame.refl (L : SCurve) : SameFrame L L := by
  refine ⟨rfl, rfl, ?_⟩
  intro i c c' h h'
  rw [h] at h'
  cases h'
  exact ⟨rfl, rfl, rfl, rfl, rfl⟩

theorem _root_.Plc.SameFrame.hasVert {L L' : SCurve} (h : SameFrame L L') {l : Loc} (hl : HasVert L l) : HasVert L' l := by
  obtain ⟨p, hp⟩ := hl
  obtain ⟨c, hc, hv⟩ := vert_eq.mp hp
  have h1 : l.1 < L'.cp.length := by rw [h.2.1]; exact (List.getElem?_eq_some_iff.mp hc).1
  have hf := h.2.2 l.1 c L'.cp[l.1] hc (List.getElem?_eq_getElem h1)
  have h2 : l.2 < L'.cp[l.1].vt.length := by rw [hf.2.2.1]; exact (List.getElem?_eq_some_iff.mp hv).1
  exact ⟨_, vert_eq.mpr ⟨_, List.getElem?_eq_getElem h1, List.getElem?_eq_getElem h2⟩⟩

theorem curve_store (L : SCurve) : Store SCurve (HasVert L) (SameFrame L) SCurve.get SCurve.set := by
  constructor
  intro s l p hs hl
  obtain ⟨q, hq⟩ := hs.hasVert hl
  obtain ⟨c, hc, hv⟩ := vert_eq.mp hq
  have hi : l.1 < s.cp.length := (List.getElem?_eq_some_iff.mp hc).1
  have hj : l.2 < c.vt.length := (List.getElem?_eq_some_iff.mp hv).1
  refine ⟨{ s with cp := s.cp.set l.1 { c with vt := c.vt.set l.2 p } }, ?_, ?_, ?_, ?_⟩
  · unfold SCurve.set
    rw [rd_ok hc, ok_bind, wr_lt hj, ok_bind, wr_lt hi, ok_bind]
  · refine ⟨hs.1, by simpa using hs.2.1, ?_⟩
    intro i d d' h h'
    simp only [List.getElem?_set] at h'
    by_cases hil : l.1 = i
    · rw [if_pos hil, if_pos (by omega)] at h'
      cases h'
      have := hs.2.2 l.1 d c (hil ▸ h) hc
      simpa using this
    · rw [if_neg hil] at h'
      exact hs.2.2 i d d' h h'
  · apply get_eq
    refine vert_eq.mpr ⟨{ c with vt := c.vt.set l.2 p }, ?_, ?_⟩
    · simp [hi]
    · simp [hj]
  · intro m _ hml
    unfold SCurve.get
    simp only [rd, List.getElem?_set]
    by_cases hil : l.1 = m.1
    · have h2 : l.2 ≠ m.2 := fun h => hml (Prod.ext hil.symm h.symm)
      rw [if_pos hil, if_pos (by omega), ← hil, hc]
      simp only [ok_bind, List.getElem?_set, if_neg h2]
    · rw [if_neg hil]

theorem buf_store (L : SCurve) : Store (List V3) (HasVert L) (fun b => b.length = L.size) (bufGet L) (bufSet L) := by
  constructor
  intro s l p hs hl
  have hN := num_numbers L
  obtain ⟨k, k1, k2⟩ := hN.ok l hl
  have hk : k < s.length := by omega
  refine ⟨s.set k p, ?_, by simpa using hs, ?_, ?_⟩
  · unfold bufSet; rw [k1, ok_bind, wr_lt hk]
  · unfold bufGet; rw [k1, ok_bind]; exact rd_ok (by simp [hk])
  · intro m hm hml
    obtain ⟨q, q1, q2⟩ := hN.ok m hm
    unfold bufGet
    rw [q1, ok_bind, ok_bind]
    have : k ≠ q := fun h => hml (hN.inj m l q hm hl q1 (h ▸ k1))
    simp only [rd, List.getElem?_set, if_neg this]

/-- The vertices as a function. -/
def vertAt (L : SCurve) (l : Loc) : V3 := (vert L l).getD ⟨0, 0, 0⟩

theorem vertAt_eq {L : SCurve} {l : Loc} (h : HasVert L l) : vert L l = some (vertAt L l) := by
  obtain ⟨p, hp⟩ := h
  unfold vertAt
  rw [hp]; rfl

theorem symmetrize_ok [Fintype K] (L : SCurve) (hG : Acts (HasVert L) G e M t) :
    ∃ L', symmetrize L (some G) = .ok L' ∧ SameFrame L L' ∧ ∀ l, HasVert L l → vert L' l = some (avg M t (vertAt L) l) := by
  obtain ⟨L', h1, h2, h3⟩ := symLoop_all (curve_store L) (num_numbers L) hG (vertAt L) L.locs (mem_locs L) L (SameFrame.refl L)
    (fun l hl => get_eq (vertAt_eq hl))
  exact ⟨L', h1, h2, fun l hl => get_of (h3 l hl)⟩

theorem symmetrizeVariation_ok [Fintype K] (L : SCurve) (buf : List V3) (f : Loc → V3) (hb : buf.length = L.size)
    (hf : ∀ l, HasVert L l → bufGet L buf l = .ok (f l)) (hG : Acts (HasVert L) G e M t) :
    ∃ buf', symmetrizeVariation L buf (some G) = .ok buf' ∧ buf'.length = L.size ∧
      ∀ l, HasVert L l → bufGet L buf' l = .ok (avg M t f l) :=
  symLoop_all (buf_store L) (num_numbers L) hG f L.locs (mem_locs L) buf hb hf

theorem mean_const [Fintype K] (f : K → V3) (p : V3) (h : ∀ a, f a = p) : mean f = p := by
  have hc : (Fintype.card K : ℝ) ≠ 0 := by
    have : 0 < Fintype.card K := Fintype.card_pos_iff.mpr ⟨1⟩
    positivity
  simp only [mean, h, Finset.sum_const, Finset.card_univ, nsmul_eq_mul]
  refine V3.ext' ?_ ?_ ?_ <;> field_simp

theorem avg_fixed [Fintype K] (hG : Acts V G e M t) (f : Loc → V3) (hf : Symmetric V M t f) (l : Loc) (hl : V l) : avg M t f l = f l := by
  unfold avg
  apply mean_const
  intro a
  unfold part
  rw [hf a l hl, ← hG.mulM, inv_mul_cancel, hG.oneM]

theorem toE_mean [Fintype K] (f : K → V3) : toE (mean f) = (1 / (Fintype.card K : ℝ)) • ∑ a, toE (f a) := by
  ext i
  fin_cases i <;> simp [toE, mean, div_eq_inv_mul]

theorem mean_near [Fintype K] (f : K → V3) (p : V3) (d : ℝ) (h : ∀ a, apart (f a) p ≤ d) : apart (mean f) p ≤ d := by
  have hc : (0 : ℝ) < Fintype.card K := by
    have : 0 < Fintype.card K := Fintype.card_pos_iff.mpr ⟨1⟩
    positivity
  rw [apart_eq, dist_eq_norm, toE_mean]
  have : (1 / (Fintype.card K : ℝ)) • ∑ a, toE (f a) - toE p = (1 / (Fintype.card K : ℝ)) • ∑ a, (toE (f a) - toE p) := by
    rw [Finset.sum_sub_distrib, smul_sub, Finset.sum_const, Finset.card_univ, ← Nat.cast_smul_eq_nsmul ℝ, smul_smul,
      one_div_mul_cancel hc.ne', one_smul]
  rw [this, norm_smul]
  have h1 : ‖∑ a, (toE (f a) - toE p)‖ ≤ Fintype.card K * d := by
    refine (norm_sum_le _ _).trans ?_
    rw [← nsmul_eq_mul, ← Finset.card_univ]
    refine Finset.sum_le_card_nsmul _ _ _ ?_
    intro a _
    rw [← dist_eq_norm, ← apart_eq]
    exact h a
  rw [Real.norm_eq_abs, abs_of_pos (by positivity), one_div, inv_mul_le_iff₀ hc]
  exact h1

/-- No vertex moves further than the symmetries fail. -/
theorem avg_near [Fintype K] (hG : Acts V G e M t) (f : Loc → V3) (d : ℝ) (hr : ∀ a, Rigid (M a)) (l : Loc) (hl : V l)
    (h : ∀ a, apart (image (M a) (f l)) (f (t a l)) ≤ d) : apart (avg M t f l) (f l) ≤ d := by
  apply mean_near
  intro a
  unfold part
  have : f l = image (M a⁻¹) (image (M a) (f l)) := by rw [← hG.mulM, inv_mul_cancel, hG.oneM]
  conv_lhs => rw [this]
  rw [hr, apart_comm]
  exact h a

end Plc.Symmetry
