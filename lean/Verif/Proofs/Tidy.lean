import Verif.Proofs.Ok
import Verif.Proofs.Distinct
import Verif.Proofs.Regenerate
import Verif.Props.Regenerate

/-! # What `pd_regenerate` leaves behind -/

namespace Plc

open Plc.Core Plc.Cmp Plc.Regenerate Plc.Faces Plc.Ok

/-- A plane diagram whose records are all in the state `pd_regenerate` leaves them in. -/
structure Tidy (cross : List Cross) (edge : List Edge) (comps : List Comp) (faces : List Face) : Prop where
  plane : PlaneDiagram cross edge
  canonical : Canonical cross
  goodComps : GoodComps cross edge comps
  goodFaces : GoodFaces cross edge faces
  sorted : faces.Pairwise FaceBefore
  small : 2 * edge.length < 2 ^ 31

namespace Ok

variable {cross : List Cross} {edge : List Edge}

theorem mem_permute {α : Type} {l : List α} : ∀ {ps : List Nat} {r : List α}, permute l ps = .ok r → ∀ x ∈ r, x ∈ l
  | [], r, h, x, hx => by
    rw [permute] at h
    cases h
    cases hx
  | p :: ps, r, h, x, hx => by
    rw [permute] at h
    simp only [bind_ok_iff] at h
    obtain ⟨a, ha, b, hb, h⟩ := h
    cases h
    rcases List.mem_cons.mp hx with rfl | hx
    · exact List.mem_of_getElem? (rd_eq_ok.mp ha)
    · exact mem_permute hb x hx

theorem regenCrossings_members {qs : QSort} {c1 : List Cross} {e1 : List Edge}
    (h : regenCrossings qs cross edge = .ok (c1, e1)) : ∀ x ∈ c1, ∃ y, x = canonorderCross y .pos := by
  unfold regenCrossings at h
  simp only [bind_ok_iff] at h
  obtain ⟨a, _, b, _, d, _, f, hf, h⟩ := h
  cases h
  intro x hx
  obtain ⟨y, _, rfl⟩ := List.mem_map.mp (mem_permute hf x hx)
  refine ⟨y, ?_⟩
  unfold canonorderCross
  simp

theorem faces_small {faces : List Face} (hF : GoodFaces cross edge faces) (hs : 2 * edge.length < 2 ^ 31) :
    ∀ f ∈ faces, Small f.edge ∧ f.edge.length < 2 ^ 31 := by
  intro f hf
  constructor
  · intro x hx
    have h1 : f.edge = (sides f).map Prod.fst := by
      rw [sides, List.map_fst_zip (hF.shape f hf).1.le]
    rw [h1] at hx
    obtain ⟨d, hd, rfl⟩ := List.mem_map.mp hx
    have := (mem_D.mp (Shape.sides_mem hF hf hd)).1
    omega
  · have h1 := Shape.sides_length hF hf
    have h2 : (sides f).length ≤ (faces.flatMap sides).length := by
      rw [List.length_flatMap]
      exact List.single_le_sum (by simp) _ (List.mem_map_of_mem (f := fun x => (sides x).length) hf)
    have h3 := hF.all.length_eq
    have h4 : (allSides edge.length).length = 2 * edge.length := by
      unfold allSides
      simp
      omega
    omega

theorem sort_before (qs : QSort) {fs : List Face} (hb : ∀ f ∈ fs, Small f.edge ∧ f.edge.length < 2 ^ 31) :
    (qs.sort faceLe fs).Pairwise FaceBefore := by
  have hperm := qs.perm faceLe fs
  have hsorted := qs.sorted faceLe fs
    (by
      intro a b ha hb'
      simp only [faceLe, Bool.or_eq_true, decide_eq_true_eq, faceCmp_iff (hb a ha) (hb b hb'), faceCmp_iff (hb b hb') (hb a ha)]
      unfold FaceBefore
      rcases Nat.lt_trichotomy a.edge.length b.edge.length with h | h | h
      · exact Or.inr (Or.inl h)
      · rcases le_total a.edge b.edge with q | q
        · exact Or.inl (Or.inr ⟨h, not_lt.mpr q⟩)
        · exact Or.inr (Or.inr ⟨h.symm, not_lt.mpr q⟩)
      · exact Or.inl (Or.inl h))
    (by
      intro a b c ha hb' hc h1 h2
      simp only [faceLe, decide_eq_true_eq, faceCmp_iff (hb a ha) (hb b hb'), faceCmp_iff (hb b hb') (hb c hc),
        faceCmp_iff (hb a ha) (hb c hc)] at *
      exact FaceBefore.trans h1 h2)
  refine List.Pairwise.imp_of_mem ?_ hsorted
  intro a b ha hb' h
  simp only [faceLe, decide_eq_true_eq] at h
  exact (faceCmp_iff (hb a (hperm.mem_iff.mp ha)) (hb b (hperm.mem_iff.mp hb'))).mp h

theorem regenFaces_sorted {qs : QSort} {maxfaces : Nat} {faces : List Face} (h : regenFaces qs maxfaces cross edge = .ok faces)
    (hF : GoodFaces cross edge faces) (hs : 2 * edge.length < 2 ^ 31) : faces.Pairwise FaceBefore := by
  unfold regenFaces at h
  simp only [bind_ok_iff] at h
  obtain ⟨_, _, _, _, _, _, _, _, fs, _, h⟩ := h
  split at h
  · cases h
  · cases h
    refine sort_before qs ?_
    intro f hf
    exact faces_small hF hs f ((qs.perm faceLe fs).mem_iff.mpr hf)

theorem regenerate_tidy {qs : QSort} {me mc mf : Nat} {cross' : List Cross} {edge' : List Edge} {comps : List Comp}
    {faces : List Face} (h : regenerate qs me mc mf cross edge = .ok (cross', edge', comps, faces))
    (hP : PlaneDiagram cross' edge') (hS : SortedCross cross') (hK : GoodComps cross' edge' comps)
    (hF : GoodFaces cross' edge' faces) (hs : 2 * edge'.length < 2 ^ 31) : Tidy cross' edge' comps faces := by
  unfold regenerate at h
  simp only [bind_ok_iff] at h
  obtain ⟨⟨c1, e1⟩, _, ⟨c2, e2⟩, _, ⟨c3, e3, k3⟩, h3, f3, h4, h⟩ := h
  cases h
  refine ⟨hP, ?_, hK, hF, regenFaces_sorted h4 hF hs, hs⟩
  refine Distinct.canonical_of hP hS ?_
  unfold Comps.regenComps at h3
  simp only [bind_ok_iff] at h3
  obtain ⟨_, _, _, _, _, _, _, _, _, _, _, _, _, _, _, _, _, _, ⟨c4, e4⟩, h5, h6⟩ := h3
  cases h6
  exact regenCrossings_members h5

end Ok

end Plc
