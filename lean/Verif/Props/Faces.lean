import Verif.Proofs.Faces
import Verif.Spec.Examples
import Mathlib.Logic.Relation
import Batteries.Lean.Except

/-! # C22: faces -/

namespace Plc

open Plc.Faces Plc.Core Plc.Cmp Plc.Places Plc.Orbit

/-- A face running along edge `s.1` in direction `s.2` arrives at place `k` of crossing `c`. -/
def SideEnds (edge : List Edge) (s : Nat × Or) (c k : Nat) : Prop :=
  ∃ r, edge[s.1]? = some r ∧ ((s.2 = .pos ∧ r.head = c ∧ r.headpos = k) ∨
    (s.2 = .neg ∧ r.tail = c ∧ r.tailpos = k))

/-- It starts from place `k` of crossing `c`. -/
def SideBegins (edge : List Edge) (s : Nat × Or) (c k : Nat) : Prop :=
  ∃ r, edge[s.1]? = some r ∧ ((s.2 = .pos ∧ r.tail = c ∧ r.tailpos = k) ∨
    (s.2 = .neg ∧ r.head = c ∧ r.headpos = k))

/-- A face turns from one side into another at a crossing: into the edge clockwise next to the one it came
along, so that the face is on the left. -/
def Turns (edge : List Edge) (s t : Nat × Or) : Prop :=
  ∃ c k, SideEnds edge s c k ∧ SideBegins edge t c ((k + 3) % 4)

/-- The sides of a face in order. -/
def sides (f : Face) : List (Nat × Or) := f.edge.zip f.orient

/-- All sides of all edges. -/
def allSides (m : Nat) : List (Nat × Or) :=
  (List.range m).map (fun e => (e, Or.pos)) ++ (List.range m).map (fun e => (e, Or.neg))

namespace Faces

theorem sideEnds_iff {edge : List Edge} {d : Dart} {c k : Nat} :
    SideEnds edge d c k ↔ d ∈ D edge ∧ endp edge d = (c, k) := by
  rw [mem_D]
  unfold SideEnds endp
  constructor
  · rintro ⟨r, h1, h2⟩
    obtain ⟨hlt, rfl⟩ := List.getElem?_eq_some_iff.mp h1
    rcases h2 with ⟨h2, h3, h4⟩ | ⟨h2, h3, h4⟩
    · refine ⟨⟨hlt, Or.inl h2⟩, ?_⟩
      rw [if_pos h2, getElem!_pos edge d.1 hlt, hd, h3, h4]
    · refine ⟨⟨hlt, Or.inr h2⟩, ?_⟩
      rw [if_neg (by rw [h2]; simp), getElem!_pos edge d.1 hlt, tl, h3, h4]
  · rintro ⟨⟨hlt, h2⟩, h3⟩
    refine ⟨edge[d.1], List.getElem?_eq_getElem hlt, ?_⟩
    rw [getElem!_pos edge d.1 hlt] at h3
    rcases h2 with h2 | h2
    · rw [if_pos h2, hd, Prod.mk.injEq] at h3
      exact Or.inl ⟨h2, h3⟩
    · rw [if_neg (by rw [h2]; simp), tl, Prod.mk.injEq] at h3
      exact Or.inr ⟨h2, h3⟩

theorem sideBegins_iff {edge : List Edge} {d : Dart} {c k : Nat} :
    SideBegins edge d c k ↔ d ∈ D edge ∧ begp edge d = (c, k) := by
  rw [mem_D]
  unfold SideBegins begp
  constructor
  · rintro ⟨r, h1, h2⟩
    obtain ⟨hlt, rfl⟩ := List.getElem?_eq_some_iff.mp h1
    rcases h2 with ⟨h2, h3, h4⟩ | ⟨h2, h3, h4⟩
    · refine ⟨⟨hlt, Or.inl h2⟩, ?_⟩
      rw [if_pos h2, getElem!_pos edge d.1 hlt, tl, h3, h4]
    · refine ⟨⟨hlt, Or.inr h2⟩, ?_⟩
      rw [if_neg (by rw [h2]; simp), getElem!_pos edge d.1 hlt, hd, h3, h4]
  · rintro ⟨⟨hlt, h2⟩, h3⟩
    refine ⟨edge[d.1], List.getElem?_eq_getElem hlt, ?_⟩
    rw [getElem!_pos edge d.1 hlt] at h3
    rcases h2 with h2 | h2
    · rw [if_pos h2, tl, Prod.mk.injEq] at h3
      exact Or.inl ⟨h2, h3⟩
    · rw [if_neg (by rw [h2]; simp), hd, Prod.mk.injEq] at h3
      exact Or.inr ⟨h2, h3⟩

theorem turns_iff {cross : List Cross} {edge : List Edge} (hC : Consistent cross edge) (d d' : Dart) :
    Turns edge d d' ↔ d ∈ D edge ∧ nd cross edge d = d' := by
  unfold Turns
  constructor
  · rintro ⟨c, k, h1, h2⟩
    rw [sideEnds_iff] at h1
    rw [sideBegins_iff] at h2
    refine ⟨h1.1, ?_⟩
    have ht := turn_mem 3 (endp_mem hC h1.1).1
    apply begp_inj hC (dartAt_mem hC ht) h2.1
    rw [begp_dartAt hC ht, h1.2, h2.2]
    rfl
  · rintro ⟨h, rfl⟩
    have ht := turn_mem 3 (endp_mem hC h).1
    refine ⟨(endp edge d).1, (endp edge d).2, sideEnds_iff.mpr ⟨h, rfl⟩, sideBegins_iff.mpr ⟨dartAt_mem hC ht, ?_⟩⟩
    exact begp_dartAt hC ht

theorem reach_iff {cross : List Cross} {edge : List Edge} (hC : Consistent cross edge) {d d' : Dart}
    (hd : d ∈ D edge) : Relation.ReflTransGen (Turns edge) d d' ↔ d' ∈ cyc (nd cross edge) d := by
  have hI := injOn_nd hC
  rw [hI.mem_cyc hd]
  constructor
  · intro h
    induction h with
    | refl => exact ⟨0, rfl⟩
    | tail _ hs ih =>
      obtain ⟨k, hk⟩ := ih
      refine ⟨k + 1, ?_⟩
      rw [Function.iterate_succ_apply', hk]
      exact ((turns_iff hC _ _).mp hs).2
  · rintro ⟨k, rfl⟩
    induction k with
    | zero => exact .refl
    | succ k ih =>
      rw [Function.iterate_succ_apply']
      exact ih.tail ((turns_iff hC _ _).mpr ⟨hI.iterate_mem hd k, rfl⟩)

theorem sides_eq (b : List Dart) : sides ⟨b.map Prod.fst, b.map Prod.snd⟩ = b := by
  unfold sides
  simp only
  induction b with
  | nil => rfl
  | cons x l ih => simp only [List.map_cons, List.zip_cons_cons, ih]

end Faces

/-- **C22.** On a consistent diagram with crossings `pd_regenerate_faces` either stops the
program or returns faces, whatever `qsort` does with ties. In the latter case there are two more
faces than crossings; the sides of all faces together are the sides of all edges, each listed once; along
each face sides turn into each other, cyclically; longest faces come first; each face starts
with the lowest of its edges. -/
theorem C22_faces_partition (qs : QSort) (maxfaces : Nat) (cross : List Cross) (edge : List Edge)
    (hC : Consistent cross edge) (h0 : cross ≠ []) (hsmall : 2 * edge.length < 2 ^ 31) :
    regenFaces qs maxfaces cross edge = .error .die ∨
    ∃ faces, regenFaces qs maxfaces cross edge = .ok faces ∧
      faces.length = cross.length + 2 ∧
      (faces.flatMap sides).Perm (allSides edge.length) ∧
      (∀ f ∈ faces, f.edge.length = f.orient.length ∧ f.edge ≠ []) ∧
      (∀ f ∈ faces, ∀ (j : Nat) (s : Nat × Or), (sides f)[j]? = some s →
        ∃ t, (sides f)[(j + 1) % f.edge.length]? = some t ∧ Turns edge s t) ∧
      faces.Pairwise (fun a b => b.edge.length ≤ a.edge.length) ∧
      (∀ f ∈ faces, ∃ e, f.edge[0]? = some e ∧ ∀ x ∈ f.edge, e ≤ x) := by
  have hI := injOn_nd hC
  rcases regenFaces_cases qs (maxfaces := maxfaces) hC h0 hsmall with
    ⟨starts, s1, s2, s3, ⟨s4, faces, f1, f2, f3⟩ | ⟨_, h⟩⟩ | ⟨h, _⟩
  rotate_left
  · exact Or.inl h
  · exact Or.inl h
  right
  have hf : ∀ f ∈ faces, ∃ s ∈ starts, f = ⟨(rotb (cyc (nd cross edge) s)).map Prod.fst,
      (rotb (cyc (nd cross edge) s)).map Prod.snd⟩ := by
    intro f hf
    obtain ⟨s, h1, h2⟩ := List.mem_map.mp (f2.mem_iff.mp hf)
    exact ⟨s, h1, h2.symm⟩
  have hlen : ∀ s, (rotb (cyc (nd cross edge) s)).length = per (nd cross edge) s := by
    intro s
    unfold rotb
    rw [List.length_rotate, cyc_length]
  refine ⟨faces, f1, by rw [f2.length_eq, List.length_map, s4], ?_, ?_, ?_, f3, ?_⟩
  · have h1 : (faces.flatMap sides).Perm (starts.flatMap (cyc (nd cross edge))) := by
      refine (f2.flatMap_right sides).trans ?_
      rw [List.flatMap_map]
      apply List.Perm.flatMap_left
      intro s _
      rw [sides_eq]
      exact List.rotate_perm _ _
    refine h1.trans ?_
    rw [List.perm_ext_iff_of_nodup]
    · intro d
      rw [List.mem_flatMap]
      have hmem : d ∈ allSides edge.length ↔ d ∈ D edge := by
        rw [mem_D]
        unfold allSides
        obtain ⟨e, o⟩ := d
        rw [List.mem_append, List.mem_map, List.mem_map]
        constructor
        · rintro (⟨x, hx, h⟩ | ⟨x, hx, h⟩) <;>
          · simp only [Prod.mk.injEq] at h
            obtain ⟨rfl, rfl⟩ := h
            simpa using hx
        · rintro ⟨h1, rfl | rfl⟩
          · exact Or.inl ⟨e, List.mem_range.mpr h1, rfl⟩
          · exact Or.inr ⟨e, List.mem_range.mpr h1, rfl⟩
      rw [hmem]
      constructor
      · rintro ⟨s, hs, hd⟩; exact hI.cyc_subset (s1 s hs) hd
      · exact s3 d
    · exact hI.flat_nodup s1 s2
    · unfold allSides
      rw [List.nodup_append]
      refine ⟨?_, ?_, ?_⟩
      · exact List.nodup_range.map (fun a b h => by simpa using h)
      · exact List.nodup_range.map (fun a b h => by simpa using h)
      · intro a ha b hb e
        obtain ⟨x, _, rfl⟩ := List.mem_map.mp ha
        obtain ⟨y, _, rfl⟩ := List.mem_map.mp hb
        simp at e
  · intro f hfm
    obtain ⟨s, hs, rfl⟩ := hf f hfm
    refine ⟨by simp, ?_⟩
    have := hI.per_pos (s1 s hs)
    have := hlen s
    intro e
    have h3 := congrArg List.length e
    rw [List.length_map, List.length_nil] at h3
    omega
  · intro f hfm j d hj
    obtain ⟨s, hs, rfl⟩ := hf f hfm
    rw [sides_eq] at hj ⊢
    have hpp := hI.per_pos (s1 s hs)
    simp only [List.length_map]
    have hjl := (List.getElem?_eq_some_iff.mp hj).1
    rw [hlen] at hjl ⊢
    unfold rotb at hj ⊢
    generalize lowPos _ _ _ = low at hj ⊢
    have hc := cyc_length (nd cross edge) s
    rw [List.getElem?_rotate (by omega), hc] at hj
    rw [List.getElem?_rotate (by rw [hc]; exact Nat.mod_lt _ hpp), hc]
    rw [cyc_getElem? (Nat.mod_lt _ hpp), iterate_mod_per] at hj
    cases hj
    rw [cyc_getElem? (Nat.mod_lt _ hpp), iterate_mod_per]
    refine ⟨_, rfl, ?_⟩
    rw [turns_iff hC]
    refine ⟨hI.iterate_mem (s1 s hs) _, ?_⟩
    rw [← Function.iterate_succ_apply' (nd cross edge), ← iterate_mod_per _ _ (Nat.succ _),
      ← iterate_mod_per _ _ ((j + 1) % _ + low)]
    congr 1
    rw [Nat.mod_add_mod, Nat.succ_eq_add_one]
    congr 1
    omega
  · intro f hfm
    obtain ⟨s, hs, rfl⟩ := hf f hfm
    have hne : cyc (nd cross edge) s ≠ [] := by
      have := hI.per_pos (s1 s hs)
      intro e
      have := congrArg List.length e
      rw [cyc_length] at this
      simp at this
      omega
    obtain ⟨d, h1, h2⟩ := rotb_spec hne
    refine ⟨d.1, by simp only; rw [List.getElem?_map, h1]; rfl, ?_⟩
    intro x hx
    obtain ⟨y, hy, rfl⟩ := List.mem_map.mp hx
    unfold rotb at hy
    rw [List.mem_rotate] at hy
    exact h2 y hy

/-- **C22.** It does return when the diagram has as many faces as a connected plane one, that is
two more than crossings, when there is room for them, and when no face is longer than the number
of edges. -/
theorem C22_faces_returns (qs : QSort) (maxfaces : Nat) (cross : List Cross) (edge : List Edge)
    (hC : Consistent cross edge) (h0 : cross ≠ []) (hsmall : 2 * edge.length < 2 ^ 31)
    (hroom : cross.length + 2 ≤ maxfaces)
    (hfaces : ∃ reps : List (Nat × Or), reps.length = cross.length + 2 ∧
      (∀ s ∈ reps, s ∈ allSides edge.length) ∧
      reps.Pairwise (fun x y => ¬ Relation.ReflTransGen (Turns edge) x y) ∧
      ∀ s ∈ allSides edge.length, ∃ r ∈ reps, Relation.ReflTransGen (Turns edge) r s)
    (hlong : ∀ ds : List (Nat × Or), ds.Nodup →
      (∀ (j : Nat) (s t : Nat × Or), ds[j]? = some s → ds[j + 1]? = some t → Turns edge s t) →
      ds.length ≤ edge.length) :
    ∃ faces, regenFaces qs maxfaces cross edge = .ok faces := by
  have hI := injOn_nd hC
  have hmem : ∀ d, d ∈ allSides edge.length ↔ d ∈ D edge := by
    intro d
    rw [mem_D]
    unfold allSides
    obtain ⟨e, o⟩ := d
    rw [List.mem_append, List.mem_map, List.mem_map]
    constructor
    · rintro (⟨x, hx, h⟩ | ⟨x, hx, h⟩) <;>
      · simp only [Prod.mk.injEq] at h
        obtain ⟨rfl, rfl⟩ := h
        simpa using hx
    · rintro ⟨h1, rfl | rfl⟩
      · exact Or.inl ⟨e, List.mem_range.mpr h1, rfl⟩
      · exact Or.inr ⟨e, List.mem_range.mpr h1, rfl⟩
  obtain ⟨reps, r1, r2, r3, r4⟩ := hfaces
  have r2' : ∀ s ∈ reps, s ∈ D edge := fun s hs => (hmem s).mp (r2 s hs)
  have r4' : ∀ s ∈ D edge, ∃ r ∈ reps, s ∈ cyc (nd cross edge) r := by
    intro s hs
    obtain ⟨r, hr, h⟩ := r4 s ((hmem s).mpr hs)
    exact ⟨r, hr, (reach_iff hC (r2' r hr)).mp h⟩
  have r3' : reps.Pairwise (fun x y => y ∉ cyc (nd cross edge) x) := by
    refine List.Pairwise.imp_of_mem ?_ r3
    intro x y hx _ h hc
    exact h ((reach_iff hC (r2' x hx)).mpr hc)
  rcases regenFaces_cases qs (maxfaces := maxfaces) hC h0 hsmall with
    ⟨starts, s1, s2, s3, ⟨s4, faces, f1, f2, f3⟩ | ⟨hn, h⟩⟩ | ⟨h, ⟨d, hd, hbig⟩ | ⟨st, t1, t2, t3⟩⟩
  · exact ⟨faces, f1⟩
  · have a := sep_le hI s1 r2' s2 r4'
    have b := sep_le hI r2' s1 r3' s3
    omega
  · have := hlong (cyc (nd cross edge) d) (cyc_nodup _ _) (by
      intro j s t hs ht
      have hjl := (List.getElem?_eq_some_iff.mp ht).1
      rw [cyc_length] at hjl
      rw [cyc_getElem? (by omega)] at hs
      rw [cyc_getElem? hjl] at ht
      cases hs
      cases ht
      rw [turns_iff hC]
      exact ⟨hI.iterate_mem hd j, (Function.iterate_succ_apply' _ _ _).symm⟩)
    rw [cyc_length] at this
    omega
  · have := sep_le hI t1 r2' t2 r4'
    omega

/-! A trefoil meets all these hypotheses. -/

example : Consistent (trefoilCross .pos) trefoilEdge ∧ trefoilCross .pos ≠ [] ∧
    2 * trefoilEdge.length < 2 ^ 31 ∧ (trefoilCross .pos).length + 2 ≤ 5 := by decide

theorem Faces.trefoil_six : ∀ d ∈ D trefoilEdge, (nd (trefoilCross .pos) trefoilEdge)^[6] d = d := by
  decide

theorem Faces.reach_range {cross : List Cross} {edge : List Edge} (hC : Consistent cross edge) {d d' : Dart}
    (hd : d ∈ D edge) {K : Nat} (hK : 0 < K) (h : (nd cross edge)^[K] d = d) :
    Relation.ReflTransGen (Turns edge) d d' ↔ d' ∈ (List.range K).map (fun i => (nd cross edge)^[i] d) := by
  have hI := injOn_nd hC
  rw [reach_iff hC hd, hI.mem_cyc hd, List.mem_map]
  constructor
  · rintro ⟨k, rfl⟩
    refine ⟨k % K, List.mem_range.mpr (Nat.mod_lt _ hK), ?_⟩
    have hp : Function.IsPeriodicPt (nd cross edge) K d := h
    exact hp.iterate_mod_apply k
  · rintro ⟨i, _, rfl⟩
    exact ⟨i, rfl⟩

example : ∃ reps : List (Nat × Or), reps.length = (trefoilCross .pos).length + 2 ∧
      (∀ s ∈ reps, s ∈ allSides trefoilEdge.length) ∧
      reps.Pairwise (fun x y => ¬ Relation.ReflTransGen (Turns trefoilEdge) x y) ∧
      ∀ s ∈ allSides trefoilEdge.length, ∃ r ∈ reps, Relation.ReflTransGen (Turns trefoilEdge) r s := by
  have hC : Consistent (trefoilCross .pos) trefoilEdge := by decide
  refine ⟨[(0, .pos), (1, .neg), (0, .neg), (1, .pos), (2, .neg)], rfl, by decide, ?_, ?_⟩
  · have : ∀ x ∈ ([(0, .pos), (1, .neg), (0, .neg), (1, .pos), (2, .neg)] : List Dart), ∀ y, Relation.ReflTransGen (Turns trefoilEdge) x y ↔
        y ∈ (List.range 6).map (fun i => (nd (trefoilCross .pos) trefoilEdge)^[i] x) := by
      intro x hx y
      have hD : x ∈ D trefoilEdge := by revert x; decide
      exact reach_range hC hD (by decide) (trefoil_six x hD)
    refine List.Pairwise.imp_of_mem (R := fun x y => y ∉ (List.range 6).map
      (fun i => (nd (trefoilCross .pos) trefoilEdge)^[i] x)) ?_ (by decide)
    intro x y hx _ h
    rwa [this x hx]
  · intro s hs
    have : ∃ r ∈ ([(0, .pos), (1, .neg), (0, .neg), (1, .pos), (2, .neg)] : List Dart), r ∈ D trefoilEdge ∧ s ∈ (List.range 6).map
        (fun i => (nd (trefoilCross .pos) trefoilEdge)^[i] r) := by
      revert s; decide
    obtain ⟨r, h1, h2, h3⟩ := this
    exact ⟨r, h1, (reach_range hC h2 (by decide) (trefoil_six r h2)).mpr h3⟩

example : ∀ ds : List (Nat × Or), ds.Nodup →
      (∀ (j : Nat) (s t : Nat × Or), ds[j]? = some s → ds[j + 1]? = some t → Turns trefoilEdge s t) →
      ds.length ≤ trefoilEdge.length := by
  have hC : Consistent (trefoilCross .pos) trefoilEdge := by decide
  have hI := injOn_nd hC
  intro ds hn hch
  by_contra hlt
  have h6 : trefoilEdge.length = 6 := rfl
  have h0 : 0 < ds.length := by omega
  have hD : ds[0] ∈ D trefoilEdge :=
    ((turns_iff hC _ _).mp (hch 0 ds[0] ds[1] (List.getElem?_eq_getElem _) (List.getElem?_eq_getElem _))).1
  have hit : ∀ j (h : j < ds.length), ds[j] = (nd (trefoilCross .pos) trefoilEdge)^[j] ds[0] := by
    intro j
    induction j with
    | zero => intro h; rfl
    | succ j ih =>
      intro h
      have := (turns_iff hC _ _).mp (hch j _ _ (List.getElem?_eq_getElem (by omega)) (List.getElem?_eq_getElem h))
      rw [Function.iterate_succ_apply', ← ih (by omega), this.2]
  have h1 := hit 6 (by omega)
  rw [trefoil_six _ hD] at h1
  have := (hn.getElem_inj_iff (hi := by omega) (hj := by omega)).mp h1
  omega

example : ∃ faces, regenFaces insQSort 5 (trefoilCross .pos) trefoilEdge = .ok faces ∧
    faces.map (·.edge.length) = [3, 3, 2, 2, 2] ∧
    (faces.flatMap sides).length = 12 := ⟨_, rfl, by decide, by decide⟩


end Plc
