import Verif.Proofs.Neat
import Verif.Proofs.LoopPlane
import Verif.Proofs.CompBound
import Verif.Props.Moves
import Verif.Props.Query
import Verif.Props.IsoSearch

/-! # C63: adding and removing loops, from diagram to diagram -/

namespace Plc

open Plc.Cmp Plc.Core Plc.Ok Plc.Moves Plc.Query
open Plc.Isotopy (retag retag_length retag_edges retag_get)

namespace Moves

theorem regenComps_members {qs : QSort} {me mc : Nat} {cross cross' : List Cross} {edge edge' : List Edge} {comps : List Comp}
    (h : Comps.regenComps qs me mc cross edge = .ok (cross', edge', comps)) : ∀ x ∈ cross', ∃ y, x = canonorderCross y .pos := by
  unfold Comps.regenComps at h
  simp only [bind_ok_iff] at h
  obtain ⟨_, _, _, _, _, _, _, _, _, _, _, _, _, _, _, _, _, _, ⟨c4, e4⟩, h5, h6⟩ := h
  cases h6
  exact regenCrossings_members h5

theorem r1Add_members {qs : QSort} {cross cross' : List Cross} {edge edge' : List Edge} {comps : List Comp} {face : Face} {i : Nat}
    (h : r1Add qs cross edge face i = .ok (cross', edge', comps)) : ∀ x ∈ cross', ∃ y, x = canonorderCross y .pos := by
  unfold r1Add at h
  simp only [bind_ok_iff] at h
  obtain ⟨_, _, _, _, _, _, _, _, h⟩ := h
  exact regenComps_members h

theorem r1Del_members {qs : QSort} {cross cross' : List Cross} {edge edge' : List Edge} {comps comps' : List Comp} {nf cr : Nat}
    (h : r1Del qs cross edge comps nf cr = .ok (some (cross', edge', comps'))) : ∀ x ∈ cross', ∃ y, x = canonorderCross y .pos := by
  unfold r1Del at h
  simp only [bind_ok_iff] at h
  obtain ⟨_, _, x, _, h⟩ := h
  split at h
  · cases h
  · simp only [bind_ok_iff] at h
    obtain ⟨_, _, _, _, _, _, _, _, h⟩ := h
    split at h
    · split at h <;> cases h
    · simp only [bind_ok_iff] at h
      obtain ⟨_, _, _, _, _, _, r, h6, h⟩ := h
      cases h
      unfold compactComps at h6
      simp only [bind_ok_iff] at h6
      obtain ⟨_, _, _, _, _, _, _, _, ⟨c4, e4⟩, h7, h8⟩ := h6
      cases h8
      exact regenCrossings_members h7

/-- Two diagrams which come from the same one by removing the same loop. -/
theorem _root_.Plc.LoopRemoved.unique {K A B : List Cross} {KE AE BE : List Edge} {c e0 e1 e2 : Nat} {τ σ ρ τ' σ' ρ' : Nat → Nat}
    (h : LoopRemoved K KE c e0 e1 e2 A AE τ σ ρ) (h' : LoopRemoved K KE c e0 e1 e2 B BE τ' σ' ρ') (hc : c < K.length) :
    ∃ t s r, Renamed A AE B BE t s r (fun _ => false) ∧ SameSigns A B s := by
  have onto1 : ∀ f, ∃ g, f < AE.length → g < BE.length ∧ τ' g = τ f := by
    intro f
    by_cases hf : f < AE.length
    · obtain ⟨g, g1, g2⟩ := Planar.loop_edge_onto h' (h.tlt f hf).1 (h.tlt f hf).2.1 (h.tlt f hf).2.2
      exact ⟨g, fun _ => ⟨g1, g2⟩⟩
    · exact ⟨0, fun q => absurd q hf⟩
  have onto2 : ∀ d, ∃ g, d < A.length → g < B.length ∧ σ' g = σ d := by
    intro d
    by_cases hd : d < A.length
    · obtain ⟨g, g1, g2⟩ := Planar.loop_cross_onto h' hc (h.slt d hd).1 (h.slt d hd).2
      exact ⟨g, fun _ => ⟨g1, g2⟩⟩
    · exact ⟨0, fun q => absurd q hd⟩
  choose t ht using onto1
  choose s hs using onto2
  have lenA := h.len
  have lenB := h'.len
  have elA := h.elen
  have elB := h'.elen
  have atm : ∀ (x : Cross) k l, k % 4 = l % 4 → x.at k = x.at l := by
    intro x k l h
    rw [at_lt x k, h, ← at_lt x l]
  refine ⟨t, s, fun d => (ρ' (s d) + 3 * ρ d) % 4, ⟨by omega, by omega, ?_, ?_, ?_, ?_, ?_, ?_, ?_⟩, ?_⟩
  · intro d hd
    have := (hs d hd).1
    omega
  · intro d d' hd hd' he
    refine h.sinj d d' hd hd' ?_
    rw [← (hs d hd).2, ← (hs d' hd').2, he]
  · intro f hf
    have := (ht f hf).1
    omega
  · intro f f' hf hf' he
    refine h.tinj f f' hf hf' ?_
    rw [← (ht f hf).2, ← (ht f' hf').2, he]
  · intro d
    exact Nat.mod_lt _ (by decide)
  · intro d x hx
    have hd := (List.getElem?_eq_some_iff.mp hx).1
    obtain ⟨s1, s2⟩ := hs d hd
    obtain ⟨y, y1, -, y2⟩ := h.cross d x hx
    obtain ⟨z, z1, -, z2⟩ := h'.cross (s d) _ (List.getElem?_eq_getElem s1)
    rw [s2, y1] at z1
    cases z1
    refine ⟨_, List.getElem?_eq_getElem s1, ?_⟩
    intro k
    obtain ⟨q1, q2⟩ := z2 k
    obtain ⟨q3, q4⟩ := y2 (k + (ρ' (s d) + 3 * ρ d) % 4)
    refine h'.tinj _ _ q1 (ht _ q3).1 ?_
    rw [q2, (ht _ q3).2, q4, atm y (k + (ρ' (s d) + 3 * ρ d) % 4 + ρ d) (k + ρ' (s d)) (by omega)]
  · intro f r hr
    have hf := (List.getElem?_eq_some_iff.mp hr).1
    obtain ⟨t1, t2⟩ := ht f hf
    obtain ⟨a1, a2, a3, a4, R, H, a5, a6, a7, a8, a9, a10⟩ := h.edge f r hr
    obtain ⟨b1, b2, b3, b4, R', H', b5, b6, b7, b8, b9, b10⟩ := h'.edge (t f) _ (List.getElem?_eq_getElem t1)
    rw [t2] at b5 b6
    rw [a5] at b5
    rw [a6] at b6
    cases b5
    cases b6
    rw [List.getElem?_eq_getElem t1]
    have e1 : BE[t f].tail = s r.tail := h'.sinj _ _ b3 (hs _ a3).1 (by rw [b7, (hs _ a3).2, a7])
    have e2 : BE[t f].head = s r.head := h'.sinj _ _ b1 (hs _ a1).1 (by rw [b9, (hs _ a1).2, a9])
    rw [e1] at b8
    rw [e2] at b10
    unfold moveEdge
    simp only [Bool.false_eq_true, if_false, Option.some.injEq]
    generalize BE[t f] = q at *
    obtain ⟨u1, u2, u3, u4⟩ := q
    simp only at *
    simp only [Edge.mk.injEq]
    refine ⟨e2, ?_, e1, ?_⟩ <;> omega
  · intro d x hx
    have hd := (List.getElem?_eq_some_iff.mp hx).1
    obtain ⟨s1, s2⟩ := hs d hd
    obtain ⟨y, y1, y2, -⟩ := h.cross d x hx
    obtain ⟨z, z1, z2, -⟩ := h'.cross (s d) _ (List.getElem?_eq_getElem s1)
    rw [s2, y1] at z1
    cases z1
    exact ⟨_, List.getElem?_eq_getElem s1, by rw [z2, y2]⟩

end Moves

/-- **C63, addition.** On a plane diagram as `pd_regenerate` or a move leaves it, adding a loop at place `i` of face `f` always
works: the result is again such a diagram, with one crossing, two edges and one face more and tags `A`, `B`, ..., and `pd_ok`
accepts it in the buffers it comes in. Without the loop it is the diagram one started with; the loop is on the strand of the edge
`e` at this place, at a crossing without sign, on the side of the face. -/
theorem C63_add_loop (qs qs' : QSort) (pd : Io.Pd) (hN : Neat pd) (hs : 2 * (pd.edge.length + 2) < 2 ^ 31) (f i e : Nat) (eo : Or) (F : Face)
    (hF : pd.face[f]? = some F) (he : F.edge[i]? = some e) (ho : F.orient[i]? = some eo) :
    ∃ (pd' : Io.Pd) (c e1 e2 : Nat) (τ σ ρ : Nat → Nat),
      loopAddition qs pd f i = .ok (.code (Io.capsNew (pd.cross.length + 2)) pd') ∧
      Tidy pd'.cross pd'.edge pd'.comp pd'.face ∧ Neat pd' ∧ pdOk qs' (Io.capsNew (pd.cross.length + 2)) pd' = .ok true ∧
      pd'.uid = pd.uid ∧ pd'.cross.length = pd.cross.length + 1 ∧ pd'.edge.length = pd.edge.length + 2 ∧
      pd'.face.length = pd.face.length + 1 ∧
      LoopRemoved pd'.cross pd'.edge c (τ e) e1 e2 pd.cross pd.edge τ σ ρ ∧
      (∃ x, pd'.cross[c]? = some x ∧ x.sign = .unset) ∧
      (∃ r1, pd'.edge[e1]? = some r1 ∧ (eo = .pos → r1.headpos = (r1.tailpos + 1) % 4) ∧
        (eo = .neg → r1.tailpos = (r1.headpos + 1) % 4)) := by
  have hT := hN.tidy
  have hP := hT.plane
  have hC := hP.consistent
  have hcnt := hC.count
  have hpos : pd.cross.length ≠ 0 := fun h => hP.nonempty (List.length_eq_zero_iff.mp h)
  have hFm := List.mem_of_getElem? hF
  have hside : (e, eo) ∈ Faces.D pd.edge := by
    refine Shape.sides_mem hT.goodFaces hFm ?_
    refine List.mem_iff_getElem?.mpr ⟨i, ?_⟩
    rw [sides, List.getElem?_zip_eq_some]
    exact ⟨he, ho⟩
  have hm := Faces.mem_D.mp hside
  have hcomps := comps_le hP hT.goodComps
  rw [retag_length] at hcomps
  obtain ⟨cross', edge', comps, c, e1, e2, τ, σ, ρ, a1, a2, a3, a4, a5, a6, a7, a8, a9, a10, a11, a12, a13, a14⟩ :=
    C36_add_loop qs pd.cross pd.edge F i e eo hC hP.oriented (by omega) he ho hm.1 (by rintro rfl; simp at hm)
      (CompBound.strands_le hC hP.oriented hP.nonempty hP.connected hP.plane (by omega))
  have hP' : PlaneDiagram cross' edge' := (Planar.loop_plane a6 a2 hC a3 hP.oriented).mpr hP
  have hK' := goodComps_retag a9 a10 a11 a12
  obtain ⟨pd', b1, b2, b3, b4, b5, b6, -⟩ := withFaces_ok qs (maxfaces := (Io.capsNew (pd.cross.length + 2)).faces) (uid := pd.uid) hP' a14
    (r1Add_members a1) hK' (by omega) (by simp only [Io.capsNew]; omega)
    (by rw [a13]; exact List.nodup_range') (by
      intro k hk hlt
      have : k.tag ∈ comps.map (·.tag) := List.mem_map_of_mem hk
      rw [a13, List.mem_range'_1] at this
      omega)
  have b1' : withFaces qs (Io.capsNew (max (pd.cross.length + 2) pd.cross.length)).faces pd.uid cross' edge' comps = .ok pd' := by
    rw [Nat.max_eq_left (by omega)]; exact b1
  have hk := goodComps_of_retag hT.goodComps
  have hT' : Tidy pd'.cross pd'.edge pd'.comp pd'.face := b2.tidy_of (by rw [b5, a13])
  have hcomps' := comps_le hT'.plane hT'.goodComps
  have hf1 := hT.goodFaces.count
  have hf2 := hT'.goodFaces.count
  refine ⟨pd', c, e1, e2, τ, σ, ρ, ?_, hT', b2, ?_, b6, by rw [b3, a4], by rw [b4, a5], ?_, by rw [b3, b4]; exact a6,
    by rw [b3]; exact a7, by rw [b4]; exact a8⟩
  · unfold loopAddition
    rw [if_neg hpos]
    simp only
    rw [C62_copy pd (pd.cross.length + 2) hP.nonempty (by omega) (by omega) (by rw [hf1]; omega) hk.2.2.1
      (fun f hf => (hT.goodFaces.shape f hf).1), ok_bind]
    simp only
    rw [rd_eq_ok.mpr hF, ok_bind, a1, ok_bind]
    simp only
    rw [b1', ok_bind, Nat.max_eq_left (by omega)]
  · refine b2.ok qs' ?_ ?_ ?_
    · rw [b4]; simp only [Io.capsNew]; omega
    · rw [b3] at hcomps'; simp only [Io.capsNew]; omega
    · rw [b3] at hf2; simp only [Io.capsNew]; omega
  · rw [hf1, hf2, b3, a4]

/-- **C63, removal.** At crossing `cr` of such a diagram, in buffers that are large enough, an edge sits at the places `k`, `k + 1`,
and the edges at the other two places are different. Then `pd_R1_loopdeletion` always works, all its checks succeed, and the
result is again such a diagram, with one crossing, two edges and one face less and the same tags, accepted by `pd_ok` in the
buffers it comes in. It is the diagram one started with, without the loop. -/
theorem C63_remove_loop (qs qs' : QSort) (pd : Io.Pd) (hN : Neat pd) (mv : Nat) (hmv : pd.cross.length ≤ mv) (cr k : Nat) (x : Cross)
    (hx : pd.cross[cr]? = some x) (hloop : x.at k = x.at (k + 1)) (hother : x.at (k + 2) ≠ x.at (k + 3)) :
    ∃ (caps : Io.Caps) (pd' : Io.Pd) (e0 e2 : Nat) (τ σ ρ : Nat → Nat),
      loopDeletion qs mv pd cr = .ok (.code caps pd') ∧ Neat pd' ∧ pdOk qs' caps pd' = .ok true ∧
      caps.verts = pd'.cross.length ∧ caps.edges = pd'.edge.length ∧
      pd'.cross.length + 1 = pd.cross.length ∧ pd'.edge.length + 2 = pd.edge.length ∧ pd'.face.length + 1 = pd.face.length ∧
      LoopRemoved pd.cross pd.edge cr e0 (x.at k) e2 pd'.cross pd'.edge τ σ ρ ∧
      (pd'.comp.map (·.tag)).Perm (pd.comp.map (·.tag)) ∧
      (∀ c' ∈ pd'.comp, ∃ c ∈ pd.comp, c.tag = c'.tag ∧ ∀ f, f < pd'.edge.length → (f ∈ c'.edge ↔ τ f ∈ c.edge)) := by
  have hT := hN.tidy
  have hP := hT.plane
  have hC := hP.consistent
  have hcnt := hC.count
  have hs := hT.small
  obtain ⟨k1, k2, k3, k4⟩ := goodComps_of_retag hT.goodComps
  obtain ⟨cross', edge', comps', e0, e2, τ, σ, ρ, a1, a2, a3, a4, a5, a6, a7, a8, a9, a10, a11, a12, a13⟩ :=
    C36_remove_loop qs pd.cross pd.edge pd.comp pd.face.length cr x k hC hP.oriented (by omega) (by rw [k1]) k3 k4 hx hloop hother
  have hP' : PlaneDiagram cross' edge' := (Planar.loop_plane a6 hC a2 hP.oriented a3).mp hP
  have hK' := goodComps_retag a7 a8 a9 a10
  have htag : ∀ c' ∈ comps', ∃ c ∈ pd.comp, c.tag = c'.tag := by
    intro c' hc'
    have : c'.tag ∈ pd.comp.map (·.tag) := a11.mem_iff.mp (List.mem_map_of_mem hc')
    obtain ⟨c, h1, h2⟩ := List.mem_map.mp this
    exact ⟨c, h1, h2⟩
  obtain ⟨pd', b1, b2, b3, b4, b5, b6, -⟩ := withFaces_ok qs (maxfaces := (Io.capsNew (mv - 1)).faces) (uid := 0) hP' a13
    (r1Del_members a1) hK' (by omega) (by simp only [Io.capsNew]; omega) (a11.nodup_iff.mpr hN.tags) (by
      intro c hc hlt c' hc'
      obtain ⟨d, d1, d2⟩ := htag c hc
      obtain ⟨d', d3, d4⟩ := htag c' hc'
      rw [← d2, ← d4]
      exact hN.letters d d1 (by rw [d2]; exact hlt) d' d3)
  have hlen : comps'.length = pd.comp.length := by simpa using a11.length_eq
  have hf1 := hT.goodFaces.count
  have hf2 := b2.tidy.goodFaces.count
  rw [b3] at hf2
  have hok : ∀ q : QSort, pdOk q ⟨cross'.length, edge'.length, pd.comp.length, (Io.capsNew (mv - 1)).faces⟩ pd' = .ok true := by
    intro q
    refine b2.ok q ?_ ?_ ?_
    · rw [b4]
    · rw [b5, hlen]
    · simp only [Io.capsNew]; omega
  have le : ∀ {p : Prop} [Decidable p], p → assertC (decide p) = .ok () := fun hp => assertC_ok (decide_eq_true hp)
  refine ⟨_, pd', e0, e2, τ, σ, ρ, ?_, b2, hok qs', by rw [b3], by rw [b4], by rw [b3]; exact a4, by rw [b4]; exact a5, by omega,
    by rw [b3, b4]; exact a6, by rw [b5]; exact a11, by rw [b5, b4]; exact a12⟩
  unfold loopDeletion
  rw [a1, ok_bind]
  simp only
  rw [b1, ok_bind, hok qs, ok_bind, assertC_ok rfl, ok_bind, le (by omega), ok_bind, le (by rw [b3]; omega), ok_bind,
    le (by rw [b4]; omega), ok_bind]

/-- C63. If the edges at the other two places are equal as well, then the diagram is the figure eight, and the result is the unknot
without crossings. -/
theorem C63_remove_figure_eight (qs : QSort) (pd : Io.Pd) (hN : Neat pd) (mv : Nat) (cr k : Nat) (x : Cross)
    (hx : pd.cross[cr]? = some x) (hloop : x.at k = x.at (k + 1)) (hother : x.at (k + 2) = x.at (k + 3)) :
    pd.cross.length = 1 ∧ loopDeletion qs mv pd cr = .ok (.unknot 0) := by
  have hT := hN.tidy
  have hP := hT.plane
  have hC := hP.consistent
  have hcnt := hC.count
  have hcr := (List.getElem?_eq_some_iff.mp hx).1
  cases hfind : findAdj x with
  | none => exact absurd hloop (findAdj_none hfind k)
  | some i =>
  obtain ⟨hi4, hi⟩ := findAdj_some hfind
  obtain ⟨e0, e2, r0, r1, r2, LA, p0, p1, p2⟩ := loopAt hC hP.oriented hx hi4 hi
  have q1 := slot_lt (hC.head _ _ LA.g1)
  have q2 := slot_lt (hC.tail _ _ LA.g1)
  have atm : ∀ k l, k % 4 = l % 4 → x.at k = x.at l := by
    intro k l h
    rw [at_lt x k, h, ← at_lt x l]
  have hpair : ∀ a b, (a % 4 = (b + 2) % 4 ∨ a % 4 = b % 4) → x.at b = x.at (b + 1) → x.at (b + 2) = x.at (b + 3) →
      x.at a = x.at (a + 1) ∧ x.at (a + 2) = x.at (a + 3) := by
    intro a b h h1 h2
    rcases h with h | h
    · rw [atm a (b + 2) h, atm (a + 1) (b + 3) (by omega), atm (a + 2) b (by omega), atm (a + 3) (b + 1) (by omega)]
      exact ⟨h2, h1⟩
    · rw [atm a b h, atm (a + 1) (b + 1) (by omega), atm (a + 2) (b + 2) (by omega), atm (a + 3) (b + 3) (by omega)]
      exact ⟨h1, h2⟩
  have hi2 : x.at (i + 2) = x.at (i + 3) := by
    by_cases hc : i % 4 = (k + 2) % 4 ∨ i % 4 = k % 4
    · exact (hpair i k hc hloop hother).2
    · have hc' : i % 4 = (k + 1) % 4 ∨ i % 4 = (k + 3) % 4 := by omega
      rcases hc' with h | h
      · have e1 := atm i (k + 1) h
        have e2 := atm (i + 1) (k + 2) (by omega)
        rw [atm (i + 2) (k + 3) (by omega), atm (i + 3) k (by omega), ← hother, ← e2, ← hi, e1, hloop]
      · have e1 := atm i (k + 3) h
        have e2 := atm (i + 1) k (by omega)
        rw [atm (i + 2) (k + 1) (by omega), atm (i + 3) (k + 2) (by omega), hother, ← e1, hi, e2, hloop]
  have sl : ∀ {e p : Nat}, slot pd.cross cr p = some e → e = x.at p := by
    intro e p h
    have h4 := (slot_lt h).2
    have := at_eq_slot (k := p) hx
    rw [Nat.mod_eq_of_lt h4, h] at this
    exact Option.some.inj this
  have only : ∀ j, x.at j = x.at i → j % 4 = r1.headpos ∨ j % 4 = r1.tailpos := by
    intro j hj
    have := at_eq_slot (k := j) hx
    rw [hj] at this
    obtain ⟨r, a1, a2⟩ := hC.slots this
    rw [LA.g1] at a1
    cases a1
    rcases a2 with a2 | a2
    · exact .inl a2.2.symm
    · exact .inr a2.2.symm
  have o1 := only i rfl
  have o2 := only (i + 1) hi.symm
  have q4 := q1.2
  have q5 := q2.2
  have adj := LA.adj
  have e02 : e0 = e2 := by
    rw [← p0, ← p2]
    by_cases h : i % 4 = r1.headpos
    · rw [atm ((r1.tailpos + 2) % 4) (i + 3) (by omega), atm ((r1.headpos + 2) % 4) (i + 2) (by omega), hi2]
    · rw [atm ((r1.tailpos + 2) % 4) (i + 2) (by omega), atm ((r1.headpos + 2) % 4) (i + 3) (by omega), hi2]
  subst e02
  have g20 := LA.g2
  rw [LA.g0] at g20
  cases g20
  -- no edge leaves the crossing
  have stay : ∀ {e p : Nat} {r : Edge}, pd.edge[e]? = some r → slot pd.cross cr p = some e → r.head = cr ∧ r.tail = cr := by
    intro e p r hr hp
    have h4 := (slot_lt hp).2
    have he := sl hp
    have hcase : e = x.at i ∨ e = e0 := by
      have : p = r1.headpos ∨ p = r1.tailpos ∨ p = (r1.tailpos + 2) % 4 ∨ p = (r1.headpos + 2) % 4 := by omega
      rcases this with h | h | h | h
      · left; rw [he, h, p1]
      · left
        rw [he]
        rcases o1 with o | o
        · rw [h, atm r1.tailpos (i + 1) (by omega), hi]
        · rw [h, atm r1.tailpos i (by omega)]
      · right; rw [he, h, p0]
      · right; rw [he, h, p2]
    rcases hcase with h | h
    · rw [h, LA.g1] at hr
      cases hr
      exact ⟨LA.h1, LA.t1⟩
    · rw [h, LA.g0] at hr
      cases hr
      exact ⟨LA.h0, LA.t2⟩
  have reach : ∀ d, Relation.ReflTransGen (Joined pd.edge) cr d → d = cr := by
    intro d hd
    induction hd with
    | refl => rfl
    | tail _ hj ih =>
      subst ih
      obtain ⟨r, hr, hj⟩ := hj
      obtain ⟨e, he⟩ := List.mem_iff_getElem?.mp hr
      rcases hj with ⟨h1, h2⟩ | ⟨h1, h2⟩
      · exact h2 ▸ (stay he (h1 ▸ hC.head e r he)).2
      · exact h1 ▸ (stay he (h2 ▸ hC.tail e r he)).1
  have hone : pd.cross.length = 1 := by
    by_contra hne
    have h1 := reach 0 (hP.connected cr 0 hcr (by omega))
    have h2 := reach 1 (hP.connected cr 1 hcr (by omega))
    omega
  refine ⟨hone, ?_⟩
  have hf := hT.goodFaces.count
  have hk := comps_le hP hT.goodComps
  rw [retag_length] at hk
  have hk0 : pd.comp.length ≠ 0 := by
    intro h0
    have := (goodComps_of_retag hT.goodComps).1
    rw [List.length_eq_zero_iff.mp h0] at this
    have := congrArg List.length this
    simp at this
    omega
  unfold loopDeletion r1Del
  rw [assertC_ok (by simpa using hcr), ok_bind, rd_eq_ok.mpr hx, ok_bind, hfind]
  simp only
  rw [rd_eq_ok.mpr LA.g1, ok_bind, Cross.rdPos_lt (Nat.mod_lt _ (by decide)), ok_bind, Cross.rdPos_lt q4, ok_bind,
    Cross.rdPos_lt (Nat.mod_lt _ (by decide)), ok_bind, p0, p1, p2, if_pos rfl, if_pos (by omega), ok_bind]

/-- C63. Without a loop at the crossing the program stops. -/
theorem C63_remove_no_loop (qs : QSort) (pd : Io.Pd) (mv : Nat) (cr : Nat) (x : Cross) (hx : pd.cross[cr]? = some x)
    (h : ∀ k, x.at k ≠ x.at (k + 1)) : loopDeletion qs mv pd cr = .error .die := by
  unfold loopDeletion
  rw [C36_remove_no_loop qs pd.cross pd.edge pd.comp pd.face.length cr x hx h, error_bind]

/-- **C63, both.** A loop which is added can be removed, and this gives back the diagram up to the names of edges and crossings and the
places at which crossings start; signs are the same. -/
theorem C63_round_trip (qs qs' : QSort) (pd : Io.Pd) (hN : Neat pd) (hs : 2 * (pd.edge.length + 2) < 2 ^ 31) (f i : Nat) (F : Face)
    (hF : pd.face[f]? = some F) (hi : i < F.edge.length) :
    ∃ (caps : Io.Caps) (big : Io.Pd) (c : Nat) (caps' : Io.Caps) (pd' : Io.Pd) (τ σ ρ : Nat → Nat),
      loopAddition qs pd f i = .ok (.code caps big) ∧ loopDeletion qs' caps.verts big c = .ok (.code caps' pd') ∧ Neat pd' ∧
      Renamed pd.cross pd.edge pd'.cross pd'.edge τ σ ρ (fun _ => false) ∧
      ∀ (c : Nat) (x : Cross), pd.cross[c]? = some x → ∃ x', pd'.cross[σ c]? = some x' ∧ x'.sign = x.sign := by
  have hio : i < F.orient.length := by rw [← (hN.tidy.goodFaces.shape F (List.mem_of_getElem? hF)).1]; exact hi
  obtain ⟨big, c, e1, e2, τ, σ, ρ, a1, a2, a3, a4, a5, a6, a7, a8, L, -, -⟩ := C63_add_loop qs qs' pd hN hs f i _ _ F hF
    (List.getElem?_eq_getElem hi) (List.getElem?_eq_getElem hio)
  obtain ⟨r0, r1, r2, g0, g1, g2, h1, h2, h3, h4, h5, h6, h7⟩ := L.loop
  have hC := a2.plane.consistent
  have s1 := hC.head _ _ g1
  have s2 := hC.tail _ _ g1
  rw [h1] at s1
  rw [h2] at s2
  have hc := (slot_lt s1).1
  have s0 := hC.head _ _ g0
  have s3 := hC.tail _ _ g2
  rw [h4, h5] at s0
  rw [h6, h7] at s3
  have sl : ∀ {e p : Nat}, slot big.cross c p = some e → e = (big.cross[c]).at p := by
    intro e p h
    have h4 := (slot_lt h).2
    have := at_eq_slot (k := p) (List.getElem?_eq_getElem hc)
    rw [Nat.mod_eq_of_lt h4, h] at this
    exact Option.some.inj this
  have atm : ∀ k l, k % 4 = l % 4 → (big.cross[c]).at k = (big.cross[c]).at l := by
    intro k l h
    rw [at_lt _ k, h, ← at_lt _ l]
  have q1 := (slot_lt s1).2
  have q2 := (slot_lt s2).2
  have key : ∃ k, (big.cross[c]).at k = e1 ∧ (big.cross[c]).at k = (big.cross[c]).at (k + 1) ∧
      (big.cross[c]).at (k + 2) ≠ (big.cross[c]).at (k + 3) := by
    rcases h3 with h | h
    · refine ⟨r1.tailpos, (sl s2).symm, ?_, ?_⟩
      · rw [← sl s2, atm (r1.tailpos + 1) r1.headpos (by omega), ← sl s1]
      · rw [atm (r1.tailpos + 2) ((r1.tailpos + 2) % 4) (by omega), ← sl s0, atm (r1.tailpos + 3) ((r1.headpos + 2) % 4) (by omega), ← sl s3]
        exact L.ne02
    · refine ⟨r1.headpos, (sl s1).symm, ?_, ?_⟩
      · rw [← sl s1, atm (r1.headpos + 1) r1.tailpos (by omega), ← sl s2]
      · rw [atm (r1.headpos + 2) ((r1.headpos + 2) % 4) (by omega), ← sl s3, atm (r1.headpos + 3) ((r1.tailpos + 2) % 4) (by omega), ← sl s0]
        exact L.ne02.symm
  obtain ⟨k, k1, k2, k3⟩ := key
  obtain ⟨caps', pd', f0, f2, τ', σ', ρ', b1, b2, -, -, -, -, -, -, L', -, -⟩ := C63_remove_loop qs' qs' big a3
    (Io.capsNew (pd.cross.length + 2)).verts (by simp only [Io.capsNew]; omega) c k _ (List.getElem?_eq_getElem hc) k2 k3
  rw [k1] at L'
  obtain ⟨m0, m1, m2, n0, n1, n2, -, -, -, t4, t5, t6, t7⟩ := L'.loop
  rw [g1] at n1
  cases n1
  have u0 := hC.head _ _ n0
  have u2 := hC.tail _ _ n2
  rw [t4, t5, s0] at u0
  rw [t6, t7, s3] at u2
  cases u0
  cases u2
  obtain ⟨t, s, r, R, S⟩ := L.unique L' hc
  exact ⟨_, big, c, caps', pd', t, s, r, a1, b1, b2, R, S⟩

/-! ### Cases -/

theorem Moves.isoHopf_neat : Neat isoHopf := Tidy.neat IsoSearch.isoHopf_searchable.tidy

/-- The figure eight: one crossing, two loops. -/
def eightPd : Io.Pd := ⟨[], 0, [⟨0, 0, 1, 1, .pos⟩], [⟨0, 0, 0, 1⟩, ⟨0, 3, 0, 2⟩], [⟨[0, 1], 65⟩],
  [⟨[0, 1], [.pos, .neg]⟩, ⟨[0], [.neg]⟩, ⟨[1], [.pos]⟩]⟩

theorem Moves.eight_plane : PlaneDiagram eightPd.cross eightPd.edge := by
  have hC : Consistent eightPd.cross eightPd.edge := by decide
  have two : ∀ d ∈ Faces.D eightPd.edge, (Faces.nd eightPd.cross eightPd.edge)^[2] d = d := by decide
  refine ⟨hC, by decide, by decide, ?_, ⟨[(0, .pos), (0, .neg), (1, .pos)], rfl, by decide, ?_, ?_⟩⟩
  · intro c d hc hd
    have hc' : c < 1 := hc
    have hd' : d < 1 := hd
    obtain rfl : c = d := by omega
    exact .refl
  · have : ∀ x ∈ ([(0, .pos), (0, .neg), (1, .pos)] : List Faces.Dart), ∀ y, Relation.ReflTransGen (Turns eightPd.edge) x y ↔
        y ∈ (List.range 2).map (fun i => (Faces.nd eightPd.cross eightPd.edge)^[i] x) := by
      intro x hx y
      have hD : x ∈ Faces.D eightPd.edge := by revert x; decide
      exact Faces.reach_range hC hD (by decide) (two x hD)
    refine List.Pairwise.imp_of_mem (R := fun x y => y ∉ (List.range 2).map
      (fun i => (Faces.nd eightPd.cross eightPd.edge)^[i] x)) ?_ (by decide)
    intro x y hx _ h
    rwa [this x hx]
  · intro s hs
    have : ∃ r ∈ ([(0, .pos), (0, .neg), (1, .pos)] : List Faces.Dart), r ∈ Faces.D eightPd.edge ∧
        s ∈ (List.range 2).map (fun i => (Faces.nd eightPd.cross eightPd.edge)^[i] r) := by
      revert s; decide
    obtain ⟨r, h1, h2, h3⟩ := this
    exact ⟨r, h1, (Faces.reach_range hC h2 (by decide) (two r h2)).mpr h3⟩

theorem Moves.eight_neat : Neat eightPd := by
  obtain ⟨cross', edge', comps, faces, h1, h2, -⟩ := C51_regenerated_ok insQSort insQSort 2 eightPd.cross eightPd.edge eightPd.edge
    eight_plane (Or.inl ⟨rfl, _, List.mem_cons_self, by decide⟩) (by decide) (by decide)
  have h3 : Regenerate.regenerate insQSort (Io.capsNew 2).edges (Io.capsNew 2).comps (Io.capsNew 2).faces eightPd.cross eightPd.edge =
      .ok (eightPd.cross, eightPd.edge, eightPd.comp, eightPd.face) := by decide +kernel
  rw [h3] at h1
  cases h1
  exact Tidy.neat h2

example (qs : QSort) : loopDeletion qs 2 eightPd 0 = .ok (.unknot 0) :=
  (C63_remove_figure_eight qs eightPd eight_neat 2 0 0 _ rfl rfl rfl).2

/-- A loop on the Hopf link, and off again. -/
example (qs : QSort) : ∃ caps pd', loopAddition qs isoHopf 0 0 = .ok (.code caps pd') ∧ Neat pd' ∧ pd'.cross.length = 3 := by
  obtain ⟨pd', c, e1, e2, τ, σ, ρ, h1, h2, h3, h4, h5, h6, -⟩ := C63_add_loop qs qs isoHopf isoHopf_neat (by decide) 0 0 0 .neg _ rfl rfl rfl
  exact ⟨_, pd', h1, h3, h6⟩

example (qs : QSort) : ∃ (caps : Io.Caps) (big : Io.Pd) (c : Nat) (caps' : Io.Caps) (pd' : Io.Pd) (τ σ ρ : Nat → Nat),
    loopAddition qs isoHopf 0 0 = .ok (.code caps big) ∧ loopDeletion qs caps.verts big c = .ok (.code caps' pd') ∧ Neat pd' ∧
    Renamed isoHopf.cross isoHopf.edge pd'.cross pd'.edge τ σ ρ (fun _ => false) ∧
    ∀ (c : Nat) (x : Cross), isoHopf.cross[c]? = some x → ∃ x', pd'.cross[σ c]? = some x' ∧ x'.sign = x.sign :=
  C63_round_trip qs qs isoHopf isoHopf_neat (by decide) 0 0 _ rfl (by decide)

end Plc
