import Verif.Props.IsoSearch
import Verif.Proofs.Isotopy3
import Verif.Proofs.MapIso
import Verif.Proofs.PlaneCheck

/-! # C54, C55: diagram isotopies and map isomorphisms -/

namespace Plc

open Plc.Cmp Plc.PermM Plc.Emap Plc.Isos Plc.Ok Plc.IsoSearch Plc.Isotopy Plc.Regenerate

/-- A diagram as `pd_regenerate` leaves it, hash included, but for the tags of components, which may be any
that differ; the numbers `nedges` of the components multiply to less than `2^32`. -/
structure Isotopable (pd : Io.Pd) : Prop where
  tidy : Tidy pd.cross pd.edge (pd.comp.mapIdx (fun i k => ⟨k.edge, 65 + i⟩)) pd.face
  hash : ∃ qs : QSort, HashGen.regenHash qs pd.cross.length pd.edge.length pd.face pd.comp = .ok pd.hash
  tags : (pd.comp.map (·.tag)).Nodup
  product : (pd.comp.map (fun k => k.edge.length)).prod < 2 ^ 32

/-- Equally many components have equal tags in the same order, or are more than six (`MAX_PC`) and have equal
tags in any order. -/
def TagsMatch (A B : Io.Pd) : Prop :=
  A.comp.length = B.comp.length → A.comp.map (·.tag) = B.comp.map (·.tag) ∨
    (6 < A.comp.length ∧ ∀ k ∈ A.comp, ∃ b ∈ B.comp, b.tag = k.tag)

/-- The maps in an isomorphism are those of an isotopy from `A` to `B`. -/
def IsotopyFrom (A B : Io.Pd) (o : Or) (i : Iso) : Prop :=
  ∃ cm, i.cmap = some cm ∧ cm.orient = o ∧ i.fmap.orient = o ∧
    IsotopyMaps A B i.comp.map i.emap.perm.map i.emap.orient cm.perm.map o i.fmap.perm.map

/-- **C54.** `pd_build_diagram_isotopies` lists isotopies only, all of them, and none twice. -/
theorem C54_all_isotopies (qs : QSort) (bs : BSearch) (A B : Io.Pd) (hA : Isotopable A) (hB : Isotopable B)
    (ht : TagsMatch A B) :
    ∃ L, diagramIsotopies qs bs A B = .ok L ∧
      (∀ i ∈ L, ∃ o, (o = .pos ∨ o = .neg) ∧ IsotopyFrom A B o i) ∧
      (∀ κ τ os σ o φ, (o = .pos ∨ o = .neg) → IsotopyMaps A B κ τ os σ o φ →
        ∃ i ∈ L, i.comp.map = κ ∧ i.emap.perm.map = τ ∧ i.emap.orient = os ∧ i.fmap.perm.map = φ ∧ i.fmap.orient = o ∧
          ∃ cm, i.cmap = some cm ∧ cm.perm.map = σ ∧ cm.orient = o) ∧
      (∀ (m n : Nat) i j, L[m]? = some i → L[n]? = some j → isoData i = isoData j → m = n) := by
  obtain ⟨qA, hqA⟩ := hA.hash
  obtain ⟨qB, hqB⟩ := hB.hash
  obtain ⟨L, l1, l2, l3, l4⟩ := diagramIsotopies_ok qs qA qB bs hA.tidy hB.tidy hqA hqB hA.product hA.tags hB.tags ht
  refine ⟨L, l1, ?_, ?_, ?_⟩
  · intro i hi
    obtain ⟨cm, hcm⟩ := Option.ne_none_iff_exists'.mp (l3 i hi).1
    have := (l4 i.comp.map i.emap.perm.map i.emap.orient cm.orient cm.perm.map i.fmap.orient i.fmap.perm.map).mp
      (List.mem_map.mpr ⟨i, hi, by simp [isoData, hcm]⟩)
    obtain ⟨h1, h2, h3⟩ := this
    refine ⟨cm.orient, ?_, cm, hcm, rfl, h1.symm, h3⟩
    revert h2
    cases cm.orient <;> simp
  · intro κ τ os σ o φ ho h
    obtain ⟨i, hi, hd⟩ := List.mem_map.mp ((l4 κ τ os o σ o φ).mpr ⟨rfl, by rcases ho with rfl | rfl <;> simp, h⟩)
    obtain ⟨cm, hcm⟩ := Option.ne_none_iff_exists'.mp (l3 i hi).1
    simp only [isoData, hcm, Prod.mk.injEq] at hd
    obtain ⟨h1, ⟨h2, h3⟩, ⟨h4, h5⟩, h6, h7⟩ := hd
    exact ⟨i, hi, h1, h2, h3, h7, h6, cm, hcm, h5, h4⟩
  · intro m n i j hm hn hij
    obtain ⟨m1, m2⟩ := List.getElem?_eq_some_iff.mp hm
    obtain ⟨n1, n2⟩ := List.getElem?_eq_some_iff.mp hn
    refine (List.Nodup.getElem_inj_iff l2 (hi := by simpa using m1) (hj := by simpa using n1)).mp ?_
    rw [List.getElem_map, List.getElem_map, m2, n2, hij]

theorem Isotopy.loose_or {A B : Io.Pd} {τ σ : Nat → Nat} {o : Or} (h : LooseIsotopy A B τ σ o) :
    ∃ o', (o' = .pos ∨ o' = .neg) ∧ LooseIsotopy A B τ σ o' := by
  obtain ⟨o', ho, hs⟩ := shadow_or h.shadow
  exact ⟨o', ho, hs, h.signs, h.comps⟩

/-- **C54.** `pd_diagram_isotopic` decides whether the shadow of one diagram can be carried to that of the
other with all signs kept, every component going to the one with the same tag, in the order of its edges. -/
theorem C54_isotopic (qs : QSort) (bs : BSearch) (A B : Io.Pd) (hA : Isotopable A) (hB : Isotopable B) (ht : TagsMatch A B) :
    ∃ b, diagramIsotopic qs bs A B = .ok b ∧ (b = true ↔ ∃ τ σ o, LooseIsotopy A B τ σ o) := by
  obtain ⟨L, l1, l2, l3, -⟩ := C54_all_isotopies qs bs A B hA hB ht
  refine ⟨!L.isEmpty, by rw [diagramIsotopic, l1, ok_bind], ?_⟩
  constructor
  · intro h
    have h : L ≠ [] := by
      rintro rfl
      simp at h
    obtain ⟨i, hi⟩ := List.exists_mem_of_ne_nil _ h
    obtain ⟨o, -, cm, -, -, -, hm⟩ := l2 i hi
    exact ⟨_, _, _, loose_of_maps hA.tidy hm⟩
  · rintro ⟨τ, σ, o, h⟩
    obtain ⟨o', ho', h⟩ := loose_or h
    obtain ⟨κ, os, φ, hm⟩ := maps_of_loose hA.tidy hB.tidy hA.tags hB.tags h
    obtain ⟨i, hi, -⟩ := l3 _ _ _ _ _ _ ho' hm
    cases L with
    | nil => simp at hi
    | cons => rfl

/-- **C54.** Diagrams that are the same up to renaming, turning crossings and looking from behind are found
isotopic. -/
theorem C54_same_is_isotopic (qs : QSort) (bs : BSearch) (A B : Io.Pd) (hA : Isotopable A) (hB : Isotopable B)
    (ht : TagsMatch A B) (τ σ : Nat → Nat) (o : Or) (turn : Nat → Nat) (h : SameDiagram A B τ σ o turn) :
    diagramIsotopic qs bs A B = .ok true := by
  obtain ⟨b, b1, b2⟩ := C54_isotopic qs bs A B hA hB ht
  rw [b1, b2.mpr ⟨_, _, _, loose_of_diagram hA.tidy hB.tidy h⟩]

/-- **C54** (soundness). If all components have at least three edges, diagrams that are found isotopic are the
same up to renaming, turning crossings and looking from behind. Missing: components with two edges, where
this is false (`C54_reversed_ring_accepted`). -/
theorem C54_isotopic_partial (qs : QSort) (bs : BSearch) (A B : Io.Pd) (hA : Isotopable A) (hB : Isotopable B)
    (ht : TagsMatch A B) (h3 : ∀ k ∈ A.comp, 3 ≤ k.edge.length) :
    ∃ b, diagramIsotopic qs bs A B = .ok b ∧ (b = true ↔ ∃ τ σ o turn, SameDiagram A B τ σ o turn) := by
  obtain ⟨b, b1, b2⟩ := C54_isotopic qs bs A B hA hB ht
  refine ⟨b, b1, b2.trans ⟨?_, ?_⟩⟩
  · rintro ⟨τ, σ, o, h⟩
    obtain ⟨turn, h'⟩ := diagram_of_loose hA.tidy hB.tidy h3 h
    exact ⟨τ, σ, o, turn, h'⟩
  · rintro ⟨τ, σ, o, turn, h⟩
    exact ⟨_, _, _, loose_of_diagram hA.tidy hB.tidy h⟩

theorem Isotopy.TagsMatch.symm {A B : Io.Pd} (hA : (A.comp.map (·.tag)).Nodup) (h : TagsMatch A B) : TagsMatch B A := by
  intro hl
  rcases h hl.symm with h | ⟨h1, h2⟩
  · exact .inl h.symm
  · refine .inr ⟨by omega, ?_⟩
    have hsub : A.comp.map (·.tag) ⊆ B.comp.map (·.tag) := by
      intro t ht
      obtain ⟨k, hk, rfl⟩ := List.mem_map.mp ht
      obtain ⟨b, hb, hbt⟩ := h2 k hk
      exact List.mem_map.mpr ⟨b, hb, hbt⟩
    have hp := (hA.subperm hsub).perm_of_length_le (by simp; omega)
    intro b hb
    obtain ⟨k, hk, hkt⟩ := List.mem_map.mp (hp.mem_iff.mpr (List.mem_map.mpr ⟨b, hb, rfl⟩))
    exact ⟨k, hk, hkt⟩

/-- **C54.** `pd_diagram_isotopic` is an equivalence relation among diagrams with matching tags. -/
theorem C54_equivalence (qs : QSort) (bs : BSearch) (A B C : Io.Pd) (hA : Isotopable A) (hB : Isotopable B)
    (hC : Isotopable C) (hAB : TagsMatch A B) (hBC : TagsMatch B C) (hAC : TagsMatch A C) :
    diagramIsotopic qs bs A A = .ok true ∧ diagramIsotopic qs bs A B = diagramIsotopic qs bs B A ∧
    (diagramIsotopic qs bs A B = .ok true → diagramIsotopic qs bs B C = .ok true →
      diagramIsotopic qs bs A C = .ok true) := by
  obtain ⟨aa, aa1, aa2⟩ := C54_isotopic qs bs A A hA hA (fun _ => .inl rfl)
  obtain ⟨ab, ab1, ab2⟩ := C54_isotopic qs bs A B hA hB hAB
  obtain ⟨ba, ba1, ba2⟩ := C54_isotopic qs bs B A hB hA (TagsMatch.symm hA.tags hAB)
  obtain ⟨bc, bc1, bc2⟩ := C54_isotopic qs bs B C hB hC hBC
  obtain ⟨ac, ac1, ac2⟩ := C54_isotopic qs bs A C hA hC hAC
  refine ⟨?_, ?_, ?_⟩
  · rw [aa1, aa2.mpr ⟨_, _, _, loose_refl A⟩]
  · rw [ab1, ba1]
    congr 1
    rw [Bool.eq_iff_iff, ab2, ba2]
    constructor
    · rintro ⟨τ, σ, o, h⟩
      obtain ⟨τ', σ', h'⟩ := loose_symm hA.tidy hB.tidy h
      exact ⟨τ', σ', o, h'⟩
    · rintro ⟨τ, σ, o, h⟩
      obtain ⟨τ', σ', h'⟩ := loose_symm hB.tidy hA.tidy h
      exact ⟨τ', σ', o, h'⟩
  · rw [ab1, bc1, ac1]
    intro h1 h2
    obtain ⟨τ, σ, o, h⟩ := ab2.mp (Except.ok.inj h1)
    obtain ⟨τ', σ', o', h'⟩ := bc2.mp (Except.ok.inj h2)
    have hel : A.edge.length = B.edge.length := by
      rw [hA.tidy.plane.consistent.count, hB.tidy.plane.consistent.count, h.shadow.len]
    rw [ac2.mpr ⟨_, _, _, loose_trans hel h h'⟩]

/-- Tags that do not match end the program, once shadows and the sums of signs agree: with at most six
components when the tags are not the same in the same order, and always when a tag is missing. -/
theorem C54_other_tags_die (qs : QSort) (bs : BSearch) (A B : Io.Pd) (hA : Isotopable A) (hB : Isotopable B)
    (τ σ : Nat → Nat) (o : Or) (h : SameShadow A.cross B.cross A.edge.length τ σ o)
    (hw : (A.cross.map (fun x => if x.sign = .pos then (1 : Int) else -1)).sum =
      (B.cross.map (fun x => if x.sign = .pos then (1 : Int) else -1)).sum)
    (ht : (A.comp.length ≤ 6 ∧ A.comp.map (·.tag) ≠ B.comp.map (·.tag)) ∨ ∃ k ∈ A.comp, ∀ b ∈ B.comp, b.tag ≠ k.tag) :
    diagramIsotopic qs bs A B = .error .die := by
  obtain ⟨qA, hqA⟩ := hA.hash
  obtain ⟨qB, hqB⟩ := hB.hash
  obtain ⟨κ, os, φ, hm⟩ := maps_of_shadow (A := retagged A) (B := retagged B) hA.tidy hB.tidy h
  rw [diagramIsotopic, diagramIsotopies_die qs qA qB bs hA.tidy hB.tidy hqA hqB hB.tags (maps_retag.mp hm) hw ht]
  rfl

/-! ### The Hopf link -/

theorem Isotopy.hopf_isotopable (s t : Nat) (h : s ≠ t) : Isotopable { isoHopf with comp := [⟨[0, 1], s⟩, ⟨[2, 3], t⟩] } :=
  ⟨isoHopf_searchable.tidy, isoHopf_searchable.hash, by simp [h], by simp⟩

example (qs : QSort) (bs : BSearch) : diagramIsotopic qs bs isoHopf isoHopf = .ok true :=
  (C54_equivalence qs bs isoHopf isoHopf isoHopf (hopf_isotopable 65 66 (by decide)) (hopf_isotopable 65 66 (by decide))
    (hopf_isotopable 65 66 (by decide)) (fun _ => .inl rfl) (fun _ => .inl rfl) (fun _ => .inl rfl)).1

/-- The Hopf link and the Hopf link with the names of its rings exchanged: asking whether they are isotopic
ends the program. -/
theorem C54_exchanged_tags_die (qs : QSort) (bs : BSearch) :
    diagramIsotopic qs bs isoHopf { isoHopf with comp := [⟨[0, 1], 66⟩, ⟨[2, 3], 65⟩] } = .error .die :=
  C54_other_tags_die qs bs isoHopf _ (hopf_isotopable 65 66 (by decide)) (hopf_isotopable 66 65 (by decide)) id id .pos
    (SameShadow.refl _ _) rfl (.inl ⟨by decide, by decide⟩)

/-! ### A ring around a strand -/

/-- A curve with one crossing of its own and a ring around one of its strands. -/
def ringPd : Io.Pd where
  hash := "AwYFBAMCAgECBAICAQMCAwEBAQL0AAA".toList
  uid := 0
  cross := [⟨0, 2, 3, 3, .pos⟩, ⟨0, 4, 1, 5, .pos⟩, ⟨1, 4, 2, 5, .pos⟩]
  edge := [⟨1, 0, 0, 0⟩, ⟨2, 0, 1, 2⟩, ⟨0, 1, 2, 2⟩, ⟨0, 2, 0, 3⟩, ⟨2, 1, 1, 1⟩, ⟨1, 3, 2, 3⟩]
  comp := [⟨[0, 1, 2, 3], 65⟩, ⟨[4, 5], 66⟩]
  face := [⟨[0, 3, 2, 4], [.neg, .pos, .neg, .neg]⟩, ⟨[0, 5, 2], [.pos, .neg, .pos]⟩, ⟨[1, 4], [.neg, .pos]⟩,
    ⟨[1, 5], [.pos, .pos]⟩, ⟨[3], [.neg]⟩]

/-- The same with the ring reversed, and all signs kept. -/
def ringBack : Io.Pd where
  hash := "AwYFBAMCAgECBAICAQMCAwEBAQL0AAA".toList
  uid := 0
  cross := [⟨0, 2, 3, 3, .pos⟩, ⟨0, 4, 1, 5, .pos⟩, ⟨1, 4, 2, 5, .pos⟩]
  edge := [⟨1, 0, 0, 0⟩, ⟨2, 0, 1, 2⟩, ⟨0, 1, 2, 2⟩, ⟨0, 2, 0, 3⟩, ⟨1, 1, 2, 1⟩, ⟨2, 3, 1, 3⟩]
  comp := [⟨[0, 1, 2, 3], 65⟩, ⟨[4, 5], 66⟩]
  face := [⟨[0, 3, 2, 4], [.neg, .pos, .neg, .pos]⟩, ⟨[0, 5, 2], [.pos, .pos, .pos]⟩, ⟨[1, 4], [.neg, .neg]⟩,
    ⟨[1, 5], [.pos, .neg]⟩, ⟨[3], [.neg]⟩]

theorem Isotopy.ringPd_plane : PlaneDiagram ringPd.cross ringPd.edge where
  consistent := by decide +kernel
  oriented := by decide +kernel
  nonempty := by decide
  connected := connected_of (by decide +kernel)
  plane := planeFaces_of (by decide +kernel) 12 (by decide) (by decide +kernel)
    [(0, .neg), (0, .pos), (1, .neg), (1, .pos), (3, .neg)] (by decide) (by decide +kernel)
    (by decide +kernel) (by decide +kernel) (by decide +kernel)

theorem Isotopy.ringBack_plane : PlaneDiagram ringBack.cross ringBack.edge where
  consistent := by decide +kernel
  oriented := by decide +kernel
  nonempty := by decide
  connected := connected_of (by decide +kernel)
  plane := planeFaces_of (by decide +kernel) 12 (by decide) (by decide +kernel)
    [(0, .neg), (0, .pos), (1, .neg), (1, .pos), (3, .neg)] (by decide) (by decide +kernel)
    (by decide +kernel) (by decide +kernel) (by decide +kernel)

theorem Isotopy.ringPd_isotopable : Isotopable ringPd := by
  obtain ⟨cross', edge', comps, faces, h1, h2, -⟩ :=
    C51_regenerated_ok insQSort insQSort 3 ringPd.cross ringPd.edge ringPd.edge ringPd_plane
      (Or.inl ⟨rfl, _, List.mem_cons_self, by decide⟩) (by decide) (by decide)
  have h3 : regenerate insQSort (Io.capsNew 3).edges (Io.capsNew 3).comps (Io.capsNew 3).faces ringPd.cross ringPd.edge =
      .ok (ringPd.cross, ringPd.edge, ringPd.comp, ringPd.face) := by decide +kernel
  rw [h3] at h1
  cases h1
  exact ⟨h2, ⟨insQSort, by decide +kernel⟩, by decide, by decide⟩

theorem Isotopy.ringBack_isotopable : Isotopable ringBack := by
  obtain ⟨cross', edge', comps, faces, h1, h2, -⟩ :=
    C51_regenerated_ok insQSort insQSort 3 ringBack.cross ringBack.edge ringBack.edge ringBack_plane
      (Or.inl ⟨rfl, _, List.mem_cons_self, by decide⟩) (by decide) (by decide)
  have h3 : regenerate insQSort (Io.capsNew 3).edges (Io.capsNew 3).comps (Io.capsNew 3).faces ringBack.cross ringBack.edge =
      .ok (ringBack.cross, ringBack.edge, ringBack.comp, ringBack.face) := by decide +kernel
  rw [h3] at h1
  cases h1
  exact ⟨h2, ⟨insQSort, by decide +kernel⟩, by decide, by decide⟩

/-- Two diagrams that are not the same are found isotopic: reversing a ring of two edges while keeping the
signs of its crossings goes unnoticed. -/
theorem C54_reversed_ring_accepted (qs : QSort) (bs : BSearch) :
    diagramIsotopic qs bs ringPd ringBack = .ok true ∧ ¬ ∃ τ σ o turn, SameDiagram ringPd ringBack τ σ o turn := by
  constructor
  · obtain ⟨b, b1, b2⟩ := C54_isotopic qs bs ringPd ringBack ringPd_isotopable ringBack_isotopable (fun _ => .inl rfl)
    rw [b1, b2.mpr ⟨id, id, .pos, SameShadow.refl _ _, fun c x hx => ⟨x, hx, rfl⟩, (loose_refl ringPd).comps⟩]
  · rintro ⟨τ, σ, o, turn, h⟩
    obtain ⟨s, s1, s2, s3, s4, s5⟩ := h.ends 3 ⟨0, 2, 0, 3⟩ rfl
    obtain ⟨t, t1, t2, t3, t4, t5⟩ := h.ends 0 ⟨1, 0, 0, 0⟩ rfl
    obtain ⟨u, u1, u2, u3, u4, u5⟩ := h.ends 4 ⟨2, 1, 1, 1⟩ rfl
    have hs : s = ⟨0, 2, 0, 3⟩ := by
      have : ∀ s ∈ ringBack.edge, s.tail = s.head → s = ⟨0, 2, 0, 3⟩ := by decide
      exact this s (List.mem_of_getElem? s1) (s2.trans s4.symm)
    subst hs
    dsimp only at s2 s3 s5 t2 t3 t4 t5 u2 u3
    have ho : o ≠ .neg := by
      rintro rfl
      simp only [slotTo, if_true] at s3 s5
      omega
    simp only [slotTo, if_neg ho] at s3 s5 t3 t5 u3
    have ht : t = ⟨1, 0, 0, 0⟩ := by
      have : ∀ s ∈ ringBack.edge, s.tail = 0 → s.tailpos = 0 → s = ⟨1, 0, 0, 0⟩ := by decide
      exact this t (List.mem_of_getElem? t1) (t2.trans s2.symm) (by omega)
    subst ht
    dsimp only at t4 t5
    have : ∀ s ∈ ringBack.edge, s.tail = 1 → s.tailpos ≠ 1 := by decide
    exact this u (List.mem_of_getElem? u1) (u2.trans t4.symm) (by omega)

/-! ### The trefoil -/

/-- The shadow of the trefoil with signs. -/
def isoTrefoil (a b c : Or) : Io.Pd where
  hash := "AwYFAwMCAgIBBgAG7wAAAAAAAAAAAAA".toList
  uid := 0
  cross := [⟨0, 3, 5, 2, a⟩, ⟨0, 4, 1, 3, b⟩, ⟨1, 4, 2, 5, c⟩]
  edge := [⟨1, 0, 0, 0⟩, ⟨2, 0, 1, 2⟩, ⟨0, 3, 2, 2⟩, ⟨1, 3, 0, 1⟩, ⟨2, 1, 1, 1⟩, ⟨0, 2, 2, 3⟩]
  comp := [⟨[0, 1, 2, 3, 4, 5], 65⟩]
  face := [⟨[0, 2, 4], [.neg, .neg, .neg]⟩, ⟨[1, 5, 3], [.pos, .pos, .pos]⟩, ⟨[0, 3], [.pos, .neg]⟩,
    ⟨[1, 4], [.neg, .pos]⟩, ⟨[2, 5], [.pos, .neg]⟩]

theorem Isotopy.trefoil_isotopable (a b : Or) (ha : a ≠ .unset) (hb : b ≠ .unset) : Isotopable (isoTrefoil a b .pos) := by
  have hp : PlaneDiagram (isoTrefoil a b .pos).cross (isoTrefoil a b .pos).edge := by
    cases a <;> cases b <;> first
      | exact absurd rfl ha
      | exact absurd rfl hb
      | exact ⟨by decide +kernel, by decide +kernel, by decide, connected_of (by decide +kernel),
          planeFaces_of (by decide +kernel) 6 (by decide) (by decide +kernel)
            [(0, .neg), (1, .pos), (0, .pos), (1, .neg), (2, .pos)] (by decide) (by decide +kernel)
            (by decide +kernel) (by decide +kernel) (by decide +kernel)⟩
  obtain ⟨cross', edge', comps, faces, h1, h2, -⟩ :=
    C51_regenerated_ok insQSort insQSort 3 _ _ _ hp
      (Or.inl ⟨rfl, _, List.mem_cons_self, ha⟩) (show (3 : Nat) ≤ 3 by decide) (show 2 * 6 < 2 ^ 31 by decide)
  have h3 : regenerate insQSort (Io.capsNew 3).edges (Io.capsNew 3).comps (Io.capsNew 3).faces (isoTrefoil a b .pos).cross
      (isoTrefoil a b .pos).edge =
      .ok ((isoTrefoil a b .pos).cross, (isoTrefoil a b .pos).edge, (isoTrefoil a b .pos).comp, (isoTrefoil a b .pos).face) := by
    cases a <;> cases b <;> first | exact absurd rfl ha | exact absurd rfl hb | decide +kernel
  rw [h3] at h1
  cases h1
  refine ⟨h2, ⟨insQSort, ?_⟩, List.nodup_singleton _, show 6 * 1 < 2 ^ 32 by decide⟩
  cases a <;> cases b <;> decide +kernel

/-- Which of the crossings has the other sign does not matter; that one of them has, does. -/
example : diagramIsotopic insQSort linearBSearch (isoTrefoil .neg .pos .pos) (isoTrefoil .pos .neg .pos) = .ok true ∧
    diagramIsotopic insQSort linearBSearch (isoTrefoil .neg .pos .pos) (isoTrefoil .pos .pos .pos) = .ok false := by
  decide +kernel

example : ∃ τ σ o turn, SameDiagram (isoTrefoil .neg .pos .pos) (isoTrefoil .pos .neg .pos) τ σ o turn := by
  obtain ⟨b, b1, b2⟩ := C54_isotopic_partial insQSort linearBSearch _ _ (trefoil_isotopable .neg .pos (by simp) (by simp))
    (trefoil_isotopable .pos .neg (by simp) (by simp)) (fun _ => .inl rfl)
    (fun k hk => by rw [List.mem_singleton.mp hk]; decide)
  rw [show diagramIsotopic insQSort linearBSearch (isoTrefoil .neg .pos .pos) (isoTrefoil .pos .neg .pos) = .ok true by
    decide +kernel] at b1
  cases b1
  exact b2.mp rfl

/-! ### Map isomorphisms -/

/-- **C55.** `pd_build_map_isomorphisms` lists the isomorphisms that are not reflections: only those, all of
them, and none twice. -/
theorem C55_all_map_isomorphisms (qs : QSort) (bs : BSearch) (mvA mvB : Nat) (A B : Io.Pd) (hA : Searchable mvA A)
    (hB : Searchable mvB B) :
    ∃ L, mapIsomorphisms qs bs (Io.capsNew mvA) (Io.capsNew mvB) A B = .ok L ∧
      (∀ i ∈ L, IsoFrom A B .pos i) ∧
      (∀ κ τ os σ φ, IsoMaps A B κ τ os σ .pos φ .pos →
        ∃ i ∈ L, i.comp.map = κ ∧ i.emap.perm.map = τ ∧ i.emap.orient = os ∧ i.fmap.perm.map = φ ∧ i.fmap.orient = .pos ∧
          ∃ cm, i.cmap = some cm ∧ cm.perm.map = σ ∧ cm.orient = .pos) ∧
      (∀ (m n : Nat) i j, L[m]? = some i → L[n]? = some j → isoData i = isoData j → m = n) := by
  obtain ⟨qA, hqA⟩ := hA.hash
  obtain ⟨qB, hqB⟩ := hB.hash
  obtain ⟨L, l1, l2, l3, l4⟩ := mapIsomorphisms_ok qs qA qB bs mvA mvB hA.tidy hB.tidy hA.room hB.room hqA hqB hA.comps hA.product
  refine ⟨L, l1, ?_, ?_, ?_⟩
  · intro i hi
    obtain ⟨cm, hcm⟩ := Option.ne_none_iff_exists'.mp (l3 i hi).1
    have := (l4 i.comp.map i.emap.perm.map i.emap.orient cm.orient cm.perm.map i.fmap.orient i.fmap.perm.map).mp
      (List.mem_map.mpr ⟨i, hi, by simp [isoData, hcm]⟩)
    exact ⟨cm, hcm, this⟩
  · intro κ τ os σ φ h
    obtain ⟨i, hi, hd⟩ := List.mem_map.mp ((l4 κ τ os .pos σ .pos φ).mpr ⟨rfl, rfl, h⟩)
    obtain ⟨cm, hcm⟩ := Option.ne_none_iff_exists'.mp (l3 i hi).1
    simp only [isoData, hcm, Prod.mk.injEq] at hd
    obtain ⟨h1, ⟨h2, h3⟩, ⟨h4, h5⟩, h6, h7⟩ := hd
    exact ⟨i, hi, h1, h2, h3, h7, h6, cm, hcm, h5, h4⟩
  · intro m n i j hm hn hij
    obtain ⟨m1, m2⟩ := List.getElem?_eq_some_iff.mp hm
    obtain ⟨n1, n2⟩ := List.getElem?_eq_some_iff.mp hn
    refine (List.Nodup.getElem_inj_iff l2 (hi := by simpa using m1) (hj := by simpa using n1)).mp ?_
    rw [List.getElem_map, List.getElem_map, m2, n2, hij]

/-- **C55.** `pd_map_isomorphic` decides whether two diagrams have the same shadow, seen from the same side. -/
theorem C55_map_isomorphic (qs : QSort) (bs : BSearch) (mvA mvB : Nat) (A B : Io.Pd) (hA : Searchable mvA A)
    (hB : Searchable mvB B) :
    ∃ b, mapIsomorphic qs bs (Io.capsNew mvA) (Io.capsNew mvB) A B = .ok b ∧
      (b = true ↔ ∃ τ σ, SameShadow A.cross B.cross A.edge.length τ σ .pos) := by
  obtain ⟨L, l1, l2, l3, -⟩ := C55_all_map_isomorphisms qs bs mvA mvB A B hA hB
  refine ⟨!L.isEmpty, by rw [mapIsomorphic, l1, ok_bind], ?_⟩
  constructor
  · intro h
    have h : L ≠ [] := by
      rintro rfl
      simp at h
    obtain ⟨i, hi⟩ := List.exists_mem_of_ne_nil _ h
    obtain ⟨cm, -, -, -, hm⟩ := l2 i hi
    exact ⟨_, _, hm.shadow⟩
  · rintro ⟨τ, σ, h⟩
    obtain ⟨κ, os, φ, hm⟩ := maps_of_shadow hA.tidy hB.tidy h
    obtain ⟨i, hi, -⟩ := l3 _ _ _ _ _ hm
    cases L with
    | nil => simp at hi
    | cons => rfl

theorem Isotopy.ringPd_searchable : Searchable 3 ringPd :=
  ⟨ringPd_isotopable.tidy, by decide, ringPd_isotopable.hash, by decide, by decide⟩

example (qs : QSort) (bs : BSearch) : mapIsomorphic qs bs (Io.capsNew 3) (Io.capsNew 3) ringPd ringPd = .ok true := by
  obtain ⟨b, b1, b2⟩ := C55_map_isomorphic qs bs 3 3 ringPd ringPd ringPd_searchable ringPd_searchable
  rw [b1, b2.mpr ⟨_, _, SameShadow.refl _ _⟩]

end Plc
