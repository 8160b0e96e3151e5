import Verif.Model.Query
import Verif.Props.Unpack

/-! # C62: faces of an edge; copies -/

namespace Plc

open Plc.Cmp Plc.Query Plc.Io

/-- Place `j` of face `f` is edge `e` with direction `o`. -/
def SideAt (faces : List Face) (e : Nat) (o : Or) (f j : Nat) : Prop :=
  ∃ F, faces[f]? = some F ∧ F.edge[j]? = some e ∧ F.orient[j]? = some o

namespace Query

/-- What is known after a search: `none` of the places fits and nothing was changed, or one was written that fits. -/
def After (before after : Option (Nat × Nat)) (fits : Nat → Nat → Prop) : Prop :=
  (after = before ∧ ∀ f j, ¬ fits f j) ∨ ∃ f j, after = some (f, j) ∧ fits f j

theorem onFace_ok (e face : Nat) (orient : List Or) : ∀ (l : List Nat) (i : Nat) (s : Found), i + l.length ≤ orient.length →
    ∃ s', onFace e face orient i l s = .ok s' ∧
      After s.pos s'.pos (fun f j => f = face ∧ i ≤ j ∧ l[j - i]? = some e ∧ orient[j]? = some .pos) ∧
      After s.neg s'.neg (fun f j => f = face ∧ i ≤ j ∧ l[j - i]? = some e ∧ orient[j]? = some .neg)
  | [], i, s, _ => ⟨s, rfl, .inl ⟨rfl, by simp⟩, .inl ⟨rfl, by simp⟩⟩
  | x :: l, i, s, h => by
    rw [List.length_cons] at h
    -- places in the tail
    have tail : ∀ (o : Or) (f j : Nat), (f = face ∧ i + 1 ≤ j ∧ l[j - (i + 1)]? = some e ∧ orient[j]? = some o) →
        (f = face ∧ i ≤ j ∧ (x :: l)[j - i]? = some e ∧ orient[j]? = some o) := by
      rintro o f j ⟨h1, h2, h3, h4⟩
      refine ⟨h1, by omega, ?_, h4⟩
      obtain ⟨k, hk⟩ : ∃ k, j - i = k + 1 := ⟨j - i - 1, by omega⟩
      rw [hk, List.getElem?_cons_succ]
      rwa [show k = j - (i + 1) by omega]
    have head : ∀ (o : Or) (f j : Nat), (f = face ∧ i ≤ j ∧ (x :: l)[j - i]? = some e ∧ orient[j]? = some o) →
        (f = face ∧ j = i ∧ x = e ∧ orient[i]? = some o) ∨ (f = face ∧ i + 1 ≤ j ∧ l[j - (i + 1)]? = some e ∧ orient[j]? = some o) := by
      rintro o f j ⟨h1, h2, h3, h4⟩
      by_cases hj : j = i
      · subst hj
        rw [Nat.sub_self, List.getElem?_cons_zero] at h3
        exact .inl ⟨h1, rfl, Option.some.inj h3, h4⟩
      · obtain ⟨k, hk⟩ : ∃ k, j - i = k + 1 := ⟨j - i - 1, by omega⟩
        rw [hk, List.getElem?_cons_succ] at h3
        exact .inr ⟨h1, by omega, by rwa [show j - (i + 1) = k by omega], h4⟩
    have unhit : ∀ (o : Or) (b b' : Option (Nat × Nat)), ¬ (x = e ∧ orient[i]? = some o) →
        After b b' (fun f j => f = face ∧ i + 1 ≤ j ∧ l[j - (i + 1)]? = some e ∧ orient[j]? = some o) →
        After b b' (fun f j => f = face ∧ i ≤ j ∧ (x :: l)[j - i]? = some e ∧ orient[j]? = some o) := by
      rintro o b b' hn (⟨h1, h2⟩ | ⟨f, j, h1, h2⟩)
      · refine .inl ⟨h1, fun f j hf => ?_⟩
        rcases head o f j hf with ⟨-, -, a, b⟩ | h
        · exact hn ⟨a, b⟩
        · exact h2 f j h
      · exact .inr ⟨f, j, h1, tail o f j h2⟩
    have hit : ∀ (o : Or) (b' : Option (Nat × Nat)), x = e → orient[i]? = some o →
        After (some (face, i)) b' (fun f j => f = face ∧ i + 1 ≤ j ∧ l[j - (i + 1)]? = some e ∧ orient[j]? = some o) →
        ∀ b, After b b' (fun f j => f = face ∧ i ≤ j ∧ (x :: l)[j - i]? = some e ∧ orient[j]? = some o) := by
      rintro o b' hx ho (⟨h1, -⟩ | ⟨f, j, h1, h2⟩) b
      · exact .inr ⟨face, i, h1, rfl, Nat.le_refl _, by simp [hx], ho⟩
      · exact .inr ⟨f, j, h1, tail o f j h2⟩
    unfold onFace
    by_cases hx : x = e
    · rw [if_pos hx]
      obtain ⟨o, ho⟩ : ∃ o, orient[i]? = some o := ⟨_, List.getElem?_eq_getElem (by omega)⟩
      rw [rd_ok ho, ok_bind]
      cases o with
      | pos =>
        obtain ⟨s', s1, s2, s3⟩ := onFace_ok e face orient l (i + 1) { s with pos := some (face, i) } (by omega)
        exact ⟨s', s1, hit .pos _ hx ho s2 _, unhit .neg _ _ (by rw [ho]; simp) s3⟩
      | neg =>
        obtain ⟨s', s1, s2, s3⟩ := onFace_ok e face orient l (i + 1) { s with neg := some (face, i) } (by omega)
        exact ⟨s', s1, unhit .pos _ _ (by rw [ho]; simp) s2, hit .neg _ hx ho s3 _⟩
      | unset =>
        obtain ⟨s', s1, s2, s3⟩ := onFace_ok e face orient l (i + 1) s (by omega)
        exact ⟨s', s1, unhit .pos _ _ (by rw [ho]; simp) s2, unhit .neg _ _ (by rw [ho]; simp) s3⟩
    · rw [if_neg hx]
      obtain ⟨s', s1, s2, s3⟩ := onFace_ok e face orient l (i + 1) s (by omega)
      exact ⟨s', s1, unhit .pos _ _ (fun h => hx h.1) s2, unhit .neg _ _ (fun h => hx h.1) s3⟩

theorem onFaces_ok (e : Nat) : ∀ (l : List Face) (i : Nat) (s : Found), (∀ f ∈ l, f.edge.length ≤ f.orient.length) →
    ∃ s', onFaces e i l s = .ok s' ∧ After s.pos s'.pos (fun f j => i ≤ f ∧ SideAt l e .pos (f - i) j) ∧
      After s.neg s'.neg (fun f j => i ≤ f ∧ SideAt l e .neg (f - i) j)
  | [], i, s, _ => ⟨s, rfl, .inl ⟨rfl, by simp [SideAt]⟩, .inl ⟨rfl, by simp [SideAt]⟩⟩
  | F :: l, i, s, h => by
    obtain ⟨t, t1, t2, t3⟩ := onFace_ok e i F.orient F.edge 0 s (by have := h F (by simp); omega)
    obtain ⟨s', s1, s2, s3⟩ := onFaces_ok e l (i + 1) t (fun f hf => h f (by simp [hf]))
    refine ⟨s', by rw [onFaces, t1, ok_bind, s1], ?_⟩
    have join : ∀ (o : Or) (a b c : Option (Nat × Nat)),
        After a b (fun f j => f = i ∧ 0 ≤ j ∧ F.edge[j - 0]? = some e ∧ F.orient[j]? = some o) →
        After b c (fun f j => i + 1 ≤ f ∧ SideAt l e o (f - (i + 1)) j) →
        After a c (fun f j => i ≤ f ∧ SideAt (F :: l) e o (f - i) j) := by
      intro o a b c h1 h2
      have later : ∀ f j, i + 1 ≤ f ∧ SideAt l e o (f - (i + 1)) j → i ≤ f ∧ SideAt (F :: l) e o (f - i) j := by
        rintro f j ⟨g1, G, g2, g3⟩
        refine ⟨by omega, G, ?_, g3⟩
        obtain ⟨k, hk⟩ : ∃ k, f - i = k + 1 := ⟨f - i - 1, by omega⟩
        rw [hk, List.getElem?_cons_succ]
        rwa [show k = f - (i + 1) by omega]
      rcases h2 with ⟨rfl, h2⟩ | ⟨f, j, h2, h3⟩
      · rcases h1 with ⟨rfl, h1⟩ | ⟨f, j, h1, h3⟩
        · refine .inl ⟨rfl, ?_⟩
          rintro f j ⟨g1, G, g2, g3, g4⟩
          by_cases hf : f = i
          · subst hf
            rw [Nat.sub_self, List.getElem?_cons_zero] at g2
            cases g2
            exact h1 f j ⟨rfl, Nat.zero_le _, g3, g4⟩
          · obtain ⟨k, hk⟩ : ∃ k, f - i = k + 1 := ⟨f - i - 1, by omega⟩
            rw [hk, List.getElem?_cons_succ] at g2
            exact h2 f j ⟨by omega, G, by rwa [show f - (i + 1) = k by omega], g3, g4⟩
        · obtain ⟨rfl, -, g1, g2⟩ := h3
          exact .inr ⟨f, j, h1, Nat.le_refl _, F, by simp, g1, g2⟩
      · exact .inr ⟨f, j, h2, later f j h3⟩
    exact ⟨join .pos _ _ _ t2 s2, join .neg _ _ _ t3 s3⟩

/-- Each side is at one place only. -/
theorem side_unique {cross : List Cross} {edge : List Edge} {faces : List Face} (hF : GoodFaces cross edge faces) {e : Nat} {o : Or}
    {f j f' j' : Nat} (h : SideAt faces e o f j) (h' : SideAt faces e o f' j') : f = f' ∧ j = j' := by
  have hn : (faces.flatMap sides).Nodup := hF.all.nodup_iff.mpr (by
    unfold allSides
    rw [List.nodup_append]
    refine ⟨?_, ?_, ?_⟩
    · exact List.nodup_range.map (fun a b h => (Prod.mk.inj h).1)
    · exact List.nodup_range.map (fun a b h => (Prod.mk.inj h).1)
    · intro a ha b hb
      obtain ⟨x, -, rfl⟩ := List.mem_map.mp ha
      obtain ⟨y, -, rfl⟩ := List.mem_map.mp hb
      simp)
  obtain ⟨F, a1, a2, a3⟩ := h
  obtain ⟨G, b1, b2, b3⟩ := h'
  have sF : (sides F)[j]? = some (e, o) := by rw [sides, List.getElem?_zip_eq_some]; exact ⟨a2, a3⟩
  have sG : (sides G)[j']? = some (e, o) := by rw [sides, List.getElem?_zip_eq_some]; exact ⟨b2, b3⟩
  rw [List.nodup_flatMap] at hn
  have hff : f = f' := by
    obtain ⟨l1, rfl⟩ := List.getElem?_eq_some_iff.mp a1
    obtain ⟨l2, rfl⟩ := List.getElem?_eq_some_iff.mp b1
    by_contra hne
    rcases Nat.lt_or_gt_of_ne hne with h | h
    · exact List.pairwise_iff_getElem.mp hn.2 f f' l1 l2 h (List.mem_of_getElem? sF) (List.mem_of_getElem? sG)
    · exact List.pairwise_iff_getElem.mp hn.2 f' f l2 l1 h (List.mem_of_getElem? sG) (List.mem_of_getElem? sF)
  subst hff
  rw [a1] at b1
  cases b1
  refine ⟨rfl, ?_⟩
  have := hn.1 F (List.mem_of_getElem? a1)
  obtain ⟨l1, e1⟩ := List.getElem?_eq_some_iff.mp sF
  obtain ⟨l2, e2⟩ := List.getElem?_eq_some_iff.mp sG
  exact (this.getElem_inj_iff).mp (e1.trans e2.symm)

theorem side_exists {cross : List Cross} {edge : List Edge} {faces : List Face} (hF : GoodFaces cross edge faces) {e : Nat}
    (he : e < edge.length) {o : Or} (ho : o = .pos ∨ o = .neg) : ∃ f j, SideAt faces e o f j := by
  have : (e, o) ∈ faces.flatMap sides := by
    rw [hF.all.mem_iff]
    unfold allSides
    rw [List.mem_append, List.mem_map, List.mem_map]
    rcases ho with rfl | rfl
    · exact .inl ⟨e, List.mem_range.mpr he, rfl⟩
    · exact .inr ⟨e, List.mem_range.mpr he, rfl⟩
  obtain ⟨F, h1, h2⟩ := List.mem_flatMap.mp this
  obtain ⟨f, hf⟩ := List.mem_iff_getElem?.mp h1
  obtain ⟨j, hj⟩ := List.mem_iff_getElem?.mp h2
  rw [sides, List.getElem?_zip_eq_some] at hj
  exact ⟨f, j, F, hf, hj.1, hj.2⟩

theorem copyFaces_ok : ∀ (l : List Face), (∀ f ∈ l, f.edge.length = f.orient.length) → copyFaces l = .ok l
  | [], _ => rfl
  | f :: l, h => by
    have hf := h f (by simp)
    have : copyFace f = .ok f := by
      unfold copyFace
      split
      · rename_i h0
        rw [h0] at hf
        have := List.length_eq_zero_iff.mp hf.symm
        obtain ⟨a, b⟩ := f
        simp only at h0 this
        rw [h0, this]
      · rw [if_neg (by omega), hf, List.take_length]
    rw [copyFaces, this, ok_bind, copyFaces_ok l (fun g hg => h g (by simp [hg])), ok_bind]

end Query

/-- C62. On a plane diagram every edge lies on two different faces. `pd_face_and_pos` returns the only place where the edge occurs
with positive orientation and the only place where it occurs with negative orientation, and `pd_edge_on_face` says `true` for
these two faces only. -/
theorem C62_faces_of_edge (cross : List Cross) (edge : List Edge) (faces : List Face) (h : PlaneDiagram cross edge)
    (hF : GoodFaces cross edge faces) (e : Nat) (he : e < edge.length) :
    ∃ f i g j, faceAndPos faces e = .ok ⟨some (f, i), some (g, j)⟩ ∧ f ≠ g ∧
      (∀ f' i', SideAt faces e .pos f' i' ↔ f' = f ∧ i' = i) ∧ (∀ g' j', SideAt faces e .neg g' j' ↔ g' = g ∧ j' = j) ∧
      ∀ k, k < faces.length → ∃ b, edgeOnFace faces e k = .ok b ∧ (b = true ↔ k = f ∨ k = g) := by
  obtain ⟨s, s1, s2, s3⟩ := onFaces_ok e faces 0 ⟨none, none⟩ (fun f hf => (hF.shape f hf).1.le)
  obtain ⟨f, i, hp⟩ := side_exists hF he (.inl rfl)
  obtain ⟨g, j, hn⟩ := side_exists hF he (.inr rfl)
  have p : s.pos = some (f, i) := by
    rcases s2 with ⟨-, h⟩ | ⟨f', i', h1, -, h2⟩
    · exact absurd ⟨Nat.zero_le _, hp⟩ (h f i)
    · obtain ⟨rfl, rfl⟩ := side_unique hF h2 hp
      exact h1
  have q : s.neg = some (g, j) := by
    rcases s3 with ⟨-, h⟩ | ⟨g', j', h1, -, h2⟩
    · exact absurd ⟨Nat.zero_le _, hn⟩ (h g j)
    · obtain ⟨rfl, rfl⟩ := side_unique hF h2 hn
      exact h1
  have hs : s = ⟨some (f, i), some (g, j)⟩ := by
    obtain ⟨a, b⟩ := s
    simp only at p q
    rw [p, q]
  have nd : ∀ F ∈ faces, F.edge.Nodup := fun F hF' => Distinct.face_nodup h hF hF'
  have hne : f ≠ g := by
    rintro rfl
    obtain ⟨F, a1, a2, a3⟩ := hp
    obtain ⟨G, b1, b2, b3⟩ := hn
    rw [a1] at b1
    cases b1
    obtain ⟨l1, e1⟩ := List.getElem?_eq_some_iff.mp a2
    obtain ⟨l2, e2⟩ := List.getElem?_eq_some_iff.mp b2
    have := ((nd F (List.mem_of_getElem? a1)).getElem_inj_iff).mp (e1.trans e2.symm)
    subst this
    rw [a3] at b3
    cases b3
  refine ⟨f, i, g, j, by rw [faceAndPos, s1, hs], hne, ?_, ?_, ?_⟩
  · intro f' i'
    refine ⟨fun h' => side_unique hF h' hp, ?_⟩
    rintro ⟨rfl, rfl⟩
    exact hp
  · intro g' j'
    refine ⟨fun h' => side_unique hF h' hn, ?_⟩
    rintro ⟨rfl, rfl⟩
    exact hn
  · intro k hk
    unfold edgeOnFace
    rw [rd_lt hk, ok_bind]
    refine ⟨_, rfl, ?_⟩
    rw [List.any_eq_true]
    constructor
    · rintro ⟨x, hx, hxe⟩
      simp only [decide_eq_true_eq] at hxe
      subst hxe
      obtain ⟨m, hm⟩ := List.mem_iff_getElem?.mp hx
      have hml := (List.getElem?_eq_some_iff.mp hm).1
      have hsh := (hF.shape _ (List.getElem_mem hk)).1
      have ho : (faces[k]).orient[m]? = some (faces[k]).orient[m] := List.getElem?_eq_getElem (by omega)
      have hz : (sides faces[k])[m]? = some ((faces[k]).edge[m], (faces[k]).orient[m]) := by
        rw [sides, List.getElem?_zip_eq_some]
        exact ⟨List.getElem?_eq_getElem hml, ho⟩
      have hside := List.mem_of_getElem? hz
      have hall : ((faces[k]).edge[m], (faces[k]).orient[m]) ∈ allSides edge.length :=
        hF.all.mem_iff.mp (List.mem_flatMap.mpr ⟨_, List.getElem_mem hk, hside⟩)
      have hor : (faces[k]).orient[m] = .pos ∨ (faces[k]).orient[m] = .neg := by
        unfold allSides at hall
        rw [List.mem_append, List.mem_map, List.mem_map] at hall
        rcases hall with ⟨_, -, h⟩ | ⟨_, -, h⟩
        · exact .inl (Prod.mk.inj h).2.symm
        · exact .inr (Prod.mk.inj h).2.symm
      rcases hor with hor | hor
      · exact .inl (side_unique hF ⟨_, List.getElem?_eq_getElem hk, hm, by rw [ho, hor]⟩ hp).1
      · exact .inr (side_unique hF ⟨_, List.getElem?_eq_getElem hk, hm, by rw [ho, hor]⟩ hn).1
    · intro hk'
      have : ∃ m : Nat, (faces[k]).edge[m]? = some e := by
        rcases hk' with rfl | rfl
        · obtain ⟨F, a1, a2, -⟩ := hp
          rw [List.getElem?_eq_getElem hk] at a1
          cases a1
          exact ⟨_, a2⟩
        · obtain ⟨F, a1, a2, -⟩ := hn
          rw [List.getElem?_eq_getElem hk] at a1
          cases a1
          exact ⟨_, a2⟩
      obtain ⟨m, hm⟩ := this
      exact ⟨e, List.mem_of_getElem? hm, by simp⟩

/-- C62. Asked for a number that is on no face, `pd_face_and_pos` returns without having written anything to the four variables. -/
theorem C62_missing_edge_silent (faces : List Face) (e : Nat) (hs : ∀ f ∈ faces, f.edge.length ≤ f.orient.length)
    (he : ∀ f ∈ faces, e ∉ f.edge) : faceAndPos faces e = .ok ⟨none, none⟩ := by
  obtain ⟨s, s1, s2, s3⟩ := onFaces_ok e faces 0 ⟨none, none⟩ hs
  have no : ∀ o f j, ¬ SideAt faces e o f j := by
    rintro o f j ⟨F, a1, a2, -⟩
    exact he F (List.mem_of_getElem? a1) (List.mem_of_getElem? a2)
  rw [faceAndPos, s1]
  obtain ⟨a, b⟩ := s
  rcases s2 with ⟨rfl, -⟩ | ⟨f, j, -, -, h⟩
  · rcases s3 with ⟨rfl, -⟩ | ⟨f, j, -, -, h⟩
    · rfl
    · exact absurd h (no _ _ _)
  · exact absurd h (no _ _ _)

/-- C62. A copy, with buffers of the size asked for but at least as large as needed, has the records of the original. -/
theorem C62_copy (pd : Io.Pd) (mv : Nat) (h0 : pd.cross ≠ []) (he : pd.edge.length ≤ 2 * max mv pd.cross.length + 1)
    (hc : pd.comp.length ≤ max mv pd.cross.length / 2 + 2) (hf : pd.face.length ≤ max mv pd.cross.length + 2)
    (hk : ∀ k ∈ pd.comp, k.edge ≠ []) (hs : ∀ f ∈ pd.face, f.edge.length = f.orient.length) :
    copyNewsize pd mv = .ok (.code (max mv pd.cross.length) pd) := by
  have hl : pd.cross.length ≠ 0 := fun h => h0 (List.length_eq_zero_iff.mp h)
  have hmv : (if mv < pd.cross.length then pd.cross.length else mv) = max mv pd.cross.length := by split <;> omega
  have hcomp : pd.comp.map copyComp = pd.comp := by
    conv_rhs => rw [← List.map_id pd.comp]
    apply List.map_congr_left
    intro k hk'
    rw [copyComp, if_neg (hk k hk')]
    rfl
  unfold copyNewsize
  rw [if_neg hl]
  simp only [hmv]
  have le : ∀ {p : Prop} [Decidable p], p → assertC (decide p) = .ok () := fun hp => assertC_ok (decide_eq_true hp)
  rw [le (by simp only [capsNew]; omega), le (by simp only [capsNew]; omega), le (by simp only [capsNew]; omega),
    le (by simp only [capsNew]; omega)]
  simp only [ok_bind]
  rw [copyFaces_ok _ hs, ok_bind, hcomp]

/-- C62. The copy of a diagram without crossings is always the same unknot: tag, numbers and everything else of the original are
forgotten. -/
theorem C62_copy_no_crossings (pd : Io.Pd) (h0 : pd.cross = []) : copy pd = .ok .unknot := by
  rw [copy, copyNewsize, if_pos (by rw [h0]; rfl)]

/-! ### Examples -/

example : faceAndPos isoHopf.face 0 = .ok ⟨some (1, 0), some (0, 0)⟩ := by decide

example := C62_faces_of_edge _ _ _ IsoSearch.isoHopf_searchable.tidy.plane IsoSearch.isoHopf_searchable.tidy.goodFaces 0 (by decide)

example : copy isoHopf = .ok (.code 2 isoHopf) := by decide

end Plc
