import Verif.Proofs.IsoEdges
import Verif.Proofs.Tidy

/-! # Face maps -/

namespace Plc.IsoSearch

open Plc.Cmp Plc.PermM Plc.Emap Plc.Isos Plc.Faces Plc.Ok List

/-- What the search for face maps needs to know of the faces. -/
structure FaceTable (F : List Face) (n : Nat) : Prop where
  nonempty : ∀ f ∈ F, f.edge ≠ []
  nodup : ∀ f ∈ F, f.edge.Nodup
  lt : ∀ f ∈ F, ∀ e ∈ f.edge, e < n
  first : ∀ f ∈ F, ∃ e, f.edge[0]? = some e ∧ ∀ x ∈ f.edge, e ≤ x
  sorted : F.Pairwise FaceBefore
  differ : ∀ (i j : Nat) f g, F[i]? = some f → F[j]? = some g → (∀ e, e ∈ f.edge ↔ e ∈ g.edge) → i = j
  small : n < 2 ^ 31

theorem face_edge_lt {cross : List Cross} {edge : List Edge} {F : List Face} (hF : GoodFaces cross edge F) :
    ∀ f ∈ F, ∀ e ∈ f.edge, e < edge.length := by
  intro f hf e he
  have h1 : f.edge = (sides f).map Prod.fst := by
    rw [sides, List.map_fst_zip (hF.shape f hf).1.le]
  rw [h1] at he
  obtain ⟨d, hd, rfl⟩ := List.mem_map.mp he
  have := hF.all.mem_iff.mp (List.mem_flatMap.mpr ⟨f, hf, hd⟩)
  unfold allSides at this
  rw [List.mem_append, List.mem_map, List.mem_map] at this
  rcases this with ⟨e, h1, rfl⟩ | ⟨e, h1, rfl⟩ <;> exact List.mem_range.mp h1

theorem faceTable_of_tidy {cross : List Cross} {edge : List Edge} {K : List Comp} {F : List Face}
    (h : Tidy cross edge K F) : FaceTable F edge.length where
  nonempty := fun f hf => (h.goodFaces.shape f hf).2
  nodup := fun f hf => Distinct.face_nodup h.plane h.goodFaces hf
  lt := face_edge_lt h.goodFaces
  first := h.goodFaces.first
  sorted := h.sorted
  differ := by
    intro i j f g hi hj he
    by_contra hne
    exact Distinct.faces_differ h.plane h.goodFaces hi hj hne he
  small := by
    have := h.small
    omega

theorem FaceTable.smallEdges {F : List Face} {n : Nat} (h : FaceTable F n) :
    ∀ f ∈ F, Small f.edge ∧ f.edge.length < 2 ^ 31 := by
  intro f hf
  have hlt := h.lt f hf
  have hn := h.small
  constructor
  · intro x hx
    have := hlt x hx
    omega
  · have : f.edge.length ≤ n := by
      have := ((h.nodup f hf).subperm (l₂ := List.range n) (fun x hx => List.mem_range.mpr (hlt x hx))).length_le
      simpa using this
    omega

theorem rotated_first_eq {a b : List Nat} (h : a ~r b) (hn : a.Nodup) (ha : ∃ e, a[0]? = some e ∧ ∀ x ∈ a, e ≤ x)
    (hb : ∃ e, b[0]? = some e ∧ ∀ x ∈ b, e ≤ x) : a = b := by
  obtain ⟨k, rfl⟩ := h
  obtain ⟨x, x1, x2⟩ := ha
  obtain ⟨y, y1, y2⟩ := hb
  have h0 : 0 < a.length := (List.getElem?_eq_some_iff.mp x1).1
  rw [List.getElem?_rotate h0, Nat.zero_add] at y1
  have hxy : x = y := by
    have h1 := x2 y (List.mem_of_getElem? y1)
    have h2 := y2 x (List.mem_rotate.mpr (List.mem_of_getElem? x1))
    omega
  subst hxy
  obtain ⟨p1, p2⟩ := List.getElem?_eq_some_iff.mp x1
  obtain ⟨q1, q2⟩ := List.getElem?_eq_some_iff.mp y1
  have := (List.Nodup.getElem_inj_iff hn).mp (p2.trans q2.symm)
  rw [← List.rotate_mod, ← this, List.rotate_zero]

/-- What `pd_canonorder_face` does to the edges. -/
theorem canonorder_edges {es : List Nat} {os : List Or} {o : Or} (h0 : es ≠ []) (ho : o ≠ .unset) :
    ∃ f, canonorderFace ⟨es, os⟩ o = .ok f ∧ f.edge ~r (if o = .neg then es.reverse else es) ∧
      ∃ e, f.edge[0]? = some e ∧ ∀ x ∈ f.edge, e ≤ x := by
  have key : ∀ (l : List Nat) (os : List Or), l ≠ [] → ∃ f : Face, (do
      let e0 ← rd l 0
      let low := lowPos l 0 (e0, 0)
      (.ok ⟨readFrom 0 l low, readFrom .neg os low⟩ : Res Face)) = .ok f ∧ f.edge ~r l ∧
      ∃ e, f.edge[0]? = some e ∧ ∀ x ∈ f.edge, e ≤ x := by
    intro l os hl
    obtain ⟨x, r, rfl⟩ := List.exists_cons_of_ne_nil hl
    rw [rd_ok (show (x :: r)[0]? = some x by simp), ok_bind]
    refine ⟨_, rfl, ?_, ?_⟩
    · simp only [readFrom_eq]
      exact List.IsRotated.symm ⟨_, rfl⟩
    · simp only [readFrom_eq]
      obtain ⟨v, h1, h2⟩ := lowPos_spec (x :: r) (x :: r) 0 (x, 0) (by simp) (by intro k; omega) (by simp)
      refine ⟨v, ?_, ?_⟩
      · have hlt := (List.getElem?_eq_some_iff.mp h1).1
        rw [List.getElem?_rotate (by simp), Nat.zero_add, Nat.mod_eq_of_lt hlt]
        exact h1
      · intro y hy
        exact h2 y (List.mem_rotate.mp hy)
  cases o with
  | unset => exact absurd rfl ho
  | pos => simpa [canonorderFace] using key es os h0
  | neg =>
    have := key es.reverse os.reverse (by simpa using h0)
    simpa [canonorderFace] using this

theorem find_face (bs : BSearch) {G : List Face} {n : Nat} (hG : FaceTable G n) {y : Face}
    (hy : Small y.edge ∧ y.edge.length < 2 ^ 31) :
    (∀ i, bs.find (fun z => faceCmp y z) G = some i → ∃ z, G[i]? = some z ∧ y.edge = z.edge) ∧
    (bs.find (fun z => faceCmp y z) G = none → ∀ z ∈ G, y.edge ≠ z.edge) := by
  have hs := hG.smallEdges
  have hc := C16_face_cmp
  have hmono : G.Pairwise (fun a b => (faceCmp y b > 0 → faceCmp y a > 0) ∧ (faceCmp y b = 0 → faceCmp y a ≥ 0)) := by
    refine hG.sorted.imp_of_mem ?_
    intro a b ha hb hab
    have hab' := (faceCmp_iff (hs a ha) (hs b hb)).mpr hab
    have e1 := hc.swap y a hy (hs a ha)
    have e2 := hc.swap a y (hs a ha) hy
    have e3 := hc.swap y b hy (hs b hb)
    have e4 := hc.swap b y (hs b hb) hy
    have z1 := hc.zero y a hy (hs a ha)
    have z2 := hc.zero a y (hs a ha) hy
    have z3 := hc.zero y b hy (hs b hb)
    have z4 := hc.zero b y (hs b hb) hy
    constructor
    · intro h
      have h1 : faceCmp b y ≤ 0 := by omega
      have h2 := hc.trans a b y (hs a ha) (hs b hb) hy hab' h1
      by_contra hn
      have h3 : faceCmp y a ≤ 0 := by omega
      have h4 := hc.trans y a b hy (hs a ha) (hs b hb) h3 hab'
      omega
    · intro h
      have h1 : faceCmp b y ≤ 0 := by
        have := z4.mpr (z3.mp h).symm
        omega
      have h2 := hc.trans a b y (hs a ha) (hs b hb) hy hab' h1
      by_contra hn
      omega
  constructor
  · intro i hi
    obtain ⟨z, h1, h2⟩ := bs.hit _ G i hmono hi
    exact ⟨z, h1, (hc.zero y z hy (hs z (List.mem_of_getElem? h1))).mp h2⟩
  · intro hi z hz he
    exact bs.miss _ G hmono hi z hz ((hc.zero y z hy (hs z hz)).mpr he)

theorem map_ap_eq {m l : List Nat} (h : ∀ x ∈ l, x < m.length) : l.map (ap m) = l.map (fun e => m[e]!) := by
  apply List.map_congr_left
  intro x hx
  rw [ap_lt (h x hx), getElem!_pos m x (h x hx)]

theorem faceLoop_ok (bs : BSearch) {G : List Face} {m : List Nat} (hG : FaceTable G m.length)
    (hm : m ~ List.range m.length) {o : Or} (ho : o ≠ .unset) : ∀ {F : List Face}, (∀ f ∈ F, f.edge ≠ [] ∧ f.edge.Nodup ∧
      ∀ e ∈ f.edge, e < m.length) →
    (∃ r, faceLoop bs G m o F = .ok (some r) ∧ r.length = F.length ∧
      ∀ (c : Nat) (f : Face), F[c]? = some f → ∃ (i : Nat) (g : Face), r[c]? = some i ∧ G[i]? = some g ∧
        ListCarried (fun e => m[e]!) o f.edge g.edge) ∨
    (faceLoop bs G m o F = .ok none ∧ ∃ f ∈ F, ∀ g ∈ G, ¬ ListCarried (fun e => m[e]!) o f.edge g.edge)
  | [], _ => Or.inl ⟨[], rfl, rfl, by simp⟩
  | f :: F, hF => by
    obtain ⟨f1, f2, f3⟩ := hF f (by simp)
    have hs := hG.small
    rw [faceLoop, composeMap_ok f3, ok_bind, map_ap_eq f3]
    have hes : (f.edge.map (fun e => m[e]!)).Nodup := by
      rw [← map_ap_eq f3]
      exact (List.nodup_map_iff_inj_on f2).mpr (fun x hx y hy h => by
        rw [ap_lt (f3 x hx), ap_lt (f3 y hy)] at h
        exact (List.Nodup.getElem_inj_iff (hm.nodup_iff.mpr List.nodup_range)).mp h)
    have heslt : ∀ x ∈ f.edge.map (fun e => m[e]!), x < m.length := by
      intro x hx
      obtain ⟨e, he, rfl⟩ := List.mem_map.mp hx
      have := f3 e he
      simp only [getElem!_pos m e this]
      exact List.mem_range.mp (hm.mem_iff.mp (List.getElem_mem this))
    obtain ⟨y, y1, y2, y3⟩ := canonorder_edges (es := f.edge.map (fun e => m[e]!))
      (os := List.replicate f.edge.length .neg) (by simpa using f1) ho
    have hyp : y.edge ~ f.edge.map (fun e => m[e]!) := by
      refine y2.perm.trans ?_
      split
      · exact List.reverse_perm _
      · exact List.Perm.refl _
    have hyn : y.edge.Nodup := hyp.nodup_iff.mpr hes
    have hy : Small y.edge ∧ y.edge.length < 2 ^ 31 := by
      constructor
      · intro x hx
        have := heslt x (hyp.mem_iff.mp hx)
        omega
      · have := (hyn.subperm (l₂ := List.range m.length) (fun x hx =>
          List.mem_range.mpr (heslt x (hyp.mem_iff.mp hx)))).length_le
        rw [List.length_range] at this
        omega
    have hiff : ∀ g ∈ G, y.edge = g.edge ↔ ListCarried (fun e => m[e]!) o f.edge g.edge := by
      intro g hg
      unfold ListCarried
      constructor
      · intro h
        rw [← h]
        exact y2
      · intro h
        exact rotated_first_eq (y2.trans h.symm) hyn y3 (hG.first g hg)
    obtain ⟨hit, miss⟩ := find_face bs hG hy
    rw [y1, ok_bind]
    cases hf : bs.find (fun z => faceCmp y z) G with
    | none =>
      right
      exact ⟨rfl, f, by simp, fun g hg hc => miss hf g hg ((hiff g hg).mpr hc)⟩
    | some i =>
      obtain ⟨g, g1, g2⟩ := hit i hf
      have hc := (hiff g (List.mem_of_getElem? g1)).mp g2
      simp only []
      rcases faceLoop_ok bs hG hm ho (F := F) (fun x hx => hF x (by simp [hx])) with ⟨r, r1, r2, r3⟩ | ⟨r1, x, x1, x2⟩
      · left
        rw [r1, ok_bind]
        refine ⟨i :: r, rfl, by simp [r2], ?_⟩
        intro c y hy
        cases c with
        | zero =>
          simp only [List.getElem?_cons_zero, Option.some.injEq] at hy
          subst hy
          exact ⟨i, g, by simp, g1, hc⟩
        | succ c =>
          rw [List.getElem?_cons_succ] at hy
          obtain ⟨j, w, w1, w2, w3⟩ := r3 c y hy
          exact ⟨j, w, by simpa using w1, w2, w3⟩
      · right
        rw [r1, ok_bind]
        exact ⟨rfl, x, by simp [x1], x2⟩

theorem mem_of_carried {τ : Nat → Nat} {o : Or} {k b : List Nat} (h : ListCarried τ o k b) (x : Nat) :
    x ∈ b ↔ ∃ e ∈ k, τ e = x := by
  unfold ListCarried at h
  rw [h.perm.mem_iff]
  split <;> simp

/-- Faces carried to the same face have the same edges. -/
theorem carried_source {m : List Nat} (hm : m ~ List.range m.length) {o : Or} {f f' g : List Nat}
    (hf : ∀ e ∈ f, e < m.length) (hf' : ∀ e ∈ f', e < m.length) (h : ListCarried (fun e => m[e]!) o f g)
    (h' : ListCarried (fun e => m[e]!) o f' g) (e : Nat) : e ∈ f ↔ e ∈ f' := by
  have inj : ∀ x y, x < m.length → y < m.length → m[x]! = m[y]! → x = y := by
    intro x y hx hy he
    rw [getElem!_pos m x hx, getElem!_pos m y hy] at he
    exact (List.Nodup.getElem_inj_iff (hm.nodup_iff.mpr List.nodup_range)).mp he
  constructor
  · intro he
    obtain ⟨x, hx, e2⟩ := (mem_of_carried h' m[e]!).mp ((mem_of_carried h _).mpr ⟨e, he, rfl⟩)
    rw [← inj x e (hf' x hx) (hf e he) e2]
    exact hx
  · intro he
    obtain ⟨x, hx, e2⟩ := (mem_of_carried h m[e]!).mp ((mem_of_carried h' _).mpr ⟨e, he, rfl⟩)
    rw [← inj x e (hf x hx) (hf' e he) e2]
    exact hx

/-- The search for a face map returns; it finds one exactly when every face goes to some face. -/
theorem orientedFacemap_ok (bs : BSearch) {F G : List Face} {m : List Nat} (hF : FaceTable F m.length)
    (hG : FaceTable G m.length) (hm : m ~ List.range m.length) (hlen : F.length = G.length) (h0 : F ≠ []) {o : Or}
    (ho : o ≠ .unset) :
    ∃ r, orientedFacemap bs F G m o = .ok r ∧
      (r ≠ none ↔ ∀ f ∈ F, ∃ g ∈ G, ListCarried (fun e => m[e]!) o f.edge g.edge) ∧
      ∀ fm, r = some fm → fm.orient = o ∧ permOk fm.perm = .ok true ∧ fm.perm.map ~ List.range F.length ∧
        ∀ (c : Nat) (f : Face), F[c]? = some f → ∃ (i : Nat) (g : Face), fm.perm.map[c]? = some i ∧ G[i]? = some g ∧
          ListCarried (fun e => m[e]!) o f.edge g.edge := by
  unfold orientedFacemap
  rw [assertC_ok (by simpa using hlen), ok_bind]
  rcases faceLoop_ok bs hG hm ho (F := F) (fun f hf => ⟨hF.nonempty f hf, hF.nodup f hf, hF.lt f hf⟩) with
    ⟨r, r1, r2, r3⟩ | ⟨r1, x, x1, x2⟩
  · have hr : r ~ List.range r.length := by
      refine perm_range_of rfl ?_ ?_
      · intro i hi
        obtain ⟨c, hc⟩ := List.mem_iff_getElem?.mp hi
        have hcl : c < F.length := by rw [← r2]; exact (List.getElem?_eq_some_iff.mp hc).1
        obtain ⟨j, z, j1, j2, _⟩ := r3 c F[c] (by simp [hcl])
        rw [j1] at hc
        cases hc
        rw [r2, hlen]
        exact (List.getElem?_eq_some_iff.mp j2).1
      · rw [List.nodup_iff_getElem?_ne_getElem?]
        intro c d hcd hd heq
        have hcl : c < F.length := by omega
        have hdl : d < F.length := by omega
        obtain ⟨i, z, i1, i2, i3⟩ := r3 c F[c] (by simp [hcl])
        obtain ⟨j, w, j1, j2, j3⟩ := r3 d F[d] (by simp [hdl])
        rw [i1, j1] at heq
        cases heq
        rw [i2] at j2
        cases j2
        have := hF.differ c d F[c] F[d] (by simp [hcl]) (by simp [hdl])
          (carried_source hm (hF.lt _ (List.getElem_mem hcl)) (hF.lt _ (List.getElem_mem hdl)) i3 j3)
        omega
    obtain ⟨p, p1, p2, p3⟩ := regenPc_permOk bs hr (by rw [r2]; exact List.length_pos_iff.mpr h0)
    rw [r1, ok_bind]
    simp only []
    rw [p1, ok_bind]
    refine ⟨_, rfl, ?_, ?_⟩
    · simp only [ne_eq, reduceCtorEq, not_false_eq_true, true_iff]
      intro f hf
      obtain ⟨c, hc⟩ := List.mem_iff_getElem?.mp hf
      obtain ⟨i, g, _, h2, h3⟩ := r3 c f hc
      exact ⟨g, List.mem_of_getElem? h2, h3⟩
    · intro fm hfm
      cases hfm
      refine ⟨rfl, p3, ?_, ?_⟩
      · rw [p2, ← r2]; exact hr
      · rw [p2]; exact r3
  · rw [r1, ok_bind]
    refine ⟨none, rfl, ?_, by simp⟩
    simp only [ne_eq, not_true_eq_false, false_iff]
    intro h
    obtain ⟨g, g1, g2⟩ := h x x1
    exact x2 g g1 g2

end Plc.IsoSearch
