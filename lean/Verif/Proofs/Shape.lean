import Verif.Proofs.Cycles
import Verif.Spec.Shape

namespace Plc.Shape

open Plc.Cmp Plc.Faces Plc.Places Plc.Cycles Plc.Planar

/-- Reading a list backwards when told so. -/
def flipIf {α : Type} (o : Or) (l : List α) : List α := if o = .neg then l.reverse else l

theorem listCarried_iff {τ : Nat → Nat} {o : Or} {l l' : List Nat} :
    ListCarried τ o l l' ↔ l' ~r ((flipIf o l).map τ) := by
  unfold ListCarried flipIf
  split <;> simp

theorem carriedTo_iff {τ : Nat → Nat} {o : Or} {x z : Cross} :
    CarriedTo τ o x z ↔ ListCarried τ o [x.e0, x.e1, x.e2, x.e3] [z.e0, z.e1, z.e2, z.e3] := by
  unfold CarriedTo ListCarried
  split <;> simp

/-- A map of places: edges at places are renamed, going around a crossing is kept, or reversed. -/
structure PMap (cross cross' : List Cross) (τ : Nat → Nat) (mir : Bool) (π : Nat × Nat → Nat × Nat) : Prop where
  maps : ∀ p ∈ P cross, π p ∈ P cross'
  inj : ∀ p ∈ P cross, ∀ q ∈ P cross, π p = π q → p = q
  label : ∀ p ∈ P cross, eslot cross' (π p) = τ (eslot cross p)
  turn : ∀ p ∈ P cross, π (turn 1 p) = turn (if mir then 3 else 1) (π p)

theorem turn_add {p : Nat × Nat} (a b : Nat) : turn a (turn b p) = turn (b + a) p := by
  unfold turn
  simp only [Prod.mk.injEq, true_and]
  omega

theorem turn_zero {cross : List Cross} {p : Nat × Nat} (h : p ∈ P cross) : turn 0 p = p := by
  rw [mem_P] at h
  unfold turn
  ext
  · rfl
  · simp only; omega

theorem turn_mod (a : Nat) (p : Nat × Nat) : turn (a % 4) p = turn a p := by
  unfold turn
  simp only [Prod.mk.injEq, true_and]
  omega

section
variable {cross cross' : List Cross} {edge edge' : List Edge} {τ : Nat → Nat} {mir : Bool} {π : Nat × Nat → Nat × Nat}

theorem PMap.turns (h : PMap cross cross' τ mir π) {p : Nat × Nat} (hp : p ∈ P cross) (k : Nat) :
    π (Places.turn k p) = Places.turn (if mir then 3 * k else k) (π p) := by
  induction k with
  | zero =>
    rw [turn_zero hp]
    have : (if mir then 3 * 0 else 0) = 0 := by split <;> rfl
    rw [this, turn_zero (h.maps p hp)]
  | succ k ih =>
    rw [← turn_add 1 k, h.turn _ (turn_mem k hp), ih, turn_add]
    cases mir <;> simp [Nat.mul_add]

theorem PMap.oth (h : PMap cross cross' τ mir π) (hC : Consistent cross edge) (hC' : Consistent cross' edge')
    {p : Nat × Nat} (hp : p ∈ P cross) : π (oth cross edge p) = Places.oth cross' edge' (π p) := by
  have ho := oth_mem hC hp
  rcases same_edge hC' (h.maps p hp) (h.maps _ ho) (by rw [h.label p hp, h.label _ ho, eslot_oth hC hp]) with h1 | h1
  · exact absurd (h.inj _ ho _ hp h1) (oth_ne hC hp)
  · exact h1

theorem PMap.surj (h : PMap cross cross' τ mir π) (hlen : cross'.length = cross.length) {q : Nat × Nat}
    (hq : q ∈ P cross') : ∃ p ∈ P cross, π p = q := by
  have := Finset.surj_on_of_inj_on_of_card_le (s := P cross) (t := P cross') (fun p _ => π p)
    (fun p hp => h.maps p hp) (fun p q hp hq he => h.inj p hp q hq he)
    (by unfold P; rw [Finset.card_product, Finset.card_product, hlen])
  obtain ⟨p, hp, he⟩ := this q hq
  exact ⟨p, hp, he.symm⟩

/-! ### Around crossings -/

/-- The places of each crossing. -/
def crossLists (n : Nat) : List (List (Nat × Nat)) := (List.range n).map (fun c => [(c, 0), (c, 1), (c, 2), (c, 3)])

theorem crossLists_get {n c : Nat} (h : c < n) : (crossLists n)[c]? = some [(c, 0), (c, 1), (c, 2), (c, 3)] := by
  unfold crossLists
  rw [List.getElem?_map, List.getElem?_range h]
  rfl

theorem crossLists_cycles (cross : List Cross) :
    Cycles (fun p q => q = Places.turn 1 p) (fun p => p ∈ P cross) (crossLists cross.length) where
  nodup := by
    rw [List.nodup_flatten]
    unfold crossLists
    constructor
    · intro l hl
      obtain ⟨c, -, rfl⟩ := List.mem_map.mp hl
      simp
    · rw [List.pairwise_map]
      refine (List.nodup_range (n := cross.length)).imp ?_
      intro a b hab x hx hx'
      simp only [List.mem_cons, List.not_mem_nil, or_false] at hx hx'
      apply hab
      rcases hx with rfl | rfl | rfl | rfl <;> simp at hx' <;> exact hx'
  mem := by
    rintro ⟨c, k⟩
    rw [List.mem_flatten, mem_P]
    unfold crossLists
    constructor
    · rintro ⟨l, hl, hx⟩
      obtain ⟨c', h1, rfl⟩ := List.mem_map.mp hl
      simp only [List.mem_cons, Prod.mk.injEq, List.not_mem_nil, or_false] at hx
      rw [List.mem_range] at h1
      simp only
      omega
    · rintro ⟨h1, h2⟩
      simp only at h1 h2
      refine ⟨_, List.mem_map_of_mem (List.mem_range.mpr h1), ?_⟩
      have : k = 0 ∨ k = 1 ∨ k = 2 ∨ k = 3 := by omega
      simpa using this
  ne := by
    intro l hl
    obtain ⟨c, -, rfl⟩ := List.mem_map.mp hl
    simp
  next := by
    intro l hl j x hx
    obtain ⟨c, -, rfl⟩ := List.mem_map.mp hl
    rcases j with - | - | - | - | j
    · simp at hx; subst hx; exact ⟨(c, 1), rfl, rfl⟩
    · simp at hx; subst hx; exact ⟨(c, 2), rfl, rfl⟩
    · simp at hx; subst hx; exact ⟨(c, 3), rfl, rfl⟩
    · simp at hx; subst hx; exact ⟨(c, 0), by simp, by simp [Places.turn]⟩
    · simp at hx

theorem crossLists_label {cross : List Cross} {c : Nat} {x : Cross} (h : cross[c]? = some x) :
    [(c, 0), (c, 1), (c, 2), (c, 3)].map (eslot cross) = [x.e0, x.e1, x.e2, x.e3] := by
  unfold eslot slot
  simp only [List.map_cons, List.map_nil, h]
  rfl

/-! ### Around faces -/

theorem begp_nd_oth (hC : Consistent cross edge) {d : Dart} (h : d ∈ D edge) :
    begp edge (nd cross edge d) = Places.turn 3 (Places.oth cross edge (begp edge d)) := by
  rw [begp_nd hC h]
  congr 1
  have hm := mem_D.mp h
  unfold endp begp
  rcases hm.2 with e | e
  · rw [if_pos e, if_pos e, oth_tl hC hm.1]
  · rw [if_neg (by rw [e]; decide), if_neg (by rw [e]; decide), oth_hd hC hm.1]

/-- The places where the sides of each face begin. -/
def faceLists (edge : List Edge) (faces : List Face) : List (List (Nat × Nat)) :=
  faces.map (fun f => (sides f).map (begp edge))

theorem sides_mem {faces : List Face} (hF : GoodFaces cross edge faces) {f : Face} (hf : f ∈ faces) {d : Dart} (hd : d ∈ sides f) :
    d ∈ D edge := by
  rw [← mem_all rfl, ← hF.all.mem_iff]
  exact List.mem_flatMap.mpr ⟨f, hf, hd⟩

theorem sides_label (hC : Consistent cross edge) {faces : List Face} (hF : GoodFaces cross edge faces) {f : Face}
    (hf : f ∈ faces) : ((sides f).map (begp edge)).map (eslot cross) = f.edge := by
  have h1 : ((sides f).map (begp edge)).map (eslot cross) = (sides f).map Prod.fst := by
    rw [List.map_map]
    apply List.map_congr_left
    intro d hd
    exact (begp_mem hC (sides_mem hF hf hd)).2
  rw [h1, sides, List.map_fst_zip (hF.shape f hf).1.le]

theorem sides_length {faces : List Face} (hF : GoodFaces cross edge faces) {f : Face}
    (hf : f ∈ faces) : (sides f).length = f.edge.length := by
  rw [sides, List.length_zip, (hF.shape f hf).1, Nat.min_self]

theorem allSides_nodup (m : Nat) : (allSides m).Nodup := by
  unfold allSides
  rw [List.nodup_append]
  refine ⟨?_, ?_, ?_⟩
  · exact List.nodup_range.map (fun a b h => (Prod.mk.inj h).1)
  · exact List.nodup_range.map (fun a b h => (Prod.mk.inj h).1)
  · intro a ha b hb
    obtain ⟨x, -, rfl⟩ := List.mem_map.mp ha
    obtain ⟨y, -, rfl⟩ := List.mem_map.mp hb
    simp

theorem faceLists_flat (edge : List Edge) (faces : List Face) :
    (faceLists edge faces).flatten = (faces.flatMap sides).map (begp edge) := by
  unfold faceLists
  rw [List.map_flatMap, List.flatMap_def]

theorem faceLists_cycles (hC : Consistent cross edge) {faces : List Face} (hF : GoodFaces cross edge faces) :
    Cycles (fun p q => q = Places.turn 3 (Places.oth cross edge p)) (fun p => p ∈ P cross) (faceLists edge faces) where
  nodup := by
    rw [faceLists_flat]
    refine List.Nodup.map_on ?_ (hF.all.nodup_iff.mpr (allSides_nodup _))
    intro x hx y hy h
    rw [hF.all.mem_iff, mem_all rfl] at hx hy
    exact begp_inj hC hx hy h
  mem := by
    intro p
    rw [faceLists_flat, List.mem_map]
    constructor
    · rintro ⟨d, hd, rfl⟩
      rw [hF.all.mem_iff, mem_all rfl] at hd
      exact (begp_mem hC hd).1
    · intro hp
      refine ⟨dartAt cross edge p, ?_, begp_dartAt hC hp⟩
      rw [hF.all.mem_iff, mem_all rfl]
      exact dartAt_mem hC hp
  ne := by
    intro l hl
    obtain ⟨f, hf, rfl⟩ := List.mem_map.mp hl
    intro h
    have h1 := congrArg List.length h
    rw [List.length_map, sides_length hF hf] at h1
    exact (hF.shape f hf).2 (List.length_eq_zero_iff.mp h1)
  next := by
    intro l hl j x hx
    obtain ⟨f, hf, rfl⟩ := List.mem_map.mp hl
    rw [List.getElem?_map, Option.map_eq_some_iff] at hx
    obtain ⟨d, hd, rfl⟩ := hx
    obtain ⟨t, ht, hT⟩ := hF.turn f hf j d hd
    rw [List.length_map, sides_length hF hf, List.getElem?_map, ht]
    refine ⟨_, rfl, ?_⟩
    rw [turns_iff hC] at hT
    rw [← hT.2, begp_nd_oth hC hT.1]

/-! ### From one kind of map to the other -/

theorem reverse_get {α : Type} {LL : List (List α)} {o : Or} {i : Nat} {l : List α} :
    (LL.map (flipIf o))[i]? = some l ↔ ∃ k, LL[i]? = some k ∧ flipIf o k = l := by
  rw [List.getElem?_map, Option.map_eq_some_iff]

theorem flip_cycles {α : Type} {R : α → α → Prop} {S : α → Prop} {LL : List (List α)} (h : Cycles R S LL) (o : Or) :
    Cycles (fun x y => if o = .neg then R y x else R x y) S (LL.map (flipIf o)) := by
  by_cases ho : o = .neg
  · have : flipIf (α := α) o = List.reverse := by funext l; rw [flipIf, if_pos ho]
    rw [this]
    simp only [if_pos ho]
    exact h.reverse
  · have : flipIf (α := α) o = id := by funext l; rw [flipIf, if_neg ho]; rfl
    rw [this, List.map_id]
    simp only [if_neg ho]
    exact h

theorem flip_map {α β : Type} (f : α → β) (o : Or) (l : List α) : (flipIf o l).map f = flipIf o (l.map f) := by
  unfold flipIf; split <;> simp

theorem turn_inj {p q : Nat × Nat} (hp : p ∈ P cross) (hq : q ∈ P cross) {k : Nat}
    (h : Places.turn k p = Places.turn k q) : p = q := by
  have := congrArg (Places.turn (3 * k)) h
  rwa [turn_turn hp _ _ (by omega), turn_turn hq _ _ (by omega)] at this

theorem oth_inj (hC : Consistent cross edge) {p q : Nat × Nat} (hp : p ∈ P cross) (hq : q ∈ P cross)
    (h : Places.oth cross edge p = Places.oth cross edge q) : p = q := by
  rw [← oth_oth hC hp, h, oth_oth hC hq]

theorem crossR_fun {o : Or} : ∀ x y z, x ∈ P cross → y ∈ P cross → z ∈ P cross →
    (if o = .neg then x = Places.turn 1 y else y = Places.turn 1 x) →
    (if o = .neg then x = Places.turn 1 z else z = Places.turn 1 x) → y = z := by
  intro x y z _ hy hz h1 h2
  split at h1
  · rename_i ho
    rw [if_pos ho] at h2
    exact turn_inj hy hz (h1.symm.trans h2)
  · rename_i ho
    rw [if_neg ho] at h2
    rw [h1, h2]

theorem faceR_fun (hC : Consistent cross edge) {o : Or} : ∀ x y z, x ∈ P cross → y ∈ P cross → z ∈ P cross →
    (if o = .neg then x = Places.turn 3 (Places.oth cross edge y) else y = Places.turn 3 (Places.oth cross edge x)) →
    (if o = .neg then x = Places.turn 3 (Places.oth cross edge z) else z = Places.turn 3 (Places.oth cross edge x)) →
    y = z := by
  intro x y z _ hy hz h1 h2
  split at h1
  · rename_i ho
    rw [if_pos ho] at h2
    exact oth_inj hC hy hz (turn_inj (oth_mem hC hy) (oth_mem hC hz) (h1.symm.trans h2))
  · rename_i ho
    rw [if_neg ho] at h2
    rw [h1, h2]

/-- A map of crossings and edges gives a map of places. -/
theorem place_of_shadow {m : Nat} {σ : Nat → Nat} {o : Or}
    (h : SameShadow cross cross' m τ σ o) : ∃ π, PMap cross cross' τ (decide (o = .neg)) π := by
  have h1 := flip_cycles (crossLists_cycles cross) o
  have h2 := crossLists_cycles cross'
  obtain ⟨δ, d1, d2, d3, d4⟩ := h1.lift h2 (ℓ := eslot cross) (ℓ' := eslot cross') (τ := τ) (φ := σ) crossR_fun
    (by
      intro i j hi hj
      simp only [List.length_map, crossLists, List.length_range] at hi hj
      exact h.sinj i j hi hj)
    (by
      intro i l hl
      obtain ⟨k, hk, rfl⟩ := reverse_get.mp hl
      have hi : i < cross.length := by
        have := (List.getElem?_eq_some_iff.mp hk).1
        simpa [crossLists] using this
      rw [crossLists_get hi] at hk
      cases hk
      obtain ⟨z, z1, z2⟩ := h.carried i _ (List.getElem?_eq_getElem hi)
      have hz : σ i < cross'.length := (List.getElem?_eq_some_iff.mp z1).1
      refine ⟨_, crossLists_get hz, ?_⟩
      rw [crossLists_label z1, flip_map, crossLists_label (List.getElem?_eq_getElem hi)]
      exact listCarried_iff.mp (carriedTo_iff.mp z2))
  refine ⟨δ, d1, fun p hp q hq => d2 p q hp hq, d3, ?_⟩
  intro p hp
  by_cases ho : o = .neg
  · simp only [if_pos ho] at d4
    have := d4 _ p (turn_mem 1 hp) hp rfl
    rw [this, turn_turn (d1 _ (turn_mem 1 hp)) _ _ (by rw [ho]; rfl)]
  · simp only [if_neg ho] at d4
    simp [ho, d4 p _ hp (turn_mem 1 hp) rfl]

theorem PMap.comp_oth (h : PMap cross cross' τ mir π) (hC : Consistent cross edge) (hC' : Consistent cross' edge') :
    ∀ p ∈ P cross, eslot cross' (Places.oth cross' edge' (π p)) = τ (eslot cross p) := by
  intro p hp
  rw [eslot_oth hC' (h.maps p hp), h.label p hp]

/-- A map of places gives a map of faces. -/
theorem faces_of_place (hC : Consistent cross edge) (hC' : Consistent cross' edge') {F G : List Face}
    (hF : GoodFaces cross edge F) (hG : GoodFaces cross' edge' G) (hlen : cross'.length = cross.length) {o : Or}
    (htl : ∀ e, e < edge.length → τ e < edge.length)
    (hti : ∀ e f, e < edge.length → f < edge.length → τ e = τ f → e = f)
    (h : PMap cross cross' τ (decide (o = .neg)) π) : ∃ φ, SameFaces F G edge.length τ φ o := by
  have h1 := flip_cycles (faceLists_cycles hC hF) o
  have h2 := faceLists_cycles hC' hG
  -- beginning of a side goes to the end of the mirrored side
  obtain ⟨δ, hδ⟩ : ∃ δ : Nat × Nat → Nat × Nat, ∀ p, δ p = if o = .neg then Places.oth cross' edge' (π p) else π p :=
    ⟨_, fun _ => rfl⟩
  have hm : ∀ p ∈ P cross, δ p ∈ P cross' := by
    intro p hp
    rw [hδ]
    split
    · exact oth_mem hC' (h.maps p hp)
    · exact h.maps p hp
  have hlab : ∀ p ∈ P cross, eslot cross' (δ p) = τ (eslot cross p) := by
    intro p hp
    rw [hδ]
    split
    · exact h.comp_oth hC hC' p hp
    · exact h.label p hp
  obtain ⟨hl, φ, p1, p2, p3⟩ := h1.match h2 (δ := δ)
    (by
      intro x y z hx hy hz e1 e2
      exact faceR_fun hC' (o := .pos) x y z hx hy hz e1 e2) hm
    (by
      intro x y hx hy he
      rw [hδ, hδ] at he
      split at he
      · exact h.inj x hx y hy (oth_inj hC' (h.maps x hx) (h.maps y hy) he)
      · exact h.inj x hx y hy he)
    (by
      intro y hy
      by_cases ho : o = .neg
      · obtain ⟨p, hp, he⟩ := h.surj hlen (oth_mem hC' hy)
        exact ⟨p, hp, by rw [hδ, if_pos ho, he, oth_oth hC' hy]⟩
      · obtain ⟨p, hp, he⟩ := h.surj hlen hy
        exact ⟨p, hp, by rw [hδ, if_neg ho, he]⟩)
    (by
      intro x y hx hy hxy
      by_cases ho : o = .neg
      · rw [if_pos ho] at hxy
        rw [hδ, hδ, if_pos ho, if_pos ho, oth_oth hC' (h.maps x hx), hxy, h.turns (oth_mem hC hy), h.oth hC hC' hy,
          turn_add]
        simp only [ho, decide_true, if_true]
        rw [← turn_mod, turn_zero (oth_mem hC' (h.maps y hy))]
      · rw [if_neg ho] at hxy
        rw [hδ, hδ, if_neg ho, if_neg ho, hxy, h.turns (oth_mem hC hx), h.oth hC hC' hx]
        simp [ho])
  have hFl : ((faceLists edge F).map (flipIf o)).length = F.length := by simp [faceLists]
  have hGl : (faceLists edge' G).length = G.length := by simp [faceLists]
  rw [hFl] at hl p1 p2
  rw [hGl] at hl
  refine ⟨φ, hl.symm, htl, hti, p1, p2, ?_⟩
  intro i f hf
  obtain ⟨m, m1, m2⟩ := p3 i (flipIf o ((sides f).map (begp edge))) (by
    rw [reverse_get]
    refine ⟨_, ?_, rfl⟩
    unfold faceLists
    rw [List.getElem?_map, hf]
    rfl)
  unfold faceLists at m1
  rw [List.getElem?_map, Option.map_eq_some_iff] at m1
  obtain ⟨g, g1, rfl⟩ := m1
  refine ⟨g, g1, ?_⟩
  rw [listCarried_iff]
  have h3 := m2.map (eslot cross')
  rw [sides_label hC' hG (List.mem_of_getElem? g1)] at h3
  have h4 : ((flipIf o ((sides f).map (begp edge))).map δ).map (eslot cross') = (flipIf o f.edge).map τ := by
    rw [← sides_label hC hF (List.mem_of_getElem? hf), ← flip_map (eslot cross), List.map_map, List.map_map]
    apply List.map_congr_left
    intro p hp
    refine hlab p ((h1.mem p).mp (List.mem_flatten.mpr ⟨_, ?_, hp⟩))
    refine List.mem_of_getElem? (i := i) (reverse_get.mpr ⟨_, ?_, rfl⟩)
    unfold faceLists
    rw [List.getElem?_map, hf]
    rfl
  rwa [h4] at h3

/-- A map of faces gives a map of places. -/
theorem place_of_faces (hC : Consistent cross edge) (hC' : Consistent cross' edge') {F G : List Face}
    (hF : GoodFaces cross edge F) (hG : GoodFaces cross' edge' G) {m : Nat} {o : Or} {φ : Nat → Nat}
    (h : SameFaces F G m τ φ o) : ∃ π, PMap cross cross' τ (decide (o = .neg)) π := by
  have h1 := flip_cycles (faceLists_cycles hC hF) o
  have h2 := faceLists_cycles hC' hG
  obtain ⟨δ, d1, d2, d3, d4⟩ := h1.lift h2 (ℓ := eslot cross) (ℓ' := eslot cross') (τ := τ) (φ := φ)
    (faceR_fun hC)
    (by
      intro i j hi hj
      simp only [List.length_map, faceLists] at hi hj
      exact h.pinj i j hi hj)
    (by
      intro i l hl
      obtain ⟨k, hk, rfl⟩ := reverse_get.mp hl
      unfold faceLists at hk
      rw [List.getElem?_map, Option.map_eq_some_iff] at hk
      obtain ⟨f, hf, rfl⟩ := hk
      obtain ⟨g, g1, g2⟩ := h.carried i f hf
      refine ⟨(sides g).map (begp edge'), ?_, ?_⟩
      · unfold faceLists
        rw [List.getElem?_map, g1]
        rfl
      · rw [sides_label hC' hG (List.mem_of_getElem? g1), flip_map, sides_label hC hF (List.mem_of_getElem? hf)]
        exact listCarried_iff.mp g2)
  have hoth : ∀ p ∈ P cross, δ (Places.oth cross edge p) = Places.oth cross' edge' (δ p) := by
    intro p hp
    have ho := oth_mem hC hp
    rcases same_edge hC' (d1 p hp) (d1 _ ho) (by rw [d3 p hp, d3 _ ho, eslot_oth hC hp]) with e | e
    · exact absurd (d2 _ _ ho hp e) (oth_ne hC hp)
    · exact e
  by_cases ho : o = .neg
  · simp only [if_pos ho] at d4
    refine ⟨fun p => Places.oth cross' edge' (δ p), ?_, ?_, ?_, ?_⟩
    · exact fun p hp => oth_mem hC' (d1 p hp)
    · exact fun p hp q hq he => d2 p q hp hq (oth_inj hC' (d1 p hp) (d1 q hq) he)
    · intro p hp
      rw [eslot_oth hC' (d1 p hp), d3 p hp]
    · intro p hp
      have ht := turn_mem 1 hp
      -- `p` is reached from the other end of the next place
      have := d4 p (Places.oth cross edge (Places.turn 1 p)) hp (oth_mem hC ht) (by
        rw [oth_oth hC ht, turn_turn hp _ _ (by decide)])
      rw [hoth _ ht] at this
      simp only [ho, decide_true, if_true]
      exact this
  · simp only [if_neg ho] at d4
    refine ⟨δ, d1, fun p hp q hq => d2 p q hp hq, d3, ?_⟩
    intro p hp
    have ht := turn_mem 1 hp
    have ho' := oth_mem hC ht
    have := d4 (Places.oth cross edge (Places.turn 1 p)) p ho' hp (by
      rw [oth_oth hC ht, turn_turn hp _ _ (by decide)])
    rw [hoth _ ht, oth_oth hC' (d1 _ ht)] at this
    rw [this]
    simp only [ho, decide_false, Bool.false_eq_true, if_false]
    rw [turn_turn (d1 _ ht) _ _ (by decide)]

/-- A map of places gives a map of crossings. -/
theorem shadow_at_place {m : Nat} {o : Or} (hlen : cross'.length = cross.length) (htl : ∀ e, e < m → τ e < m)
    (hti : ∀ e f, e < m → f < m → τ e = τ f → e = f)
    (h : PMap cross cross' τ (decide (o = .neg)) π) :
    ∃ σ, SameShadow cross cross' m τ σ o ∧ ∀ p ∈ P cross, (π p).1 = σ p.1 := by
  have h1 := flip_cycles (crossLists_cycles cross) o
  have h2 := crossLists_cycles cross'
  obtain ⟨hl, φ, p1, p2, p3⟩ := h1.match h2 (δ := π)
    (fun x y z hx hy hz e1 e2 => crossR_fun (o := .pos) x y z hx hy hz e1 e2) h.maps
    (fun x y hx hy he => h.inj x hx y hy he)
    (fun y hy => h.surj hlen hy)
    (by
      intro x y hx hy hxy
      by_cases ho : o = .neg
      · rw [if_pos ho] at hxy
        rw [hxy, h.turn y hy]
        simp only [ho, decide_true, if_true]
        rw [turn_turn (h.maps y hy) _ _ (by decide)]
      · rw [if_neg ho] at hxy
        rw [hxy, h.turn x hx]
        simp [ho])
  have hFl : ((crossLists cross.length).map (flipIf o)).length = cross.length := by simp [crossLists]
  rw [hFl] at p1 p2
  refine ⟨φ, ⟨hlen, htl, hti, p1, p2, ?_⟩, ?_⟩
  swap
  · rintro ⟨c, k⟩ hp
    have hc := (mem_P.mp hp).1
    have hk := (mem_P.mp hp).2
    obtain ⟨l, l1, l2⟩ := p3 c _ (reverse_get.mpr ⟨_, crossLists_get hc, rfl⟩)
    have hc' : φ c < cross'.length := by rw [hlen]; exact p1 c hc
    rw [crossLists_get hc'] at l1
    cases l1
    have hmem : π (c, k) ∈ (flipIf o [(c, 0), (c, 1), (c, 2), (c, 3)]).map π := by
      refine List.mem_map_of_mem ?_
      have : (c, k) ∈ [(c, 0), (c, 1), (c, 2), (c, 3)] := by
        simp only at hk
        interval_cases k <;> simp
      unfold flipIf
      split
      · exact List.mem_reverse.mpr this
      · exact this
    have := l2.perm.mem_iff.mpr hmem
    simp only [List.mem_cons, List.not_mem_nil, or_false] at this
    rcases this with e | e | e | e <;> rw [e]
  intro c x hx
  have hc := (List.getElem?_eq_some_iff.mp hx).1
  obtain ⟨l, l1, l2⟩ := p3 c _ (reverse_get.mpr ⟨_, crossLists_get hc, rfl⟩)
  have hc' : φ c < cross'.length := by rw [hlen]; exact p1 c hc
  rw [crossLists_get hc'] at l1
  cases l1
  refine ⟨_, List.getElem?_eq_getElem hc', ?_⟩
  rw [carriedTo_iff, listCarried_iff]
  have h3 := l2.map (eslot cross')
  rw [crossLists_label (List.getElem?_eq_getElem hc')] at h3
  have h4 : ((flipIf o [(c, 0), (c, 1), (c, 2), (c, 3)]).map π).map (eslot cross') =
      (flipIf o [x.e0, x.e1, x.e2, x.e3]).map τ := by
    rw [← crossLists_label hx, ← flip_map (eslot cross), List.map_map, List.map_map]
    apply List.map_congr_left
    intro p hp
    exact h.label p ((h1.mem p).mp (List.mem_flatten.mpr ⟨_,
      List.mem_of_getElem? (reverse_get.mpr ⟨_, crossLists_get hc, rfl⟩), hp⟩))
  rwa [h4] at h3

theorem shadow_of_place {m : Nat} {o : Or} (hlen : cross'.length = cross.length) (htl : ∀ e, e < m → τ e < m)
    (hti : ∀ e f, e < m → f < m → τ e = τ f → e = f)
    (h : PMap cross cross' τ (decide (o = .neg)) π) : ∃ σ, SameShadow cross cross' m τ σ o := by
  obtain ⟨σ, hσ, -⟩ := shadow_at_place hlen htl hti h
  exact ⟨σ, hσ⟩

/-! ### Along components -/

/-- The places met along the components: tails in one direction, heads in the other. -/
def compLists (edge : List Edge) (comps : List Comp) : List (List (Nat × Nat)) :=
  (comps.map (·.edge)).map (List.map (fun e => tl edge[e]!)) ++
    ((comps.map (·.edge)).map List.reverse).map (List.map (fun e => hd edge[e]!))

theorem comp_lt {comps : List Comp} (hK : GoodComps cross edge comps) {k : Comp} (hk : k ∈ comps) {e : Nat}
    (he : e ∈ k.edge) : e < edge.length := by
  rw [← List.mem_range, ← hK.all]
  exact List.mem_flatMap.mpr ⟨k, hk, he⟩

theorem tl_follow (hC : Consistent cross edge) (hO : Oriented cross edge) {e f : Nat} (h : Follows cross edge e f) :
    tl edge[f]! = Places.turn 2 (hd edge[e]!) := by
  obtain ⟨r, h1, h2⟩ := h
  obtain ⟨f', s, g1, g2, g3⟩ := hO.through_head e r h1
  have hff : f' = f := by
    have := hC.tail f' s g1
    rw [g2, g3, h2] at this
    exact (Option.some.inj this).symm
  subst hff
  obtain ⟨e1, e2⟩ := List.getElem?_eq_some_iff.mp h1
  obtain ⟨f1, f2⟩ := List.getElem?_eq_some_iff.mp g1
  rw [getElem!_pos edge e e1, getElem!_pos edge f' f1, e2, f2, tl, hd, g2, g3]
  rfl

theorem comps_cycles {comps : List Comp} (hK : GoodComps cross edge comps) :
    Cycles (Follows cross edge) (fun e => e < edge.length) (comps.map (·.edge)) where
  nodup := by
    rw [← List.flatMap_def, hK.all]
    exact List.nodup_range
  mem := by
    intro x
    rw [← List.flatMap_def, hK.all, List.mem_range]
  ne := by
    intro l hl
    obtain ⟨k, hk, rfl⟩ := List.mem_map.mp hl
    exact hK.nonempty k hk
  next := by
    intro l hl j x hx
    obtain ⟨k, hk, rfl⟩ := List.mem_map.mp hl
    exact hK.follow k hk j x hx

theorem compLists_cycles (hC : Consistent cross edge) (hO : Oriented cross edge) {comps : List Comp}
    (hK : GoodComps cross edge comps) :
    Cycles (fun p q => q = Places.turn 2 (Places.oth cross edge p)) (fun p => p ∈ P cross) (compLists edge comps) := by
  have h0 := comps_cycles hK
  have h1 := h0.image (f := fun e => tl edge[e]!) (R' := fun p q => q = Places.turn 2 (Places.oth cross edge p))
    (by
      intro x y hx hy he
      rw [← (tl_mem hC hx).2, he, (tl_mem hC hy).2])
    (by
      intro x y hx _ hxy
      rw [oth_tl hC hx]
      exact tl_follow hC hO hxy)
  have h2 := h0.reverse.image (f := fun e => hd edge[e]!) (R' := fun p q => q = Places.turn 2 (Places.oth cross edge p))
    (by
      intro x y hx hy he
      rw [← (hd_mem hC hx).2, he, (hd_mem hC hy).2])
    (by
      intro x y hx hy hxy
      rw [oth_hd hC hx, tl_follow hC hO hxy, turn_turn (hd_mem hC hy).1 _ _ (by decide)])
  have h3 := h1.append h2 (by
    rintro p ⟨x, hx, rfl⟩ ⟨y, hy, he⟩
    have e1 := (tl_mem hC hx).2
    have e2 := (hd_mem hC hy).2
    rw [he, e1] at e2
    subst e2
    exact hd_ne_tl hC hx he)
  have h4 : (fun p => (∃ x, x < edge.length ∧ tl edge[x]! = p) ∨ ∃ x, x < edge.length ∧ hd edge[x]! = p) =
      (fun p => p ∈ P cross) := by
    funext p
    rw [eq_iff_iff]
    constructor
    · rintro (⟨x, hx, rfl⟩ | ⟨x, hx, rfl⟩)
      · exact (tl_mem hC hx).1
      · exact (hd_mem hC hx).1
    · intro hp
      rcases ends_at hC hp with h | h
      · exact Or.inr ⟨_, eslot_lt hC hp, h⟩
      · exact Or.inl ⟨_, eslot_lt hC hp, h⟩
  rw [← h4]
  exact h3

/-- A map of places gives a map of components, each followed forwards or backwards. -/
theorem comps_of_place (hC : Consistent cross edge) (hC' : Consistent cross' edge') (hO : Oriented cross edge)
    (hO' : Oriented cross' edge') {K L : List Comp} (hK : GoodComps cross edge K) (hL : GoodComps cross' edge' L)
    (hlen : cross'.length = cross.length) (hti : ∀ e f, e < edge.length → f < edge.length → τ e = τ f → e = f)
    (h : PMap cross cross' τ mir π) : L.length = K.length ∧ ∃ (κ : Nat → Nat) (dir : Nat → Or),
      (∀ i, i < K.length → κ i < K.length) ∧ (∀ i j, i < K.length → j < K.length → κ i = κ j → i = j) ∧
      (∀ i, dir i = .pos ∨ dir i = .neg) ∧
      ∀ i k, K[i]? = some k → ∃ k', L[κ i]? = some k' ∧ ListCarried τ (dir i) k.edge k'.edge ∧
        ∀ e ∈ k.edge, π (tl edge[e]!) = if dir i = .neg then hd edge'[τ e]! else tl edge'[τ e]! := by
  have h1 := compLists_cycles hC hO hK
  have h2 := compLists_cycles hC' hO' hL
  obtain ⟨hl, φ, p1, p2, p3⟩ := h1.match h2 (δ := π)
    (fun x y z _ _ _ e1 e2 => by rw [e1, e2]) h.maps (fun x y hx hy he => h.inj x hx y hy he)
    (fun y hy => h.surj hlen hy)
    (by
      intro x y hx hy hxy
      rw [hxy, h.turns (oth_mem hC hx), h.oth hC hC' hx]
      cases mir
      · rfl
      · rw [if_pos rfl, ← turn_mod])
  have hKl : (compLists edge K).length = K.length + K.length := by simp [compLists]
  have hLl : (compLists edge' L).length = L.length + L.length := by simp [compLists]
  rw [hKl] at hl p1 p2
  rw [hLl] at hl
  have hLK : L.length = K.length := by omega
  have key : ∀ i k, K[i]? = some k → ∃ k', L[if φ i < K.length then φ i else φ i - K.length]? = some k' ∧
      ListCarried τ (if φ i < K.length then .pos else .neg) k.edge k'.edge ∧
      ∀ e ∈ k.edge, π (tl edge[e]!) = if (if φ i < K.length then Or.pos else .neg) = .neg then hd edge'[τ e]!
        else tl edge'[τ e]! := by
    intro i k hk
    have hi := (List.getElem?_eq_some_iff.mp hk).1
    have hkm := List.mem_of_getElem? hk
    obtain ⟨m, m1, m2⟩ := p3 i (k.edge.map (fun e => tl edge[e]!)) (by
      unfold compLists
      rw [List.getElem?_append_left (by simpa using hi), List.getElem?_map, List.getElem?_map, hk]
      rfl)
    have hlabl : ((k.edge.map (fun e => tl edge[e]!)).map π).map (eslot cross') = k.edge.map τ := by
      rw [List.map_map, List.map_map]
      apply List.map_congr_left
      intro e he
      have := tl_mem hC (comp_lt hK hkm he)
      simp only [Function.comp_apply]
      rw [h.label _ this.1, this.2]
    unfold compLists at m1
    by_cases hp : φ i < K.length
    · rw [List.getElem?_append_left (by simpa [hLK] using hp), List.getElem?_map, List.getElem?_map,
        Option.map_map, Option.map_eq_some_iff] at m1
      obtain ⟨k', k1, k2⟩ := m1
      simp only [Function.comp_apply] at k2
      rw [if_pos hp, if_pos hp]
      simp only [reduceCtorEq, if_false]
      have hkm' := List.mem_of_getElem? k1
      refine ⟨k', k1, ?_, ?_⟩
      · rw [listCarried_iff, flipIf, if_neg (by decide)]
        have h3 := m2.map (eslot cross')
        rw [hlabl, ← k2, List.map_map] at h3
        have h4 : k'.edge.map (eslot cross' ∘ fun e => tl edge'[e]!) = k'.edge := by
          conv_rhs => rw [← List.map_id k'.edge]
          apply List.map_congr_left
          intro e he
          exact (tl_mem hC' (comp_lt hL hkm' he)).2
        rwa [h4] at h3
      · intro e he
        have h3 : π (tl edge[e]!) ∈ m := m2.perm.mem_iff.mpr (List.mem_map_of_mem (List.mem_map_of_mem he))
        rw [← k2] at h3
        obtain ⟨e', e1, e2⟩ := List.mem_map.mp h3
        have e3 := (tl_mem hC' (comp_lt hL hkm' e1)).2
        have e4 := tl_mem hC (comp_lt hK hkm he)
        rw [e2, h.label _ e4.1, e4.2] at e3
        rw [← e2, e3]
    · have hp2 := p1 i (by omega)
      rw [List.getElem?_append_right (by simpa [hLK] using hp), List.getElem?_map, List.getElem?_map,
        List.getElem?_map, Option.map_map, Option.map_map, Option.map_eq_some_iff] at m1
      simp only [List.length_map, hLK] at m1
      obtain ⟨k', k1, k2⟩ := m1
      simp only [Function.comp_apply] at k2
      rw [if_neg hp, if_neg hp]
      simp only [if_true]
      have hkm' := List.mem_of_getElem? k1
      refine ⟨k', k1, ?_, ?_⟩
      · unfold ListCarried
        rw [if_pos rfl]
        have h3 := m2.map (eslot cross')
        rw [hlabl, ← k2, List.map_map] at h3
        have h4 : k'.edge.reverse.map (eslot cross' ∘ fun e => hd edge'[e]!) = k'.edge.reverse := by
          conv_rhs => rw [← List.map_id k'.edge.reverse]
          apply List.map_congr_left
          intro e he
          exact (hd_mem hC' (comp_lt hL hkm' (List.mem_reverse.mp he))).2
        rw [h4] at h3
        simpa using h3.reverse
      · intro e he
        have h3 : π (tl edge[e]!) ∈ m := m2.perm.mem_iff.mpr (List.mem_map_of_mem (List.mem_map_of_mem he))
        rw [← k2] at h3
        obtain ⟨e', e1, e2⟩ := List.mem_map.mp h3
        have e3 := (hd_mem hC' (comp_lt hL hkm' (List.mem_reverse.mp e1))).2
        have e4 := tl_mem hC (comp_lt hK hkm he)
        rw [e2, h.label _ e4.1, e4.2] at e3
        rw [← e2, e3]
  refine ⟨hLK, fun i => if φ i < K.length then φ i else φ i - K.length,
    fun i => if φ i < K.length then .pos else .neg, ?_, ?_, ?_, key⟩
  · intro i hi
    have := p1 i (by omega)
    simp only
    split <;> omega
  · intro i j hi hj he
    simp only at he
    obtain ⟨k1, a1, a2, -⟩ := key i _ (List.getElem?_eq_getElem hi)
    obtain ⟨k2, b1, b2, -⟩ := key j _ (List.getElem?_eq_getElem hj)
    rw [he, b1] at a1
    cases a1
    have hpos := List.length_pos_iff.mpr (hK.nonempty _ (List.getElem_mem hi))
    have hx : K[i].edge[0] ∈ K[i].edge := List.getElem_mem hpos
    have mem_iff : ∀ {o : Or} {l l' : List Nat}, ListCarried τ o l l' → ∀ y, y ∈ l' ↔ y ∈ l.map τ := by
      intro o l l' hc y
      unfold ListCarried at hc
      rw [hc.perm.mem_iff]
      split
      · rw [List.mem_reverse]
      · rfl
    have h3 := (mem_iff a2 _).mpr (List.mem_map_of_mem (f := τ) hx)
    rw [mem_iff b2] at h3
    obtain ⟨y, y1, y2⟩ := List.mem_map.mp h3
    have hxy := hti _ _ (comp_lt hK (List.getElem_mem hj) y1) (comp_lt hK (List.getElem_mem hi) hx) y2
    refine flat_unique (comps_cycles hK).nodup (i := i) (i' := j) (l := K[i].edge) (l' := K[j].edge) ?_ ?_ hx (by rw [← hxy]; exact y1)
    · rw [List.getElem?_map, List.getElem?_eq_getElem hi]; rfl
    · rw [List.getElem?_map, List.getElem?_eq_getElem hj]; rfl
  · intro i
    simp only
    split <;> simp

end

end Plc.Shape
