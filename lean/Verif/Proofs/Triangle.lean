import Verif.Model.Triangle
import Verif.Spec.Triangle
import Verif.Proofs.Plug
import Verif.Proofs.Bigon
import Verif.Proofs.TrianglePlane

/-! The surgery of `pd_R3_triangle_flip`. -/

namespace Plc.Triangle

open Plc.Core Plc.Cmp Plc.Places Plc.Moves Plc.Comps Plc.Faces

/-- The sides of a triangle: `e j` runs from `X j` to `X (j + 1)` along the face, in the direction `o j`. -/
structure Tri (cross : List Cross) (edge : List Edge) (e : Fin 3 → Nat) (o : Fin 3 → Or) (X k : Fin 3 → Nat) : Prop where
  lt : ∀ j, e j < edge.length
  dir : ∀ j, o j = .pos ∨ o j = .neg
  beg : ∀ j, begp edge (e j, o j) = (X j, (k j + 3) % 4)
  fin : ∀ j, endp edge (e j, o j) = (X (j + 1), k (j + 1) % 4)
  klt : ∀ j, k j < 4
  inj : ∀ i j, X i = X j → i = j

/-- The four places where the strand of the side `e` passes the two crossings. -/
def line (edge : List Edge) (e : Nat) : List (Nat × Nat) := [hd edge[e]!, turn 2 (tl edge[e]!), tl edge[e]!, turn 2 (hd edge[e]!)]

/-- The edge before `e`. -/
def pre (cross : List Cross) (edge : List Edge) (e : Nat) : Nat := eslot cross (turn 2 (tl edge[e]!))

theorem pre_spec {cross : List Cross} {edge : List Edge} (hC : Consistent cross edge) (hO : Oriented cross edge) {e : Nat}
    (he : e < edge.length) : pre cross edge e < edge.length ∧ hd edge[pre cross edge e]! = turn 2 (tl edge[e]!) := by
  have hr : edge[e]? = some edge[e]! := by simp [he]
  obtain ⟨e', r', h1, h2, h3⟩ := hO.through_tail e _ hr
  have hs := hC.head e' r' h1
  have ht : turn 2 (tl edge[e]!) = hd r' := by
    unfold turn hd tl
    rw [h2, h3]
  have hn : pre cross edge e = e' := by
    rw [pre, ht]
    exact eslot_of_slot hs
  obtain ⟨a, b⟩ := Planar.getBang h1
  rw [hn]
  exact ⟨b, by rw [a, ht]⟩

/-- What is written for the side `e`. -/
def flips (cross : List Cross) (edge : List Edge) (e : Nat) : List Plug :=
  [⟨true, pre cross edge e, (hd edge[e]!).1, (hd edge[e]!).2⟩,
    ⟨true, e, (turn 2 (tl edge[e]!)).1, (turn 2 (tl edge[e]!)).2⟩,
    ⟨false, nx cross edge e, (tl edge[e]!).1, (tl edge[e]!).2⟩,
    ⟨false, e, (turn 2 (hd edge[e]!)).1, (turn 2 (hd edge[e]!)).2⟩]

theorem flips_places (cross : List Cross) (edge : List Edge) (e : Nat) :
    (flips cross edge e).map (fun w => (w.c, w.k)) = line edge e := rfl

variable {cross : List Cross} {edge : List Edge}

theorem flips_from (hC : Consistent cross edge) (hO : Oriented cross edge) {e : Nat} (he : e < edge.length) :
    (flips cross edge e).map (fun w => endOf w.head edge[w.e]!) =
      [turn 2 (tl edge[e]!), hd edge[e]!, turn 2 (hd edge[e]!), tl edge[e]!] := by
  have h1 := (pre_spec hC hO he).2
  have h2 := (nx_spec hC hO he).2
  simp only [flips, List.map_cons, List.map_nil, endOf, if_true, Bool.false_eq_true, if_false, h1, h2]

theorem flipPlugs_ok (hC : Consistent cross edge) (hO : Oriented cross edge) {e : Nat} (he : e < edge.length) :
    flipPlugs cross edge e = .ok (flips cross edge e) := by
  have hr : edge[e]? = some edge[e]! := by simp [he]
  obtain ⟨p1, p2⟩ := pre_spec hC hO he
  obtain ⟨n1, n2⟩ := nx_spec hC hO he
  have hp : edge[pre cross edge e]? = some edge[pre cross edge e]! := by simp [p1]
  have hn : edge[nx cross edge e]? = some edge[nx cross edge e]! := by simp [n1]
  have t1 := turn_mem 2 (tl_mem hC he).1
  have t2 := turn_mem 2 (hd_mem hC he).1
  have q1 : (edge[pre cross edge e]!).head = (edge[e]!).tail := congrArg Prod.fst p2
  have q2 : (edge[pre cross edge e]!).headpos = ((edge[e]!).tailpos + 2) % 4 := congrArg Prod.snd p2
  have q3 : (edge[nx cross edge e]!).tail = (edge[e]!).head := congrArg Prod.fst n2
  have q4 : (edge[nx cross edge e]!).tailpos = ((edge[e]!).headpos + 2) % 4 := congrArg Prod.snd n2
  unfold flipPlugs
  rw [prevEdge_ok hr hp q1 (slot_eslot t1), ok_bind, nextEdge_ok hr hn q3 (slot_eslot t2), ok_bind, rd_eq_ok.mpr hr, ok_bind,
    rd_eq_ok.mpr hp, ok_bind, rd_eq_ok.mpr hn, ok_bind, q1, q2, q3, q4]
  rfl

theorem flipAll_ok (hC : Consistent cross edge) (hO : Oriented cross edge) : ∀ (T : List Nat), (∀ e ∈ T, e < edge.length) →
    flipAll cross edge T = .ok (T.flatMap (flips cross edge)) := by
  intro T
  induction T with
  | nil => intro _; rfl
  | cons e T ih =>
    intro h
    rw [flipAll, flipPlugs_ok hC hO (h e (by simp)), ok_bind, ih (fun x hx => h x (by simp [hx])), ok_bind]
    rfl

namespace Tri

variable {e : Fin 3 → Nat} {o : Fin 3 → Or} {X k : Fin 3 → Nat}

theorem ends (h : Tri cross edge e o X k) (j : Fin 3) :
    (o j = .pos ∧ tl edge[e j]! = (X j, (k j + 3) % 4) ∧ hd edge[e j]! = (X (j + 1), k (j + 1) % 4)) ∨
    (o j = .neg ∧ hd edge[e j]! = (X j, (k j + 3) % 4) ∧ tl edge[e j]! = (X (j + 1), k (j + 1) % 4)) := by
  have h1 := h.beg j
  have h2 := h.fin j
  unfold begp at h1
  unfold endp at h2
  rcases h.dir j with q | q
  · rw [if_pos q] at h1 h2
    exact .inl ⟨q, h1, h2⟩
  · rw [if_neg (by rw [q]; simp)] at h1 h2
    exact .inr ⟨q, h1, h2⟩

theorem succ_ne (j : Fin 3) : j ≠ j + 1 := by revert j; decide

theorem X_ne (h : Tri cross edge e o X k) (j : Fin 3) : X j ≠ X (j + 1) := fun q => succ_ne j (h.inj _ _ q)

theorem t1 (k : Nat) : ((k + 3) % 4 + 2) % 4 = (k + 1) % 4 := by omega

theorem t2 (k : Nat) : (k % 4 + 2) % 4 = (k + 2) % 4 := by omega

theorem mem_line (h : Tri cross edge e o X k) {j : Fin 3} {p : Nat × Nat} (hp : p ∈ line edge (e j)) :
    p = (X j, (k j + 3) % 4) ∨ p = (X j, (k j + 1) % 4) ∨ p = (X (j + 1), k (j + 1) % 4) ∨ p = (X (j + 1), (k (j + 1) + 2) % 4) := by
  unfold line at hp
  rcases h.ends j with ⟨-, a, b⟩ | ⟨-, a, b⟩ <;> rw [a, b] at hp <;> unfold turn at hp <;>
    simp only [t1, t2, List.mem_cons, List.not_mem_nil, or_false] at hp <;> tauto

theorem line_nodup (h : Tri cross edge e o X k) (j : Fin 3) : (line edge (e j)).Nodup := by
  have := h.X_ne j
  unfold line
  rcases h.ends j with ⟨-, a, b⟩ | ⟨-, a, b⟩ <;> rw [a, b] <;> unfold turn <;>
    simp only [t1, t2, List.nodup_cons, List.mem_cons, List.not_mem_nil, or_false, Prod.mk.injEq, not_or, not_false_eq_true,
      List.nodup_nil, and_true] <;> and_intros <;> omega

theorem line_disjoint (h : Tri cross edge e o X k) {i j : Fin 3} {p : Nat × Nat} (hi : p ∈ line edge (e i)) (hj : p ∈ line edge (e j)) :
    i = j := by
  have s : ∀ a b : Fin 3, a + 1 = b + 1 → a = b := by decide
  have := h.X_ne
  rcases h.mem_line hi with rfl | rfl | rfl | rfl <;> rcases h.mem_line hj with q | q | q | q <;>
    rw [Prod.mk.injEq] at q <;> obtain ⟨q, q'⟩ := q <;> have q := h.inj _ _ q <;>
    first
    | exact q
    | exact s _ _ q
    | (subst q; exfalso; omega)

theorem e_inj (h : Tri cross edge e o X k) {i j : Fin 3} (q : e i = e j) : i = j :=
  h.line_disjoint (p := hd edge[e i]!) (by simp [line]) (by rw [q]; simp [line])

end Tri

theorem nodup3 {α : Type} (f : Nat → List α) {e : Fin 3 → Nat} (h1 : ∀ j, (f (e j)).Nodup)
    (h2 : ∀ i j x, x ∈ f (e i) → x ∈ f (e j) → i = j) : ([e 0, e 1, e 2].flatMap f).Nodup := by
  rw [List.nodup_flatMap]
  constructor
  · intro x hx
    simp only [List.mem_cons, List.not_mem_nil, or_false] at hx
    rcases hx with rfl | rfl | rfl <;> exact h1 _
  · simp only [List.pairwise_cons, List.mem_cons, List.not_mem_nil, or_false, forall_eq_or_imp, forall_eq, List.Pairwise.nil,
      false_imp_iff, implies_true, and_true, Function.onFun]
    and_intros
    · exact fun x a b => by have := h2 0 1 x a b; simp at this
    · exact fun x a b => by have := h2 0 2 x a b; simp at this
    · exact fun x a b => by have := h2 1 2 x a b; simp at this

theorem mem3 {e : Fin 3 → Nat} {x : Nat} : x ∈ [e 0, e 1, e 2] ↔ ∃ j, x = e j := by
  rw [Fin.exists_fin_succ, Fin.exists_fin_succ, Fin.exists_fin_one]
  simp only [List.mem_cons, List.not_mem_nil, or_false]
  rfl

/-- Two ends at the same place are the same end. -/
theorem end_eq (hC : Consistent cross edge) {b b' : Bool} {f f' : Nat} (hf : f < edge.length) (hf' : f' < edge.length)
    (h : endOf b edge[f]! = endOf b' edge[f']!) : b = b' ∧ f = f' := by
  have s : ∀ (b : Bool) (f : Nat), f < edge.length → eslot cross (endOf b edge[f]!) = f := by
    intro b f hf
    cases b
    · exact (tl_mem hC hf).2
    · exact (hd_mem hC hf).2
  have q : f = f' := by rw [← s b f hf, h, s b' f' hf']
  subst q
  refine ⟨?_, rfl⟩
  have := hd_ne_tl hC hf
  cases b <;> cases b' <;> simp_all [endOf]

theorem raw_ok (hC : Consistent cross edge) (hO : Oriented cross edge) {e : Fin 3 → Nat} {o : Fin 3 → Or} {X k : Fin 3 → Nat}
    (h : Tri cross edge e o X k) : ∃ cross' edge', flipAll cross edge [e 0, e 1, e 2] = .ok ([e 0, e 1, e 2].flatMap (flips cross edge)) ∧
      plugs ([e 0, e 1, e 2].flatMap (flips cross edge)) (cross, edge) = .ok (cross', edge') ∧
      TriangleFlipped cross edge [e 0, e 1, e 2] cross' edge' := by
  have hT : ∀ x ∈ [e 0, e 1, e 2], x < edge.length := by
    intro x hx
    obtain ⟨j, rfl⟩ := mem3.mp hx
    exact h.lt j
  generalize hW : [e 0, e 1, e 2].flatMap (flips cross edge) = W
  have mW : ∀ {w}, w ∈ W ↔ ∃ j, w ∈ flips cross edge (e j) := by
    intro w
    rw [← hW, List.mem_flatMap]
    constructor
    · rintro ⟨x, hx, hw⟩
      obtain ⟨j, rfl⟩ := mem3.mp hx
      exact ⟨j, hw⟩
    · rintro ⟨j, hw⟩
      exact ⟨e j, mem3.mpr ⟨j, rfl⟩, hw⟩
  have pl : ∀ {j w}, w ∈ flips cross edge (e j) → (w.c, w.k) ∈ line edge (e j) := fun {j w} hw =>
    List.mem_map_of_mem (f := fun w : Plug => (w.c, w.k)) hw
  have lP : ∀ {j p}, p ∈ line edge (e j) → p ∈ P cross := by
    intro j p hp
    have a := (hd_mem hC (h.lt j)).1
    have b := (tl_mem hC (h.lt j)).1
    simp only [line, List.mem_cons, List.not_mem_nil, or_false] at hp
    rcases hp with rfl | rfl | rfl | rfl
    · exact a
    · exact turn_mem 2 b
    · exact b
    · exact turn_mem 2 a
  have hlt : ∀ {w}, w ∈ W → w.e < edge.length := by
    intro w hw
    obtain ⟨j, hw⟩ := mW.mp hw
    simp only [flips, List.mem_cons, List.not_mem_nil, or_false] at hw
    rcases hw with rfl | rfl | rfl | rfl
    · exact (pre_spec hC hO (h.lt j)).1
    · exact h.lt j
    · exact (nx_spec hC hO (h.lt j)).1
    · exact h.lt j
  have np : (W.map (fun w => (w.c, w.k))).Nodup := by
    rw [← hW, List.map_flatMap]
    exact nodup3 _ (fun j => by rw [flips_places]; exact h.line_nodup j) (fun i j x hi hj => by
      rw [flips_places] at hi hj
      exact h.line_disjoint hi hj)
  have fr : ∀ j, ((flips cross edge (e j)).map (fun w => endOf w.head edge[w.e]!)).Perm (line edge (e j)) := by
    intro j
    rw [flips_from hC hO (h.lt j)]
    exact (List.Perm.swap _ _ _).trans (.cons _ (.cons _ (List.Perm.swap _ _ _)))
  have nf : (W.map (fun w => endOf w.head edge[w.e]!)).Nodup := by
    rw [← hW, List.map_flatMap]
    exact nodup3 _ (fun j => (fr j).nodup_iff.mpr (h.line_nodup j)) (fun i j x hi hj =>
      h.line_disjoint ((fr i).mem_iff.mp hi) ((fr j).mem_iff.mp hj))
  have ne : (W.map (fun w => (w.head, w.e))).Nodup := by
    apply List.Nodup.of_map (fun q : Bool × Nat => endOf q.1 edge[q.2]!)
    rw [List.map_map]
    exact nf
  obtain ⟨cross', edge', a1, a2⟩ := plugs_ok W cross edge (fun w hw => by
    refine ⟨hlt hw, ?_⟩
    obtain ⟨j, hw⟩ := mW.mp hw
    exact mem_P.mp (lP (pl hw))) np ne
  have hC' := a2.consistent np hC.count (by
    intro b f hf hno
    refine ⟨?_, ?_, hd_ne_tl hC hf⟩
    · cases b
      · exact hC.tail f _ (by simp [hf])
      · exact hC.head f _ (by simp [hf])
    · intro w hw q
      obtain ⟨j, hj⟩ := mW.mp hw
      have := (fr j).mem_iff.mpr (pl hj)
      obtain ⟨w', w1, w2⟩ := List.mem_map.mp this
      have w3 := mW.mpr ⟨j, w1⟩
      obtain ⟨b1, b2⟩ := end_eq hC (hlt w3) hf (w2.trans q)
      exact hno w' w3 (by rw [b1, b2]))
  have some' : ∀ {f}, f < edge.length → edge'[f]? = some edge'[f]! := fun {f} hf => by simp [a2.elen, hf]
  have st : ∀ {j w}, w ∈ flips cross edge (e j) → endOf w.head edge'[w.e]! = (w.c, w.k) := fun hw => a2.end_ _ (mW.mpr ⟨_, hw⟩)
  refine ⟨cross', edge', by rw [← hW]; exact flipAll_ok hC hO _ hT, a1, a2.len, a2.elen, hC', a2.signs, ?_, ?_, ?_, ?_, ?_⟩
  · intro x hx r hr
    obtain ⟨j, rfl⟩ := mem3.mp hx
    obtain ⟨rfl, -⟩ := Planar.getBang hr
    rw [some' (h.lt j)]
    congr 1
    exact Bigon.edge_ext (a := turn 2 (tl edge[e j]!)) (b := turn 2 (hd edge[e j]!))
      (st (j := j) (w := ⟨true, e j, (turn 2 (tl edge[e j]!)).1, (turn 2 (tl edge[e j]!)).2⟩) (by simp [flips]))
      (st (j := j) (w := ⟨false, e j, (turn 2 (hd edge[e j]!)).1, (turn 2 (hd edge[e j]!)).2⟩) (by simp [flips]))
  · intro x hx r hr a s hs g1 g2
    obtain ⟨j, rfl⟩ := mem3.mp hx
    obtain ⟨rfl, -⟩ := Planar.getBang hr
    obtain ⟨rfl, ha⟩ := Planar.getBang hs
    obtain ⟨p1, p2⟩ := pre_spec hC hO (h.lt j)
    obtain ⟨-, rfl⟩ := end_eq hC (b := true) (b' := true) ha p1 (by
      show hd _ = hd _
      rw [p2]
      exact Prod.ext g1 g2)
    have := st (j := j) (w := ⟨true, pre cross edge (e j), (hd edge[e j]!).1, (hd edge[e j]!).2⟩) (by simp [flips])
    exact ⟨_, some' p1, congrArg Prod.fst this, congrArg Prod.snd this⟩
  · intro x hx r hr a s hs g1 g2
    obtain ⟨j, rfl⟩ := mem3.mp hx
    obtain ⟨rfl, -⟩ := Planar.getBang hr
    obtain ⟨rfl, ha⟩ := Planar.getBang hs
    obtain ⟨p1, p2⟩ := nx_spec hC hO (h.lt j)
    obtain ⟨-, rfl⟩ := end_eq hC (b := false) (b' := false) ha p1 (by
      show tl _ = tl _
      rw [p2]
      exact Prod.ext g1 g2)
    have := st (j := j) (w := ⟨false, nx cross edge (e j), (tl edge[e j]!).1, (tl edge[e j]!).2⟩) (by simp [flips])
    exact ⟨_, some' p1, congrArg Prod.fst this, congrArg Prod.snd this⟩
  · intro a s hs hna hno
    obtain ⟨rfl, ha⟩ := Planar.getBang hs
    have := a2.end_other true a (by
      intro w hw q
      rw [Prod.mk.injEq] at q
      obtain ⟨q1, rfl⟩ := q
      obtain ⟨j, hw⟩ := mW.mp hw
      simp only [flips, List.mem_cons, List.not_mem_nil, or_false] at hw
      rcases hw with rfl | rfl | rfl | rfl
      · have := (pre_spec hC hO (h.lt j)).2
        exact hno (e j) (mem3.mpr ⟨j, rfl⟩) _ (by simp [h.lt j]) ⟨congrArg Prod.fst this, congrArg Prod.snd this⟩
      · exact hna (mem3.mpr ⟨j, rfl⟩)
      · cases q1
      · cases q1)
    exact ⟨_, some' ha, congrArg Prod.fst this, congrArg Prod.snd this⟩
  · intro a s hs hna hno
    obtain ⟨rfl, ha⟩ := Planar.getBang hs
    have := a2.end_other false a (by
      intro w hw q
      rw [Prod.mk.injEq] at q
      obtain ⟨q1, rfl⟩ := q
      obtain ⟨j, hw⟩ := mW.mp hw
      simp only [flips, List.mem_cons, List.not_mem_nil, or_false] at hw
      rcases hw with rfl | rfl | rfl | rfl
      · cases q1
      · cases q1
      · have := (nx_spec hC hO (h.lt j)).2
        exact hno (e j) (mem3.mpr ⟨j, rfl⟩) _ (by simp [h.lt j]) ⟨congrArg Prod.fst this, congrArg Prod.snd this⟩
      · exact hna (mem3.mpr ⟨j, rfl⟩))
    exact ⟨_, some' ha, congrArg Prod.fst this, congrArg Prod.snd this⟩

end Plc.Triangle
