import Verif.Proofs.Triangle
import Verif.Proofs.StrandCount
import Verif.Proofs.Distinct

/-! What turning a triangle over does to strands, connectedness and faces. -/

namespace Plc

open Plc.Core Plc.Cmp Plc.Places Plc.Orbit Plc.Faces Plc.Planar Plc.Comps

namespace Triangle

/-- Where the end goes which is at place `b` of the corner `j`. -/
def corner (X k : Fin 3 → Nat) (j : Fin 3) (b : Nat) : Nat × Nat :=
  if b = k j % 4 then (X (j + 2), (k (j + 2) + 1) % 4)
  else if b = (k j + 1) % 4 then (X (j + 1), k (j + 1) % 4)
  else if b = (k j + 2) % 4 then (X (j + 2), (k (j + 2) + 3) % 4)
  else (X (j + 1), (k (j + 1) + 2) % 4)

/-- Where the end goes which is at place `p`. -/
def goes (X k : Fin 3 → Nat) (p : Nat × Nat) : Nat × Nat :=
  if p.1 = X 0 then corner X k 0 p.2
  else if p.1 = X 1 then corner X k 1 p.2
  else if p.1 = X 2 then corner X k 2 p.2
  else p

theorem goes_at {X k : Fin 3 → Nat} (inj : ∀ i j, X i = X j → i = j) (j : Fin 3) (b : Nat) : goes X k (X j, b) = corner X k j b := by
  have h01 : X 1 ≠ X 0 := fun q => by have := inj _ _ q; simp at this
  have h02 : X 2 ≠ X 0 := fun q => by have := inj _ _ q; simp at this
  have h12 : X 2 ≠ X 1 := fun q => by have := inj _ _ q; simp at this
  unfold goes
  match j with
  | 0 => rw [if_pos rfl]
  | 1 => rw [if_neg h01, if_pos rfl]
  | 2 => rw [if_neg h02, if_neg h12, if_pos rfl]

theorem goes_out {X k : Fin 3 → Nat} {p : Nat × Nat} (h : ∀ j, p.1 ≠ X j) : goes X k p = p := by
  unfold goes
  rw [if_neg (h 0), if_neg (h 1), if_neg (h 2)]

section

variable {X k : Fin 3 → Nat} (inj : ∀ i j, X i = X j → i = j)

include inj

theorem goes_q (j : Fin 3) : goes X k (X (j + 1), k (j + 1) % 4) = (X j, (k j + 1) % 4) := by
  rw [goes_at inj, corner, if_pos rfl, succ3']

theorem goes_u (j : Fin 3) : goes X k (X j, (k j + 1) % 4) = (X (j + 1), k (j + 1) % 4) := by
  rw [goes_at inj, corner, if_neg (by omega), if_pos rfl]

theorem goes_p (j : Fin 3) : goes X k (X j, (k j + 3) % 4) = (X (j + 1), (k (j + 1) + 2) % 4) := by
  rw [goes_at inj, corner, if_neg (by omega), if_neg (by omega), if_neg (by omega)]

theorem goes_v (j : Fin 3) : goes X k (X (j + 1), (k (j + 1) + 2) % 4) = (X j, (k j + 3) % 4) := by
  rw [goes_at inj, corner, if_neg (by omega), if_neg (by omega), if_pos rfl, succ3']

end

/-- A place is outside the triangle or on one of its sides. -/
theorem place_cases {cross : List Cross} (X k : Fin 3 → Nat) {p : Nat × Nat} (hp : p ∈ P cross) :
    (∀ j, p.1 ≠ X j) ∨ ∃ j, p = (X j, (k j + 3) % 4) ∨ p = (X j, (k j + 1) % 4) ∨ p = (X (j + 1), k (j + 1) % 4) ∨
      p = (X (j + 1), (k (j + 1) + 2) % 4) := by
  by_cases h : ∃ j, p.1 = X j
  · right
    obtain ⟨j, hj⟩ := h
    have h4 := (mem_P.mp hp).2
    have : p.2 = (k j + 3) % 4 ∨ p.2 = (k j + 1) % 4 ∨ p.2 = k j % 4 ∨ p.2 = (k j + 2) % 4 := by omega
    rcases this with q | q | q | q
    · exact ⟨j, .inl (Prod.ext hj q)⟩
    · exact ⟨j, .inr (.inl (Prod.ext hj q))⟩
    · exact ⟨j + 2, .inr (.inr (.inl (by rw [succ3]; exact Prod.ext hj q)))⟩
    · exact ⟨j + 2, .inr (.inr (.inr (by rw [succ3]; exact Prod.ext hj q)))⟩
  · push Not at h
    exact .inl h

theorem goes_turn {cross : List Cross} {X k : Fin 3 → Nat} (inj : ∀ i j, X i = X j → i = j) {p : Nat × Nat} (hp : p ∈ P cross) :
    goes X k (turn 2 p) = turn 2 (goes X k p) := by
  rcases place_cases X k hp with h | ⟨j, rfl | rfl | rfl | rfl⟩
  · rw [goes_out h, goes_out (by exact h)]
  · rw [goes_p inj]
    unfold turn
    simp only
    rw [Tri.t1, goes_u inj]
    exact (by simp only [Prod.mk.injEq, true_and]; omega)
  · rw [goes_u inj]
    unfold turn
    simp only
    rw [show ((k j + 1) % 4 + 2) % 4 = (k j + 3) % 4 by omega, goes_p inj]
    exact (by simp only [Prod.mk.injEq, true_and]; omega)
  · rw [goes_q inj]
    unfold turn
    simp only
    rw [Tri.t2, goes_v inj]
    exact (by simp only [Prod.mk.injEq, true_and]; omega)
  · rw [goes_v inj]
    unfold turn
    simp only
    rw [show ((k (j + 1) + 2) % 4 + 2) % 4 = k (j + 1) % 4 by omega, goes_q inj]
    exact (by simp only [Prod.mk.injEq, true_and]; omega)

end Triangle

namespace TriangleFlipped

open Triangle

variable {cross cross' : List Cross} {edge edge' : List Edge} {e : Fin 3 → Nat} {o : Fin 3 → Or} {X k : Fin 3 → Nat}

section

variable (h : TriangleFlipped cross edge [e 0, e 1, e 2] cross' edge') (hC : Consistent cross edge) (hO : Oriented cross edge)
  (t : Tri cross edge e o X k)

include h t

theorem side_ends (j : Fin 3) : hd edge'[e j]! = turn 2 (tl edge[e j]!) ∧ tl edge'[e j]! = turn 2 (hd edge[e j]!) := by
  have := h.side (e j) (mem3.mpr ⟨j, rfl⟩) edge[e j]! (by simp [t.lt j])
  rw [(getBang this).1]
  exact ⟨rfl, rfl⟩

theorem before_hd (j : Fin 3) {f : Nat} (hf : f < edge.length) (q : hd edge[f]! = turn 2 (tl edge[e j]!)) :
    hd edge'[f]! = hd edge[e j]! := by
  obtain ⟨s, s1, s2, s3⟩ := h.before (e j) (mem3.mpr ⟨j, rfl⟩) edge[e j]! (by simp [t.lt j]) f edge[f]! (by simp [hf])
    (congrArg Prod.fst q) (congrArg Prod.snd q)
  rw [(getBang s1).1]
  exact Prod.ext s2 s3

theorem after_tl (j : Fin 3) {f : Nat} (hf : f < edge.length) (q : tl edge[f]! = turn 2 (hd edge[e j]!)) :
    tl edge'[f]! = tl edge[e j]! := by
  obtain ⟨s, s1, s2, s3⟩ := h.after (e j) (mem3.mpr ⟨j, rfl⟩) edge[e j]! (by simp [t.lt j]) f edge[f]! (by simp [hf])
    (congrArg Prod.fst q) (congrArg Prod.snd q)
  rw [(getBang s1).1]
  exact Prod.ext s2 s3

theorem out_hd {f : Nat} (hf : f < edge.length) (q : ∀ j, (hd edge[f]!).1 ≠ X j) : hd edge'[f]! = hd edge[f]! := by
  obtain ⟨s, s1, s2, s3⟩ := h.head_kept f edge[f]! (by simp [hf]) (by
    intro hm
    obtain ⟨j, rfl⟩ := mem3.mp hm
    rcases t.ends j with ⟨-, a, b⟩ | ⟨-, a, b⟩
    · exact q (j + 1) (by rw [b])
    · exact q j (by rw [a])) (by
    intro x hx r hr
    obtain ⟨j, rfl⟩ := mem3.mp hx
    obtain ⟨rfl, -⟩ := getBang hr
    rintro ⟨q1, -⟩
    have q2 : (hd edge[f]!).1 = (tl edge[e j]!).1 := q1
    rcases t.ends j with ⟨-, a, b⟩ | ⟨-, a, b⟩
    · exact q j (by rw [q2, a])
    · exact q (j + 1) (by rw [q2, b]))
  rw [(getBang s1).1]
  exact Prod.ext s2 s3

theorem out_tl {f : Nat} (hf : f < edge.length) (q : ∀ j, (tl edge[f]!).1 ≠ X j) : tl edge'[f]! = tl edge[f]! := by
  obtain ⟨s, s1, s2, s3⟩ := h.tail_kept f edge[f]! (by simp [hf]) (by
    intro hm
    obtain ⟨j, rfl⟩ := mem3.mp hm
    rcases t.ends j with ⟨-, a, b⟩ | ⟨-, a, b⟩
    · exact q j (by rw [a])
    · exact q (j + 1) (by rw [b])) (by
    intro x hx r hr
    obtain ⟨j, rfl⟩ := mem3.mp hx
    obtain ⟨rfl, -⟩ := getBang hr
    rintro ⟨q1, -⟩
    have q2 : (tl edge[f]!).1 = (hd edge[e j]!).1 := q1
    rcases t.ends j with ⟨-, a, b⟩ | ⟨-, a, b⟩
    · exact q (j + 1) (by rw [q2, b])
    · exact q j (by rw [q2, a]))
  rw [(getBang s1).1]
  exact Prod.ext s2 s3

include hC hO

theorem hd_eq {f : Nat} (hf : f < edge.length) : hd edge'[f]! = goes X k (hd edge[f]!) := by
  -- a head is not a tail
  have no : ∀ g, g < edge.length → hd edge[f]! ≠ tl edge[g]! := by
    intro g hg q
    have := end_eq hC (b := true) (b' := false) hf hg q
    simp at this
  have same : ∀ g, g < edge.length → hd edge[f]! = hd edge[g]! → f = g := fun g hg q =>
    (end_eq hC (b := true) (b' := true) hf hg q).2
  rcases place_cases X k (hd_mem hC hf).1 with q | ⟨j, q⟩
  · rw [goes_out q, h.out_hd t hf q]
  · have n := (nx_spec hC hO (t.lt j))
    obtain ⟨s1, s2⟩ := h.side_ends t j
    rcases t.ends j with ⟨-, a, b⟩ | ⟨-, a, b⟩ <;> rcases q with q | q | q | q <;> rw [q]
    · exact absurd (q.trans a.symm) (no _ (t.lt j))
    · rw [h.before_hd t j hf (by rw [q, a, turn, Tri.t1]), goes_u t.inj, b]
    · obtain rfl := same _ (t.lt j) (q.trans b.symm)
      rw [s1, goes_q t.inj, a, turn, Tri.t1]
    · exact absurd (by rw [q, n.2, b, turn, Tri.t2]) (no _ n.1)
    · obtain rfl := same _ (t.lt j) (q.trans a.symm)
      rw [s1, goes_p t.inj, b, turn, Tri.t2]
    · exact absurd (by rw [q, n.2, a, turn, Tri.t1]) (no _ n.1)
    · exact absurd (q.trans b.symm) (no _ (t.lt j))
    · rw [h.before_hd t j hf (by rw [q, b, turn, Tri.t2]), goes_v t.inj, a]

theorem tl_eq {f : Nat} (hf : f < edge.length) : tl edge'[f]! = goes X k (tl edge[f]!) := by
  have no : ∀ g, g < edge.length → tl edge[f]! ≠ hd edge[g]! := by
    intro g hg q
    have := end_eq hC (b := false) (b' := true) hf hg q
    simp at this
  have same : ∀ g, g < edge.length → tl edge[f]! = tl edge[g]! → f = g := fun g hg q =>
    (end_eq hC (b := false) (b' := false) hf hg q).2
  rcases place_cases X k (tl_mem hC hf).1 with q | ⟨j, q⟩
  · rw [goes_out q, h.out_tl t hf q]
  · have n := (pre_spec hC hO (t.lt j))
    obtain ⟨s1, s2⟩ := h.side_ends t j
    rcases t.ends j with ⟨-, a, b⟩ | ⟨-, a, b⟩ <;> rcases q with q | q | q | q <;> rw [q]
    · obtain rfl := same _ (t.lt j) (q.trans a.symm)
      rw [s2, goes_p t.inj, b, turn, Tri.t2]
    · exact absurd (by rw [q, n.2, a, turn, Tri.t1]) (no _ n.1)
    · exact absurd (q.trans b.symm) (no _ (t.lt j))
    · rw [h.after_tl t j hf (by rw [q, b, turn, Tri.t2]), goes_v t.inj, a]
    · exact absurd (q.trans a.symm) (no _ (t.lt j))
    · rw [h.after_tl t j hf (by rw [q, a, turn, Tri.t1]), goes_u t.inj, b]
    · obtain rfl := same _ (t.lt j) (q.trans b.symm)
      rw [s2, goes_q t.inj, a, turn, Tri.t1]
    · exact absurd (by rw [q, n.2, b, turn, Tri.t2]) (no _ n.1)

theorem oriented : Oriented cross' edge' := by
  have el := h.elen
  constructor
  · intro f r hr
    obtain ⟨rfl, hf⟩ := getBang hr
    rw [el] at hf
    obtain ⟨n1, n2⟩ := nx_spec hC hO hf
    have : tl edge'[nx cross edge f]! = turn 2 (hd edge'[f]!) := by
      rw [h.tl_eq hC hO t n1, h.hd_eq hC hO t hf, n2, goes_turn t.inj (hd_mem hC hf).1]
    exact ⟨nx cross edge f, edge'[nx cross edge f]!, by simp [el, n1], congrArg Prod.fst this, congrArg Prod.snd this⟩
  · intro f r hr
    obtain ⟨rfl, hf⟩ := getBang hr
    rw [el] at hf
    obtain ⟨n1, n2⟩ := pre_spec hC hO hf
    have : hd edge'[pre cross edge f]! = turn 2 (tl edge'[f]!) := by
      rw [h.hd_eq hC hO t n1, h.tl_eq hC hO t hf, n2, goes_turn t.inj (tl_mem hC hf).1]
    exact ⟨pre cross edge f, edge'[pre cross edge f]!, by simp [el, n1], congrArg Prod.fst this, congrArg Prod.snd this⟩

/-- The strands are the same. -/
theorem nx_eq {f : Nat} (hf : f < edge.length) : nx cross' edge' f = nx cross edge f := by
  have el := h.elen
  have hC' := h.consistent
  have hO' := h.oriented hC hO t
  obtain ⟨n1, n2⟩ := nx_spec hC hO hf
  obtain ⟨m1, m2⟩ := nx_spec hC' hO' (by rw [el]; exact hf : f < edge'.length)
  refine (end_eq hC' (b := false) (b' := false) m1 (by omega) ?_).2
  show tl _ = tl _
  rw [m2, h.tl_eq hC hO t n1, h.hd_eq hC hO t hf, n2, goes_turn t.inj (hd_mem hC hf).1]

theorem strands {A : List Nat} (hA : Reps (nx cross edge) (Finset.range edge.length) A) :
    Reps (nx cross' edge') (Finset.range edge'.length) A := by
  have el := h.elen
  have hI := injOn_nx hC hO
  have hI' := injOn_nx h.consistent (h.oriented hC hO t)
  have R : Return (nx cross edge) (Finset.range edge.length) (nx cross' edge') (Finset.range edge'.length) id :=
    ⟨fun s hs => by rw [el]; exact hs, fun _ _ _ _ q => q, fun s hs => ⟨0, by
      simpa using h.nx_eq hC hO t (Finset.mem_range.mp hs), fun i a b => by omega⟩⟩
  have := R.reps hI hI' hA (X := []) (by simp) (by simp) (by simp) (fun s hs => .inl ⟨s, by rw [el] at hs; exact hs, hI'.self_mem_cyc hs⟩)
  simpa using this

theorem faces_plane (hP : PlaneFaces cross edge) : PlaneFaces cross' edge' := by
  have el := h.elen
  refine Ends.faces (X := X) (k := k) (π := goes X k) ⟨hC, h.consistent, h.len, ?_, t.inj, ?_, ?_, goes_q t.inj, goes_u t.inj, goes_p t.inj,
    goes_v t.inj, fun p _ q => goes_out q⟩ hP
  · intro j
    rcases t.ends j with ⟨-, a, b⟩ | ⟨-, a, b⟩
    · have := (mem_P.mp (tl_mem hC (t.lt j)).1).1
      rwa [a] at this
    · have := (mem_P.mp (hd_mem hC (t.lt j)).1).1
      rwa [a] at this
  · intro j
    rcases t.ends j with ⟨-, a, b⟩ | ⟨-, a, b⟩
    · rw [← a, oth_tl hC (t.lt j), b]
    · rw [← a, oth_hd hC (t.lt j), b]
  · intro p hp
    have hlt := eslot_lt hC hp
    have hlt' : eslot cross p < edge'.length := by omega
    rcases ends_at hC hp with q | q
    · rw [← q] at *
      generalize eslot cross p = f at *
      rw [← h.hd_eq hC hO t hlt, oth_hd h.consistent hlt', h.tl_eq hC hO t hlt, oth_hd hC hlt]
    · rw [← q] at *
      generalize eslot cross p = f at *
      rw [← h.tl_eq hC hO t hlt, oth_tl h.consistent hlt', h.hd_eq hC hO t hlt, oth_tl hC hlt]

theorem connected (hK : Connected cross edge) : Connected cross' edge' := by
  have el := h.elen
  have sy : ∀ {a b}, Relation.ReflTransGen (Joined edge') a b → Relation.ReflTransGen (Joined edge') b a := by
    intro a b hab
    induction hab with
    | refl => exact .refl
    | tail _ hj ih =>
      obtain ⟨r, hr, hj⟩ := hj
      exact (Relation.ReflTransGen.single ⟨r, hr, hj.symm⟩).trans ih
  have jn : ∀ e, e < edge.length → Relation.ReflTransGen (Joined edge') (tl edge'[e]!).1 (hd edge'[e]!).1 := by
    intro e he
    have he : e < edge'.length := by omega
    refine .single ⟨edge'[e]!, ?_, .inr ⟨rfl, rfl⟩⟩
    rw [getElem!_pos edge' e he]
    exact List.getElem_mem he
  have sd : ∀ j, Relation.ReflTransGen (Joined edge') (X j) (X (j + 1)) := by
    intro j
    have := jn (e j) (t.lt j)
    obtain ⟨s1, s2⟩ := h.side_ends t j
    rw [s1, s2] at this
    rcases t.ends j with ⟨-, a, b⟩ | ⟨-, a, b⟩
    · rw [a, b] at this
      exact sy this
    · rw [a, b] at this
      exact this
  have mv : ∀ p ∈ P cross, Relation.ReflTransGen (Joined edge') p.1 (goes X k p).1 := by
    intro p hp
    rcases place_cases X k hp with q | ⟨j, rfl | rfl | rfl | rfl⟩
    · rw [goes_out q]
    · rw [goes_p t.inj]; exact sd j
    · rw [goes_u t.inj]; exact sd j
    · rw [goes_q t.inj]; exact sy (sd j)
    · rw [goes_v t.inj]; exact sy (sd j)
  have old : ∀ e, e < edge.length → Relation.ReflTransGen (Joined edge') (tl edge[e]!).1 (hd edge[e]!).1 := by
    intro e he
    have := jn e he
    rw [h.tl_eq hC hO t he, h.hd_eq hC hO t he] at this
    exact (mv _ (tl_mem hC he).1).trans (this.trans (sy (mv _ (hd_mem hC he).1)))
  have steps : ∀ a b, Relation.ReflTransGen (Joined edge) a b → Relation.ReflTransGen (Joined edge') a b := by
    intro a b hab
    induction hab with
    | refl => exact .refl
    | tail _ hj ih =>
      obtain ⟨r, hr, hj⟩ := hj
      obtain ⟨i, hi⟩ := List.mem_iff_getElem?.mp hr
      obtain ⟨rfl, hlt⟩ := getBang hi
      have := old i hlt
      rcases hj with ⟨q1, q2⟩ | ⟨q1, q2⟩
      · rw [show (tl edge[i]!).1 = edge[i]!.tail from rfl, show (hd edge[i]!).1 = edge[i]!.head from rfl, q1, q2] at this
        exact ih.trans (sy this)
      · rw [show (tl edge[i]!).1 = edge[i]!.tail from rfl, show (hd edge[i]!).1 = edge[i]!.head from rfl, q1, q2] at this
        exact ih.trans this
  intro a b ha hb
  rw [h.len] at ha hb
  exact steps _ _ (hK _ _ ha hb)

theorem plane_diagram (hP : PlaneDiagram cross edge) : PlaneDiagram cross' edge' :=
  ⟨h.consistent, h.oriented hC hO t, by
    have := hP.nonempty
    have q := h.len
    intro q'
    rw [q', List.length_nil] at q
    exact this (List.length_eq_zero_iff.mp q.symm), h.connected hC hO t hP.connected, h.faces_plane hC hO t hP.plane⟩

end

end TriangleFlipped

end Plc
