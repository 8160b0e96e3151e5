import Verif.Proofs.BigonPlane
import Verif.Proofs.StrandCount
import Verif.Proofs.Distinct

/-! What pushing two edges across each other does to strands, connectedness and faces. -/

namespace Plc

open Plc.Core Plc.Cmp Plc.Places Plc.Orbit Plc.Faces Plc.Planar Plc.Comps

namespace Bigon

/-- The ends of the six edges; `e2` goes through `x` first and then through `y`. -/
structure Table (cross : List Cross) (edge : List Edge) (e1 e2 : Nat) (o1 o2 : Or) (edge' : List Edge) (k l s x kx y ky : Nat) :
    Prop where
  h1 : e1 < edge.length
  h2 : e2 < edge.length
  hk : k < 4
  hl : l < 4
  hs : s = if o1 = .pos then 1 else 3
  xy : (o1 = o2 ∧ x = cross.length + 1 ∧ kx = l ∧ y = cross.length ∧ ky = k) ∨
    (o1 ≠ o2 ∧ x = cross.length ∧ kx = k ∧ y = cross.length + 1 ∧ ky = l)
  a1h : hd edge'[edge.length]! = (cross.length, k)
  a1t : tl edge'[edge.length]! = tl edge[e1]!
  e1h : hd edge'[e1]! = (cross.length + 1, l)
  e1t : tl edge'[e1]! = (cross.length, (k + 2) % 4)
  b1h : hd edge'[edge.length + 1]! = hd edge[e1]!
  b1t : tl edge'[edge.length + 1]! = (cross.length + 1, (l + 2) % 4)
  a2h : hd edge'[edge.length + 2]! = (x, (kx + s + 2) % 4)
  a2t : tl edge'[edge.length + 2]! = tl edge[e2]!
  e2h : hd edge'[e2]! = (y, (ky + s) % 4)
  e2t : tl edge'[e2]! = (x, (kx + s) % 4)
  b2h : hd edge'[edge.length + 3]! = hd edge[e2]!
  b2t : tl edge'[edge.length + 3]! = (y, (ky + s + 2) % 4)

end Bigon

namespace BigonAdded

open Bigon

variable {cross cross' : List Cross} {edge edge' : List Edge} {e1 e2 : Nat} {o1 o2 : Or}

theorem table (h : BigonAdded cross edge e1 e2 o1 o2 cross' edge') :
    ∃ k l s x kx y ky, Table cross edge e1 e2 o1 o2 edge' k l s x kx y ky := by
  obtain ⟨r1, r2, k, l, s, c, d, rfl, rfl, hs, g1, g2, u1, u2, u3, u4, u5⟩ := h.pass
  have hk := (slot_lt (h.consistent.head _ _ u1)).2
  have hl := (slot_lt (h.consistent.head _ _ u2)).2
  obtain ⟨q1, h1⟩ := getBang g1
  obtain ⟨q2, h2⟩ := getBang g2
  by_cases ho : o1 = o2
  · obtain ⟨v1, v2, v3⟩ := u4 ho
    refine ⟨k, l, s, cross.length + 1, l, cross.length, k, h1, h2, hk, hl, hs, .inl ⟨ho, rfl, rfl, rfl, rfl⟩, ?_, ?_, ?_, ?_, ?_, ?_,
      ?_, ?_, ?_, ?_, ?_, ?_⟩ <;> simp only [(getBang u1).1, (getBang u2).1, (getBang u3).1, (getBang v1).1, (getBang v2).1,
        (getBang v3).1, q1, q2] <;> rfl
  · obtain ⟨v1, v2, v3⟩ := u5 ho
    refine ⟨k, l, s, cross.length, k, cross.length + 1, l, h1, h2, hk, hl, hs, .inr ⟨ho, rfl, rfl, rfl, rfl⟩, ?_, ?_, ?_, ?_, ?_, ?_,
      ?_, ?_, ?_, ?_, ?_, ?_⟩ <;> simp only [(getBang u1).1, (getBang u2).1, (getBang u3).1, (getBang v1).1, (getBang v2).1,
        (getBang v3).1, q1, q2] <;> rfl

theorem keep (h : BigonAdded cross edge e1 e2 o1 o2 cross' edge') {e : Nat} (he : e < edge.length) (n1 : e ≠ e1) (n2 : e ≠ e2) :
    edge'[e]! = edge[e]! := by
  rw [(getBang (List.getElem?_eq_getElem he)).1, (getBang (h.kept e _ (List.getElem?_eq_getElem he) n1 n2)).1]

/-- The edge which leaves from the old tail of `f`. -/
def ent (edge : List Edge) (e1 e2 f : Nat) : Nat := if f = e1 then edge.length else if f = e2 then edge.length + 2 else f

theorem ent_lt (h : BigonAdded cross edge e1 e2 o1 o2 cross' edge') {f : Nat} (hf : f < edge.length) : ent edge e1 e2 f < edge'.length := by
  rw [h.elen]
  unfold ent
  split
  · omega
  · split <;> omega

theorem ent_tl (h : BigonAdded cross edge e1 e2 o1 o2 cross' edge') {f : Nat} (hf : f < edge.length) :
    tl edge'[ent edge e1 e2 f]! = tl edge[f]! := by
  obtain ⟨k, l, s, x, kx, y, ky, T⟩ := h.table
  unfold ent
  split
  · rename_i q
    rw [q, T.a1t]
  · split
    · rename_i q
      rw [q, T.a2t]
    · rw [h.keep hf] <;> assumption

/-- The edge which arrives at the old head of `f`. -/
def ext (edge : List Edge) (e1 e2 f : Nat) : Nat := if f = e1 then edge.length + 1 else if f = e2 then edge.length + 3 else f

theorem ext_lt (h : BigonAdded cross edge e1 e2 o1 o2 cross' edge') {f : Nat} (hf : f < edge.length) : ext edge e1 e2 f < edge'.length := by
  rw [h.elen]
  unfold ext
  split
  · omega
  · split <;> omega

theorem ext_hd (h : BigonAdded cross edge e1 e2 o1 o2 cross' edge') {f : Nat} (hf : f < edge.length) :
    hd edge'[ext edge e1 e2 f]! = hd edge[f]! := by
  obtain ⟨k, l, s, x, kx, y, ky, T⟩ := h.table
  unfold ext
  split
  · rename_i q
    rw [q, T.b1h]
  · split
    · rename_i q
      rw [q, T.b2h]
    · rw [h.keep hf] <;> assumption

/-- The edges of the new diagram. -/
theorem cases (h : BigonAdded cross edge e1 e2 o1 o2 cross' edge') {e : Nat} (he : e < edge'.length) :
    (e < edge.length ∧ e ≠ e1 ∧ e ≠ e2) ∨ e = e1 ∨ e = e2 ∨ e = edge.length ∨ e = edge.length + 1 ∨ e = edge.length + 2 ∨
      e = edge.length + 3 := by
  have := h.elen
  omega

theorem oriented (h : BigonAdded cross edge e1 e2 o1 o2 cross' edge') (hC : Consistent cross edge) (hO : Oriented cross edge) :
    Oriented cross' edge' := by
  obtain ⟨k, l, s, x, kx, y, ky, T⟩ := h.table
  have h1 := T.h1
  have h2 := T.h2
  have hk := T.hk
  have hl := T.hl
  have hxy := T.xy
  have el := h.elen
  have some' : ∀ e, e < edge'.length → edge'[e]? = some edge'[e]! := fun e he => by simp [he]
  have some0 : ∀ e, e < edge.length → edge[e]? = some edge[e]! := fun e he => by simp [he]
  -- it is enough to name the next and the previous edge
  have thr : ∀ e, e < edge'.length → ∃ f, f < edge'.length ∧ tl edge'[f]! = turn 2 (hd edge'[e]!) := by
    have old : ∀ e : Nat, e < edge.length → ∀ e' : Nat, hd edge'[e']! = hd edge[e]! → ∃ f, f < edge'.length ∧ tl edge'[f]! = turn 2 (hd edge'[e']!) := by
      intro e he e' he'
      obtain ⟨f, r, q1, q2, q3⟩ := hO.through_head e _ (some0 e he)
      obtain ⟨q4, q5⟩ := getBang q1
      refine ⟨ent edge e1 e2 f, h.ent_lt q5, ?_⟩
      rw [h.ent_tl q5, he', q4]
      exact Prod.ext q2 q3
    intro e he
    rcases h.cases he with ⟨q1, q2, q3⟩ | rfl | rfl | rfl | rfl | rfl | rfl
    · exact old e q1 e (by rw [h.keep q1 q2 q3])
    · exact ⟨edge.length + 1, by omega, by rw [T.b1t, T.e1h]; rfl⟩
    · exact ⟨edge.length + 3, by omega, by rw [T.b2t, T.e2h]; unfold turn; simp only [Prod.mk.injEq, true_and]; omega⟩
    · exact ⟨e1, by omega, by rw [T.e1t, T.a1h]; rfl⟩
    · exact old e1 h1 _ T.b1h
    · exact ⟨e2, by omega, by rw [T.e2t, T.a2h]; unfold turn; simp only [Prod.mk.injEq, true_and]; omega⟩
    · exact old e2 h2 _ T.b2h
  have thr' : ∀ e, e < edge'.length → ∃ f, f < edge'.length ∧ hd edge'[f]! = turn 2 (tl edge'[e]!) := by
    have old : ∀ e : Nat, e < edge.length → ∀ e' : Nat, tl edge'[e']! = tl edge[e]! → ∃ f, f < edge'.length ∧ hd edge'[f]! = turn 2 (tl edge'[e']!) := by
      intro e he e' he'
      obtain ⟨f, r, q1, q2, q3⟩ := hO.through_tail e _ (some0 e he)
      obtain ⟨q4, q5⟩ := getBang q1
      refine ⟨ext edge e1 e2 f, h.ext_lt q5, ?_⟩
      rw [h.ext_hd q5, he', q4]
      exact Prod.ext q2 q3
    intro e he
    rcases h.cases he with ⟨q1, q2, q3⟩ | rfl | rfl | rfl | rfl | rfl | rfl
    · exact old e q1 e (by rw [h.keep q1 q2 q3])
    · exact ⟨edge.length, by omega, by rw [T.a1h, T.e1t]; unfold turn; simp only [Prod.mk.injEq, true_and]; omega⟩
    · exact ⟨edge.length + 2, by omega, by rw [T.a2h, T.e2t]; unfold turn; simp only [Prod.mk.injEq, true_and]; omega⟩
    · exact old e1 h1 _ T.a1t
    · exact ⟨e1, by omega, by rw [T.e1h, T.b1t]; unfold turn; simp only [Prod.mk.injEq, true_and]; omega⟩
    · exact old e2 h2 _ T.a2t
    · exact ⟨e2, by omega, by rw [T.e2h, T.b2t]; unfold turn; simp only [Prod.mk.injEq, true_and]; omega⟩
  constructor
  · intro e r hr
    obtain ⟨rfl, q1⟩ := getBang hr
    obtain ⟨f, f1, f2⟩ := thr e q1
    have := Prod.ext_iff.mp f2
    exact ⟨f, _, some' f f1, this.1, this.2⟩
  · intro e r hr
    obtain ⟨rfl, q1⟩ := getBang hr
    obtain ⟨f, f1, f2⟩ := thr' e q1
    have := Prod.ext_iff.mp f2
    exact ⟨f, _, some' f f1, this.1, this.2⟩

theorem connected (h : BigonAdded cross edge e1 e2 o1 o2 cross' edge') (hC : Consistent cross edge) (hK : Connected cross edge) :
    Connected cross' edge' := by
  obtain ⟨k, l, s, x, kx, y, ky, T⟩ := h.table
  have h1 := T.h1
  have h2 := T.h2
  have hxy := T.xy
  have el := h.elen
  have sy : ∀ {a b}, Relation.ReflTransGen (Joined edge') a b → Relation.ReflTransGen (Joined edge') b a := by
    intro a b hab
    induction hab with
    | refl => exact .refl
    | tail _ hj ih =>
      obtain ⟨r, hr, hj⟩ := hj
      exact (Relation.ReflTransGen.single ⟨r, hr, hj.symm⟩).trans ih
  have jn : ∀ e, e < edge'.length → Relation.ReflTransGen (Joined edge') (tl edge'[e]!).1 (hd edge'[e]!).1 := by
    intro e he
    refine .single ⟨edge'[e]!, ?_, .inr ⟨rfl, rfl⟩⟩
    rw [getElem!_pos edge' e he]
    exact List.getElem_mem he
  have p1 : Relation.ReflTransGen (Joined edge') (tl edge[e1]!).1 cross.length := by
    have := jn edge.length (by omega)
    rw [T.a1t, T.a1h] at this
    exact this
  have p2 : Relation.ReflTransGen (Joined edge') cross.length (cross.length + 1) := by
    have := jn e1 (by omega)
    rw [T.e1t, T.e1h] at this
    exact this
  have p3 : Relation.ReflTransGen (Joined edge') (cross.length + 1) (hd edge[e1]!).1 := by
    have := jn (edge.length + 1) (by omega)
    rw [T.b1t, T.b1h] at this
    exact this
  have p4 : Relation.ReflTransGen (Joined edge') (tl edge[e2]!).1 x := by
    have := jn (edge.length + 2) (by omega)
    rw [T.a2t, T.a2h] at this
    exact this
  have p5 : Relation.ReflTransGen (Joined edge') x y := by
    have := jn e2 (by omega)
    rw [T.e2t, T.e2h] at this
    exact this
  have p6 : Relation.ReflTransGen (Joined edge') y (hd edge[e2]!).1 := by
    have := jn (edge.length + 3) (by omega)
    rw [T.b2t, T.b2h] at this
    exact this
  have old : ∀ e, e < edge.length → Relation.ReflTransGen (Joined edge') (tl edge[e]!).1 (hd edge[e]!).1 := by
    intro e he
    by_cases q1 : e = e1
    · rw [q1]
      exact (p1.trans p2).trans p3
    · by_cases q2 : e = e2
      · rw [q2]
        exact (p4.trans p5).trans p6
      · rw [← h.keep he q1 q2]
        exact jn e (by omega)
  have steps : ∀ a b, Relation.ReflTransGen (Joined edge) a b → Relation.ReflTransGen (Joined edge') a b := by
    intro a b hab
    induction hab with
    | refl => exact .refl
    | tail _ hj ih =>
      obtain ⟨r, hr, hj⟩ := hj
      obtain ⟨e, he⟩ := List.mem_iff_getElem?.mp hr
      obtain ⟨rfl, hlt⟩ := getBang he
      have := old e hlt
      rcases hj with ⟨q1, q2⟩ | ⟨q1, q2⟩
      · rw [show (tl edge[e]!).1 = edge[e]!.tail from rfl, show (hd edge[e]!).1 = edge[e]!.head from rfl, q1, q2] at this
        exact ih.trans (sy this)
      · rw [show (tl edge[e]!).1 = edge[e]!.tail from rfl, show (hd edge[e]!).1 = edge[e]!.head from rfl, q1, q2] at this
        exact ih.trans this
  have hb := (mem_P.mp (tl_mem hC h1).1).1
  have base : ∀ a, a < cross'.length → Relation.ReflTransGen (Joined edge') (tl edge[e1]!).1 a := by
    intro a ha
    rw [h.len] at ha
    rcases Nat.lt_or_ge a cross.length with q | q
    · exact steps _ _ (hK _ _ hb q)
    · have : a = cross.length ∨ a = cross.length + 1 := by omega
      rcases this with rfl | rfl
      · exact p1
      · exact p1.trans p2
  intro a b ha hb
  exact (sy (base a ha)).trans (base b hb)

theorem ends (h : BigonAdded cross edge e1 e2 o1 o2 cross' edge') (hC : Consistent cross edge) (hne : e1 ≠ e2)
    (ho1 : o1 ≠ .unset) (ho2 : o2 ≠ .unset) : ∃ R L k l, Ends cross edge cross' edge' (begp edge (e1, o1)) (endp edge (e1, o1))
      (begp edge (e2, o2)) (endp edge (e2, o2)) R L k l := by
  obtain ⟨k, l, s, x, kx, y, ky, T⟩ := h.table
  have hC' := h.consistent
  have h1 := T.h1
  have h2 := T.h2
  have hk := T.hk
  have hl := T.hl
  have hs := T.hs
  have el := h.elen
  have eo : ∀ e o, e < edge.length → o ≠ .unset → oth cross edge (begp edge (e, o)) = endp edge (e, o) := by
    intro e o he ho
    unfold begp endp
    cases o
    · exact oth_tl hC he
    · exact oth_hd hC he
    · exact absurd rfl ho
  have eb : ∀ e o, e < edge.length → begp edge (e, o) ∈ P cross ∧ eslot cross (begp edge (e, o)) = e := by
    intro e o he
    unfold begp
    split
    · exact tl_mem hC he
    · exact hd_mem hC he
  have ee : ∀ e o, e < edge.length → endp edge (e, o) ∈ P cross ∧ eslot cross (endp edge (e, o)) = e := by
    intro e o he
    unfold endp
    split
    · exact hd_mem hC he
    · exact tl_mem hC he
  have both : ∀ e o p, e < edge.length → o ≠ .unset → p ∈ P cross → eslot cross p = e → p = begp edge (e, o) ∨ p = endp edge (e, o) := by
    intro e o p he ho hp hpe
    have := same_edge hC (eb e o he).1 hp (by rw [(eb e o he).2, hpe])
    rw [eo e o he ho] at this
    exact this
  -- the new other ends
  have a1 := oth_hd hC' (e := edge.length) (by omega)
  have a2 := oth_tl hC' (e := edge.length) (by omega)
  have a3 := oth_hd hC' (e := e1) (by omega)
  have a4 := oth_tl hC' (e := e1) (by omega)
  have a5 := oth_hd hC' (e := edge.length + 1) (by omega)
  have a6 := oth_tl hC' (e := edge.length + 1) (by omega)
  have b1 := oth_hd hC' (e := edge.length + 2) (by omega)
  have b2 := oth_tl hC' (e := edge.length + 2) (by omega)
  have b3 := oth_hd hC' (e := e2) (by omega)
  have b4 := oth_tl hC' (e := e2) (by omega)
  have b5 := oth_hd hC' (e := edge.length + 3) (by omega)
  have b6 := oth_tl hC' (e := edge.length + 3) (by omega)
  rw [T.a1h, T.a1t] at a1 a2
  rw [T.e1h, T.e1t] at a3 a4
  rw [T.b1h, T.b1t] at a5 a6
  rw [T.a2h, T.a2t] at b1 b2
  rw [T.e2h, T.e2t] at b3 b4
  rw [T.b2h, T.b2t] at b5 b6
  have mk : ∀ R L k l, cross.length ≤ R → cross.length ≤ L → (∀ c, cross.length ≤ c → c < cross.length + 2 → c = R ∨ c = L) → R ≠ L →
      oth cross' edge' (begp edge (e1, o1)) = (R, k % 4) → oth cross' edge' (R, (k + 1) % 4) = (L, (l + 3) % 4) →
      oth cross' edge' (R, (k + 2) % 4) = (L, (l + 2) % 4) → oth cross' edge' (endp edge (e2, o2)) = (R, (k + 3) % 4) →
      oth cross' edge' (endp edge (e1, o1)) = (L, l % 4) → oth cross' edge' (begp edge (e2, o2)) = (L, (l + 1) % 4) →
      Ends cross edge cross' edge' (begp edge (e1, o1)) (endp edge (e1, o1)) (begp edge (e2, o2)) (endp edge (e2, o2)) R L k l := by
    intro R L k l q1 q2 q3 q4 q5 q6 q7 q8 q9 q10
    refine ⟨hC, hC', h.len, (eb e1 o1 h1).1, (eb e2 o2 h2).1, eo e1 o1 h1 ho1, eo e2 o2 h2 ho2, ?_, ?_, q1, q2, q3, q4, ?_, q5, q6, q7,
      q8, q9, q10⟩
    · intro q
      apply hne
      rw [← (eb e1 o1 h1).2, q, (eb e2 o2 h2).2]
    · intro q
      apply hne
      rw [← (eb e1 o1 h1).2, q, (ee e2 o2 h2).2]
    · intro p hp n1 n2 n3 n4
      have hlt := eslot_lt hC hp
      have m1 : eslot cross p ≠ e1 := by
        intro q
        rcases both e1 o1 p h1 ho1 hp q with q | q
        · exact n1 q
        · exact n2 q
      have m2 : eslot cross p ≠ e2 := by
        intro q
        rcases both e2 o2 p h2 ho2 hp q with q | q
        · exact n3 q
        · exact n4 q
      have hkp := h.keep hlt m1 m2
      rcases ends_at hC hp with q | q
      · rw [← q, oth_hd hC hlt, ← hkp, oth_hd hC' (by omega)]
      · rw [← q, oth_tl hC hlt, ← hkp, oth_tl hC' (by omega)]
  have hxy := T.xy
  cases o1
  · simp only [if_true] at hs
    subst hs
    refine ⟨cross.length, cross.length + 1, k, l + 2, mk _ _ _ _ (by omega) (by omega) (by omega) (by omega) ?_ ?_ ?_ ?_ ?_ ?_⟩
    · exact a2.trans (by simp only [Prod.mk.injEq, true_and]; omega)
    · cases o2
      · obtain ⟨-, rfl, rfl, rfl, rfl⟩ : True ∧ x = cross.length + 1 ∧ kx = l ∧ y = cross.length ∧ ky = k := by simpa using hxy
        convert b3 using 2; omega
      · obtain ⟨-, rfl, rfl, rfl, rfl⟩ : True ∧ x = cross.length ∧ kx = k ∧ y = cross.length + 1 ∧ ky = l := by simpa using hxy
        convert b4 using 2; omega
      · exact absurd rfl ho2
    · convert a4 using 2; omega
    · cases o2
      · obtain ⟨-, rfl, rfl, rfl, rfl⟩ : True ∧ x = cross.length + 1 ∧ kx = l ∧ y = cross.length ∧ ky = k := by simpa using hxy
        exact b5
      · obtain ⟨-, rfl, rfl, rfl, rfl⟩ : True ∧ x = cross.length ∧ kx = k ∧ y = cross.length + 1 ∧ ky = l := by simpa using hxy
        exact b2
      · exact absurd rfl ho2
    · exact a5
    · cases o2
      · obtain ⟨-, rfl, rfl, rfl, rfl⟩ : True ∧ x = cross.length + 1 ∧ kx = l ∧ y = cross.length ∧ ky = k := by simpa using hxy
        exact b2
      · obtain ⟨-, rfl, rfl, rfl, rfl⟩ : True ∧ x = cross.length ∧ kx = k ∧ y = cross.length + 1 ∧ ky = l := by simpa using hxy
        exact b5
      · exact absurd rfl ho2
  · rw [if_neg (by decide)] at hs
    subst hs
    refine ⟨cross.length + 1, cross.length, l + 2, k, mk _ _ _ _ (by omega) (by omega) (by omega) (by omega) ?_ ?_ ?_ ?_ ?_ ?_⟩
    · exact a5
    · cases o2
      · obtain ⟨-, rfl, rfl, rfl, rfl⟩ : True ∧ x = cross.length ∧ kx = k ∧ y = cross.length + 1 ∧ ky = l := by simpa using hxy
        exact b3
      · obtain ⟨-, rfl, rfl, rfl, rfl⟩ : True ∧ x = cross.length + 1 ∧ kx = l ∧ y = cross.length ∧ ky = k := by simpa using hxy
        exact b4
      · exact absurd rfl ho2
    · convert a3 using 2; congr 1; omega
    · cases o2
      · obtain ⟨-, rfl, rfl, rfl, rfl⟩ : True ∧ x = cross.length ∧ kx = k ∧ y = cross.length + 1 ∧ ky = l := by simpa using hxy
        exact b5.trans (by simp only [Prod.mk.injEq, true_and])
      · obtain ⟨-, rfl, rfl, rfl, rfl⟩ : True ∧ x = cross.length + 1 ∧ kx = l ∧ y = cross.length ∧ ky = k := by simpa using hxy
        exact b2.trans (by simp only [Prod.mk.injEq, true_and])
      · exact absurd rfl ho2
    · exact a2.trans (by simp only [Prod.mk.injEq, true_and]; omega)
    · cases o2
      · obtain ⟨-, rfl, rfl, rfl, rfl⟩ : True ∧ x = cross.length ∧ kx = k ∧ y = cross.length + 1 ∧ ky = l := by simpa using hxy
        exact b2.trans (by simp only [Prod.mk.injEq, true_and]; omega)
      · obtain ⟨-, rfl, rfl, rfl, rfl⟩ : True ∧ x = cross.length + 1 ∧ kx = l ∧ y = cross.length ∧ ky = k := by simpa using hxy
        exact b5.trans (by simp only [Prod.mk.injEq, true_and]; omega)
      · exact absurd rfl ho2
  · exact absurd rfl ho1

theorem plane (h : BigonAdded cross edge e1 e2 o1 o2 cross' edge') (hP : PlaneDiagram cross edge) (hne : e1 ≠ e2)
    (ho1 : o1 ≠ .unset) (ho2 : o2 ≠ .unset) (hf : (e2, o2) ∈ cyc (nd cross edge) (e1, o1)) : PlaneDiagram cross' edge' := by
  have hC := hP.consistent
  obtain ⟨k, l, s, x, kx, y, ky, T⟩ := h.table
  obtain ⟨R, L, k, l, E⟩ := h.ends hC hne ho1 ho2
  have d1 : (e1, o1) ∈ D edge := mem_D.mpr ⟨T.h1, by cases o1 <;> simp_all⟩
  have d2 : (e2, o2) ∈ D edge := mem_D.mpr ⟨T.h2, by cases o2 <;> simp_all⟩
  rw [← (return_begp hC).cyc_iff (injOn_nd hC) (injOn_fnext hC) d1 d2] at hf
  refine ⟨h.consistent, h.oriented hC hP.oriented, ?_, h.connected hC hP.connected, E.faces hf hP.plane⟩
  intro q
  have := h.len
  rw [q] at this
  simp at this

/-- Strands are neither split nor joined. -/
theorem strands (h : BigonAdded cross edge e1 e2 o1 o2 cross' edge') (hC : Consistent cross edge) (hO : Oriented cross edge)
    (hne : e1 ≠ e2) {A : List Nat} (hA : Reps (nx cross edge) (Finset.range edge.length) A) :
    Reps (nx cross' edge') (Finset.range edge'.length) A := by
  obtain ⟨k, l, s, x, kx, y, ky, T⟩ := h.table
  have hC' := h.consistent
  have hO' := h.oriented hC hO
  have hI := injOn_nx hC hO
  have hI' := injOn_nx hC' hO'
  have h1 := T.h1
  have h2 := T.h2
  have el := h.elen
  have uniq : ∀ e f : Nat, f < edge'.length → tl edge'[f]! = turn 2 (hd edge'[e]!) → nx cross' edge' e = f := by
    intro e f hf q
    unfold nx
    rw [← q]
    exact (tl_mem hC' hf).2
  have hk := T.hk
  have hl := T.hl
  have hxy := T.xy
  have n1 : nx cross' edge' edge.length = e1 := uniq _ _ (by omega) (by rw [T.e1t, T.a1h]; rfl)
  have n2 : nx cross' edge' e1 = edge.length + 1 := uniq _ _ (by omega) (by rw [T.b1t, T.e1h]; rfl)
  have n3 : nx cross' edge' (edge.length + 2) = e2 := uniq _ _ (by omega) (by
    rw [T.e2t, T.a2h]; unfold turn; simp only [Prod.mk.injEq, true_and]; omega)
  have n4 : nx cross' edge' e2 = edge.length + 3 := uniq _ _ (by omega) (by
    rw [T.b2t, T.e2h]; unfold turn; simp only [Prod.mk.injEq, true_and]; omega)
  have out : ∀ e, e < edge.length → nx cross' edge' (ext edge e1 e2 e) = ent edge e1 e2 (nx cross edge e) := by
    intro e he
    obtain ⟨q1, q2⟩ := nx_spec hC hO he
    exact uniq _ _ (h.ent_lt q1) (by rw [h.ent_tl q1, h.ext_hd he, q2])
  have inn : ∀ f, f < edge.length → ent edge e1 e2 f = f ∨ (edge.length ≤ ent edge e1 e2 f ∧ nx cross' edge' (ent edge e1 e2 f) = f) := by
    intro f hf
    unfold ent
    split
    · rename_i q
      exact .inr ⟨Nat.le_refl _, by rw [n1, q]⟩
    · split
      · rename_i q
        exact .inr ⟨by omega, by rw [n3, q]⟩
      · exact .inl rfl
  have exx : ∀ f, f < edge.length → ext edge e1 e2 f = f ∨ (edge.length ≤ ext edge e1 e2 f ∧ nx cross' edge' f = ext edge e1 e2 f) := by
    intro f hf
    unfold ext
    split
    · rename_i q
      exact .inr ⟨by omega, by rw [q, n2]⟩
    · split
      · rename_i q
        exact .inr ⟨by omega, by rw [q, n4]⟩
      · exact .inl rfl
  have hR : Return (nx cross edge) (Finset.range edge.length) (nx cross' edge') (Finset.range edge'.length) id := by
    refine ⟨fun e he => ?_, fun _ _ _ _ q => q, ?_⟩
    · rw [Finset.mem_range] at *
      simp only [id]
      omega
    · intro e he
      rw [Finset.mem_range] at he
      have hn := (nx_spec hC hO he).1
      have o := out e he
      have no : ∀ a, edge.length ≤ a → ∀ b ∈ Finset.range edge.length, a ≠ id b := by
        intro a ha b hb
        rw [Finset.mem_range] at hb
        simp only [id]
        omega
      rcases exx e he with q1 | ⟨q1, q2⟩ <;> rcases inn _ hn with q3 | ⟨q3, q4⟩
      · refine ⟨0, ?_, by omega⟩
        rw [q1, q3] at o
        exact o
      · refine ⟨1, ?_, ?_⟩
        · rw [q1] at o
          simp only [Function.iterate_succ_apply, Function.iterate_zero, id, o, q4]
        · intro i i1 i2
          obtain rfl : i = 1 := by omega
          rw [q1] at o
          simp only [Function.iterate_succ_apply, Function.iterate_zero, id, o]
          exact no _ q3
      · refine ⟨1, ?_, ?_⟩
        · simp only [Function.iterate_succ_apply, Function.iterate_zero, id, q2, o, q3]
        · intro i i1 i2
          obtain rfl : i = 1 := by omega
          simp only [Function.iterate_succ_apply, Function.iterate_zero, id, q2]
          exact no _ q1
      · refine ⟨2, ?_, ?_⟩
        · simp only [Function.iterate_succ_apply, Function.iterate_zero, id, q2, o, q4]
        · intro i i1 i2
          obtain rfl | rfl : i = 1 ∨ i = 2 := by omega
          · simp only [Function.iterate_succ_apply, Function.iterate_zero, id, q2]
            exact no _ q1
          · simp only [Function.iterate_succ_apply, Function.iterate_zero, id, q2, o]
            exact no _ q3
  have key := hR.reps hI hI' hA (X := []) (by simp) (by simp) (by simp) (by
    intro t ht
    left
    have rm : ∀ {e : Nat}, e < edge'.length → e ∈ Finset.range edge'.length := fun he => Finset.mem_range.mpr he
    have ht' := Finset.mem_range.mp ht
    rcases Nat.lt_or_ge t edge.length with q | q
    · exact ⟨t, Finset.mem_range.mpr q, hI'.self_mem_cyc ht⟩
    · have : t = edge.length ∨ t = edge.length + 1 ∨ t = edge.length + 2 ∨ t = edge.length + 3 := by omega
      rcases this with rfl | rfl | rfl | rfl
      · exact ⟨e1, Finset.mem_range.mpr h1, (hI'.mem_cyc (rm (by simp only [id]; omega))).mpr (hI'.reach_symm ht ⟨1, n1⟩)⟩
      · exact ⟨e1, Finset.mem_range.mpr h1, (hI'.mem_cyc (rm (by simp only [id]; omega))).mpr ⟨1, n2⟩⟩
      · exact ⟨e2, Finset.mem_range.mpr h2, (hI'.mem_cyc (rm (by simp only [id]; omega))).mpr (hI'.reach_symm ht ⟨1, n3⟩)⟩
      · exact ⟨e2, Finset.mem_range.mpr h2, (hI'.mem_cyc (rm (by simp only [id]; omega))).mpr ⟨1, n4⟩⟩)
  simpa using key

end BigonAdded

end Plc
