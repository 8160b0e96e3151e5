import Verif.Spec.ConnectSum
import Verif.Proofs.CycleMerge
import Verif.Proofs.LoopPlane

/-! Exchanging the heads of two edges. -/

namespace Plc.HeadsSwapped

open Plc.Core Plc.Cmp Plc.Places Plc.Orbit Plc.Faces Plc.Planar

variable {cross cross' : List Cross} {edge edge' : List Edge} {i j : Nat}

/-- `i` and `j` exchanged. -/
def sw (i j e : Nat) : Nat := if e = i then j else if e = j then i else e

theorem sw_sw (i j e : Nat) : sw i j (sw i j e) = e := by
  unfold sw
  split_ifs <;> omega

theorem sw_lt {n e : Nat} (hi : i < n) (hj : j < n) (he : e < n) : sw i j e < n := by
  unfold sw
  split_ifs <;> omega

theorem hdtl (h : HeadsSwapped cross edge i j cross' edge') {e : Nat} (he : e < edge.length) :
    hd edge'[e]! = hd edge[sw i j e]! ∧ tl edge'[e]! = tl edge[e]! := by
  obtain ⟨r, h1, h2⟩ := h.ends e edge[e]! (by simp [he])
  rw [(getBang h2).1]
  refine ⟨?_, rfl⟩
  unfold sw
  rw [(getBang h1).1]
  rfl

theorem eslots (h : HeadsSwapped cross edge i j cross' edge') {p : Nat × Nat} (hp : p ∈ P cross) :
    eslot cross' p = if p = hd edge[i]! then j else if p = hd edge[j]! then i else eslot cross p := by
  obtain ⟨c, k⟩ := p
  rw [mem_P] at hp
  obtain ⟨x', h1, -, h3⟩ := h.slots c cross[c] (List.getElem?_eq_getElem hp.1)
  obtain ⟨ri, rj, q1, q2, q3⟩ := h3 k hp.2
  rw [(getBang q1).1, (getBang q2).1]
  have e1 : eslot cross' (c, k) = x'.at k := by
    apply eslot_of_slot
    unfold slot
    rw [if_pos hp.2, h1]
    rfl
  have e2 : eslot cross (c, k) = cross[c].at k := by
    apply eslot_of_slot
    unfold slot
    rw [if_pos hp.2, List.getElem?_eq_getElem hp.1]
    rfl
  rw [e1, e2]
  exact q3

theorem hd_inj (hC : Consistent cross edge) {e f : Nat} (he : e < edge.length) (hf : f < edge.length)
    (h : hd edge[e]! = hd edge[f]!) : e = f := by
  rw [← (hd_mem hC he).2, h, (hd_mem hC hf).2]

theorem tl_inj (hC : Consistent cross edge) {e f : Nat} (he : e < edge.length) (hf : f < edge.length)
    (h : tl edge[e]! = tl edge[f]!) : e = f := by
  rw [← (tl_mem hC he).2, h, (tl_mem hC hf).2]

theorem hd_tl (hC : Consistent cross edge) {e f : Nat} (he : e < edge.length) (hf : f < edge.length) :
    hd edge[e]! ≠ tl edge[f]! := by
  intro h
  have : e = f := by rw [← (hd_mem hC he).2, h, (tl_mem hC hf).2]
  subst this
  exact hd_ne_tl hC he h

theorem sameP (h : HeadsSwapped cross edge i j cross' edge') : P cross' = P cross := by
  unfold P
  rw [h.len]

theorem slotOf {p : Nat × Nat} (hp : p ∈ P cross) {e : Nat} (h : eslot cross p = e) : slot cross p.1 p.2 = some e := by
  rw [slot_eslot hp, h]

theorem consistent (h : HeadsSwapped cross edge i j cross' edge') (hC : Consistent cross edge) (hi : i < edge.length)
    (hj : j < edge.length) : Consistent cross' edge' where
  count := by rw [h.elen, h.len, hC.count]
  head := by
    intro e r hr
    obtain ⟨b, hlt⟩ := getBang hr
    rw [h.elen] at hlt
    have he := (hdtl h hlt).1
    rw [b] at he
    have hm := hd_mem hC (sw_lt hi hj hlt)
    rw [← he] at hm
    refine slotOf (p := hd r) (by rw [sameP h]; exact hm.1) ?_
    rw [eslots h hm.1, he]
    unfold sw
    by_cases h1 : e = i
    · subst h1
      simp only [if_true]
      by_cases h2 : j = e
      · subst h2; simp
      · rw [if_neg (fun q => h2 (hd_inj hC hj hi q))]
    · by_cases h2 : e = j
      · subst h2
        simp [h1]
      · simp only [h1, h2, if_false]
        rw [if_neg (fun q => h1 (hd_inj hC hlt hi q)), if_neg (fun q => h2 (hd_inj hC hlt hj q)), (hd_mem hC hlt).2]
  tail := by
    intro e r hr
    obtain ⟨b, hlt⟩ := getBang hr
    rw [h.elen] at hlt
    have he := (hdtl h hlt).2
    rw [b] at he
    have hm := tl_mem hC hlt
    rw [← he] at hm
    refine slotOf (p := tl r) (by rw [sameP h]; exact hm.1) ?_
    rw [eslots h hm.1, if_neg, if_neg]
    · exact hm.2
    · rw [he]; exact (hd_tl hC hj hlt).symm
    · rw [he]; exact (hd_tl hC hi hlt).symm
  ends_ne := by
    intro e r hr
    obtain ⟨b, hlt⟩ := getBang hr
    rw [h.elen] at hlt
    have he := hdtl h hlt
    rw [b] at he
    change hd r ≠ tl r
    rw [he.1, he.2]
    exact hd_tl hC (sw_lt hi hj hlt) hlt

theorem oriented (h : HeadsSwapped cross edge i j cross' edge') (hO : Oriented cross edge) (hi : i < edge.length)
    (hj : j < edge.length) : Oriented cross' edge' where
  through_head := by
    intro e r hr
    obtain ⟨b, hlt⟩ := getBang hr
    rw [h.elen] at hlt
    have he := (hdtl h hlt).1
    rw [b] at he
    obtain ⟨e', r', h1, h2, h3⟩ := hO.through_head (sw i j e) edge[sw i j e]! (by simp [sw_lt hi hj hlt])
    obtain ⟨b', hlt'⟩ := getBang h1
    have he' := (hdtl h hlt').2
    refine ⟨e', edge'[e']!, by simp [h.elen, hlt'], ?_⟩
    unfold hd at he
    unfold tl at he'
    rw [b'] at he'
    simp only [Prod.mk.injEq] at he he'
    rw [he'.1, he'.2, he.1, he.2]
    exact ⟨h2, h3⟩
  through_tail := by
    intro e r hr
    obtain ⟨b, hlt⟩ := getBang hr
    rw [h.elen] at hlt
    have he := (hdtl h hlt).2
    rw [b] at he
    obtain ⟨e', r', h1, h2, h3⟩ := hO.through_tail e edge[e]! (by simp [hlt])
    obtain ⟨b', hlt'⟩ := getBang h1
    have hs := sw_lt hi hj hlt'
    have he' := (hdtl h hs).1
    rw [sw_sw] at he'
    refine ⟨sw i j e', edge'[sw i j e']!, by simp [h.elen, hs], ?_⟩
    unfold tl at he
    unfold hd at he'
    rw [b'] at he'
    simp only [Prod.mk.injEq] at he he'
    rw [he'.1, he'.2, he.1, he.2]
    exact ⟨h2, h3⟩

theorem oths (h : HeadsSwapped cross edge i j cross' edge') (hC : Consistent cross edge) (hi : i < edge.length)
    (hj : j < edge.length) {e : Nat} (he : e < edge.length) :
    oth cross' edge' (tl edge[e]!) = hd edge[sw i j e]! ∧ oth cross' edge' (hd edge[e]!) = tl edge[sw i j e]! := by
  have hC' := h.consistent hC hi hj
  have e1 := hdtl h he
  have hs := sw_lt hi hj he
  have e2 := hdtl h hs
  rw [sw_sw] at e2
  constructor
  · rw [← e1.2, oth_tl hC' (by rw [h.elen]; exact he), e1.1]
  · rw [← e2.1, oth_hd hC' (by rw [h.elen]; exact hs), e2.2]

/-- Corners of faces: the values at the two tails, and at the two heads, are exchanged. -/
theorem fnext_eq (h : HeadsSwapped cross edge i j cross' edge') (hC : Consistent cross edge) (hi : i < edge.length)
    (hj : j < edge.length) {p : Nat × Nat} (hp : p ∈ P cross) :
    fnext cross' edge' p = fnext cross edge
      (Equiv.swap (tl edge[i]!) (tl edge[j]!) (Equiv.swap (hd edge[i]!) (hd edge[j]!) p)) := by
  have hlt := eslot_lt hC hp
  have key : ∀ {e : Nat}, e < edge.length →
      Equiv.swap (tl edge[i]!) (tl edge[j]!) (Equiv.swap (hd edge[i]!) (hd edge[j]!) (tl edge[e]!)) = tl edge[sw i j e]! ∧
      Equiv.swap (tl edge[i]!) (tl edge[j]!) (Equiv.swap (hd edge[i]!) (hd edge[j]!) (hd edge[e]!)) = hd edge[sw i j e]! := by
    intro e he
    constructor
    · rw [Equiv.swap_apply_of_ne_of_ne (hd_tl hC hi he).symm (hd_tl hC hj he).symm]
      unfold sw
      by_cases h1 : e = i
      · subst h1; simp
      · by_cases h2 : e = j
        · subst h2; simp [h1]
        · rw [if_neg h1, if_neg h2, Equiv.swap_apply_of_ne_of_ne]
          · exact fun q => h1 (tl_inj hC he hi q)
          · exact fun q => h2 (tl_inj hC he hj q)
    · have q : Equiv.swap (hd edge[i]!) (hd edge[j]!) (hd edge[e]!) = hd edge[sw i j e]! := by
        unfold sw
        by_cases h1 : e = i
        · subst h1; simp
        · by_cases h2 : e = j
          · subst h2; simp [h1]
          · rw [if_neg h1, if_neg h2, Equiv.swap_apply_of_ne_of_ne]
            · exact fun q => h1 (hd_inj hC he hi q)
            · exact fun q => h2 (hd_inj hC he hj q)
      rw [q, Equiv.swap_apply_of_ne_of_ne (hd_tl hC (sw_lt hi hj he) hi) (hd_tl hC (sw_lt hi hj he) hj)]
  have o := oths h hC hi hj hlt
  have k := key hlt
  have hs := sw_lt hi hj hlt
  unfold fnext
  rcases ends_at hC hp with e | e <;> rw [e] at o k
  · rw [o.2, k.2, oth_hd hC hs]
  · rw [o.1, k.1, oth_tl hC hs]

theorem injOn_swap {α : Type} [DecidableEq α] {f : α → α} {S : Finset α} (hf : InjOn f S) {x y : α} (hx : x ∈ S) (hy : y ∈ S) :
    InjOn (fun p => f (Equiv.swap x y p)) S where
  maps := fun p hp => hf.maps _ (by rw [Equiv.swap_apply_def]; split_ifs <;> assumption)
  inj := by
    intro p hp q hq he
    have := hf.inj _ (by rw [Equiv.swap_apply_def]; split_ifs <;> assumption) _
      (by rw [Equiv.swap_apply_def]; split_ifs <;> assumption) he
    exact (Equiv.swap x y).injective this

theorem exchanged_swap {α : Type} [DecidableEq α] {f g : α → α} {S : Finset α} (hf : InjOn f S) (hg : InjOn g S) {x y : α}
    (hx : x ∈ S) (hy : y ∈ S) (h : ∀ p ∈ S, g p = f (Equiv.swap x y p)) : Exchanged f g S x y where
  hf := hf
  hg := hg
  hx := hx
  hy := hy
  gx := by rw [h x hx, Equiv.swap_apply_left]
  gy := by rw [h y hy, Equiv.swap_apply_right]
  other := fun z hz h1 h2 => by rw [h z hz, Equiv.swap_apply_of_ne_of_ne h1 h2]

/-- Two edges on four different faces: the faces on their left become one, and so do those on their right. -/
theorem faces_merge (h : HeadsSwapped cross edge i j cross' edge') (hC : Consistent cross edge) (hi : i < edge.length)
    (hj : j < edge.length) (h1 : tl edge[j]! ∉ cyc (fnext cross edge) (tl edge[i]!))
    (h2 : hd edge[j]! ∉ cyc (fnext cross edge) (hd edge[i]!))
    (h3 : hd edge[i]! ∉ cyc (fnext cross edge) (tl edge[i]!)) (h4 : hd edge[i]! ∉ cyc (fnext cross edge) (tl edge[j]!))
    {reps : List (Nat × Nat)} (hR : Reps (fnext cross edge) (P cross) reps) :
    ∃ reps', Reps (fnext cross' edge') (P cross') reps' ∧ reps'.length + 2 = reps.length := by
  have hI := injOn_fnext hC
  have ti := (tl_mem hC hi).1
  have tj := (tl_mem hC hj).1
  have di := (hd_mem hC hi).1
  have dj := (hd_mem hC hj).1
  have hg := injOn_swap hI ti tj
  have x1 := exchanged_swap hI hg ti tj (fun _ _ => rfl)
  have hI' := injOn_fnext (h.consistent hC hi hj)
  rw [sameP h] at hI' ⊢
  have x2 := exchanged_swap hg hI' di dj (fun p hp => fnext_eq h hC hi hj hp)
  obtain ⟨r1, a1, a2⟩ := x1.reps h1 hR
  obtain ⟨r2, b1, b2⟩ := x2.reps (by
    rw [hI.mem_cyc ti] at h1 h3
    rw [hI.mem_cyc tj] at h4
    rw [hI.mem_cyc di] at h2
    rw [hg.mem_cyc di, x1.reach_iff h1 di]
    rintro (q | ⟨q | q, -⟩)
    · exact h2 q
    · exact h3 q
    · exact h4 q) a1
  exact ⟨r2, b1, by omega⟩

end Plc.HeadsSwapped
