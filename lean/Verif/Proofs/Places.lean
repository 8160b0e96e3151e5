import Verif.Proofs.Diagram
import Verif.Proofs.Orbit
import Mathlib.Data.Finset.Prod

/-! Places of a diagram: pairs (crossing, position). -/

namespace Plc.Places

open Plc.Orbit

/-- All places. -/
def P (cross : List Cross) : Finset (Nat × Nat) := Finset.range cross.length ×ˢ Finset.range 4

theorem mem_P {cross : List Cross} {p : Nat × Nat} : p ∈ P cross ↔ p.1 < cross.length ∧ p.2 < 4 := by
  simp [P]

/-- The place `d` steps further around the crossing. -/
def turn (d : Nat) (p : Nat × Nat) : Nat × Nat := (p.1, (p.2 + d) % 4)

theorem turn_mem {cross : List Cross} {p : Nat × Nat} (d : Nat) (h : p ∈ P cross) :
    turn d p ∈ P cross := by
  rw [mem_P] at *
  exact ⟨h.1, Nat.mod_lt _ (by decide)⟩

theorem turn_turn {cross : List Cross} {p : Nat × Nat} (h : p ∈ P cross) (d e : Nat)
    (hde : (d + e) % 4 = 0) : turn d (turn e p) = p := by
  rw [mem_P] at h
  unfold turn
  simp only
  ext
  · rfl
  · simp only; omega

theorem turn_ne {cross : List Cross} {p : Nat × Nat} (_h : p ∈ P cross) (d : Nat)
    (hd : d % 4 ≠ 0) : turn d p ≠ p := by
  intro e
  have := congrArg Prod.snd e
  simp only [turn] at this
  omega

/-- The edge number written at a place. -/
def eslot (cross : List Cross) (p : Nat × Nat) : Nat := (slot cross p.1 p.2).getD 0

theorem slot_eslot {cross : List Cross} {p : Nat × Nat} (h : p ∈ P cross) :
    slot cross p.1 p.2 = some (eslot cross p) := by
  rw [mem_P] at h
  rw [eslot, slot_of_lt h.1 h.2]
  rfl

theorem eslot_of_slot {cross : List Cross} {p : Nat × Nat} {e : Nat}
    (h : slot cross p.1 p.2 = some e) : eslot cross p = e := by rw [eslot, h]; rfl

/-- Head and tail of an edge record. -/
def hd (r : Edge) : Nat × Nat := (r.head, r.headpos)
def tl (r : Edge) : Nat × Nat := (r.tail, r.tailpos)

/-- The other end of the edge at a place. -/
def oth (cross : List Cross) (edge : List Edge) (p : Nat × Nat) : Nat × Nat :=
  if hd edge[eslot cross p]! = p then tl edge[eslot cross p]! else hd edge[eslot cross p]!

section

variable {cross : List Cross} {edge : List Edge} (hC : Consistent cross edge)

include hC

theorem eslot_lt {p : Nat × Nat} (h : p ∈ P cross) : eslot cross p < edge.length :=
  hC.slot_edge_lt (slot_eslot h)

theorem ends_at {p : Nat × Nat} (h : p ∈ P cross) :
    hd edge[eslot cross p]! = p ∨ tl edge[eslot cross p]! = p := by
  obtain ⟨r, hr, h1⟩ := hC.slots (slot_eslot h)
  obtain ⟨hlt, e⟩ := List.getElem?_eq_some_iff.mp hr
  have : edge[eslot cross p]! = r := by simp [hlt, e]
  rw [this]
  rcases h1 with ⟨a, b⟩ | ⟨a, b⟩
  · left; unfold hd; rw [a, b]
  · right; unfold tl; rw [a, b]

theorem hd_mem {e : Nat} (h : e < edge.length) : hd edge[e]! ∈ P cross ∧ eslot cross (hd edge[e]!) = e := by
  have hr : edge[e]? = some edge[e]! := by simp [h]
  have := hC.head e _ hr
  exact ⟨mem_P.mpr (slot_lt this), eslot_of_slot this⟩

theorem tl_mem {e : Nat} (h : e < edge.length) : tl edge[e]! ∈ P cross ∧ eslot cross (tl edge[e]!) = e := by
  have hr : edge[e]? = some edge[e]! := by simp [h]
  have := hC.tail e _ hr
  exact ⟨mem_P.mpr (slot_lt this), eslot_of_slot this⟩

theorem hd_ne_tl {e : Nat} (h : e < edge.length) : hd edge[e]! ≠ tl edge[e]! := by
  have hr : edge[e]? = some edge[e]! := by simp [h]
  exact hC.ends_ne e _ hr

theorem oth_hd {e : Nat} (h : e < edge.length) : oth cross edge (hd edge[e]!) = tl edge[e]! := by
  unfold oth
  rw [(hd_mem hC h).2, if_pos rfl]

theorem oth_tl {e : Nat} (h : e < edge.length) : oth cross edge (tl edge[e]!) = hd edge[e]! := by
  unfold oth
  rw [(tl_mem hC h).2, if_neg (hd_ne_tl hC h)]

theorem oth_mem {p : Nat × Nat} (h : p ∈ P cross) : oth cross edge p ∈ P cross := by
  have := eslot_lt hC h
  unfold oth
  split
  · exact (tl_mem hC this).1
  · exact (hd_mem hC this).1

theorem eslot_oth {p : Nat × Nat} (h : p ∈ P cross) : eslot cross (oth cross edge p) = eslot cross p := by
  have := eslot_lt hC h
  unfold oth
  split
  · exact (tl_mem hC this).2
  · exact (hd_mem hC this).2

theorem oth_ne {p : Nat × Nat} (h : p ∈ P cross) : oth cross edge p ≠ p := by
  have hlt := eslot_lt hC h
  rcases ends_at hC h with e | e
  · rw [← e, oth_hd hC hlt]; exact (hd_ne_tl hC hlt).symm
  · rw [← e, oth_tl hC hlt]; exact hd_ne_tl hC hlt

theorem oth_oth {p : Nat × Nat} (h : p ∈ P cross) : oth cross edge (oth cross edge p) = p := by
  have hlt := eslot_lt hC h
  rcases ends_at hC h with e | e
  · rw [← e, oth_hd hC hlt, oth_tl hC hlt]
  · rw [← e, oth_tl hC hlt, oth_hd hC hlt]

theorem same_edge {p q : Nat × Nat} (hp : p ∈ P cross) (hq : q ∈ P cross)
    (h : eslot cross p = eslot cross q) : q = p ∨ q = oth cross edge p := by
  have hlt := eslot_lt hC hp
  have h1 := ends_at hC hp
  have h2 := ends_at hC hq
  rw [← h] at h2
  have o1 := oth_hd hC hlt
  have o2 := oth_tl hC hlt
  rcases h1 with e1 | e1 <;> rcases h2 with e2 | e2
  · left; rw [← e1, ← e2]
  · right; rw [← e1, o1, e2]
  · right; rw [← e1, o2, e2]
  · left; rw [← e1, ← e2]

/-- Going to the other end after turning by `d` is injective on places. -/
theorem injOn_turn (d : Nat) : InjOn (fun p => oth cross edge (turn d p)) (P cross) where
  maps := fun _ hx => oth_mem hC (turn_mem d hx)
  inj := by
    intro x hx y hy e
    have e2 := congrArg (oth cross edge) e
    simp only [oth_oth hC (turn_mem d hx), oth_oth hC (turn_mem d hy)] at e2
    have e3 := congrArg (turn (3 * d)) e2
    rwa [turn_turn hx _ _ (by omega), turn_turn hy _ _ (by omega)] at e3

/-- Walking straight through crossings one never comes back along an edge in the opposite
direction. -/
theorem no_reversal : ∀ (j : Nat) (h : Nat × Nat), h ∈ P cross →
    (fun p => oth cross edge (turn 2 p))^[j] h ≠ oth cross edge h
  | 0, h, hh => (oth_ne hC hh).symm
  | 1, h, hh => by
    intro e
    have e2 := congrArg (oth cross edge) e
    simp only [Function.iterate_one, oth_oth hC (turn_mem 2 hh), oth_oth hC hh] at e2
    exact turn_ne hh 2 (by decide) e2
  | j + 2, h, hh => by
    intro e
    have hI := injOn_turn hC 2
    have hmem : (fun p => oth cross edge (turn 2 p)) h ∈ P cross := hI.maps h hh
    have key : (fun p => oth cross edge (turn 2 p)) (oth cross edge ((fun p => oth cross edge (turn 2 p)) h))
        = oth cross edge h := by
      simp only
      rw [oth_oth hC (turn_mem 2 hh), turn_turn hh 2 2 (by decide)]
    rw [← key, Function.iterate_succ_apply'] at e
    have e3 := hI.inj _ (hI.iterate_mem hh (j + 1)) _ (oth_mem hC hmem) e
    rw [Function.iterate_succ_apply] at e3
    exact no_reversal j _ hmem e3

end

end Plc.Places
