import Verif.Spec.Diagram
import Verif.Model.Core

/-!
# Diagrams with holes

`L c k` is the edge number at position `k` of crossing `c` (`none` if there is no such place). A place is empty if the
number is `UNSET_IDX`; an end of an edge is loose if crossing and position are unset.
-/

namespace Plc.Deletions

open Plc.Core

abbrev Slots := Nat → Nat → Option Nat

/-- Edge records and crossing records agree, where they are set: an end of an edge is loose or at a place holding that edge, a
place is empty or the end of the edge it holds, and opposite places are not two heads or two tails. -/
structure Holed (L : Slots) (edge : List Edge) : Prop where
  small : ∀ k, L UNSET_IDX k = none
  pos : ∀ (c k e : Nat), L c k = some e → k < 4
  bound : edge.length ≤ UNSET_IDX
  head : ∀ (e : Nat) (r : Edge), edge[e]? = some r → (r.head = UNSET_IDX ∧ r.headpos = UNSET_POS) ∨ L r.head r.headpos = some e
  tail : ∀ (e : Nat) (r : Edge), edge[e]? = some r → (r.tail = UNSET_IDX ∧ r.tailpos = UNSET_POS) ∨ L r.tail r.tailpos = some e
  ne : ∀ (e : Nat) (r : Edge), edge[e]? = some r → r.head ≠ UNSET_IDX → ¬ (r.head = r.tail ∧ r.headpos = r.tailpos)
  used : ∀ (c k e : Nat), L c k = some e → e ≠ UNSET_IDX → ∃ r : Edge, edge[e]? = some r ∧
    ((r.head = c ∧ r.headpos = k) ∨ (r.tail = c ∧ r.tailpos = k))
  twoIn : ∀ (e f : Nat) (r t : Edge), edge[e]? = some r → edge[f]? = some t → r.head = t.head → t.headpos ≠ (r.headpos + 2) % 4
  twoOut : ∀ (e f : Nat) (r t : Edge), edge[e]? = some r → edge[f]? = some t → r.tail = t.tail → t.tailpos ≠ (r.tailpos + 2) % 4

/-- The places `p` and `p + 2` of crossing `c` emptied (`p` is 0 or 1). -/
def emptied (L : Slots) (c p : Nat) : Slots := fun d k => if d = c ∧ k < 4 ∧ k % 2 = p then some UNSET_IDX else L d k

/-- The strand through the places `p` and `p + 2` of crossing `c` is taken out of the crossing; `gone` is the edge that is used up.
 -/
inductive TakenOut (c p : Nat) (L : Slots) (edge : List Edge) : Slots → List Edge → Option Nat → Prop
  /-- An edge `f` comes in and an edge `g` goes out: the latter now starts where the former did. -/
  | through (f g : Nat) (rf rg : Edge) (hf : edge[f]? = some rf) (hg : edge[g]? = some rg) (hfc : rf.head = c) (hp : rf.headpos % 2 = p)
      (hgc : rg.tail = c) (hgp : rg.tailpos = (rf.headpos + 2) % 4) :
      TakenOut c p L edge (emptied (fun d k => if d = rf.tail ∧ k = rf.tailpos then some g else L d k) c p)
        ((edge.set g ⟨rg.head, rg.headpos, rf.tail, rf.tailpos⟩).set f ⟨UNSET_IDX, UNSET_POS, UNSET_IDX, UNSET_POS⟩) (some f)
  /-- An edge comes in and nothing goes out: its head is now loose. -/
  | entering (f : Nat) (rf : Edge) (hf : edge[f]? = some rf) (hfc : rf.head = c) (hp : rf.headpos % 2 = p)
      (ho : L c ((rf.headpos + 2) % 4) = some UNSET_IDX) :
      TakenOut c p L edge (emptied L c p) (edge.set f ⟨UNSET_IDX, UNSET_POS, rf.tail, rf.tailpos⟩) none
  /-- An edge goes out and nothing comes in: its tail is now loose. -/
  | leaving (g : Nat) (rg : Edge) (hg : edge[g]? = some rg) (hgc : rg.tail = c) (hp : rg.tailpos % 2 = p)
      (ho : L c ((rg.tailpos + 2) % 4) = some UNSET_IDX) :
      TakenOut c p L edge (emptied L c p) (edge.set g ⟨rg.head, rg.headpos, UNSET_IDX, UNSET_POS⟩) none
  /-- There is no strand. -/
  | nothing (h0 : L c p = some UNSET_IDX) (h2 : L c (p + 2) = some UNSET_IDX) : TakenOut c p L edge (emptied L c p) edge none

/-- No edge is a small loop at the crossing `c` (it may run from one side of it to the opposite side), and what passes through `c` does
not start at a loose end. -/
structure Clear (L : Slots) (edge : List Edge) (c : Nat) : Prop where
  noloop : ∀ (e : Nat) (r : Edge), edge[e]? = some r → r.head = c → r.tail = c → r.tailpos = (r.headpos + 2) % 4
  rooted : ∀ (e : Nat) (r : Edge), edge[e]? = some r → r.head = c → r.tail = UNSET_IDX →
    L c ((r.headpos + 2) % 4) = some UNSET_IDX

end Plc.Deletions
