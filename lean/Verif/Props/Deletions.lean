import Verif.Proofs.Deletions
import Verif.Proofs.Diagram
import Verif.Spec.Examples

/-!
# C101: erasing edges and crossings

A diagram with holes (`Spec/Deletions.lean`) is one in which places at crossings may be empty and ends of edges loose, but
everything that is set agrees. Erasing keeps such diagrams, and does to them what it should.
-/

namespace Plc.Deletions

open Plc.Core Plc.Moves Plc.Cmp Plc.Io

/-- Diagrams are diagrams with holes, without holes. -/
theorem C101_diagram {cross : List Cross} {edge : List Edge} (hC : Consistent cross edge) (hO : Oriented cross edge)
    (hs : 2 * cross.length ≤ UNSET_IDX) : Holed (slot cross) edge := by
  have hlt : ∀ {e : Nat} {r : Edge}, edge[e]? = some r → r.head < cross.length ∧ r.headpos < 4 ∧ r.tail < cross.length ∧ r.tailpos < 4 := by
    intro e r he
    have h1 := slot_some (hC.head e r he)
    have h2 := slot_some (hC.tail e r he)
    exact ⟨h1.1, h1.2, h2.1, h2.2⟩
  have same : ∀ {e f : Nat} {r t : Edge}, edge[e]? = some r → edge[f]? = some t → r.head = t.tail → r.headpos = t.tailpos → False := by
    intro e f r t he hf h1 h2
    have q1 := hC.head e r he
    have q2 := hC.tail f t hf
    rw [h1, h2, q2] at q1
    cases q1
    cases he.symm.trans hf
    exact hC.ends_ne _ r he (by rw [h1, h2])
  refine ⟨?_, ?_, ?_, ?_, ?_, ?_, ?_, ?_, ?_⟩
  · intro k
    cases q : slot cross UNSET_IDX k with
    | none => rfl
    | some e => have := (slot_some q).1; omega
  · intro c k e he; exact (slot_some he).2
  · rw [hC.count]; exact hs
  · intro e r he; right; exact hC.head e r he
  · intro e r he; right; exact hC.tail e r he
  · rintro e r he _ ⟨h1, h2⟩; exact hC.ends_ne e r he (by rw [h1, h2])
  · intro c k e he _
    obtain ⟨r, hr, h⟩ := hC.slots he
    refine ⟨r, hr, ?_⟩
    rcases h with h | h
    · left; simpa [eq_comm] using h
    · right; simpa [eq_comm] using h
  · intro e f r t he hf h1 h2
    obtain ⟨e', r', q1, q2, q3⟩ := hO.through_head e r he
    exact same hf q1 (by rw [q2, h1]) (by rw [h2, q3])
  · intro e f r t he hf h1 h2
    obtain ⟨e', r', q1, q2, q3⟩ := hO.through_tail e r he
    exact same q1 hf (by rw [q2, h1]) (by rw [h2, q3])

/-- **C101 (deleted edges)**: an edge counts as deleted exactly if all four fields of its record are unset. -/
theorem C101_deleted (pd : Pd) {e : Nat} {r : Edge} (he : pd.edge[e]? = some r) :
    ∃ b, edgeDeleted pd e = .ok b ∧ (b = true ↔ r.head = UNSET_IDX ∧ r.tail = UNSET_IDX ∧ r.headpos = UNSET_POS ∧ r.tailpos = UNSET_POS) := by
  obtain ⟨hl, hr⟩ := List.getElem?_eq_some_iff.mp he
  refine ⟨_, by unfold edgeDeleted; rw [rd_lt hl, ok_bind, hr], ?_⟩
  simp only [Bool.and_eq_true, decide_eq_true_eq, and_assoc]

/-- **C101 (edges)**: erasing an edge both of whose ends are at crossings empties these two places, unsets the edge record and the signs of
the two crossings, and takes the number out of components and faces; nothing else changes, and everything that is set still agrees. -/
theorem C101_edge (pd : Pd) (h : Holed (slot pd.cross) pd.edge) {e : Nat} {r : Edge} (he : pd.edge[e]? = some r)
    (hh : r.head ≠ UNSET_IDX) (ht : r.tail ≠ UNSET_IDX) :
    ∃ pd', edgeDelete pd e = .ok pd' ∧ pd'.edge = pd.edge.set e ⟨UNSET_IDX, UNSET_POS, UNSET_IDX, UNSET_POS⟩ ∧
      (∀ d k, slot pd'.cross d k = if (d = r.head ∧ k = r.headpos) ∨ (d = r.tail ∧ k = r.tailpos) then some UNSET_IDX else slot pd.cross d k) ∧
      (∀ d, pd'.cross[d]?.map Cross.sign = if d = r.head ∨ d = r.tail then some .unset else pd.cross[d]?.map Cross.sign) ∧
      pd'.comp = pd.comp.map (fun C => { C with edge := C.edge.map fun x => if x = e then UNSET_IDX else x }) ∧
      pd'.face = pd.face.map (fun F => ⟨F.edge.map fun x => if x = e then UNSET_IDX else x,
        List.zipWith (fun x o => if x = e then .unset else o) F.edge F.orient⟩) ∧
      Holed (slot pd'.cross) pd'.edge ∧ edgeDeleted pd' e = .ok true := by
  have hl := (List.getElem?_eq_some_iff.mp he).1
  have hsh := h.head_at he hh
  have hst := h.tail_at he ht
  obtain ⟨x1, a1, a2, a3⟩ := setSlot_slot hsh UNSET_IDX
  have hst1 : slot x1 r.tail r.tailpos = some e := by
    rw [a3, if_neg]
    · exact hst
    · rintro ⟨q1, q2⟩; exact h.ne e r he hh ⟨q1.symm, q2.symm⟩
  obtain ⟨x2, b1, b2, b3⟩ := setSlot_slot hst1 UNSET_IDX
  have l1 : x1.length = pd.cross.length := by simpa using congrArg List.length a2
  have l2 : x2.length = x1.length := by simpa using congrArg List.length b2
  obtain ⟨x3, c1, c2, c3⟩ := setSign_slot (cross := x2) (c := r.head) (by have := (slot_some hsh).1; omega) .unset
  have l3 : r.tail < x3.length := by
    have q : slot x3 r.tail r.tailpos = some UNSET_IDX := by rw [c2, b3, if_pos ⟨rfl, rfl⟩]
    exact (slot_some q).1
  obtain ⟨x4, d1, d2, d3⟩ := setSign_slot l3 .unset
  have hsl : ∀ d k, slot x4 d k = if (d = r.head ∧ k = r.headpos) ∨ (d = r.tail ∧ k = r.tailpos) then some UNSET_IDX else slot pd.cross d k := by
    intro d k
    rw [d2, c2, b3, a3]
    by_cases q1 : d = r.tail ∧ k = r.tailpos
    · rw [if_pos q1, if_pos (Or.inr q1)]
    · rw [if_neg q1]
      by_cases q2 : d = r.head ∧ k = r.headpos
      · rw [if_pos q2, if_pos (Or.inl q2)]
      · rw [if_neg q2, if_neg (fun q => q.elim q2 q1)]
  refine ⟨{ pd with cross := x4, edge := pd.edge.set e unsetEdge, comp := purgeComps e pd.comp, face := pd.face.map (purgeFace e) },
    ?_, ?_, ?_, ?_, ?_, ?_, ?_, ?_⟩
  · unfold edgeDelete
    rw [assertC_ok (by simpa using hl), ok_bind, rd_ok he, ok_bind, a1, ok_bind, b1, ok_bind, c1, ok_bind, d1, ok_bind, wr_lt hl, ok_bind]
  · rfl
  · exact hsl
  · intro d
    simp only
    rw [d3, c3]
    have : x2[d]?.map Cross.sign = pd.cross[d]?.map Cross.sign := by
      rw [← List.getElem?_map, ← List.getElem?_map, b2, a2]
    rw [this]
    by_cases q1 : d = r.tail
    · rw [if_pos q1, if_pos (Or.inr q1)]
    · rw [if_neg q1]
      by_cases q2 : d = r.head
      · rw [if_pos q2, if_pos (Or.inl q2)]
      · rw [if_neg q2, if_neg (fun q => q.elim q2 q1)]
  · rfl
  · rfl
  · refine holed_cut h (fun d k => (d = r.head ∧ k = r.headpos) ∨ (d = r.tail ∧ k = r.tailpos)) ?_ ?_ ?_ (by simp) ?_
    · rintro d k (⟨rfl, rfl⟩ | ⟨rfl, rfl⟩)
      · exact ⟨e, hsh⟩
      · exact ⟨e, hst⟩
    · intro d k q; simp only; rw [hsl, if_pos q]
    · intro d k q; simp only; rw [hsl, if_neg q]
    · intro e2 t ht2
      rw [get_set1 he]
      split
      · next q =>
        subst q
        cases he.symm.trans ht2
        simp [cut, unsetEdge]
      · next q =>
        rw [ht2, cut_none]
        · rintro (⟨q1, q2⟩ | ⟨q1, q2⟩)
          · have := h.head_at ht2 (by rw [q1]; exact hh)
            rw [q1, q2, hsh] at this; exact q (Option.some.inj this).symm
          · have := h.head_at ht2 (by rw [q1]; exact ht)
            rw [q1, q2, hst] at this; exact q (Option.some.inj this).symm
        · rintro (⟨q1, q2⟩ | ⟨q1, q2⟩)
          · have := h.tail_at ht2 (by rw [q1]; exact hh)
            rw [q1, q2, hsh] at this; exact q (Option.some.inj this).symm
          · have := h.tail_at ht2 (by rw [q1]; exact ht)
            rw [q1, q2, hst] at this; exact q (Option.some.inj this).symm
  · unfold edgeDeleted
    simp only
    rw [rd_ok (a := unsetEdge) (by simp [hl]), ok_bind]
    rfl

/-- **C101 (edges, refuted for loose ends)**: erasing an edge with a loose end, for example one that has been erased before, writes to crossing
number `PD_UNSET_IDX`, outside the buffer. -/
theorem C101_edge_loose (pd : Pd) (h : Holed (slot pd.cross) pd.edge) (hn : pd.cross.length ≤ UNSET_IDX) {e : Nat} {r : Edge} (he : pd.edge[e]? = some r)
    (hh : r.head = UNSET_IDX ∨ r.tail = UNSET_IDX) : edgeDelete pd e = .error .ub := by
  have hl := (List.getElem?_eq_some_iff.mp he).1
  have hbad : ∀ (cross : List Cross) (k : Nat), cross.length ≤ UNSET_IDX → setSlot cross UNSET_IDX k UNSET_IDX = .error .ub := by
    intro cross k q
    unfold setSlot rd
    rw [List.getElem?_eq_none_iff.mpr q]
    rfl
  unfold edgeDelete
  rw [assertC_ok (by simpa using hl), ok_bind, rd_ok he, ok_bind]
  by_cases q : r.head = UNSET_IDX
  · rw [q, hbad _ _ hn, error_bind]
  · obtain ⟨x1, a1, a2, a3⟩ := setSlot_slot (h.head_at he q) UNSET_IDX
    have l1 : x1.length = pd.cross.length := by simpa using congrArg List.length a2
    rw [a1, ok_bind, hh.resolve_left q, hbad _ _ (by omega), error_bind]

/-- **C101 (crossings)**: erasing a crossing without small loops takes its two strands out of it, one after the other: an edge coming in and the
edge going out opposite become one edge, single edges get a loose end. The crossing is then empty, nothing else changes, and everything that is
set still agrees. -/
theorem C101_crossing (pd : Pd) (h : Holed (slot pd.cross) pd.edge) {c : Nat} (hc : c < pd.cross.length) (hn : pd.cross.length ≤ UNSET_IDX)
    (hcl : Clear (slot pd.cross) pd.edge c) :
    ∃ pd' L1 edge1 g0 g1, crossingDelete pd c = .ok pd' ∧ TakenOut c 0 (slot pd.cross) pd.edge L1 edge1 g0 ∧
      TakenOut c 1 L1 edge1 (slot pd'.cross) pd'.edge g1 ∧ (∀ k, k < 4 → slot pd'.cross c k = some UNSET_IDX) ∧
      (∀ d, pd'.cross[d]?.map Cross.sign = if d = c then some .unset else pd.cross[d]?.map Cross.sign) ∧
      pd'.comp = pd.comp.map (fun C => { C with edge := C.edge.map fun x => if g0 = some x ∨ g1 = some x then UNSET_IDX else x }) ∧
      pd'.face = pd.face ∧ Holed (slot pd'.cross) pd'.edge := by
  have hcu : c ≠ UNSET_IDX := by omega
  obtain ⟨x1, e1, L1, g0, a1, a2, a3, a4⟩ := strand_ok (comp := pd.comp) (p := 0) h hcl (by decide) hc hcu (fun d k _ => rfl)
  have hL : ∀ k, k < 4 → ∃ e, slot pd.cross c k = some e := by
    intro k hk; unfold slot; rw [if_pos hk, List.getElem?_eq_getElem hc]; exact ⟨_, rfl⟩
  have H1 := holed_taken h hcl hcu hL (by decide) a2
  have C1 := clear_taken h hcl hcu a2
  have l1 : x1.length = pd.cross.length := by simpa using congrArg List.length a3
  have hL1 : ∀ k, k < 4 → ∃ e, L1 c k = some e := by
    intro k hk
    by_cases q : k % 2 = 0
    · exact ⟨_, taken_here a2 hk q⟩
    · rw [taken_other hcl a2 q]; exact hL k hk
  obtain ⟨x2, e2, L2, g1, b1, b2, b3, b4⟩ := strand_ok (comp := purgeGone g0 pd.comp) (p := 1) H1 C1 (by decide) (by rw [l1]; exact hc) hcu
    (fun d k q => a4 d k (fun s => by have := q s; omega))
  have H2 := holed_taken H1 C1 hcu hL1 (by decide) b2
  have l2 : x2.length = x1.length := by simpa using congrArg List.length b3
  have hl : c < x2.length := by omega
  have hL2 : ∀ k, k < 4 → L2 c k = some UNSET_IDX := by
    intro k hk
    by_cases q : k % 2 = 1
    · exact taken_here b2 hk q
    · rw [taken_other C1 b2 q]; exact taken_here a2 hk (by omega)
  have hslot : slot (x2.set c ⟨UNSET_IDX, UNSET_IDX, UNSET_IDX, UNSET_IDX, .unset⟩) = L2 := by
    funext d k
    by_cases hd : d = c
    · subst hd
      by_cases hk : k < 4
      · rw [hL2 k hk]
        unfold slot
        rw [if_pos hk, List.getElem?_set_self hl]
        have : k = 0 ∨ k = 1 ∨ k = 2 ∨ k = 3 := by omega
        rcases this with rfl | rfl | rfl | rfl <;> rfl
      · have : L2 d k = none := by
          cases q : L2 d k with
          | none => rfl
          | some e => exact absurd (H2.pos _ _ _ q) hk
        rw [this]; unfold slot; rw [if_neg hk]
    · rw [← b4 d k (fun q => absurd q hd)]
      unfold slot
      rw [List.getElem?_set_ne (Ne.symm hd)]
  refine ⟨{ pd with cross := x2.set c ⟨UNSET_IDX, UNSET_IDX, UNSET_IDX, UNSET_IDX, .unset⟩, edge := e2, comp := purgeGone g1 (purgeGone g0 pd.comp) },
    L1, e1, g0, g1, ?_, a2, ?_, ?_, ?_, ?_, rfl, ?_⟩
  · unfold crossingDelete
    rw [assertC_ok (by simpa using hc), ok_bind, a1, ok_bind, b1, ok_bind, wr_lt hl, ok_bind]
  · simp only; rw [hslot]; exact b2
  · intro k hk; simp only; rw [hslot]; exact hL2 k hk
  · intro d
    simp only
    by_cases hd : d = c
    · subst hd; rw [if_pos rfl, List.getElem?_set_self hl]; rfl
    · rw [if_neg hd, List.getElem?_set_ne (Ne.symm hd), ← List.getElem?_map, ← List.getElem?_map, b3, a3]
  · have hg : ∀ e, g0 = some e → e ≠ UNSET_IDX := by
      intro e q
      cases a2 with
      | through f g rf rg hf hg hfc hp hgc hgp => cases q; exact h.lt hf
      | _ => cases q
    have hg1 : ∀ e, g1 = some e → e ≠ UNSET_IDX := by
      intro e q
      cases b2 with
      | through f g rf rg hf hg hfc hp hgc hgp => cases q; exact H1.lt hf
      | _ => cases q
    cases g0 with
    | none =>
      cases g1 with
      | none => simp [purgeGone]
      | some y => simp [purgeGone, purgeComps, purge, eq_comm]
    | some x =>
      cases g1 with
      | none => simp [purgeGone, purgeComps, purge, eq_comm]
      | some y =>
        have := hg1 y rfl
        simp only [purgeGone, purgeComps, purge, List.map_map]
        apply List.map_congr_left
        intro C _
        simp only [Function.comp, List.map_map, Option.some.injEq]
        congr 1
        apply List.map_congr_left
        intro z _
        by_cases q : z = x
        · subst q; simp [Ne.symm this]
        · simp [q, Ne.symm q, eq_comm]
  · simp only; rw [hslot]; exact H2

/-- **C101 (crossings, refuted for loose tails)**: if the edge coming in at position 0 or 2 has a loose tail and is continued, erasing the crossing
writes outside the buffer. -/
theorem C101_loose (pd : Pd) (h : Holed (slot pd.cross) pd.edge) {c : Nat} (hc : c < pd.cross.length) (hn : pd.cross.length ≤ UNSET_IDX)
    (hcl : ∀ (e : Nat) (r : Edge), pd.edge[e]? = some r → r.head = c → r.tail = c → r.tailpos = (r.headpos + 2) % 4)
    {f g : Nat} {rf : Edge} (hf : pd.edge[f]? = some rf) (hfc : rf.head = c) (hk : rf.headpos % 2 = 0) (ht : rf.tail = UNSET_IDX)
    (hg : slot pd.cross c ((rf.headpos + 2) % 4) = some g) (hg0 : g ≠ UNSET_IDX) : crossingDelete pd c = .error .ub := by
  have hcu : c ≠ UNSET_IDX := by omega
  have hbad : ∀ (cross : List Cross) (k e : Nat), cross.length ≤ UNSET_IDX → setSlot cross UNSET_IDX k e = .error .ub := by
    intro cross k e q
    unfold setSlot rd
    rw [List.getElem?_eq_none_iff.mpr q]
    rfl
  have hsp : ∀ rg, pd.edge[g]? = some rg → splice (pd.cross, pd.edge, pd.comp) f g = .error .ub := by
    intro rg hrg
    unfold splice
    simp only [rd_ok hf, rd_ok hrg, ok_bind, wr_lt (List.getElem?_eq_some_iff.mp hrg).1, ht, hbad _ _ _ hn, error_bind]
  obtain ⟨rg, hrg, hr⟩ := h.used c _ g hg hg0
  have hgt : rg.tail = c ∧ rg.tailpos = (rf.headpos + 2) % 4 := by
    rcases hr with q | q
    · exact absurd q.2 (h.twoIn f g rf rg hf hrg (by rw [hfc, q.1]))
    · exact q
  have hx : pd.cross[c]? = some pd.cross[c] := List.getElem?_eq_getElem hc
  have hfh := h.head_at hf (by rw [hfc]; exact hcu)
  have hk4 := h.pos _ _ _ hfh
  rw [hfc] at hfh
  have at' : ∀ k e, k < 4 → slot pd.cross c k = some e → pd.cross[c].at k = e := by
    intro k e q1 q2
    unfold slot at q2
    rw [if_pos q1, hx] at q2
    exact Option.some.inj q2
  have hgh : rg.head ≠ c := by
    intro q
    have q1 := hcl g rg hrg q hgt.1
    have q2 := h.head_at hrg (by rw [q]; exact hcu)
    have q3 := h.pos _ _ _ q2
    have q4 : rg.headpos = rf.headpos := by omega
    rw [q, q4, hfh] at q2
    cases q2
    cases hf.symm.trans hrg
    rw [ht] at hgt
    exact hcu hgt.1.symm
  unfold crossingDelete
  rw [assertC_ok (by simpa using hc), ok_bind]
  have : strand c 0 (pd.cross, pd.edge, pd.comp) = .error .ub := by
    unfold strand
    simp only [rd_ok hx, ok_bind, Cross.rdPos_lt (show 0 < 4 by omega), Cross.rdPos_lt (show 0 + 2 < 4 by omega)]
    have hf0 := h.lt hf
    have : rf.headpos = 0 ∨ rf.headpos = 2 := by omega
    rcases this with q | q
    · rw [q] at hfh hg
      rw [at' 0 f (by omega) hfh, at' (0 + 2) g (by omega) hg, if_pos ⟨hf0, hg0⟩]
      simp only [rd_ok hf, rd_ok hrg, ok_bind]
      rw [if_pos ⟨hfc, hgt.1⟩, hsp rg hrg]
    · rw [q] at hfh hg
      rw [at' 0 g (by omega) hg, at' (0 + 2) f (by omega) hfh, if_pos ⟨hg0, hf0⟩]
      simp only [rd_ok hf, rd_ok hrg, ok_bind]
      rw [if_neg (fun s => hgh s.1), if_pos ⟨hfc, hgt.1⟩, hsp rg hrg]
  rw [this, error_bind]

/-- **C101 (refuted for small loops)**: erasing the crossing of the diagram of an unknot with one crossing stops the program with an error. -/
theorem C101_loop (s : Or) (hash : List Char) (uid : Nat) (comp : List Comp) (face : List Face) :
    Consistent (loopCross s) loopEdge ∧ Oriented (loopCross s) loopEdge ∧
    crossingDelete ⟨hash, uid, loopCross s, loopEdge, comp, face⟩ 0 = .error .die := by
  refine ⟨by cases s <;> decide, by cases s <;> decide, ?_⟩
  cases s <;> rfl

/-- A crossing of the trefoil can be erased. -/
example (s : Or) (hash : List Char) (uid : Nat) (face : List Face) :
    Holed (slot (trefoilCross s)) trefoilEdge ∧ Clear (slot (trefoilCross s)) trefoilEdge 0 ∧
    (crossingDelete ⟨hash, uid, trefoilCross s, trefoilEdge, [⟨[0, 1, 2, 3, 4, 5], 65⟩], face⟩ 0).map (fun pd => (pd.edge, pd.comp)) =
      .ok ([⟨UNSET_IDX, 4, UNSET_IDX, 4⟩, ⟨2, 1, 1, 3⟩, ⟨1, 0, 2, 3⟩, ⟨UNSET_IDX, 4, UNSET_IDX, 4⟩, ⟨2, 0, 1, 2⟩, ⟨1, 1, 2, 2⟩],
        [⟨[UNSET_IDX, 1, 2, UNSET_IDX, 4, 5], 65⟩]) := by
  refine ⟨C101_diagram (by cases s <;> decide) (by cases s <;> decide) (by simp [trefoilCross, UNSET_IDX]), ⟨?_, ?_⟩, by cases s <;> rfl⟩
  · intro e r he
    have : ∀ r ∈ trefoilEdge, r.head = 0 → r.tail = 0 → r.tailpos = (r.headpos + 2) % 4 := by decide
    exact this r (List.mem_of_getElem? he)
  · intro e r he _ h2
    have : ∀ r ∈ trefoilEdge, r.tail ≠ UNSET_IDX := by decide
    exact absurd h2 (this r (List.mem_of_getElem? he))

/-- An edge of the trefoil can be erased, and then a crossing it ended at; this leaves the tail of edge 1 loose. Erasing the next crossing of
this edge then writes outside the buffer. -/
example (s : Or) (hash : List Char) (uid : Nat) (comp : List Comp) (face : List Face) :
    (do
      let pd ← edgeDelete ⟨hash, uid, trefoilCross s, trefoilEdge, comp, face⟩ 0
      crossingDelete pd 0 : Res Pd).map Pd.edge =
        .ok [⟨UNSET_IDX, 4, UNSET_IDX, 4⟩, ⟨2, 1, UNSET_IDX, 4⟩, ⟨1, 0, 2, 3⟩, ⟨UNSET_IDX, 4, UNSET_IDX, 4⟩, ⟨2, 0, 1, 2⟩, ⟨1, 1, 2, 2⟩] ∧
    (do
      let pd ← edgeDelete ⟨hash, uid, trefoilCross s, trefoilEdge, comp, face⟩ 0
      let pd ← crossingDelete pd 0
      crossingDelete pd 2 : Res Pd) = .error .ub := by
  cases s <;> exact ⟨rfl, rfl⟩

end Plc.Deletions
