import Verif.Model.Comps
import Verif.Proofs.Edges
import Verif.Props.Core
import Mathlib.Data.List.Basic
import Mathlib.Data.List.Nodup

namespace Plc.Comps

open Plc.Core Plc.Cmp Plc.Edges Plc.Places Plc.Orbit

/-- The edge after `e`: written opposite to its head. -/
def nx (cross : List Cross) (edge : List Edge) (e : Nat) : Nat := eslot cross (turn 2 (hd edge[e]!))

section

variable {cross : List Cross} {edge : List Edge} (hC : Consistent cross edge) (hO : Oriented cross edge)

include hC hO

theorem nx_spec {e : Nat} (he : e < edge.length) :
    nx cross edge e < edge.length ∧ tl edge[nx cross edge e]! = turn 2 (hd edge[e]!) := by
  have hr : edge[e]? = some edge[e]! := by rw [getElem!_pos edge e he]; exact List.getElem?_eq_getElem he
  obtain ⟨e', r', h1, h2, h3⟩ := hO.through_head e _ hr
  have hs := hC.tail e' r' h1
  have ht : turn 2 (hd edge[e]!) = tl r' := by
    unfold turn hd tl
    rw [h2, h3]
  have hn : nx cross edge e = e' := by
    unfold nx
    rw [ht]
    exact eslot_of_slot hs
  obtain ⟨hlt, hx⟩ := List.getElem?_eq_some_iff.mp h1
  rw [hn]
  refine ⟨hlt, ?_⟩
  rw [getElem!_pos edge e' hlt, hx, ht]

theorem injOn_nx : InjOn (nx cross edge) (Finset.range edge.length) where
  maps := by
    intro x hx
    rw [Finset.mem_range] at hx ⊢
    exact (nx_spec hC hO hx).1
  inj := by
    intro x hx y hy e
    rw [Finset.mem_range] at hx hy
    have h1 := (nx_spec hC hO hx).2
    have h2 := (nx_spec hC hO hy).2
    rw [e, h2] at h1
    have hhx := hd_mem hC hx
    have hhy := hd_mem hC hy
    have := congrArg (turn 2) h1
    rw [turn_turn hhx.1 2 2 (by decide), turn_turn hhy.1 2 2 (by decide)] at this
    rw [← hhx.2, ← hhy.2, this]

theorem nextComp_pos {e : Nat} (he : e < edge.length) :
    nextCompEdge cross edge e = .ok (nx cross edge e, .pos) := by
  obtain ⟨h1, h2⟩ := nx_spec hC hO he
  have hh := mem_P.mp (hd_mem hC he).1
  have hh1 : (edge[e]!).head < cross.length := hh.1
  have hht : ((edge[e]!).headpos + 2) % 4 < 4 := Nat.mod_lt _ (by decide)
  unfold nextCompEdge
  rw [assertC_ok (by simpa using he), ok_bind, rd_bang he, ok_bind]
  have e1 : rd cross (edge[e]!).head = .ok cross[(edge[e]!).head] := rd_lt hh1
  have e2 : cross[(edge[e]!).head].rdPos (((edge[e]!).headpos + 2) % 4) = .ok (nx cross edge e) := by
    rw [Cross.rdPos_lt (Nat.mod_lt _ (by decide))]
    congr 1
    exact (eslot_of_slot (p := turn 2 (hd edge[e]!)) (slot_of_lt hh1 hht)).symm
  rw [e1, ok_bind, e2, ok_bind, rd_bang h1, ok_bind, if_pos]
  exact ⟨(congrArg Prod.fst h2).symm, (congrArg Prod.snd h2).symm⟩

/-- The walk around a component assigns its edges in order and leaves everything else. -/
theorem walk_spec {maxedges : Nat} (hmax : edge.length ≤ maxedges) (comp : Nat) {s : Nat}
    (hs : s < edge.length) : ∀ (k r j : Nat) (asg : List Asg),
    j + k = per (nx cross edge) s → 1 ≤ j → r + j = edge.length → asg.length = edge.length →
    ∃ asg', walkComp maxedges cross comp s r ((nx cross edge)^[j] s) .pos j edge asg =
        .ok (edge, asg', per (nx cross edge) s) ∧ asg'.length = edge.length ∧
      (∀ i, j ≤ i → i < per (nx cross edge) s →
        asg'[(nx cross edge)^[i] s]? = some (some (comp, i))) ∧
      (∀ e, (∀ i, j ≤ i → i < per (nx cross edge) s → (nx cross edge)^[i] s ≠ e) →
        asg'[e]? = asg[e]?) := by
  have hI := injOn_nx hC hO
  have hs' : s ∈ Finset.range edge.length := Finset.mem_range.mpr hs
  intro k
  induction k with
  | zero =>
    intro r j asg hk _ _ hl
    refine ⟨asg, ?_, hl, fun i h1 h2 => by omega, fun _ _ => rfl⟩
    have e : (nx cross edge)^[j] s = s := by
      rw [show j = per (nx cross edge) s by omega]; exact iterate_per _ _
    rw [e, show j = per (nx cross edge) s by omega]
    cases r <;> unfold walkComp <;> rw [if_pos (Or.inl rfl)]
  | succ k ih =>
    intro r j asg hk hj hr hl
    have hpl : per (nx cross edge) s ≤ edge.length := by
      have := hI.per_le hs'; simpa using this
    have hne : (nx cross edge)^[j] s ≠ s := ne_of_lt_per (by omega) (by omega)
    obtain ⟨r, rfl⟩ : ∃ r', r = r' + 1 := ⟨r - 1, by omega⟩
    have hlt : (nx cross edge)^[j] s < edge.length := Finset.mem_range.mp (hI.iterate_mem hs' j)
    obtain ⟨asg', h1, h2, h3, h4⟩ := ih r (j + 1) (asg.set ((nx cross edge)^[j] s) (some (comp, j)))
      (by omega) (by omega) (by omega) (by simpa using hl)
    refine ⟨asg', ?_, h2, ?_, ?_⟩
    · unfold walkComp
      rw [if_neg (by rintro (h | h); exacts [hne h, h (by omega)]), rd_bang hlt, ok_bind]
      have : orientedEdge edge[(nx cross edge)^[j] s]! .pos = .ok edge[(nx cross edge)^[j] s]! := rfl
      rw [this, ok_bind, wr_lt hlt, ok_bind, wr_lt (by omega), ok_bind]
      have hset : edge.set ((nx cross edge)^[j] s) edge[(nx cross edge)^[j] s]! = edge := by
        rw [getElem!_pos edge _ hlt]; exact List.set_getElem_self hlt
      rw [hset, nextComp_pos hC hO hlt, ok_bind]
      simp only
      rw [← Function.iterate_succ_apply' (nx cross edge) j s]
      exact h1
    · intro i hi hip
      by_cases hij : i = j
      · subst hij
        rw [h4]
        · simp [hl, hlt]
        · intro i' h5 h6 e
          have := iterate_inj_lt h6 hip e
          omega
      · exact h3 i (by omega) hip
    · intro e he
      rw [h4 e (fun i h5 h6 => he i (by omega) h6)]
      rw [List.getElem?_set_ne (he j (Nat.le_refl _) (by omega))]

theorem oneComp_spec {maxedges : Nat} (hmax : edge.length ≤ maxedges) (comp : Nat) {s : Nat}
    (hs : s < edge.length) (asg : List Asg) (hl : asg.length = edge.length) :
    ∃ asg', oneComp maxedges cross comp s edge asg = .ok (edge, asg', per (nx cross edge) s) ∧
      asg'.length = edge.length ∧
      (∀ i, i < per (nx cross edge) s → asg'[(nx cross edge)^[i] s]? = some (some (comp, i))) ∧
      (∀ e, e ∉ cyc (nx cross edge) s → asg'[e]? = asg[e]?) := by
  have hI := injOn_nx hC hO
  have hs' : s ∈ Finset.range edge.length := Finset.mem_range.mpr hs
  have hp := hI.per_pos hs'
  obtain ⟨asg', h1, h2, h3, h4⟩ := walk_spec hC hO hmax comp hs (per (nx cross edge) s - 1)
    (edge.length - 1) 1 (asg.set s (some (comp, 0))) (by omega) (Nat.le_refl _) (by omega)
    (by simpa using hl)
  refine ⟨asg', ?_, h2, ?_, ?_⟩
  · unfold oneComp
    rw [wr_lt (by omega), ok_bind, nextComp_pos hC hO hs, ok_bind]
    exact h1
  · intro i hi
    by_cases h0 : i = 0
    · subst h0
      rw [h4]
      · simp [hl, hs]
      · intro i' h5 h6 e
        exact ne_of_lt_per (by omega) h6 e
    · exact h3 i (by omega) hi
  · intro e he
    rw [hI.mem_cyc hs'] at he
    rw [h4 e (fun i _ _ h => he ⟨i, h⟩)]
    exact List.getElem?_set_ne (fun h => he ⟨0, h⟩)

/-- What is known when the components starting at `starts` have been found. -/
structure Found (cross : List Cross) (edge : List Edge) (starts : List Nat) (asg : List Asg) : Prop where
  lt : ∀ x ∈ starts, x < edge.length
  sep : starts.Pairwise (fun x y => y ∉ cyc (nx cross edge) x)
  len : asg.length = edge.length
  on : ∀ c (h : c < starts.length) i, i < per (nx cross edge) starts[c] →
    asg[(nx cross edge)^[i] starts[c]]? = some (some (c, i))
  off : ∀ e, e < edge.length → (∀ x ∈ starts, e ∉ cyc (nx cross edge) x) → asg[e]? = some none

omit hC hO in
theorem findUnassigned_spec : ∀ (l : List Asg) (i : Nat),
    (∀ e, findUnassigned l i = some e → i ≤ e ∧ l[e - i]? = some none) ∧
    (findUnassigned l i = none → ∀ a ∈ l, a ≠ none)
  | [], i => by simp [findUnassigned]
  | none :: l, i => by
    unfold findUnassigned
    refine ⟨?_, by simp⟩
    intro e he
    simp at he
    subst he
    simp
  | some a :: l, i => by
    have ih := findUnassigned_spec l (i + 1)
    unfold findUnassigned
    refine ⟨?_, ?_⟩
    · intro e he
      obtain ⟨h1, h2⟩ := ih.1 e he
      refine ⟨by omega, ?_⟩
      rw [show e - i = e - (i + 1) + 1 by omega]
      simpa using h2
    · intro h a' ha'
      rw [List.mem_cons] at ha'
      rcases ha' with rfl | ha'
      · simp
      · exact ih.2 h a' ha'

theorem Found.step {maxedges : Nat} (hmax : edge.length ≤ maxedges) {starts : List Nat}
    {asg : List Asg} (hF : Found cross edge starts asg) {s : Nat} (hs : asg[s]? = some none) :
    ∃ asg', oneComp maxedges cross starts.length s edge asg =
        .ok (edge, asg', per (nx cross edge) s) ∧ Found cross edge (starts ++ [s]) asg' := by
  have hI := injOn_nx hC hO
  have hlt : s < edge.length := by
    have := (List.getElem?_eq_some_iff.mp hs).1
    rw [hF.len] at this
    exact this
  have hs' : s ∈ Finset.range edge.length := Finset.mem_range.mpr hlt
  obtain ⟨asg', h1, h2, h3, h4⟩ := oneComp_spec hC hO hmax starts.length hlt asg hF.len
  have hnew : ∀ x ∈ starts, s ∉ cyc (nx cross edge) x := by
    intro x hx hc
    obtain ⟨c, hc', rfl⟩ := List.getElem_of_mem hx
    obtain ⟨i, hi, e⟩ := List.mem_map.mp hc
    rw [List.mem_range] at hi
    have := hF.on c hc' i hi
    rw [e, hs] at this
    simp at this
  have hdis : ∀ x ∈ starts, ∀ i, (nx cross edge)^[i] x ∉ cyc (nx cross edge) s := by
    intro x hx i hc
    have hx' := Finset.mem_range.mpr (hF.lt x hx)
    exact hnew x hx (hI.cyc_meet hx' hs' ((hI.mem_cyc hx').mpr ⟨i, rfl⟩) hc)
  refine ⟨asg', h1, ?_, ?_, h2, ?_, ?_⟩
  · intro x hx
    rw [List.mem_append, List.mem_singleton] at hx
    rcases hx with hx | rfl
    · exact hF.lt x hx
    · exact hlt
  · rw [List.pairwise_append]
    refine ⟨hF.sep, by simp, ?_⟩
    intro x hx y hy
    rw [List.mem_singleton] at hy
    subst hy
    exact hnew x hx
  · intro c hc i hi
    by_cases hcl : c < starts.length
    · have e : (starts ++ [s])[c] = starts[c] := List.getElem_append_left hcl
      rw [e] at hi ⊢
      rw [h4 _ (hdis _ (List.getElem_mem hcl) i)]
      exact hF.on c hcl i hi
    · have hce : c = starts.length := by simp at hc; omega
      subst hce
      have e : (starts ++ [s])[starts.length] = s := by simp
      rw [e] at hi ⊢
      exact h3 i hi
  · intro e he hx
    rw [h4 e (hx s (by simp))]
    exact hF.off e he (fun x h => hx x (by simp [h]))

theorem compsLoop_spec {maxedges maxcomps : Nat} (hmax : edge.length ≤ maxedges)
    (hK : ∀ starts : List Nat, (∀ x ∈ starts, x < edge.length) →
      starts.Pairwise (fun x y => y ∉ cyc (nx cross edge) x) → starts.length ≤ maxcomps) :
    ∀ (r s : Nat) (starts : List Nat) (asg : List Asg), starts.length + r = maxcomps →
      Found cross edge starts asg → asg[s]? = some none →
      ∃ starts' asg', compsLoop maxedges cross r starts.length s edge asg
          (starts.map (per (nx cross edge))) = .ok (edge, asg', starts'.map (per (nx cross edge))) ∧
        Found cross edge starts' asg' ∧ ∀ a ∈ asg', a ≠ none
  | 0, s, starts, asg, hr, hF, hs => by
    obtain ⟨asg', h1, h2⟩ := hF.step hC hO hmax hs
    have := hK _ h2.lt h2.sep
    simp at this
    omega
  | r + 1, s, starts, asg, hr, hF, hs => by
    obtain ⟨asg', h1, h2⟩ := hF.step hC hO hmax hs
    have hfu := findUnassigned_spec asg' 0
    unfold compsLoop
    rw [h1, ok_bind]
    simp only
    match hm : findUnassigned asg' 0 with
    | none => exact ⟨starts ++ [s], asg', by simp, h2, hfu.2 hm⟩
    | some e =>
      obtain ⟨_, h3⟩ := hfu.1 e hm
      simp only
      have := compsLoop_spec hmax hK r e (starts ++ [s]) asg' (by simp; omega) h2 (by simpa using h3)
      simpa using this

end

/-! ### Filling the buffers -/

def entry (comps : List (List Nat)) (c p : Nat) : Option Nat := comps[c]?.bind (fun b => b[p]?)

theorem fill_spec : ∀ (l : List Asg) (e : Nat) (comps : List (List Nat)),
    (∀ a ∈ l, ∃ c p b, a = some (c, p) ∧ comps[c]? = some b ∧ p < b.length) →
    ∃ comps', fill l e comps = .ok comps' ∧ comps'.map List.length = comps.map List.length ∧
      (∀ (j c p : Nat), l[j]? = some (some (c, p)) → (∀ j' : Nat, l[j']? = some (some (c, p)) → j' = j) →
        entry comps' c p = some (e + j)) ∧
      (∀ (c p : Nat), (∀ j : Nat, l[j]? ≠ some (some (c, p))) → entry comps' c p = entry comps c p)
  | [], e, comps, _ => ⟨comps, rfl, rfl, by simp, fun _ _ _ => rfl⟩
  | a :: l, e, comps, h => by
    obtain ⟨c, p, b, rfl, hb, hp⟩ := h a (by simp)
    have hcl := (List.getElem?_eq_some_iff.mp hb).1
    have hlen : (comps.set c (b.set p e)).map List.length = comps.map List.length := by
      rw [List.map_set, List.length_set]
      have : (comps.map List.length)[c]'(by simpa using hcl) = b.length := by
        rw [List.getElem_map]; congr 1; exact (List.getElem?_eq_some_iff.mp hb).2
      rw [← this]
      exact List.set_getElem_self _
    obtain ⟨comps', h1, h2, h3, h4⟩ := fill_spec l (e + 1) (comps.set c (b.set p e)) (by
      intro a ha
      obtain ⟨c', p', b', rfl, hb', hp'⟩ := h a (by simp [ha])
      by_cases hcc : c' = c
      · subst hcc
        rw [hb] at hb'
        cases hb'
        exact ⟨c', p', b.set p e, rfl, by simp [hcl], by simpa using hp'⟩
      · exact ⟨c', p', b', rfl, by rw [List.getElem?_set_ne (Ne.symm hcc)]; exact hb', hp'⟩)
    have hentry : ∀ c' p', entry (comps.set c (b.set p e)) c' p' =
        if c' = c ∧ p' = p then some e else entry comps c' p' := by
      intro c' p'
      unfold entry
      by_cases hcc : c' = c
      · subst hcc
        rw [List.getElem?_set_self hcl, hb]
        simp only [Option.bind_some, true_and]
        split
        · rename_i hpp; subst hpp; simp [hp]
        · rename_i hpp; rw [List.getElem?_set_ne (Ne.symm hpp)]
      · rw [List.getElem?_set_ne (Ne.symm hcc), if_neg (by simp [hcc])]
    refine ⟨comps', ?_, by rw [h2, hlen], ?_, ?_⟩
    · unfold fill
      rw [assertC_ok (by simpa using hcl), ok_bind, rd_ok hb, ok_bind, assertC_ok (by simpa using hp),
        ok_bind, wr_lt hp, ok_bind, wr_lt hcl, ok_bind, h1]
    · intro j c' p' hj huniq
      cases j with
      | zero =>
        simp at hj
        obtain ⟨rfl, rfl⟩ := hj
        rw [h4, hentry, if_pos ⟨rfl, rfl⟩, Nat.add_zero]
        intro j hc
        have := huniq (j + 1) (by simpa using hc)
        omega
      | succ j =>
        rw [h3 j c' p' (by simpa using hj)]
        · congr 1; omega
        · intro j' hj'
          have := huniq (j' + 1) (by simpa using hj')
          omega
    · intro c' p' hno
      rw [h4 c' p' (fun j hc => hno (j + 1) (by simpa using hc)), hentry, if_neg]
      rintro ⟨rfl, rfl⟩
      exact hno 0 (by simp)

section

variable {cross : List Cross} {edge : List Edge} (hC : Consistent cross edge) (hO : Oriented cross edge)

include hC hO

omit hC hO in
theorem Found.covers {starts : List Nat} {asg : List Asg} (hF : Found cross edge starts asg)
    (hall : ∀ a ∈ asg, a ≠ none) {e : Nat} (he : e < edge.length) :
    ∃ x ∈ starts, e ∈ cyc (nx cross edge) x := by
  by_contra hc
  push Not at hc
  have := hF.off e he hc
  exact hall _ (List.mem_of_getElem? this) rfl

theorem Found.fill {starts : List Nat} {asg : List Asg} (hF : Found cross edge starts asg)
    (hall : ∀ a ∈ asg, a ≠ none) :
    fill asg 0 ((starts.map (per (nx cross edge))).map (fun k => List.replicate k 0)) =
      .ok (starts.map (cyc (nx cross edge))) := by
  have hI := injOn_nx hC hO
  have back : ∀ e c p, asg[e]? = some (some (c, p)) →
      ∃ h : c < starts.length, p < per (nx cross edge) starts[c] ∧ (nx cross edge)^[p] starts[c] = e := by
    intro e c p h
    have he : e < edge.length := by
      have := (List.getElem?_eq_some_iff.mp h).1; rw [hF.len] at this; exact this
    obtain ⟨x, hx, hex⟩ := hF.covers hall he
    obtain ⟨c', hc', rfl⟩ := List.getElem_of_mem hx
    obtain ⟨i, hi, rfl⟩ := List.mem_map.mp hex
    rw [List.mem_range] at hi
    have := hF.on c' hc' i hi
    rw [h] at this
    simp only [Option.some.injEq, Prod.mk.injEq] at this
    obtain ⟨rfl, rfl⟩ := this
    exact ⟨hc', hi, rfl⟩
  obtain ⟨comps', h1, h2, h3, _⟩ := fill_spec asg 0
    ((starts.map (per (nx cross edge))).map (fun k => List.replicate k 0)) (by
      intro a ha
      obtain ⟨e, he, rfl⟩ := List.getElem_of_mem ha
      match hq : asg[e] with
      | none => exact absurd hq (hall _ ha)
      | some (c, p) =>
        obtain ⟨hc, hp, _⟩ := back e c p (by rw [← hq]; exact List.getElem?_eq_getElem he)
        exact ⟨c, p, List.replicate (per (nx cross edge) starts[c]) 0, rfl, by simp [hc], by simpa using hp⟩)
  rw [h1]
  congr 1
  apply List.ext_getElem?
  intro c
  have hlen : comps'.length = starts.length := by
    have := congrArg List.length h2; simpa using this
  by_cases hc : c < starts.length
  · have hc' : c < comps'.length := by omega
    rw [List.getElem?_eq_getElem hc', List.getElem?_map, List.getElem?_eq_getElem hc, Option.map_some]
    congr 1
    have hbl : comps'[c].length = per (nx cross edge) starts[c] := by
      have := congrArg (fun l => l[c]?) h2
      simpa [hc, hc'] using this
    apply List.ext_getElem?
    intro p
    by_cases hp : p < per (nx cross edge) starts[c]
    · have hon := hF.on c hc p hp
      have := h3 _ c p hon (by
        intro j' hj'
        obtain ⟨_, _, e⟩ := back _ _ _ hj'
        exact e.symm)
      unfold entry at this
      rw [List.getElem?_eq_getElem hc', Option.bind_some, Nat.zero_add] at this
      rw [this, cyc_getElem? hp]
    · rw [List.getElem?_eq_none (by omega), List.getElem?_eq_none (by rw [cyc_length]; omega)]
  · rw [List.getElem?_eq_none (by omega), List.getElem?_eq_none (by simp; omega)]

/-- The component buffers, one after the other, list every edge once. -/
theorem Found.flat {starts : List Nat} {asg : List Asg} (hF : Found cross edge starts asg)
    (hall : ∀ a ∈ asg, a ≠ none) :
    ((starts.map (cyc (nx cross edge))).flatten).Perm (List.range edge.length) := by
  have hI := injOn_nx hC hO
  rw [← List.flatMap_def]
  rw [List.perm_ext_iff_of_nodup]
  · intro e
    rw [List.mem_flatMap, List.mem_range]
    constructor
    · rintro ⟨x, hx, he⟩
      exact Finset.mem_range.mp (hI.cyc_subset (Finset.mem_range.mpr (hF.lt x hx)) he)
    · intro he; exact hF.covers hall he
  · exact hI.flat_nodup (fun x hx => Finset.mem_range.mpr (hF.lt x hx)) hF.sep
  · exact List.nodup_range

end

/-! ### Renumbering -/

theorem transEdges_append : ∀ (a b : List Nat) (i : Nat) (old new : List (Option Nat)),
    transEdges (a ++ b) i old new = (transEdges a i old new >>= fun p =>
      transEdges b (i + a.length) p.1 p.2)
  | [], b, i, old, new => by simp [transEdges, ok_bind]
  | e :: a, b, i, old, new => by
    simp only [List.cons_append, transEdges, bind_assoc]
    congr 1
    funext old'
    congr 1
    funext new'
    rw [transEdges_append a b (i + 1) old' new']
    simp only [List.length_cons]
    rw [show i + (a.length + 1) = i + 1 + a.length by omega]

/-- The new component records. -/
def renum : List Comp → Nat → List Comp
  | [], _ => []
  | c :: l, i => { c with edge := List.range' i c.edge.length } :: renum l (i + c.edge.length)

theorem transComps_eq : ∀ (l : List Comp) (i : Nat) (old new : List (Option Nat)),
    transComps l i old new = (transEdges (l.flatMap (·.edge)) i old new >>= fun p =>
      .ok (renum l i, p.1, p.2))
  | [], i, old, new => by simp [transComps, transEdges, renum, ok_bind]
  | c :: l, i, old, new => by
    simp only [transComps, List.flatMap_cons, transEdges_append, bind_assoc, renum]
    congr 1
    funext p
    obtain ⟨o, n⟩ := p
    simp only
    rw [transComps_eq l (i + c.edge.length) o n]
    cases transEdges (List.flatMap (fun x => x.edge) l) (i + c.edge.length) o n <;> rfl

theorem transEdges_spec : ∀ (l : List Nat) (i : Nat) (old new : List (Option Nat)),
    l.Nodup → (∀ e ∈ l, e < new.length) → i + l.length ≤ old.length →
    ∃ old' new', transEdges l i old new = .ok (old', new') ∧ old'.length = old.length ∧
      new'.length = new.length ∧
      (∀ (j e : Nat), l[j]? = some e → old'[i + j]? = some (some e) ∧ new'[e]? = some (some (i + j))) ∧
      (∀ j, j < i → old'[j]? = old[j]?) ∧ (∀ e, e ∉ l → new'[e]? = new[e]?)
  | [], i, old, new, _, _, _ => ⟨old, new, rfl, rfl, rfl, by simp, by simp, by simp⟩
  | e :: l, i, old, new, hn, hb, hi => by
    rw [List.nodup_cons] at hn
    have he := hb e (by simp)
    simp only [List.length_cons] at hi
    obtain ⟨old', new', h1, h2, h3, h4, h5, h6⟩ := transEdges_spec l (i + 1) (old.set i (some e))
      (new.set e (some i)) hn.2 (fun x hx => by rw [List.length_set]; exact hb x (by simp [hx]))
      (by rw [List.length_set]; omega)
    refine ⟨old', new', ?_, by simpa using h2, by simpa using h3, ?_, ?_, ?_⟩
    · unfold transEdges
      rw [wr_lt (by omega), ok_bind, wr_lt he, ok_bind, h1]
    · intro j x hx
      cases j with
      | zero =>
        simp at hx
        subst hx
        rw [Nat.add_zero, h5 i (by omega), h6 e hn.1]
        exact ⟨List.getElem?_set_self (by omega), List.getElem?_set_self he⟩
      | succ j =>
        have := h4 j x (by simpa using hx)
        rwa [show i + 1 + j = i + (j + 1) by omega] at this
    · intro j hj
      rw [h5 j (by omega), List.getElem?_set_ne (by omega)]
    · intro x hx
      simp only [List.mem_cons, not_or] at hx
      rw [h6 x hx.2, List.getElem?_set_ne (Ne.symm hx.1)]

theorem renum_flat : ∀ (l : List Comp) (i : Nat),
    (renum l i).flatMap (·.edge) = List.range' i (l.flatMap (·.edge)).length
  | [], i => rfl
  | c :: l, i => by
    simp only [renum, List.flatMap_cons, List.length_append, renum_flat l]
    rw [List.range'_append_1]

theorem renum_length : ∀ (l : List Comp) (i : Nat), (renum l i).map (·.edge.length) = l.map (·.edge.length)
  | [], i => rfl
  | c :: l, i => by simp [renum, renum_length l]

theorem renum_tag : ∀ (l : List Comp) (i : Nat), (renum l i).map (·.tag) = l.map (·.tag)
  | [], i => rfl
  | c :: l, i => by simp [renum, renum_tag l]

/-- Where each new record comes from. -/
theorem renum_get : ∀ (l : List Comp) (i k : Nat) (c' : Comp), (renum l i)[k]? = some c' →
    ∃ c s, l[k]? = some c ∧ c'.edge = List.range' (i + s) c.edge.length ∧
      ∀ j, j < c.edge.length → (l.flatMap (·.edge))[s + j]? = c.edge[j]?
  | [], i, k, c', h => by simp [renum] at h
  | c :: l, i, 0, c', h => by
    simp [renum] at h
    subst h
    refine ⟨c, 0, rfl, rfl, ?_⟩
    intro j hj
    rw [List.flatMap_cons, Nat.zero_add, List.getElem?_append_left hj]
  | c :: l, i, k + 1, c', h => by
    simp [renum] at h
    obtain ⟨d, s, h1, h2, h3⟩ := renum_get l (i + c.edge.length) k c' h
    refine ⟨d, c.edge.length + s, by simpa using h1, by rw [h2]; congr 1; omega, ?_⟩
    intro j hj
    rw [List.flatMap_cons, List.getElem?_append_right (by omega), ← h3 j hj]
    congr 1
    omega

theorem rdSet_ok {α : Type} {l : List (Option α)} {i : Nat} {x : α} (h : l[i]? = some (some x)) :
    rdSet l i = .ok x := by
  unfold rdSet
  rw [rd_ok h, ok_bind]

theorem moveEdges_spec (edge : List Edge) (old : List (Option Nat)) (F : List Nat)
    (hold : ∀ (j e : Nat), F[j]? = some e → old[j]? = some (some e)) (hF : ∀ e ∈ F, e < edge.length) :
    ∀ (r i : Nat), i + r = F.length → ∃ m, moveEdges edge old r i = .ok m ∧ m.length = r ∧
      ∀ (j e : Nat), F[i + j]? = some e → m[j]? = edge[e]?
  | 0, i, h => by
    refine ⟨[], rfl, rfl, ?_⟩
    intro j e he
    have := (List.getElem?_eq_some_iff.mp he).1
    omega
  | r + 1, i, h => by
    obtain ⟨m, h1, h2, h3⟩ := moveEdges_spec edge old F hold hF r (i + 1) (by omega)
    have hi : i < F.length := by omega
    have hFi : F[i]? = some F[i] := List.getElem?_eq_getElem hi
    have he := hF _ (List.getElem_mem hi)
    refine ⟨edge[F[i]] :: m, ?_, by simp [h2], ?_⟩
    · unfold moveEdges
      rw [rdSet_ok (hold i _ hFi), ok_bind, rd_lt he, ok_bind, h1, ok_bind]
    · intro j e hje
      cases j with
      | zero =>
        rw [Nat.add_zero, hFi] at hje
        cases hje
        simp [he]
      | succ j =>
        have := h3 j e (by rw [← hje]; congr 1; omega)
        simpa using this

/-- A crossing with its edges renamed. -/
def renameC (τ : Nat → Nat) (c : Cross) : Cross := ⟨τ c.e0, τ c.e1, τ c.e2, τ c.e3, c.sign⟩

theorem renameC_at (τ : Nat → Nat) (c : Cross) (k : Nat) : (renameC τ c).at k = τ (c.at k) := by
  unfold Cross.at renameC
  split <;> rfl

theorem renameCross_spec (new : List (Option Nat)) (τ : Nat → Nat) : ∀ (l : List Cross),
    (∀ c ∈ l, ∀ k, new[c.at k]? = some (some (τ (c.at k)))) →
    renameCross new l = .ok (l.map (renameC τ))
  | [], _ => rfl
  | c :: l, h => by
    unfold renameCross
    rw [renameCross_spec new τ l (fun x hx => h x (by simp [hx]))]
    have h0 : new[c.e0]? = some (some (τ c.e0)) := h c (by simp) 0
    have h1 : new[c.e1]? = some (some (τ c.e1)) := h c (by simp) 1
    have h2 : new[c.e2]? = some (some (τ c.e2)) := h c (by simp) 2
    have h3 : new[c.e3]? = some (some (τ c.e3)) := h c (by simp) 3
    rw [rdSet_ok h0, ok_bind, rdSet_ok h1, ok_bind, rdSet_ok h2, ok_bind, rdSet_ok h3, ok_bind, ok_bind]
    rfl

theorem tags_edge : ∀ (l : List Comp) (t : Nat), (assignTags l t).map (·.edge) = l.map (·.edge)
  | [], _ => rfl
  | c :: l, t => by simp [assignTags, tags_edge l]

theorem tags_tag : ∀ (l : List Comp) (t : Nat), (assignTags l t).map (·.tag) = List.range' t l.length
  | [], _ => rfl
  | c :: l, t => by simp [assignTags, tags_tag l, List.range'_succ]

/-! ### The renumbered diagram -/

section

variable {cross : List Cross} {edge : List Edge} (hC : Consistent cross edge) (hO : Oriented cross edge)
  {F : List Nat} (hF : F.Perm (List.range edge.length)) {edge1 : List Edge}
  (hl : edge1.length = edge.length) (he1 : ∀ (i e : Nat), F[i]? = some e → edge1[i]? = edge[e]?)

include hF

theorem F_length : F.length = edge.length := by simpa using hF.length_eq

theorem F_nodup : F.Nodup := (hF.nodup_iff).mpr List.nodup_range

theorem F_mem {e : Nat} : e ∈ F ↔ e < edge.length := by rw [hF.mem_iff, List.mem_range]

theorem F_idx {e : Nat} (he : e < edge.length) : F.idxOf e < edge.length ∧ F[F.idxOf e]? = some e := by
  have hm := (F_mem hF).mpr he
  have h1 := List.idxOf_lt_length_of_mem hm
  refine ⟨by rw [← F_length hF]; exact h1, ?_⟩
  rw [List.getElem?_eq_getElem h1, List.getElem_idxOf h1]

theorem idx_F {i e : Nat} (h : F[i]? = some e) : F.idxOf e = i := by
  obtain ⟨hi, rfl⟩ := List.getElem?_eq_some_iff.mp h
  exact (F_nodup hF).idxOf_getElem i hi

include hl he1

theorem edge1_get {i : Nat} {r : Edge} (h : edge1[i]? = some r) :
    ∃ e, F[i]? = some e ∧ edge[e]? = some r := by
  have hi := (List.getElem?_eq_some_iff.mp h).1
  have hi' : i < F.length := by rw [F_length hF, ← hl]; exact hi
  refine ⟨F[i], List.getElem?_eq_getElem hi', ?_⟩
  rw [← he1 i F[i] (List.getElem?_eq_getElem hi')]
  exact h

omit hl in
theorem edge1_idx {e : Nat} {r : Edge} (h : edge[e]? = some r) : edge1[F.idxOf e]? = some r := by
  have he := (List.getElem?_eq_some_iff.mp h).1
  rw [he1 _ e (F_idx hF he).2]
  exact h

omit hF hl he1 in
theorem slot_rename (τ : Nat → Nat) (cross : List Cross) (c k : Nat) :
    slot (cross.map (renameC τ)) c k = (slot cross c k).map τ := by
  unfold slot
  split
  · rw [List.getElem?_map, Option.map_map, Option.map_map]
    congr 1
    funext x
    simp [renameC_at]
  · rfl

include hC

theorem rename_consistent : Consistent (cross.map (renameC (fun e => F.idxOf e))) edge1 := by
  refine ⟨by rw [hl, hC.count, List.length_map], ?_, ?_, ?_⟩
  · intro i r hr
    obtain ⟨e, h1, h2⟩ := edge1_get hF hl he1 hr
    rw [slot_rename, hC.head e r h2, Option.map_some, idx_F hF h1]
  · intro i r hr
    obtain ⟨e, h1, h2⟩ := edge1_get hF hl he1 hr
    rw [slot_rename, hC.tail e r h2, Option.map_some, idx_F hF h1]
  · intro i r hr
    obtain ⟨e, h1, h2⟩ := edge1_get hF hl he1 hr
    exact hC.ends_ne e r h2

omit hC in
include hO in
theorem rename_oriented : Oriented (cross.map (renameC (fun e => F.idxOf e))) edge1 := by
  refine ⟨?_, ?_⟩
  · intro i r hr
    obtain ⟨e, h1, h2⟩ := edge1_get hF hl he1 hr
    obtain ⟨e', r', h3, h4⟩ := hO.through_head e r h2
    exact ⟨_, r', edge1_idx hF he1 h3, h4⟩
  · intro i r hr
    obtain ⟨e, h1, h2⟩ := edge1_get hF hl he1 hr
    obtain ⟨e', r', h3, h4⟩ := hO.through_tail e r h2
    exact ⟨_, r', edge1_idx hF he1 h3, h4⟩

end

theorem sort_comps (qs : QSort) {bufs : List (List Nat)} (hb : ∀ b ∈ bufs, Small b ∧ b.length < 2 ^ 31) :
    (qs.sort compLe (bufs.map (fun b => (⟨b, 0⟩ : Comp)))).Pairwise
      (fun a b => b.edge.length ≤ a.edge.length) ∧
    ((qs.sort compLe (bufs.map (fun b => (⟨b, 0⟩ : Comp)))).map (·.edge)).Perm bufs := by
  have hperm := qs.perm compLe (bufs.map (fun b => (⟨b, 0⟩ : Comp)))
  have ho := order_of_key (P := fun f : Comp => Small f.edge ∧ f.edge.length < 2 ^ 31)
    (same := fun a b => (2 ^ 31 - a.edge.length) :: a.edge = (2 ^ 31 - b.edge.length) :: b.edge)
    (cmp := compCmp) (fun f => (2 ^ 31 - f.edge.length) :: f.edge)
    (fun a b ha hb => longLex_spec _ _ ha.1 hb.1 ha.2 hb.2) (by intros; rfl)
  have hP : ∀ a ∈ bufs.map (fun b => (⟨b, 0⟩ : Comp)), Small a.edge ∧ a.edge.length < 2 ^ 31 := by
    intro a ha
    obtain ⟨b, hb', rfl⟩ := List.mem_map.mp ha
    exact hb b hb'
  have hsorted := qs.sorted compLe (bufs.map (fun b => (⟨b, 0⟩ : Comp)))
    (by
      intro a b ha hb
      have := ho.swap a b (hP a ha) (hP b hb)
      simp only [compLe, Bool.or_eq_true, decide_eq_true_eq]
      omega)
    (by
      intro a b c ha hb hc h1 h2
      simp only [compLe, decide_eq_true_eq] at *
      exact ho.trans a b c (hP a ha) (hP b hb) (hP c hc) h1 h2)
  constructor
  · refine List.Pairwise.imp_of_mem ?_ hsorted
    intro a b ha hb h
    have pa := hP a (hperm.mem_iff.mp ha)
    have pb := hP b (hperm.mem_iff.mp hb)
    simp only [compLe, decide_eq_true_eq] at h
    unfold compCmp longLex at h
    split at h
    · rw [udiff_eq pb.2 pa.2] at h; omega
    · omega
  · have := hperm.map (·.edge)
    rwa [List.map_map, show ((fun x : Comp => x.edge) ∘ fun b => (⟨b, 0⟩ : Comp)) = id from rfl,
      List.map_id] at this

/-- What the output of `pd_regenerate_comps` has to do with its input. -/
theorem regenComps_ok (qs : QSort) {maxedges maxcomps : Nat} {cross : List Cross} {edge : List Edge}
    (hC : Consistent cross edge) (hO : Oriented cross edge) (h0 : cross ≠ [])
    (hmax : edge.length ≤ maxedges) (hsmall : edge.length < 2 ^ 31)
    (hsort : cross.Pairwise (fun a b =>
        ¬ ([b.e0, b.e1, b.e2, b.e3] : List Nat) < [a.e0, a.e1, a.e2, a.e3]))
    (hK : ∀ starts : List Nat, (∀ x ∈ starts, x < edge.length) →
      starts.Pairwise (fun x y => y ∉ cyc (nx cross edge) x) → starts.length ≤ maxcomps) :
    ∃ (cross' : List Cross) (edge' : List Edge) (comps : List Comp) (F : List Nat) (σ ρ : Nat → Nat)
      (edge1 : List Edge),
      regenComps qs maxedges maxcomps cross edge = .ok (cross', edge', comps) ∧
      F.Perm (List.range edge.length) ∧ edge1.length = edge.length ∧
      (∀ (i e : Nat), F[i]? = some e → edge1[i]? = edge[e]?) ∧
      Resort (cross.map (renameC (fun e => F.idxOf e))) edge1 cross' edge' σ ρ ∧
      cross'.Pairwise (fun a b => crossCmp a b ≤ 0) ∧
      (∀ c ∈ cross', ∀ k, c.at 0 ≤ c.at k) ∧
      comps.flatMap (·.edge) = List.range edge.length ∧
      comps.Pairwise (fun a b => b.edge.length ≤ a.edge.length) ∧
      comps.map (·.tag) = List.range' 65 comps.length ∧
      (∀ c ∈ comps, c.edge ≠ []) ∧
      (∀ c ∈ comps, ∀ (j e : Nat), c.edge[j]? = some e → ∃ f, F[e]? = some f ∧
        c.edge[(j + 1) % c.edge.length]? = some (F.idxOf (nx cross edge f))) := by
  have hI := injOn_nx hC hO
  obtain ⟨ok1, ok2⟩ := C23_checks_accept maxedges cross edge hC hO h0 hmax (by omega) hsort
  have hpos : 0 < edge.length := by
    have : 0 < cross.length := List.length_pos_iff.mpr h0
    have := hC.count
    omega
  have hF0 : Found cross edge [] (List.replicate edge.length none) := by
    refine ⟨by simp, by simp, by simp, by simp, ?_⟩
    intro e he _
    simp [he]
  obtain ⟨starts, asg, l1, hFd, hall⟩ := compsLoop_spec hC hO hmax hK maxcomps 0 []
    (List.replicate edge.length none) (by simp) hF0 (by simp [hpos])
  have hfill := hFd.fill hC hO hall
  have hflat := hFd.flat hC hO hall
  obtain ⟨bufs, hbufs⟩ : ∃ bufs, bufs = starts.map (cyc (nx cross edge)) := ⟨_, rfl⟩
  rw [← hbufs] at hfill hflat
  have hsb : ∀ b ∈ bufs, Small b ∧ b.length < 2 ^ 31 := by
    intro b hb
    rw [hbufs] at hb
    obtain ⟨x, hx, rfl⟩ := List.mem_map.mp hb
    have hx' := Finset.mem_range.mpr (hFd.lt x hx)
    refine ⟨?_, ?_⟩
    · intro y hy
      have := Finset.mem_range.mp (hI.cyc_subset hx' hy)
      omega
    · rw [cyc_length]
      have := hI.per_le hx'
      simp at this
      omega
  obtain ⟨sorted1, sorted2⟩ := sort_comps qs hsb
  obtain ⟨sc, hsc⟩ : ∃ sc, sc = qs.sort compLe (bufs.map (fun b => (⟨b, 0⟩ : Comp))) := ⟨_, rfl⟩
  rw [← hsc] at sorted1 sorted2
  obtain ⟨tc, htc⟩ : ∃ tc, tc = assignTags sc 65 := ⟨_, rfl⟩
  have htce : tc.map (·.edge) = sc.map (·.edge) := by rw [htc]; exact tags_edge _ _
  obtain ⟨F, hFdef⟩ : ∃ F, F = tc.flatMap (·.edge) := ⟨_, rfl⟩
  have hF : F.Perm (List.range edge.length) := by
    rw [hFdef, List.flatMap_def, htce]
    exact (sorted2.flatten).trans hflat
  obtain ⟨old, new, t1, t2, t3, t4, _, _⟩ := transEdges_spec F 0 (List.replicate maxedges none)
    (List.replicate maxedges none) (F_nodup hF)
    (fun e he => by
      have := (F_mem hF).mp he
      simp; omega)
    (by have := F_length hF; simp; omega)
  obtain ⟨edge1, m1, m2, m3⟩ := moveEdges_spec edge old F
    (fun j e hj => by have := (t4 j e hj).1; rwa [Nat.zero_add] at this)
    (fun e he => (F_mem hF).mp he) edge.length 0 (by rw [F_length hF, Nat.zero_add])
  have he1 : ∀ (i e : Nat), F[i]? = some e → edge1[i]? = edge[e]? := by
    intro i e h
    exact m3 i e (by rwa [Nat.zero_add])
  have hren := renameCross_spec new (fun e => F.idxOf e) cross (by
    intro c hc k
    obtain ⟨i, hi, rfl⟩ := List.getElem_of_mem hc
    have hs := hC.slot_edge_lt (slot_of_lt hi (Nat.mod_lt k (by decide : 0 < 4)))
    rw [← at_lt] at hs
    have := (t4 _ _ (F_idx hF hs).2).2
    rwa [Nat.zero_add] at this)
  have hC1 := rename_consistent hC hF m2 he1
  obtain ⟨cross', edge', σ, ρ, g1, g2, g3, g4⟩ := regen_ok qs
    (cross := cross.map (renameC (fun e => F.idxOf e))) (edge := edge1)
    (by
      intro r hr
      obtain ⟨e, he, rfl⟩ := List.getElem_of_mem hr
      have hg : edge1[e]? = some edge1[e] := by simp [he]
      exact ⟨(slot_lt (hC1.head _ _ hg)).1, (slot_lt (hC1.tail _ _ hg)).1⟩)
    (by
      intro c hc x hx
      obtain ⟨i, hi, rfl⟩ := List.getElem_of_mem hc
      obtain ⟨k, hk, rfl⟩ := edges_mem hx
      have := hC1.slot_edge_lt (slot_of_lt hi hk)
      rw [m2] at this
      omega)
  have hlens : tc.map (·.edge.length) = sc.map (·.edge.length) := by
    have := congrArg (List.map List.length) htce
    rwa [List.map_map, List.map_map] at this
  have htcl : tc.length = sc.length := by
    have := congrArg List.length htce; simpa using this
  have hren2 : (renum tc 0).length = tc.length := by
    have := congrArg List.length (renum_length tc 0); simpa using this
  refine ⟨cross', edge', renum tc 0, F, σ, ρ, edge1, ?_, hF, m2, he1, g2, g3, g4, ?_, ?_, ?_, ?_, ?_⟩
  · unfold regenComps
    rw [ok1, ok_bind, assertC_ok rfl, ok_bind, ok2, ok_bind, assertC_ok rfl, ok_bind]
    have l1' : compsLoop maxedges cross maxcomps 0 0 edge (List.replicate edge.length none) [] =
      .ok (edge, asg, starts.map (per (nx cross edge))) := l1
    rw [l1', ok_bind]
    simp only
    rw [hfill, ok_bind, ← hsc, ← htc, transComps_eq, ← hFdef, t1, ok_bind, ok_bind]
    simp only
    rw [m1, ok_bind, hren, ok_bind, g1, ok_bind]
  · rw [renum_flat, ← hFdef, F_length hF, List.range_eq_range']
  · have h1 : (renum tc 0).map (·.edge.length) = sc.map (·.edge.length) := by
      rw [renum_length, hlens]
    have h2 : (sc.map (·.edge.length)).Pairwise (fun a b => b ≤ a) := by
      rw [List.pairwise_map]; exact sorted1
    rw [← h1, List.pairwise_map] at h2
    exact h2
  · rw [hren2, renum_tag, htcl, htc, tags_tag]
  · intro c hc
    obtain ⟨k, hk, rfl⟩ := List.getElem_of_mem hc
    obtain ⟨d, s, h1, h2, h3⟩ := renum_get tc 0 k _ (List.getElem?_eq_getElem hk)
    have hd : d.edge ∈ bufs := by
      have : d.edge ∈ tc.map (·.edge) := List.mem_map.mpr ⟨d, List.mem_of_getElem? h1, rfl⟩
      rw [htce] at this
      exact sorted2.mem_iff.mp this
    rw [hbufs] at hd
    obtain ⟨x, hx, hxd⟩ := List.mem_map.mp hd
    have := hI.per_pos (Finset.mem_range.mpr (hFd.lt x hx))
    rw [h2, ← hxd]
    intro hnil
    have := congrArg List.length hnil
    simp [cyc_length] at this
    omega
  · intro c hc j e hje
    obtain ⟨k, hk, rfl⟩ := List.getElem_of_mem hc
    obtain ⟨d, s, h1, h2, h3⟩ := renum_get tc 0 k _ (List.getElem?_eq_getElem hk)
    have hd : d.edge ∈ bufs := by
      have : d.edge ∈ tc.map (·.edge) := List.mem_map.mpr ⟨d, List.mem_of_getElem? h1, rfl⟩
      rw [htce] at this
      exact sorted2.mem_iff.mp this
    rw [hbufs] at hd
    obtain ⟨x, hx, hxd⟩ := List.mem_map.mp hd
    have hx' := Finset.mem_range.mpr (hFd.lt x hx)
    have hp := hI.per_pos hx'
    have hdl : d.edge.length = per (nx cross edge) x := by rw [← hxd, cyc_length]
    rw [h2] at hje ⊢
    have hj : j < per (nx cross edge) x := by
      have := (List.getElem?_eq_some_iff.mp hje).1
      rw [List.length_range', hdl] at this
      exact this
    have hje' : e = s + j := by
      rw [List.getElem?_range' (by omega)] at hje
      simp at hje
      omega
    have hdj : ∀ i, i < per (nx cross edge) x → F[s + i]? = some ((nx cross edge)^[i] x) := by
      intro i hi
      rw [hFdef, h3 i (by omega), ← hxd, cyc_getElem? hi]
    refine ⟨(nx cross edge)^[j] x, by rw [hje']; exact hdj j hj, ?_⟩
    rw [List.length_range', hdl]
    have hm := Nat.mod_lt (j + 1) hp
    rw [List.getElem?_range' (by omega)]
    congr 1
    rw [← Function.iterate_succ_apply' (nx cross edge) j x]
    rw [show Nat.succ j = j + 1 from rfl, ← iterate_mod_per (nx cross edge) x (j + 1)]
    rw [idx_F hF (hdj _ hm)]
    omega

end Plc.Comps
