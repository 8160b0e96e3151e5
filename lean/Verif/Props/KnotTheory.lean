import Verif.Proofs.KnotTheory
import Verif.Props.Regenerate
import Verif.Props.Strands
import Verif.Proofs.PlaneCheck

/-! # C41: KnotTheory codes -/

namespace Plc

open Plc.Core Plc.Cmp Plc.KT Plc.Strands Plc.Regenerate Plc.Moves

/-- What `pd_read_KnotTheory` returns once the diagram is built: the diagram if it passes `pd_ok`. -/
def checked (ok : Whole → Bool) (d : Whole) : Option Whole := if ok d then some d else none

/-- **C41 (part).** Components with at least three edges. If the numbers are the code of a plane diagram,
`pd_read_KnotTheory` builds that diagram, up to the names of edges and crossings and the place where
reading a crossing starts: strands keep their direction, and the signs are those of the code. Missing:
components with two edges, for which the claim is false (see below), and the check `pd_ok` at the end. -/
theorem C41_read_partial (qs : QSort) (ok : Whole → Bool) (l : List Quad) (cross : List Cross) (edge : List Edge)
    (h : CodeOf l cross edge) (hsmall : 2 * edge.length < 2 ^ 31) :
    ∃ cross' edge' comps faces τ σ ρ,
      readCode qs ok l = .ok (checked ok (cross', edge', comps, faces)) ∧
      Renamed cross edge cross' edge' τ σ ρ (fun _ => false) ∧ SameSigns cross cross' σ ∧
      SortedCross cross' ∧ GoodComps cross' edge' comps ∧ GoodFaces cross' edge' faces := by
  have hC := h.plane.consistent
  have hO := h.plane.oriented
  have hc := hC.count
  have hlen := h.len
  have hset : ∀ x ∈ cross, x.sign ≠ .unset := by
    intro x hx
    obtain ⟨c, hcl, rfl⟩ := List.getElem_of_mem hx
    rcases in_or_out hC hcl (show 1 < 4 by decide) with hi | ho
    · rw [h.neg c _ (List.getElem?_eq_getElem hcl) hi]; decide
    · rw [h.pos c _ (List.getElem?_eq_getElem hcl) (out_opp hC hO ho)]; decide
  obtain ⟨x0, hx0⟩ := List.exists_mem_of_ne_nil _ h.plane.nonempty
  obtain ⟨cross', edge', comps, faces, τ, σ, ρ, h1, h2, h3, h4⟩ := C49_regenerate_keeps qs (l.length + 2) cross edge h.plane
    ⟨x0, hx0, hset x0 hx0⟩ (by omega) hsmall
  refine ⟨cross', edge', comps, faces, τ, σ, ρ, ?_, h2, h3, h4⟩
  obtain ⟨buf, s1, s2, s3⟩ := scan_ok h (by omega) (buf := List.replicate (Io.capsNew (l.length + 2)).edges ⟨0, 0, 0, 0⟩)
    (by rw [List.length_replicate]; simp only [Io.capsNew]; omega)
  have hnone : cross'.any (fun c => decide (c.sign = .unset)) = false := by
    rw [List.any_eq_false]
    intro x hx
    obtain ⟨c, hcl, rfl⟩ := List.getElem_of_mem hx
    obtain ⟨d, hd, hdc⟩ := surj_of_inj h2.slt h2.sinj (by rw [← h2.len]; exact hcl)
    obtain ⟨x', g1, g2⟩ := h3 d _ (List.getElem?_eq_getElem hd)
    rw [hdc, List.getElem?_eq_getElem hcl] at g1
    rw [Option.some.inj g1, g2]
    simpa using hset _ (List.getElem_mem hd)
  unfold readCode
  simp only
  rw [s1, ok_bind]
  simp only
  rw [hlen, pairLoop_id h _ buf _ (fun _ hp => hp), ok_bind]
  simp only
  rw [← hc, s2, ← hlen, h1, ok_bind]
  simp only
  rw [hnone, if_neg (by decide)]
  unfold checked
  split <;> rfl

/-- The diagram with every crossing read from its place `ρ`. -/
def turnCross (cross : List Cross) (ρ : Nat → Nat) : List Cross :=
  cross.mapIdx fun c x => ⟨x.at (ρ c), x.at (ρ c + 1), x.at (ρ c + 2), x.at (ρ c + 3), x.sign⟩

theorem turn_get {cross : List Cross} {c : Nat} {x : Cross} (ρ : Nat → Nat) (hx : cross[c]? = some x) :
    (turnCross cross ρ)[c]? = some ⟨x.at (ρ c), x.at (ρ c + 1), x.at (ρ c + 2), x.at (ρ c + 3), x.sign⟩ := by
  simp only [turnCross, List.getElem?_mapIdx, hx, Option.map_some]

theorem turn_renamed {cross : List Cross} {edge : List Edge} {ρ : Nat → Nat}
    (hρ : ∀ c, ρ c < 4) : Renamed cross edge (turnCross cross ρ) (edge.map (moveEdge id ρ false)) id id ρ (fun _ => false) where
  len := by simp [turnCross]
  elen := by simp
  slt := fun _ h => h
  sinj := fun _ _ _ _ h => h
  tlt := fun _ h => h
  tinj := fun _ _ _ _ h => h
  rho := hρ
  cross := by
    intro c x hx
    refine ⟨_, turn_get ρ hx, ?_⟩
    intro k
    rw [← Cross.at_mod _ k, id]
    have h : k % 4 = 0 ∨ k % 4 = 1 ∨ k % 4 = 2 ∨ k % 4 = 3 := by omega
    have g : x.at (k + ρ c) = x.at (k % 4 + ρ c) := by
      rw [← Cross.at_mod x (k + ρ c), ← Cross.at_mod x (k % 4 + ρ c)]
      congr 1
      omega
    rw [g]
    rcases h with h | h | h | h <;> rw [h] <;> rw [Nat.add_comm _ (ρ c)] <;> rfl
  edge := by
    intro e r hr
    simp [hr]

theorem turn_comesIn {cross cross' : List Cross} {edge edge' : List Edge} {ρ : Nat → Nat}
    (h : Renamed cross edge cross' edge' id id ρ (fun _ => false)) {c k : Nat} (hC' : Consistent cross' edge')
    (hc : ComesIn cross edge c k) : ComesIn cross' edge' c ((k + 4 - ρ c) % 4) := by
  obtain ⟨e, r, h1, h2, h3, h4⟩ := hc
  have he := h.edge e r h2
  have hh := hC'.head _ _ he
  simp only [moveEdge, Bool.false_eq_true, if_false, id, h3, h4] at he hh
  exact ⟨e, _, hh, he, rfl, rfl⟩

/-- **C41 (part).** A signed plane diagram whose edges are numbered in order along each component, with at
least three edges in each and at most 9990 crossings, is written by `pd_write_KnotTheory` and read back as
the same diagram with the same signs, up to names of edges and crossings. -/
theorem C41_write_read_partial (qs : QSort) (ok : Whole → Bool) (cross : List Cross) (edge : List Edge)
    (h : PlaneDiagram cross edge) (hsign : ∀ x ∈ cross, x.sign ≠ .unset)
    (horder : ∀ e f, Follows cross edge e f → f = e + 1 ∨ f + 2 ≤ e) (hn : cross.length ≤ 9990) :
    ∃ t cross' edge' comps faces τ σ ρ,
      writeKT cross edge = .ok t ∧ readKT qs ok t = .ok (checked ok (cross', edge', comps, faces)) ∧
      Renamed cross edge cross' edge' τ σ ρ (fun _ => false) ∧ SameSigns cross cross' σ ∧
      SortedCross cross' ∧ GoodComps cross' edge' comps ∧ GoodFaces cross' edge' faces := by
  have hC := h.consistent
  have hO := h.oriented
  have hcount := hC.count
  -- the place where the strand below comes in
  have hex : ∀ c, ∃ k, k < 4 ∧ ∀ x, cross[c]? = some x → (∃ o, understrandPos cross edge c = .ok (k, o)) ∧
      ComesIn cross edge c k ∧ (ComesIn cross edge c ((k + 1) % 4) → x.sign = .neg) ∧
      (ComesIn cross edge c ((k + 3) % 4) → x.sign = .pos) := by
    intro c
    by_cases hc : c < cross.length
    · have hx := List.getElem?_eq_getElem hc
      obtain ⟨u, u1, u2, u3, u4, u5, u6, u7, u8, u9, u10⟩ := C26_overunder cross edge hC hO c _ hx
      refine ⟨u.underIn, u3, ?_⟩
      intro x hx'
      rw [hx] at hx'
      cases hx'
      have hs := hsign _ (List.getElem_mem hc)
      refine ⟨⟨u.underOut, ?_⟩, u8, ?_, ?_⟩
      · unfold understrandPos
        rw [u1, ok_bind]
      · intro hi
        cases hsg : cross[c].sign with
        | neg => rfl
        | unset => exact absurd hsg hs
        | pos =>
          exfalso
          rw [hsg] at u10
          simp only [reduceCtorEq, if_false] at u10
          have : (u.underIn + 1) % 4 = u.overOut := by omega
          rw [this] at hi
          exact not_both hC hi u7
      · intro hi
        cases hsg : cross[c].sign with
        | pos => rfl
        | unset => exact absurd hsg hs
        | neg =>
          exfalso
          rw [hsg] at u10
          simp only [if_true] at u10
          have : (u.underIn + 3) % 4 = u.overOut := by omega
          rw [this] at hi
          exact not_both hC hi u7
    · exact ⟨0, by decide, fun x hx => absurd (List.getElem?_eq_some_iff.mp hx).1 hc⟩
  choose ρ hρ hρ2 using hex
  have hR := turn_renamed (cross := cross) (edge := edge) hρ
  have hP := h.renamed hR along_false
  have hback : ∀ {c k : Nat}, c < cross.length → k < 4 → ComesIn (turnCross cross ρ) (edge.map (moveEdge id ρ false)) c k →
      ComesIn cross edge c ((k + ρ c) % 4) := by
    intro c k hc hk hi
    rcases in_or_out hC hc (show (k + ρ c) % 4 < 4 from Nat.mod_lt _ (by decide)) with h1 | h1
    · exact h1
    · exfalso
      have h2 := turn_comesIn hR hP.consistent (out_opp hC hO h1)
      have h3 := in_opp hP.consistent hP.oriented h2
      have := hρ c
      have hk2 : ((((k + ρ c) % 4 + 2) % 4 + 4 - ρ c) % 4 + 2) % 4 = k := by omega
      rw [hk2] at h3
      exact not_both hP.consistent hi h3
  have hget : ∀ (c : Nat) (y : Cross), (turnCross cross ρ)[c]? = some y → ∃ x, cross[c]? = some x ∧
      y = ⟨x.at (ρ c), x.at (ρ c + 1), x.at (ρ c + 2), x.at (ρ c + 3), x.sign⟩ := by
    intro c y hy
    simp only [turnCross, List.getElem?_mapIdx, Option.map_eq_some_iff] at hy
    obtain ⟨x, h1, h2⟩ := hy
    exact ⟨x, h1, h2.symm⟩
  let l : List Quad := (turnCross cross ρ).map fun x => ⟨x.e0 + 1, x.e1 + 1, x.e2 + 1, x.e3 + 1⟩
  have hl : l.length = cross.length := by simp [l, turnCross]
  have hcode : CodeOf l (turnCross cross ρ) (edge.map (moveEdge id ρ false)) := by
    have hord : ∀ e f, Follows (turnCross cross ρ) (edge.map (moveEdge id ρ false)) e f → f = e + 1 ∨ f + 2 ≤ e := by
      intro e f hf
      have he := ((Comps.follows_iff hP.consistent e f).mp hf).1
      rw [hR.elen] at he
      have hf0 := (Comps.follows_iff hC e (Comps.nx cross edge e)).mpr ⟨he, rfl⟩
      have hf1 : Follows (turnCross cross ρ) (edge.map (moveEdge id ρ false)) e (Comps.nx cross edge e) := by
        simpa using hR.follows hC hO along_false hf0
      have := ((Comps.follows_iff hP.consistent _ _).mp hf).2.symm.trans ((Comps.follows_iff hP.consistent _ _).mp hf1).2
      rw [this]
      exact horder _ _ hf0
    refine ⟨⟨hP, by simp [l], ?_, ?_, ?_, ?_, fun e f hf => ?_⟩, hord⟩
    · intro c q hq
      simp only [l, List.getElem?_map, Option.map_eq_some_iff] at hq
      obtain ⟨x, h1, h2⟩ := hq
      exact ⟨x, h1, h2.symm⟩
    · intro c hc
      rw [hR.len] at hc
      have := turn_comesIn hR hP.consistent (hρ2 c _ (List.getElem?_eq_getElem hc)).2.1
      have h4 : (ρ c + 4 - ρ c) % 4 = 0 := by omega
      rwa [h4] at this
    · intro c y hy hi
      obtain ⟨x, hx, rfl⟩ := hget c y hy
      have hc := (List.getElem?_eq_some_iff.mp hx).1
      have := hback hc (by decide) hi
      rw [Nat.add_comm] at this
      exact (hρ2 c x hx).2.2.1 this
    · intro c y hy hi
      obtain ⟨x, hx, rfl⟩ := hget c y hy
      have hc := (List.getElem?_eq_some_iff.mp hx).1
      have := hback hc (by decide) hi
      rw [Nat.add_comm] at this
      exact (hρ2 c x hx).2.2.2 this
    · have := hord e f hf
      omega
  obtain ⟨cross', edge', comps, faces, τ, σ, ρ', r1, r2, r3, r4, r5⟩ := C41_read_partial qs ok l _ _ hcode
    (by rw [hR.elen]; omega)
  have t := hR.trans r2 hC
  simp only [Bool.xor_false] at t
  have hss : SameSigns cross (turnCross cross ρ) id := by
    intro c x hx
    exact ⟨_, turn_get ρ hx, rfl⟩
  refine ⟨text l, cross', edge', comps, faces, _, _, _, ?_, ?_, t, SameSigns.trans hss r3, r4, r5⟩
  · apply writeKT_ok hl
    intro c q hq
    simp only [l, List.getElem?_map, Option.map_eq_some_iff] at hq
    obtain ⟨y, h1, h2⟩ := hq
    obtain ⟨x, hx, rfl⟩ := hget c y h1
    obtain ⟨⟨o, ho⟩, _⟩ := hρ2 c x hx
    unfold quadOf
    rw [ho, ok_bind]
    simp only
    rw [rd_ok hx, ok_bind, ← h2]
  · rw [readKT_text qs ok (by intro h0; rw [h0] at hl; exact h.nonempty (List.length_eq_zero_iff.mp hl.symm)) ?_ (by omega), r1]
    intro q hq
    simp only [l, List.mem_map] at hq
    obtain ⟨y, hy, rfl⟩ := hq
    obtain ⟨c, hc, rfl⟩ := List.getElem_of_mem hy
    have lt : ∀ k, k < 4 → (turnCross cross ρ)[c].at k < 2 * 9990 := by
      intro k hk
      have := hP.consistent.slot_edge_lt (slot_of_lt hc hk)
      rw [hR.elen] at this
      omega
    have l0 := lt 0 (by decide)
    have l1 := lt 1 (by decide)
    have l2 := lt 2 (by decide)
    have l3 := lt 3 (by decide)
    change (turnCross cross ρ)[c].e0 < _ at l0
    change (turnCross cross ρ)[c].e1 < _ at l1
    change (turnCross cross ρ)[c].e2 < _ at l2
    change (turnCross cross ρ)[c].e3 < _ at l3
    refine ⟨?_, ?_, ?_, ?_⟩ <;> simp only <;> omega

/-- Reading a finite diagram off its records. -/
theorem codes_of {l : List Quad} {cross : List Cross} {edge : List Edge} (hP : PlaneDiagram cross edge)
    (hl : l = cross.map fun x => ⟨x.e0 + 1, x.e1 + 1, x.e2 + 1, x.e3 + 1⟩)
    (hu : ∀ c < cross.length, ComesIn cross edge c 0)
    (hs : ∀ c : Fin cross.length, (ComesIn cross edge c 1 → cross[c].sign = .neg) ∧
      (ComesIn cross edge c 3 → cross[c].sign = .pos))
    (hn : ∀ e < edge.length, Comps.nx cross edge e = e + 1 ∨ Comps.nx cross edge e < e) : Codes l cross edge := by
  refine ⟨hP, by rw [hl]; simp, ?_, hu, ?_, ?_, ?_⟩
  · intro c q hq
    rw [hl] at hq
    simp only [List.getElem?_map, Option.map_eq_some_iff] at hq
    obtain ⟨x, h1, h2⟩ := hq
    exact ⟨x, h1, h2.symm⟩
  · intro c x hx
    obtain ⟨hlt, rfl⟩ := List.getElem?_eq_some_iff.mp hx
    exact (hs ⟨c, hlt⟩).1
  · intro c x hx
    obtain ⟨hlt, rfl⟩ := List.getElem?_eq_some_iff.mp hx
    exact (hs ⟨c, hlt⟩).2
  · intro e f hf
    obtain ⟨h1, h2⟩ := (Comps.follows_iff hP.consistent e f).mp hf
    rw [← h2]
    exact hn e h1

/-- The trefoil `PD[X[1,4,2,5],X[3,6,4,1],X[5,2,6,3]]`. -/
def kt3 : List Quad := [⟨1, 4, 2, 5⟩, ⟨3, 6, 4, 1⟩, ⟨5, 2, 6, 3⟩]
def kt3Cross : List Cross := [⟨0, 3, 1, 4, .neg⟩, ⟨2, 5, 3, 0, .neg⟩, ⟨4, 1, 5, 2, .neg⟩]
def kt3Edge : List Edge := [⟨0, 0, 1, 3⟩, ⟨2, 1, 0, 2⟩, ⟨1, 0, 2, 3⟩, ⟨0, 1, 1, 2⟩, ⟨2, 0, 0, 3⟩, ⟨1, 1, 2, 2⟩]

theorem kt3_plane : PlaneDiagram kt3Cross kt3Edge :=
  ⟨by decide, by decide, by decide, connected_of (by decide),
    planeFaces_of (by decide) 6 (by decide) (by decide) [(0, .pos), (0, .neg), (1, .pos), (1, .neg), (2, .neg)] rfl
      (by decide) (by decide) (by decide) (by decide)⟩

/-- The hypotheses of `C41_read_partial` hold for the trefoil. -/
theorem kt3_code : CodeOf kt3 kt3Cross kt3Edge :=
  ⟨codes_of kt3_plane rfl (by decide) (by decide) (by decide), by
    have h : ∀ e < kt3Edge.length, Comps.nx kt3Cross kt3Edge e = e + 1 ∨ Comps.nx kt3Cross kt3Edge e + 2 ≤ e := by decide
    intro e f hf
    obtain ⟨h1, h2⟩ := (Comps.follows_iff kt3_plane.consistent e f).mp hf
    rw [← h2]
    exact h e h1⟩

example : (writeKT kt3Cross kt3Edge).map String.ofList = .ok "PD[X[1,4,2,5],X[3,6,4,1],X[5,2,6,3]]\n" := by decide +kernel

instance : DecidableEq Whole := fun a b => instDecidableEqProd a b

/-- **C41 is false** for two-edge components: reading the code of the unknot with one loop, the program exits. -/
theorem C41_loop_dies : ∃ l cross edge, Codes l cross edge ∧
    readCode insQSort (fun _ => true) l = .error .die :=
  ⟨[⟨1, 2, 2, 1⟩], [⟨0, 1, 1, 0, .neg⟩], [⟨0, 0, 0, 3⟩, ⟨0, 1, 0, 2⟩],
    codes_of ⟨by decide, by decide, by decide, connected_of (by decide),
      planeFaces_of (by decide) 2 (by decide) (by decide) [(0, .pos), (0, .neg), (1, .neg)] rfl
        (by decide) (by decide) (by decide) (by decide)⟩ rfl (by decide) (by decide) (by decide),
    by decide +kernel⟩

/-- **C41 is false** for two-edge components: a Hopf link with negative crossings is read as a Hopf link
with positive crossings. (Two of the twelve tests have the same condition and opposite effects.) -/
theorem C41_hopf_wrong : ∃ l cross edge cross' edge' comps faces, Codes l cross edge ∧
    (∀ x ∈ cross, x.sign = .neg) ∧
    readCode insQSort (fun _ => true) l = .ok (some (cross', edge', comps, faces)) ∧
    Consistent cross' edge' ∧ Oriented cross' edge' ∧ ∀ x ∈ cross', x.sign = .pos :=
  ⟨[⟨4, 1, 3, 2⟩, ⟨2, 3, 1, 4⟩], [⟨3, 0, 2, 1, .neg⟩, ⟨1, 2, 0, 3, .neg⟩],
    [⟨0, 1, 1, 2⟩, ⟨1, 0, 0, 3⟩, ⟨1, 1, 0, 2⟩, ⟨0, 0, 1, 3⟩],
    [⟨0, 2, 1, 3, .pos⟩, ⟨0, 3, 1, 2, .pos⟩], [⟨0, 0, 1, 0⟩, ⟨1, 2, 0, 2⟩, ⟨0, 1, 1, 3⟩, ⟨1, 1, 0, 3⟩],
    [⟨[0, 1], 65⟩, ⟨[2, 3], 66⟩],
    [⟨[0, 2], [.neg, .pos]⟩, ⟨[0, 3], [.pos, .pos]⟩, ⟨[1, 2], [.neg, .neg]⟩, ⟨[1, 3], [.pos, .neg]⟩],
    codes_of ⟨by decide, by decide, by decide, connected_of (by decide),
      planeFaces_of (by decide) 2 (by decide) (by decide) [(0, .pos), (0, .neg), (1, .pos), (1, .neg)] rfl
        (by decide) (by decide) (by decide) (by decide)⟩ rfl (by decide) (by decide) (by decide),
    by decide, by decide +kernel, by decide, by decide, by decide⟩

end Plc
