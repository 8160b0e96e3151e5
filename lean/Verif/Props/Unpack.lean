import Verif.Proofs.Unpack
import Verif.Props.Isotopy

/-! # C56, C57: regenerating twice, and the way through a packed diagram -/

namespace Plc

open Plc.Cmp Plc.Ok Plc.Regenerate Plc.Unpack

/-- **C56** (signed diagrams). Full claim: after `pd_regenerate` another `pd_regenerate` changes nothing. Proved
part: this is so for every plane diagram with at least one sign set, whatever the two calls of `qsort` do with
equal elements, and however large the buffers are. Missing: diagrams without signs, where it is false, see
`C56_unsigned_swings`. -/
theorem C56_regenerate_twice_partial (qs qs' : QSort) (mv mv' : Nat) (pd : Io.Pd) (h : PlaneDiagram pd.cross pd.edge)
    (hsign : ∃ x ∈ pd.cross, x.sign ≠ .unset) (hmv : pd.cross.length ≤ mv) (hmv' : pd.cross.length ≤ mv')
    (hsmall : 2 * pd.edge.length < 2 ^ 31) :
    ∃ pd', regeneratePd qs (Io.capsNew mv) pd = .ok pd' ∧ regeneratePd qs' (Io.capsNew mv') pd' = .ok pd' ∧
      Tidy pd'.cross pd'.edge pd'.comp pd'.face := by
  obtain ⟨cross', edge', comps, faces, τ, σ, ρ, a1, a2, a3, a4, a5, a6⟩ :=
    C49_regenerate_keeps qs mv pd.cross pd.edge h hsign hmv hsmall
  have ht := regenerate_tidy a1 (h.renamed a2 along_false) a4 a5 a6 (by rw [a2.elen]; exact hsmall)
  obtain ⟨s, s1, -⟩ := C50_hash_computed qs cross' edge' faces comps a6
  refine ⟨⟨s, pd.uid, cross', edge', comps, faces⟩, ?_, ?_, ht⟩
  · unfold regeneratePd
    rw [a1, ok_bind]
    simp only
    rw [s1, ok_bind]
  · refine regeneratePd_fix qs' qs mv' (pd := ⟨s, pd.uid, cross', edge', comps, faces⟩) ht ?_ ?_ s1 _ _ _ _
    · obtain ⟨x, hx, hs⟩ := hsign
      obtain ⟨c, hc⟩ := List.mem_iff_getElem?.mp hx
      obtain ⟨x', b1, b2⟩ := a3 c x hc
      exact ⟨x', List.mem_of_getElem? b1, by rw [b2]; exact hs⟩
    · simp only
      rw [a2.len]
      exact hmv'

/-- The Hopf link meets the hypotheses. -/
example : ∃ pd', regeneratePd insQSort (Io.capsNew 2) okHopf = .ok pd' ∧ regeneratePd insQSort (Io.capsNew 5) pd' = .ok pd' ∧
    Tidy pd'.cross pd'.edge pd'.comp pd'.face :=
  C56_regenerate_twice_partial insQSort insQSort 2 5 okHopf IsoSearch.isoHopf_searchable.tidy.plane
    ⟨_, List.mem_cons_self, by decide⟩ (by decide) (by decide) (by decide)

/-- A trefoil without signs, as `pd_regenerate` leaves it. -/
def swingA : Io.Pd where
  hash := "AwYFAwMCAgIBBgAG7wAAAAAAAAAAAAA".toList
  uid := 0
  cross := [⟨0, 3, 5, 2, .unset⟩, ⟨0, 4, 1, 3, .unset⟩, ⟨1, 4, 2, 5, .unset⟩]
  edge := [⟨1, 0, 0, 0⟩, ⟨2, 0, 1, 2⟩, ⟨0, 3, 2, 2⟩, ⟨1, 3, 0, 1⟩, ⟨2, 1, 1, 1⟩, ⟨0, 2, 2, 3⟩]
  comp := [⟨[0, 1, 2, 3, 4, 5], 65⟩]
  face := [⟨[0, 2, 4], [.neg, .neg, .neg]⟩, ⟨[1, 5, 3], [.pos, .pos, .pos]⟩, ⟨[0, 3], [.pos, .neg]⟩,
    ⟨[1, 4], [.neg, .pos]⟩, ⟨[2, 5], [.pos, .neg]⟩]

/-- What another `pd_regenerate` makes of it. -/
def swingB : Io.Pd where
  hash := "AwYFAwMCAgIBBgAG7wAAAAAAAAAAAAA".toList
  uid := 0
  cross := [⟨0, 2, 5, 3, .unset⟩, ⟨0, 3, 1, 4, .unset⟩, ⟨1, 5, 2, 4, .unset⟩]
  edge := [⟨1, 0, 0, 0⟩, ⟨2, 0, 1, 2⟩, ⟨0, 1, 2, 2⟩, ⟨1, 1, 0, 3⟩, ⟨2, 3, 1, 3⟩, ⟨0, 2, 2, 1⟩]
  comp := [⟨[0, 1, 2, 3, 4, 5], 65⟩]
  face := [⟨[0, 4, 2], [.pos, .pos, .pos]⟩, ⟨[1, 3, 5], [.neg, .neg, .neg]⟩, ⟨[0, 3], [.neg, .pos]⟩,
    ⟨[1, 4], [.pos, .neg]⟩, ⟨[2, 5], [.neg, .pos]⟩]

/-- **C56 is false of diagrams without signs.** Every call of `pd_regenerate` turns this trefoil around, so that
numbers at crossings, edge records and faces change each time. -/
theorem C56_unsigned_swings : regeneratePd insQSort (Io.capsNew 3) swingA = .ok swingB ∧
    regeneratePd insQSort (Io.capsNew 3) swingB = .ok swingA ∧ swingA.cross ≠ swingB.cross := by
  refine ⟨by decide +kernel, by decide +kernel, by decide⟩

/-- **C57** (signed diagrams). A diagram in the state `pd_regenerate` leaves it in, with all signs set, comes out
of `pd_pack` and `pd_unpack` as it went in, but for its uid, which is 0. -/
theorem C57_signed_roundtrip (qs : QSort) (pd : Io.Pd) (h : Tidy pd.cross pd.edge pd.comp pd.face)
    (hash : ∃ qs : QSort, HashGen.regenHash qs pd.cross.length pd.edge.length pd.face pd.comp = .ok pd.hash)
    (hs : ∀ c ∈ pd.cross, c.sign ≠ .unset) :
    ∃ ws, Pack.pack pd.cross pd.edge = .ok ws ∧ unpack qs ws = .ok { pd with uid := 0 } := by
  have hsm := h.small
  have hc := h.plane.consistent.count
  obtain ⟨ws, w1, w2, -⟩ := Pack.C03_signed_roundtrip pd.cross pd.edge h.plane.consistent h.plane.nonempty (by omega) hs
  obtain ⟨qs', hq⟩ := hash
  refine ⟨ws, w1, ?_⟩
  have hne : ∃ x ∈ pd.cross, x.sign ≠ .unset := by
    obtain ⟨x, hx⟩ := List.exists_mem_of_ne_nil _ h.plane.nonempty
    exact ⟨x, hx, hs x hx⟩
  unfold unpack
  rw [w2, ok_bind]
  simp only
  rw [regeneratePd_fix qs qs' pd.cross.length h hne (Nat.le_refl _) hq, ok_bind,
    C51_ok_complete qs pd.cross.length { pd with uid := 0 } h (Nat.le_refl _), ok_bind]
  rfl

/-- **C57** (unsigned diagrams). Without signs everything comes back but the signs: all are then negative. -/
theorem C57_unsigned_roundtrip (qs : QSort) (pd : Io.Pd) (h : Tidy pd.cross pd.edge pd.comp pd.face)
    (hash : ∃ qs : QSort, HashGen.regenHash qs pd.cross.length pd.edge.length pd.face pd.comp = .ok pd.hash)
    (hs : ∀ c ∈ pd.cross, c.sign = .unset) :
    ∃ ws, Pack.pack pd.cross pd.edge = .ok ws ∧
      unpack qs ws = .ok { pd with uid := 0, cross := pd.cross.map (fun c => { c with sign := .neg }) } := by
  have hsm := h.small
  have hc := h.plane.consistent.count
  obtain ⟨ws, w1, w2⟩ := Pack.C04_unsigned_roundtrip_partial pd.cross pd.edge h.plane.consistent h.plane.nonempty (by omega) hs
  obtain ⟨qs', hq⟩ := hash
  refine ⟨ws, w1, ?_⟩
  have h' := tidy_resign h (fun _ => .neg)
  have hne : ∃ x ∈ pd.cross.map (resign (fun _ => .neg)), x.sign ≠ .unset := by
    obtain ⟨x, hx⟩ := List.exists_mem_of_ne_nil _ h.plane.nonempty
    exact ⟨_, List.mem_map.mpr ⟨x, hx, rfl⟩, by simp [resign]⟩
  unfold unpack
  rw [w2, ok_bind]
  simp only
  rw [regeneratePd_fix qs qs' _ (pd := { pd with cross := pd.cross.map (fun c => { c with sign := .neg }) }) h' hne
    (Nat.le_refl _) (by rw [List.length_map]; exact hq), ok_bind,
    C51_ok_complete qs _ { pd with uid := 0, cross := pd.cross.map (fun c => { c with sign := .neg }) } h' (Nat.le_refl _),
    ok_bind]
  rfl

/-- **C57** (diagrams in any state). A plane diagram with all signs set, whatever its face and component records
and its hash are, comes out of `pd_pack` and `pd_unpack` as `pd_regenerate` would leave it, with uid 0. -/
theorem C57_roundtrip_regenerates (qs : QSort) (pd : Io.Pd) (h : PlaneDiagram pd.cross pd.edge)
    (hs : ∀ c ∈ pd.cross, c.sign ≠ .unset) (hsmall : 2 * pd.edge.length < 2 ^ 31) :
    ∃ ws pd' τ σ ρ, Pack.pack pd.cross pd.edge = .ok ws ∧ unpack qs ws = .ok pd' ∧
      regeneratePd qs (Io.capsNew pd.cross.length) { pd with uid := 0 } = .ok pd' ∧
      Renamed pd.cross pd.edge pd'.cross pd'.edge τ σ ρ (fun _ => false) ∧ SameSigns pd.cross pd'.cross σ ∧
      Tidy pd'.cross pd'.edge pd'.comp pd'.face := by
  have hc := h.consistent.count
  have hne : ∃ x ∈ pd.cross, x.sign ≠ .unset := by
    obtain ⟨x, hx⟩ := List.exists_mem_of_ne_nil _ h.nonempty
    exact ⟨x, hx, hs x hx⟩
  obtain ⟨ws, w1, w2, -⟩ := Pack.C03_signed_roundtrip pd.cross pd.edge h.consistent h.nonempty (by omega) hs
  obtain ⟨cross', edge', comps, faces, τ, σ, ρ, a1, a2, a3, a4, a5, a6⟩ :=
    C49_regenerate_keeps qs pd.cross.length pd.cross pd.edge h hne (Nat.le_refl _) hsmall
  have ht := regenerate_tidy a1 (h.renamed a2 along_false) a4 a5 a6 (by rw [a2.elen]; exact hsmall)
  obtain ⟨s, s1, -⟩ := C50_hash_computed qs cross' edge' faces comps a6
  have key : ∀ (t : List Char) (k : List Comp) (f : List Face),
      regeneratePd qs (Io.capsNew pd.cross.length) ⟨t, 0, pd.cross, pd.edge, k, f⟩ = .ok ⟨s, 0, cross', edge', comps, faces⟩ := by
    intro t k f
    unfold regeneratePd
    rw [a1, ok_bind]
    simp only
    rw [s1, ok_bind]
  refine ⟨ws, ⟨s, 0, cross', edge', comps, faces⟩, τ, σ, ρ, w1, ?_, key _ _ _, a2, a3, ht⟩
  unfold unpack
  rw [w2, ok_bind]
  simp only
  rw [key, ok_bind, C51_ok_complete qs pd.cross.length ⟨s, 0, cross', edge', comps, faces⟩ ht (by simp only; rw [a2.len]), ok_bind]
  rfl

/-- The Hopf link goes through. -/
example : ∃ ws, Pack.pack isoHopf.cross isoHopf.edge = .ok ws ∧ unpack insQSort ws = .ok { isoHopf with uid := 0 } :=
  C57_signed_roundtrip insQSort isoHopf IsoSearch.isoHopf_searchable.tidy IsoSearch.isoHopf_searchable.hash (by decide)

/-- And so does an unsigned trefoil, but for its signs. -/
example : (Pack.pack swingA.cross swingA.edge >>= unpack insQSort) =
    .ok { swingA with cross := swingA.cross.map (fun c => { c with sign := .neg }) } := by
  decide +kernel

end Plc
