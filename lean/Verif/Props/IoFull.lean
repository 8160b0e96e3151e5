import Verif.Proofs.Neat
import Verif.Proofs.StoreFile
import Verif.Props.KnotTheory
import Verif.Props.IsoSearch

/-! # C40 and C41 with the library's own `pd_ok` and hash -/

namespace Plc

open Plc.Cmp Plc.Core Plc.Ok Plc.Moves Plc.Io Plc.Store
open Plc.Isotopy (retag retag_length hash_retag)

/-- The hash may be written as `unset`, or as the library computes it. -/
def HashFor (pd : Pd) (s : List Char) : Prop :=
  ∃ q : QSort, HashGen.regenHash q pd.cross.length pd.edge.length pd.face pd.comp = .ok s

theorem Neat.hash_any {pd : Pd} (h : Neat pd) {s : List Char} (hs : HashFor pd s) (qs : QSort) :
    HashGen.regenHash qs pd.cross.length pd.edge.length pd.face pd.comp = .ok s := by
  obtain ⟨q, hq⟩ := hs
  rw [← hash_retag] at hq ⊢
  exact Unpack.hash_any h.tidy q qs hq

theorem Neat.writable {pd : Pd} (h : Neat pd) (hu : pd.uid < 2 ^ 64) (ht : ∀ k ∈ pd.comp, 33 ≤ k.tag ∧ k.tag ≤ 126)
    (hh : pd.hash = str "unset" ∨ HashFor pd pd.hash) : Writable pd := by
  have hc := h.tidy.plane.consistent.count
  have hs := h.tidy.small
  have hk := Ok.comps_le h.tidy.plane h.tidy.goodComps
  rw [retag_length] at hk
  have hall := (goodComps_of_retag h.tidy.goodComps).1
  have hhash : pd.hash ≠ [] ∧ (∀ c ∈ pd.hash, c.isAlphanum = true ∨ c = '+' ∨ c = '/') ∧ pd.hash.length ≤ 31 := by
    rcases hh with hh | hh
    · rw [hh]
      decide
    · have hq := h.hash_any hh insQSort
      obtain ⟨s, s1, s2, s3⟩ := C50_hash_computed insQSort pd.cross pd.edge pd.face pd.comp h.tidy.goodFaces
      rw [hq] at s1
      cases s1
      refine ⟨?_, s3, by rw [s2]⟩
      intro h0
      rw [h0] at s2
      simp at s2
  refine ⟨hhash.1, hhash.2.1, hhash.2.2, hu, h.tidy.plane.nonempty, h.tidy.plane.consistent, by omega, by omega, ?_, ht, ?_, ?_, ?_⟩
  · rw [h.tidy.goodFaces.count]
    omega
  · intro c hc
    have h1 : ∀ e ∈ c.edge, e < pd.edge.length := by
      intro e he
      have : e ∈ pd.comp.flatMap (·.edge) := List.mem_flatMap.mpr ⟨c, hc, he⟩
      rw [hall, List.mem_range] at this
      exact this
    have h2 : c.edge.Nodup := by
      have : (pd.comp.flatMap (·.edge)).Nodup := by rw [hall]; exact List.nodup_range
      exact (List.nodup_flatMap.mp this).1 c hc
    refine ⟨?_, h1⟩
    have := (h2.subperm (fun e he => List.mem_range.mpr (h1 e he))).length_le
    rwa [List.length_range] at this
  · intro f hf
    have h1 := IsoSearch.face_edge_lt h.tidy.goodFaces f hf
    have h2 := Distinct.face_nodup h.tidy.plane h.tidy.goodFaces hf
    refine ⟨?_, h1⟩
    have := (h2.subperm (fun e he => List.mem_range.mpr (h1 e he))).length_le
    rwa [List.length_range] at this
  · intro f hf
    have h1 := (h.tidy.goodFaces.shape f hf).1
    refine ⟨h1.symm, ?_⟩
    intro o ho
    have e : f.orient = (sides f).map Prod.snd := by rw [sides, List.map_snd_zip h1.ge]
    rw [e] at ho
    obtain ⟨d, hd, rfl⟩ := List.mem_map.mp ho
    rcases (Faces.mem_D.mp (Shape.sides_mem h.tidy.goodFaces hf hd)).2 with h | h <;> rw [h] <;> decide

/-- **C40.** Every plane diagram as `pd_regenerate` or a move leaves it, with visible tags, is written by `pd_write` and read again by
`pd_read`, whose check with `pd_ok` succeeds, exactly as it was. If the hash was still `unset`, the one read has the right hash. -/
theorem C40_neat_partial (qs : QSort) (caps : Caps) (pd : Pd) (rest : List Char) (h : Neat pd) (hfit : Fits caps pd)
    (hu : pd.uid < 2 ^ 64) (ht : ∀ k ∈ pd.comp, 33 ≤ k.tag ∧ k.tag ≤ 126) (hh : pd.hash = str "unset" ∨ HashFor pd pd.hash) :
    ∃ s, HashFor pd s ∧ (HashFor pd pd.hash → s = pd.hash) ∧
      readPd qs (okReal qs) (rehashReal qs) (writePd caps pd ++ rest) = .ok (some (.code { pd with hash := s }, rest.dropWhile isSpace)) := by
  have hk := Ok.comps_le h.tidy.plane h.tidy.goodComps
  rw [retag_length] at hk
  have hc := h.tidy.plane.consistent.count
  have hf := h.tidy.goodFaces.count
  have hok : okReal qs pd = true := by
    unfold okReal
    rw [h.ok qs (by simp only [capsNew]; omega) (by simp only [capsNew]; omega) (by simp only [capsNew]; omega)]
  have hr := C40_write_read_partial qs (okReal qs) (rehashReal qs) caps pd rest (h.writable hu ht hh) hfit hok
    (Ok.Tidy.canon h.tidy) h.tidy.canonical.strict
  obtain ⟨s, s1, -⟩ := C50_hash_computed qs pd.cross pd.edge pd.face pd.comp h.tidy.goodFaces
  have hre : rehashReal qs pd = s := by
    unfold rehashReal
    rw [s1]
  have huniq : HashFor pd pd.hash → s = pd.hash := by
    intro q
    have := h.hash_any q qs
    rw [s1] at this
    exact Except.ok.inj this
  refine ⟨s, ⟨qs, s1⟩, huniq, ?_⟩
  rw [hr, hre]
  rcases hh with hh | hh
  · rw [if_pos (by rw [hh])]
  · rw [huniq hh, ite_self]

namespace KT

/-- `pd_ok`, as `pd_read_KnotTheory` calls it on a diagram in the buffers `pd_code_new(n + 2)`. -/
def okWhole (qs : QSort) (n : Nat) (d : Whole) : Bool :=
  match pdOk qs (capsNew (n + 2)) ⟨[], 0, d.1, d.2.1, d.2.2.1, d.2.2.2⟩ with
  | .ok b => b
  | .error _ => false

end KT

open Plc.KT

/-- What is checked does not depend on the check. -/
theorem KT.readCode_checked (qs : QSort) (ok : Whole → Bool) {l : List Quad} {d : Whole}
    (h : readCode qs (fun _ => true) l = .ok (checked (fun _ => true) d)) : readCode qs ok l = .ok (checked ok d) ∧
      ∃ me mc mf c e, Regenerate.regenerate qs me mc mf c e = .ok d := by
  unfold readCode checked at *
  simp only [bind_ok_iff] at h
  obtain ⟨⟨c1, e1⟩, h1, ⟨c2, e2⟩, h2, ⟨c3, e3, k3, f3⟩, h3, h⟩ := h
  simp only at h h2 h3
  split at h
  · cases h
  · rename_i hs
    simp only [if_true] at h
    cases h
    refine ⟨?_, _, _, _, _, _, h3⟩
    simp only [h1, h2, h3, ok_bind, if_neg hs]
    split <;> rfl

/-- **C41.** The numbers are the code of a plane diagram whose components have at least three edges. Then the diagram built from them
passes `pd_ok` and is returned. -/
theorem C41_read_ok_partial (qs : QSort) (l : List Quad) (cross : List Cross) (edge : List Edge)
    (h : CodeOf l cross edge) (hsmall : 2 * edge.length < 2 ^ 31) :
    ∃ cross' edge' comps faces τ σ ρ,
      readCode qs (okWhole qs l.length) l = .ok (some (cross', edge', comps, faces)) ∧
      Renamed cross edge cross' edge' τ σ ρ (fun _ => false) ∧ SameSigns cross cross' σ ∧ Tidy cross' edge' comps faces := by
  obtain ⟨cross', edge', comps, faces, τ, σ, ρ, h1, h2, h3, h4, h5, h6⟩ := C41_read_partial qs (fun _ => true) l cross edge h hsmall
  obtain ⟨g1, me, mc, mf, c, e, g2⟩ := readCode_checked qs (okWhole qs l.length) h1
  have hT : Tidy cross' edge' comps faces := regenerate_tidy g2 (h.plane.renamed h2 Regenerate.along_false) h4 h5 h6 (by rw [h2.elen]; exact hsmall)
  refine ⟨cross', edge', comps, faces, τ, σ, ρ, ?_, h2, h3, hT⟩
  rw [g1]
  unfold checked okWhole
  have hlen := h.len
  have hl2 := h2.len
  simp only
  rw [C51_ok_complete qs (l.length + 2) ⟨[], 0, cross', edge', comps, faces⟩ hT (by simp only; omega)]
  rfl

/-- What is read does not depend on the check, either. -/
theorem KT.readKT_checked (qs : QSort) (ok : Whole → Bool) {t : List Char} {d : Whole}
    (h : readKT qs (fun _ => true) t = .ok (checked (fun _ => true) d)) : readKT qs ok t = .ok (checked ok d) ∧
      ∃ me mc mf c e, Regenerate.regenerate qs me mc mf c e = .ok d := by
  unfold readKT at *
  split at h
  · cases h
  · cases h
  · exact readCode_checked qs ok h

/-- **C41.** A signed plane diagram whose edges are numbered in order along each component, with at least three edges in each and at most
9990 crossings, is written by `pd_write_KnotTheory` and read back as the same diagram with the same signs, up to names of edges and
crossings; what is read passes `pd_ok`. -/
theorem C41_write_read_ok_partial (qs : QSort) (cross : List Cross) (edge : List Edge)
    (h : PlaneDiagram cross edge) (hsign : ∀ x ∈ cross, x.sign ≠ .unset)
    (horder : ∀ e f, Follows cross edge e f → f = e + 1 ∨ f + 2 ≤ e) (hn : cross.length ≤ 9990) :
    ∃ t cross' edge' comps faces τ σ ρ,
      writeKT cross edge = .ok t ∧ readKT qs (okWhole qs cross.length) t = .ok (some (cross', edge', comps, faces)) ∧
      Renamed cross edge cross' edge' τ σ ρ (fun _ => false) ∧ SameSigns cross cross' σ ∧ Tidy cross' edge' comps faces := by
  obtain ⟨t, cross', edge', comps, faces, τ, σ, ρ, h0, h1, h2, h3, hS, h5, h6⟩ :=
    C41_write_read_partial qs (fun _ => true) cross edge h hsign horder hn
  obtain ⟨g1, me, mc, mf, c, e, g2⟩ := readKT_checked qs (okWhole qs cross.length) h1
  have hcnt := h.consistent.count
  have hT : Tidy cross' edge' comps faces := regenerate_tidy g2 (h.renamed h2 Regenerate.along_false) hS h5 h6
    (by rw [h2.elen]; omega)
  refine ⟨t, cross', edge', comps, faces, τ, σ, ρ, h0, ?_, h2, h3, hT⟩
  rw [g1]
  unfold checked okWhole
  have hl2 := h2.len
  simp only
  rw [C51_ok_complete qs (cross.length + 2) ⟨[], 0, cross', edge', comps, faces⟩ hT (by simp only; omega)]
  rfl

/-! ### Cases -/

/-- The Hopf link, with the hash of the library and without. -/
example (qs : QSort) : readPd qs (okReal qs) (rehashReal qs) (writePd (capsNew 2) isoHopf ++ str "\npd") =
    .ok (some (.code isoHopf, str "pd")) := by
  obtain ⟨s, s1, s2, s3⟩ := C40_neat_partial qs (capsNew 2) isoHopf (str "\npd") (Tidy.neat IsoSearch.isoHopf_searchable.tidy)
    (by unfold Io.Fits; decide) (by decide) (by decide) (.inr IsoSearch.isoHopf_searchable.hash)
  rw [s3, s2 IsoSearch.isoHopf_searchable.hash]
  rfl

example (qs : QSort) : ∃ t cross' edge' comps faces, writeKT kt3Cross kt3Edge = .ok t ∧
    readKT qs (okWhole qs 3) t = .ok (some (cross', edge', comps, faces)) ∧ Tidy cross' edge' comps faces := by
  obtain ⟨t, cross', edge', comps, faces, τ, σ, ρ, h0, h1, h2, h3, h4⟩ := C41_write_read_ok_partial qs kt3Cross kt3Edge
    kt3_plane (by decide) (by
      have h : ∀ e < kt3Edge.length, Comps.nx kt3Cross kt3Edge e = e + 1 ∨ Comps.nx kt3Cross kt3Edge e + 2 ≤ e := by decide
      intro e f hf
      obtain ⟨h1, rfl⟩ := (Comps.follows_iff kt3_plane.consistent e f).mp hf
      exact h e h1) (by decide)
  exact ⟨t, cross', edge', comps, faces, h0, h1, h4⟩

end Plc
