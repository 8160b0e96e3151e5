import Verif.Model.Unpack
import Verif.Props.Ok
import Verif.Proofs.RegenTidy
import Verif.Props.Pack

/-! # Signs do not matter to the shape of a diagram; regenerating a tidy diagram -/

namespace Plc.Unpack

open Plc.Cmp Plc.Core Plc.Ok Plc.Regenerate

variable {cross : List Cross} {edge : List Edge} {comps : List Comp} {faces : List Face}

/-- A crossing with another sign. -/
def resign (s : Cross → Or) (c : Cross) : Cross := { c with sign := s c }

theorem slot_resign (s : Cross → Or) (c k : Nat) : slot (cross.map (resign s)) c k = slot cross c k := by
  unfold slot
  split
  · rw [List.getElem?_map, Option.map_map]
    rfl
  · rfl

theorem resign_renamed (h : Consistent cross edge) (s : Cross → Or) :
    Renamed cross edge (cross.map (resign s)) edge id id (fun _ => 0) (fun _ => false) where
  len := by simp
  elen := rfl
  slt := fun _ h => h
  sinj := fun _ _ _ _ h => h
  tlt := fun _ h => h
  tinj := fun _ _ _ _ h => h
  rho := fun _ => by decide
  cross := fun c x hx => ⟨resign s x, by simp [hx], fun k => by
    rw [Nat.add_zero]; rfl⟩
  edge := fun e r hr => by
    have a := (slot_lt (h.head e r hr)).2
    have b := (slot_lt (h.tail e r hr)).2
    rw [id, hr]
    unfold moveEdge
    simp [Nat.mod_eq_of_lt a, Nat.mod_eq_of_lt b]

theorem tidy_resign (h : Tidy cross edge comps faces) (s : Cross → Or) :
    Tidy (cross.map (resign s)) edge comps faces where
  plane := h.plane.renamed (resign_renamed h.plane.consistent s) along_false
  canonical := by
    refine ⟨?_, ?_, ?_⟩
    · intro c hc
      obtain ⟨x, hx, rfl⟩ := List.mem_map.mp hc
      have h0 := h.canonical.rot x hx
      have : CanonCross (resign s x) := Tidy.canon h x hx
      unfold canonorderCross
      simp only [reduceCtorEq, if_false]
      rw [rdist_canon this]
      rfl
    · intro c hc
      obtain ⟨x, hx, rfl⟩ := List.mem_map.mp hc
      exact h.canonical.low x hx
    · rw [List.pairwise_map]
      exact h.canonical.strict
  goodComps := by
    refine ⟨h.goodComps.all, h.goodComps.longest, h.goodComps.nonempty, ?_, h.goodComps.tags⟩
    intro c hc j e he
    obtain ⟨e', a, r, b1, b2⟩ := h.goodComps.follow c hc j e he
    exact ⟨e', a, r, b1, by rw [slot_resign]; exact b2⟩
  goodFaces := by
    refine ⟨?_, h.goodFaces.all, h.goodFaces.shape, h.goodFaces.turn, h.goodFaces.longest, h.goodFaces.first⟩
    rw [List.length_map]
    exact h.goodFaces.count
  sorted := h.sorted
  small := h.small

theorem hash_any (h : Tidy cross edge comps faces) (qs qs' : QSort) {s : List Char}
    (hs : HashGen.regenHash qs cross.length edge.length faces comps = .ok s) :
    HashGen.regenHash qs' cross.length edge.length faces comps = .ok s := by
  obtain ⟨t, t1, t2⟩ := C50_hash_invariant qs qs' cross cross edge edge faces faces comps comps h.plane.consistent
    h.plane.consistent h.plane.oriented h.plane.oriented h.goodFaces h.goodFaces h.goodComps h.goodComps _ _ _
    (SameShadow.refl _ _)
  rw [hs] at t1
  cases t1
  exact t2

theorem regeneratePd_fix (qs qs' : QSort) (mv : Nat) {pd : Io.Pd} (h : Tidy pd.cross pd.edge pd.comp pd.face)
    (hsign : ∃ x ∈ pd.cross, x.sign ≠ .unset) (hmv : pd.cross.length ≤ mv) {s : List Char}
    (hs : HashGen.regenHash qs' pd.cross.length pd.edge.length pd.face pd.comp = .ok s) (s' : List Char) (k : List Comp)
    (f : List Face) (u : Nat) :
    regeneratePd qs (Io.capsNew mv) ⟨s', u, pd.cross, pd.edge, k, f⟩ = .ok { pd with hash := s, uid := u } := by
  unfold regeneratePd
  simp only
  rw [regenerate_fix qs mv h hsign hmv, ok_bind]
  simp only
  rw [hash_any h qs' qs hs, ok_bind]

end Plc.Unpack
