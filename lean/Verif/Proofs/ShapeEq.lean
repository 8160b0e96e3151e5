import Verif.Proofs.Shape
import Verif.Props.Regenerate

/-! # Having the same shadow is an equivalence relation -/

namespace Plc

open Plc.Cmp Plc.Shape

/-- Orientations multiply like signs. -/
def orTimes (a b : Or) : Or := if a = .neg then (if b = .neg then .pos else .neg) else (if b = .neg then .neg else .pos)

theorem ListCarried.trans {τ τ' : Nat → Nat} {o o' : Or} {l l' l'' : List Nat} (h : ListCarried τ o l l')
    (h' : ListCarried τ' o' l' l'') : ListCarried (fun e => τ' (τ e)) (orTimes o o') l l'' := by
  rw [listCarried_iff] at *
  have h1 := h.map τ'
  have e1 : (l.map τ).map τ' = l.map (fun e => τ' (τ e)) := by rw [List.map_map]; rfl
  unfold flipIf orTimes at *
  by_cases a : o = .neg <;> by_cases b : o' = .neg <;>
    simp only [a, b, if_true, if_false, List.map_reverse, e1, reduceCtorEq] at *
  · have := h'.trans h1.reverse
    rwa [List.reverse_reverse] at this
  · exact h'.trans h1
  · exact h'.trans h1.reverse
  · exact h'.trans h1

theorem ListCarried.symm {τ τ' : Nat → Nat} {o : Or} {l l' : List Nat} (h : ListCarried τ o l l')
    (hi : ∀ x ∈ l, τ' (τ x) = x) : ListCarried τ' o l' l := by
  rw [listCarried_iff] at *
  have h1 := h.map τ'
  have e1 : (l.map τ).map τ' = l := by
    rw [List.map_map]
    conv_rhs => rw [← List.map_id l]
    exact List.map_congr_left hi
  unfold flipIf at *
  by_cases a : o = .neg <;> simp only [a, if_true, if_false, List.map_reverse, e1] at *
  · have := h1.symm.reverse
    rwa [List.reverse_reverse] at this
  · exact h1.symm

theorem ListCarried.congr {τ τ' : Nat → Nat} {o : Or} {l l' : List Nat} (h : ListCarried τ o l l')
    (hi : ∀ x ∈ l, τ' x = τ x) : ListCarried τ' o l l' := by
  unfold ListCarried at *
  rwa [List.map_congr_left hi]

theorem exists_inverse {n : Nat} {f : Nat → Nat} (h1 : ∀ c, c < n → f c < n)
    (h2 : ∀ c d, c < n → d < n → f c = f d → c = d) :
    ∃ g : Nat → Nat, (∀ c, c < n → g c < n) ∧ (∀ c, c < n → f (g c) = c) ∧ (∀ c, c < n → g (f c) = c) := by
  classical
  have hs := fun y (hy : y < n) => surj_of_inj h1 h2 hy
  obtain ⟨g, hg⟩ : ∃ g : Nat → Nat, ∀ y, y < n → g y < n ∧ f (g y) = y :=
    ⟨fun y => if h : y < n then (hs y h).choose else 0, fun y hy => by
      simp only [dif_pos hy]
      exact (hs y hy).choose_spec⟩
  refine ⟨g, fun c hc => (hg c hc).1, fun c hc => (hg c hc).2, ?_⟩
  intro c hc
  exact h2 _ _ (hg _ (h1 c hc)).1 hc (hg _ (h1 c hc)).2

theorem SameShadow.trans {A B C : List Cross} {m : Nat} {τ σ τ' σ' : Nat → Nat} {o o' : Or}
    (h : SameShadow A B m τ σ o) (h' : SameShadow B C m τ' σ' o') :
    SameShadow A C m (fun e => τ' (τ e)) (fun c => σ' (σ c)) (orTimes o o') where
  len := h'.len.trans h.len
  tlt := fun e he => h'.tlt _ (h.tlt e he)
  tinj := fun e f he hf hef => h.tinj e f he hf (h'.tinj _ _ (h.tlt e he) (h.tlt f hf) hef)
  slt := fun c hc => by
    have := h'.slt (σ c) (by rw [h.len]; exact h.slt c hc)
    rwa [h.len] at this
  sinj := fun c d hc hd hcd => h.sinj c d hc hd (h'.sinj _ _ (by rw [h.len]; exact h.slt c hc)
    (by rw [h.len]; exact h.slt d hd) hcd)
  carried := by
    intro c x hx
    obtain ⟨y, y1, y2⟩ := h.carried c x hx
    obtain ⟨z, z1, z2⟩ := h'.carried _ y y1
    refine ⟨z, z1, ?_⟩
    rw [carriedTo_iff] at *
    exact y2.trans z2

theorem SameShadow.symm {A B : List Cross} {m : Nat} {τ σ : Nat → Nat} {o : Or}
    (h : SameShadow A B m τ σ o) (hA : ∀ x ∈ A, ∀ e ∈ [x.e0, x.e1, x.e2, x.e3], e < m) :
    ∃ τ' σ', SameShadow B A m τ' σ' o ∧ (∀ e, e < m → τ' (τ e) = e) ∧ ∀ c, c < A.length → σ' (σ c) = c := by
  obtain ⟨τ', t1, t2, t3⟩ := exists_inverse h.tlt h.tinj
  obtain ⟨σ', s1, s2, s3⟩ := exists_inverse h.slt h.sinj
  refine ⟨τ', σ', ⟨h.len.symm, t1, ?_, by rw [h.len]; exact s1, ?_, ?_⟩, t3, s3⟩
  · intro e f he hf hef
    rw [← t2 e he, ← t2 f hf, hef]
  · rw [h.len]
    intro e f he hf hef
    rw [← s2 e he, ← s2 f hf, hef]
  · intro d z hz
    have hd : d < A.length := by rw [← h.len]; exact (List.getElem?_eq_some_iff.mp hz).1
    have hx := List.getElem?_eq_getElem (s1 d hd)
    obtain ⟨z', z1, z2⟩ := h.carried _ _ hx
    rw [s2 d hd, hz] at z1
    cases z1
    refine ⟨_, hx, ?_⟩
    rw [carriedTo_iff] at *
    exact z2.symm (fun e he => t3 e (hA _ (List.getElem_mem _) e he))

theorem SameShadow.refl (A : List Cross) (m : Nat) : SameShadow A A m id id .pos :=
  ⟨rfl, fun _ h => h, fun _ _ _ _ h => h, fun _ h => h, fun _ _ _ _ h => h, fun _ x hx =>
    ⟨x, hx, by rw [carriedTo_iff]; unfold ListCarried; simp only [reduceCtorEq, if_false, List.map_id]; exact List.IsRotated.refl _⟩⟩

/-- A renamed diagram has the same shadow. -/
theorem Renamed.shadow {cross cross' : List Cross} {edge edge' : List Edge} {τ σ ρ : Nat → Nat} {rev : Nat → Bool}
    (h : Renamed cross edge cross' edge' τ σ ρ rev) : SameShadow cross cross' edge.length τ σ .pos := by
  refine ⟨h.len, h.tlt, h.tinj, h.slt, h.sinj, ?_⟩
  intro c x hx
  obtain ⟨x', h1, h2⟩ := h.cross c x hx
  refine ⟨x', h1, ?_⟩
  unfold CarriedTo
  rw [if_neg (by decide)]
  have hr := h.rho c
  have a0 := h2 0
  have a1 := h2 1
  have a2 := h2 2
  have a3 := h2 3
  refine List.IsRotated.symm ⟨ρ c, ?_⟩
  rw [show x'.e0 = x'.at 0 from rfl, show x'.e1 = x'.at 1 from rfl, show x'.e2 = x'.at 2 from rfl,
    show x'.e3 = x'.at 3 from rfl, a0, a1, a2, a3]
  generalize ρ c = q at hr
  have : q = 0 ∨ q = 1 ∨ q = 2 ∨ q = 3 := by omega
  rcases this with rfl | rfl | rfl | rfl <;> rfl

theorem slots_lt {cross : List Cross} {edge : List Edge} (hC : Consistent cross edge) :
    ∀ x ∈ cross, ∀ e ∈ [x.e0, x.e1, x.e2, x.e3], e < edge.length := by
  intro x hx e he
  obtain ⟨c, hc, rfl⟩ := List.getElem_of_mem hx
  have h4 : ∀ k, k < 4 → (cross[c]).at k < edge.length := by
    intro k hk
    have h := Places.eslot_lt hC (p := (c, k)) (by rw [Places.mem_P]; exact ⟨hc, hk⟩)
    rw [Places.eslot, slot_of_lt hc hk] at h
    exact h
  simp only [List.mem_cons, List.not_mem_nil, or_false] at he
  rcases he with rfl | rfl | rfl | rfl
  · exact h4 0 (by decide)
  · exact h4 1 (by decide)
  · exact h4 2 (by decide)
  · exact h4 3 (by decide)

end Plc
