import Verif.Proofs.HeadsSwapped
import Verif.Spec.Bigon

/-! Pushing two edges of a face across each other keeps a diagram plane. -/

namespace Plc.Bigon

open Plc.Core Plc.Cmp Plc.Places Plc.Orbit Plc.Faces Plc.Planar

/-- The ends of edges after the move. The two sides of the face begin at `s1`, `s2` and end at `t1`, `t2`; `R` is the crossing next to
`s1` and `t2`, `L` that next to `s2` and `t1`. -/
structure Ends (cross : List Cross) (edge : List Edge) (cross' : List Cross) (edge' : List Edge) (s1 t1 s2 t2 : Nat × Nat)
    (R L k l : Nat) : Prop where
  hC : Consistent cross edge
  hC' : Consistent cross' edge'
  len : cross'.length = cross.length + 2
  hs1 : s1 ∈ P cross
  hs2 : s2 ∈ P cross
  ht1 : oth cross edge s1 = t1
  ht2 : oth cross edge s2 = t2
  ne : s1 ≠ s2
  net : s1 ≠ t2
  hR : cross.length ≤ R
  hL : cross.length ≤ L
  all : ∀ c, cross.length ≤ c → c < cross.length + 2 → c = R ∨ c = L
  hRL : R ≠ L
  old : ∀ p ∈ P cross, p ≠ s1 → p ≠ t1 → p ≠ s2 → p ≠ t2 → oth cross' edge' p = oth cross edge p
  o1 : oth cross' edge' s1 = (R, k % 4)
  o2 : oth cross' edge' (R, (k + 1) % 4) = (L, (l + 3) % 4)
  o3 : oth cross' edge' (R, (k + 2) % 4) = (L, (l + 2) % 4)
  o4 : oth cross' edge' t2 = (R, (k + 3) % 4)
  o5 : oth cross' edge' t1 = (L, l % 4)
  o6 : oth cross' edge' s2 = (L, (l + 1) % 4)

namespace Ends

variable {cross cross' : List Cross} {edge edge' : List Edge} {s1 t1 s2 t2 : Nat × Nat} {R L k l : Nat}

theorem lift (h : Ends cross edge cross' edge' s1 t1 s2 t2 R L k l) {p : Nat × Nat} (hp : p ∈ P cross) : p ∈ P cross' := by
  rw [mem_P] at *
  rw [h.len]
  omega

theorem back (h : Ends cross edge cross' edge' s1 t1 s2 t2 R L k l) {p q : Nat × Nat} (hp : p ∈ P cross)
    (hq : oth cross' edge' p = q) : oth cross' edge' q = p := by
  rw [← hq, oth_oth h.hC' (h.lift hp)]

theorem mt1 (h : Ends cross edge cross' edge' s1 t1 s2 t2 R L k l) : t1 ∈ P cross := h.ht1 ▸ oth_mem h.hC h.hs1

theorem mt2 (h : Ends cross edge cross' edge' s1 t1 s2 t2 R L k l) : t2 ∈ P cross := h.ht2 ▸ oth_mem h.hC h.hs2

/-- All steps of the new face map. -/
theorem steps (h : Ends cross edge cross' edge' s1 t1 s2 t2 R L k l) :
    fnext cross' edge' s1 = (R, (k + 3) % 4) ∧ fnext cross' edge' (R, (k + 3) % 4) = fnext cross edge s2 ∧
    fnext cross' edge' s2 = (L, l % 4) ∧ fnext cross' edge' (L, l % 4) = fnext cross edge s1 ∧
    fnext cross' edge' t1 = (L, (l + 3) % 4) ∧ fnext cross' edge' (L, (l + 3) % 4) = (R, k % 4) ∧
    fnext cross' edge' (R, k % 4) = fnext cross edge t1 ∧
    fnext cross' edge' t2 = (R, (k + 2) % 4) ∧ fnext cross' edge' (R, (k + 2) % 4) = (L, (l + 1) % 4) ∧
    fnext cross' edge' (L, (l + 1) % 4) = fnext cross edge t2 ∧
    fnext cross' edge' (R, (k + 1) % 4) = (L, (l + 2) % 4) ∧ fnext cross' edge' (L, (l + 2) % 4) = (R, (k + 1) % 4) := by
  have tu : ∀ c a, turn 3 ((c, a) : Nat × Nat) = (c, (a + 3) % 4) := fun _ _ => rfl
  have lt : ∀ a, a % 4 < 4 := fun a => Nat.mod_lt _ (by decide)
  have inR : ∀ a, ((R, a % 4) : Nat × Nat) ∈ P cross' := fun a => by
    have : (R, k % 4) ∈ P cross' := h.o1 ▸ oth_mem h.hC' (h.lift h.hs1)
    rw [mem_P] at *
    exact ⟨this.1, lt a⟩
  have b1 := h.back h.hs1 h.o1
  have b4 := h.back h.mt2 h.o4
  have b5 := h.back h.mt1 h.o5
  have b6 := h.back h.hs2 h.o6
  have b2 : oth cross' edge' (L, (l + 3) % 4) = (R, (k + 1) % 4) := by rw [← h.o2, oth_oth h.hC' (inR _)]
  have b3 : oth cross' edge' (L, (l + 2) % 4) = (R, (k + 2) % 4) := by rw [← h.o3, oth_oth h.hC' (inR _)]
  have c1 : oth cross edge t1 = s1 := by rw [← h.ht1, oth_oth h.hC h.hs1]
  have c2 : oth cross edge t2 = s2 := by rw [← h.ht2, oth_oth h.hC h.hs2]
  unfold fnext
  rw [h.o1, h.o2, h.o3, h.o4, h.o5, h.o6, b1, b2, b3, b4, b5, b6, h.ht1, h.ht2, c1, c2]
  simp only [tu, Prod.mk.injEq, true_and, and_true]
  omega

/-- Faces after the move are those before it, cut at the two sides, and the bigon. -/
theorem return_swap (h : Ends cross edge cross' edge' s1 t1 s2 t2 R L k l) :
    Return (fun p => fnext cross edge (Equiv.swap s1 s2 p)) (P cross) (fnext cross' edge') (P cross') id := by
  obtain ⟨a1, a2, a3, a4, a5, a6, a7, a8, a9, a10, a11, a12⟩ := h.steps
  have hL := h.hL
  have hR := h.hR
  have no : ∀ c a, cross.length ≤ c → ∀ p ∈ P cross, ((c, a) : Nat × Nat) ≠ p := by
    rintro c a hc p hp rfl
    have := (mem_P.mp hp).1
    simp only at this
    omega
  have nt1 : t1 ≠ s1 := by
    rw [← h.ht1]
    exact oth_ne h.hC h.hs1
  have nt2 : t2 ≠ s2 := by
    rw [← h.ht2]
    exact oth_ne h.hC h.hs2
  have nt3 : t1 ≠ s2 := by
    intro e
    apply h.net
    rw [← h.ht2, ← e, ← h.ht1, oth_oth h.hC h.hs1]
  refine ⟨fun s hs => h.lift hs, fun _ _ _ _ e => e, ?_⟩
  intro s hs
  by_cases e1 : s = s1
  · subst e1
    refine ⟨1, ?_, ?_⟩
    · simp only [Function.iterate_succ_apply, Function.iterate_zero, id, a1, a2, Equiv.swap_apply_left]
    · intro i i1 i2
      obtain rfl : i = 1 := by omega
      simp only [Function.iterate_succ_apply, Function.iterate_zero, id, a1]
      exact no _ _ hR
  · by_cases e2 : s = s2
    · subst e2
      refine ⟨1, ?_, ?_⟩
      · simp only [Function.iterate_succ_apply, Function.iterate_zero, id, a3, a4, Equiv.swap_apply_right]
      · intro i i1 i2
        obtain rfl : i = 1 := by omega
        simp only [Function.iterate_succ_apply, Function.iterate_zero, id, a3]
        exact no _ _ hL
    · rw [Equiv.swap_apply_of_ne_of_ne e1 e2]
      by_cases e3 : s = t1
      · subst e3
        refine ⟨2, ?_, ?_⟩
        · simp only [Function.iterate_succ_apply, Function.iterate_zero, id, a5, a6, a7]
        · intro i i1 i2
          obtain rfl | rfl : i = 1 ∨ i = 2 := by omega
          · simp only [Function.iterate_succ_apply, Function.iterate_zero, id, a5]
            exact no _ _ hL
          · simp only [Function.iterate_succ_apply, Function.iterate_zero, id, a5, a6]
            exact no _ _ hR
      · by_cases e4 : s = t2
        · subst e4
          refine ⟨2, ?_, ?_⟩
          · simp only [Function.iterate_succ_apply, Function.iterate_zero, id, a8, a9, a10]
          · intro i i1 i2
            obtain rfl | rfl : i = 1 ∨ i = 2 := by omega
            · simp only [Function.iterate_succ_apply, Function.iterate_zero, id, a8]
              exact no _ _ hR
            · simp only [Function.iterate_succ_apply, Function.iterate_zero, id, a8, a9]
              exact no _ _ hL
        · refine ⟨0, ?_, by omega⟩
          simp only [Function.iterate_succ_apply, Function.iterate_zero, id]
          unfold fnext
          rw [h.old s hs e1 e3 e2 e4]

theorem reps (h : Ends cross edge cross' edge' s1 t1 s2 t2 R L k l) {A : List (Nat × Nat)}
    (hA : Reps (fun p => fnext cross edge (Equiv.swap s1 s2 p)) (P cross) A) :
    Reps (fnext cross' edge') (P cross') (A ++ [(R, (k + 1) % 4)]) := by
  obtain ⟨a1, a2, a3, a4, a5, a6, a7, a8, a9, a10, a11, a12⟩ := h.steps
  have hI := injOn_fnext h.hC
  have hI' := injOn_fnext h.hC'
  have hg := HeadsSwapped.injOn_swap hI h.hs1 h.hs2
  have hRm : (R, (k + 1) % 4) ∈ P cross' := by
    have : (R, k % 4) ∈ P cross' := h.o1 ▸ oth_mem h.hC' (h.lift h.hs1)
    rw [mem_P] at *
    exact ⟨this.1, Nat.mod_lt _ (by decide)⟩
  have two : ∀ i, (fnext cross' edge')^[i] (R, (k + 1) % 4) = (R, (k + 1) % 4) ∨
      (fnext cross' edge')^[i] (R, (k + 1) % 4) = (L, (l + 2) % 4) := by
    intro i
    induction i with
    | zero => exact .inl rfl
    | succ i ih =>
      rw [Function.iterate_succ_apply']
      rcases ih with e | e <;> rw [e]
      · exact .inr a11
      · exact .inl a12
  have key := h.return_swap.reps hg hI' hA (X := [(R, (k + 1) % 4)]) (by simpa using hRm) (by simp) (by
    intro x hx s hs hc
    rw [List.mem_singleton] at hx
    subst hx
    obtain ⟨i, hi⟩ := hI'.reach_symm (h.lift hs) ((hI'.mem_cyc (h.lift hs)).mp hc)
    have hs' := (mem_P.mp hs).1
    have hL := h.hL
    have hR := h.hR
    rcases two i with e | e <;> rw [e] at hi <;> rw [← hi] at hs' <;> simp only at hs' <;> omega) (by
    rintro ⟨c, a⟩ hp
    have hp' := mem_P.mp hp
    simp only at hp'
    rw [h.len] at hp'
    rcases Nat.lt_or_ge c cross.length with hc | hc
    · have hm : ((c, a) : Nat × Nat) ∈ P cross := mem_P.mpr ⟨hc, hp'.2⟩
      exact .inl ⟨(c, a), hm, hI'.self_mem_cyc (h.lift hm)⟩
    · have go : ∀ s ∈ P cross, ∀ i, (fnext cross' edge')^[i] s = (c, a) →
          (∃ s ∈ P cross, ((c, a) : Nat × Nat) ∈ cyc (fnext cross' edge') (id s)) ∨
            ∃ x ∈ [((R, (k + 1) % 4) : Nat × Nat)], ((c, a) : Nat × Nat) ∈ cyc (fnext cross' edge') x := by
        intro s hs i hi
        exact .inl ⟨s, hs, (hI'.mem_cyc (h.lift hs)).mpr ⟨i, hi⟩⟩
      have it : ∀ {x y z : Nat × Nat}, fnext cross' edge' x = y → fnext cross' edge' y = z → (fnext cross' edge')^[2] x = z := by
        intro x y z e1 e2
        simp only [Function.iterate_succ_apply, Function.iterate_zero, id, e1, e2]
      have m4 : a < 4 := hp'.2
      rcases h.all c hc hp'.1 with rfl | rfl
      · have : a = k % 4 ∨ a = (k + 1) % 4 ∨ a = (k + 2) % 4 ∨ a = (k + 3) % 4 := by omega
        rcases this with rfl | rfl | rfl | rfl
        · exact go t1 h.mt1 2 (it a5 a6)
        · exact .inr ⟨_, by simp, hI'.self_mem_cyc hRm⟩
        · exact go t2 h.mt2 1 a8
        · exact go s1 h.hs1 1 a1
      · have : a = l % 4 ∨ a = (l + 1) % 4 ∨ a = (l + 2) % 4 ∨ a = (l + 3) % 4 := by omega
        rcases this with rfl | rfl | rfl | rfl
        · exact go s2 h.hs2 1 a3
        · exact go t2 h.mt2 2 (it a8 a9)
        · exact .inr ⟨_, by simp, (hI'.mem_cyc hRm).mpr ⟨1, a11⟩⟩
        · exact go t1 h.mt1 1 a5)
  simpa using key

/-- On a plane diagram the move is made within a face; the result is plane. -/
theorem faces (h : Ends cross edge cross' edge' s1 t1 s2 t2 R L k l) (hs : s2 ∈ cyc (fnext cross edge) s1)
    (hP : PlaneFaces cross edge) : PlaneFaces cross' edge' := by
  have hI := injOn_fnext h.hC
  have hg := HeadsSwapped.injOn_swap hI h.hs1 h.hs2
  obtain ⟨A, hA⟩ := exists_reps hI
  have x := HeadsSwapped.exchanged_swap hI hg h.hs1 h.hs2 (fun _ _ => rfl)
  obtain ⟨B, b1, b2⟩ := x.reps_split h.ne hs hA
  rw [planeFaces_iff_all h.hC hA] at hP
  rw [planeFaces_iff_all h.hC' (h.reps b1), h.len, List.length_append, b2, hP]
  rfl

end Ends

end Plc.Bigon
