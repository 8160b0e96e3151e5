import Verif.Spec.Chords
import Verif.Proofs.Basic

/-! # Cutting a polygon along diagonals -/

namespace Plc.Tri

/-- Vertex number `i` of the polygon. -/
def vx (P : List Nat) (i : Nat) : Nat := P.getD i 0

theorem vx_eq {P : List Nat} {i : Nat} (h : i < P.length) : P[i]? = some (vx P i) := by
  simp [vx, h]

theorem vx_map_range (f : Nat → Nat) (k i : Nat) (h : i < k) : vx ((List.range k).map f) i = f i := by
  simp [vx, h]

/-- `x`, `y`, `z` follow each other around the n-gon. -/
def Cyc (x y z : Nat) : Prop := (x < y ∧ y < z) ∨ (y < z ∧ z < x) ∨ (z < x ∧ x < y)

/-- The vertices of the polygon follow each other around the n-gon. -/
def CycInc (P : List Nat) : Prop := ∀ i j k, i < j → j < k → k < P.length → Cyc (vx P i) (vx P j) (vx P k)

theorem Cyc.rot {x y z : Nat} (h : Cyc x y z) : Cyc y z x := by unfold Cyc at *; omega

theorem CycInc.ne {P : List Nat} (h : CycInc P) (h3 : 3 ≤ P.length) {i j : Nat} (hij : i < j) (hj : j < P.length) :
    vx P i ≠ vx P j := by
  by_cases h0 : 0 < i
  · have := h 0 i j h0 hij hj
    unfold Cyc at this
    omega
  · by_cases h1 : j + 1 < P.length
    · have := h i j (j + 1) hij (by omega) h1
      unfold Cyc at this
      omega
    · have := h i (i + 1) j (by omega) (by omega) hj
      unfold Cyc at this
      omega

theorem cycInc_range (n : Nat) : CycInc (List.range n) := by
  intro i j k hij hjk hk
  simp only [List.length_range] at hk
  have e : ∀ i, i < n → vx (List.range n) i = i := by
    intro i hi
    simp [vx, hi]
  rw [e i (by omega), e j (by omega), e k hk]
  exact Or.inl ⟨hij, hjk⟩

/-- The vertices from position `c0` to position `c1`. -/
def partA (P : List Nat) (c0 c1 : Nat) : List Nat := (List.range (c1 - c0 + 1)).map (fun i => vx P (c0 + i))

/-- The vertices from position `c1` around to position `c0`. -/
def partB (P : List Nat) (c0 c1 : Nat) : List Nat :=
  (List.range (P.length - (c1 - c0 - 1))).map (fun i => vx P ((c1 + i) % P.length))

/-- A diagonal of the polygon. -/
def Proper (P : List Nat) (c : Chord) : Prop :=
  ∃ i j, i + 2 ≤ j ∧ j < P.length ∧ ¬ (i = 0 ∧ j + 1 = P.length) ∧
    ((c.1 = vx P i ∧ c.2 = vx P j) ∨ (c.1 = vx P j ∧ c.2 = vx P i))

/-- The polygon is cut by a diagonal and the two parts are cut further, down to triangles. -/
inductive Cut : List Nat → List Chord → Prop
  | tri (P : List Nat) (h : P.length = 3) : Cut P []
  | split (P : List Nat) (c0 c1 : Nat) (csA csB : List Chord) (h2 : c0 + 2 ≤ c1) (hlt : c1 < P.length)
      (hp : ¬ (c0 = 0 ∧ c1 + 1 = P.length)) (hA : Cut (partA P c0 c1) csA) (hB : Cut (partB P c0 c1) csB) :
      Cut P ((vx P c0, vx P c1) :: (csA ++ csB))

theorem partA_length (P : List Nat) (c0 c1 : Nat) : (partA P c0 c1).length = c1 - c0 + 1 := by simp [partA]

theorem partB_length (P : List Nat) (c0 c1 : Nat) : (partB P c0 c1).length = P.length - (c1 - c0 - 1) := by simp [partB]

theorem vx_partA (P : List Nat) {c0 c1 i : Nat} (h : i < c1 - c0 + 1) : vx (partA P c0 c1) i = vx P (c0 + i) :=
  vx_map_range _ _ _ h

theorem vx_partB (P : List Nat) {c0 c1 i : Nat} (h : i < P.length - (c1 - c0 - 1)) :
    vx (partB P c0 c1) i = vx P ((c1 + i) % P.length) :=
  vx_map_range _ _ _ h

theorem wrap_mod {a n : Nat} (h : a < 2 * n) : a % n = if a < n then a else a - n := by
  split
  · exact Nat.mod_eq_of_lt (by omega)
  · rw [Nat.mod_eq_sub_mod (by omega), Nat.mod_eq_of_lt (by omega)]

theorem cycInc_partA {P : List Nat} (h : CycInc P) {c0 c1 : Nat} (h2 : c0 + 2 ≤ c1) (hlt : c1 < P.length) :
    CycInc (partA P c0 c1) := by
  intro i j k hij hjk hk
  rw [partA_length] at hk
  rw [vx_partA P (by omega), vx_partA P (by omega), vx_partA P hk]
  exact h _ _ _ (by omega) (by omega) (by omega)

theorem cycInc_partB {P : List Nat} (h : CycInc P) {c0 c1 : Nat} (h2 : c0 + 2 ≤ c1) (hlt : c1 < P.length) :
    CycInc (partB P c0 c1) := by
  intro i j k hij hjk hk
  rw [partB_length] at hk
  rw [vx_partB P (by omega), vx_partB P (by omega), vx_partB P hk, wrap_mod (by omega), wrap_mod (by omega), wrap_mod (by omega)]
  by_cases hi : c1 + i < P.length
  · rw [if_pos hi]
    by_cases hj : c1 + j < P.length
    · rw [if_pos hj]
      by_cases hk' : c1 + k < P.length
      · rw [if_pos hk']
        exact h _ _ _ (by omega) (by omega) (by omega)
      · rw [if_neg hk']
        exact (h (c1 + k - P.length) (c1 + i) (c1 + j) (by omega) (by omega) (by omega)).rot
    · rw [if_neg hj, if_neg (by omega)]
      exact (h (c1 + j - P.length) (c1 + k - P.length) (c1 + i) (by omega) (by omega) (by omega)).rot.rot
  · rw [if_neg hi, if_neg (by omega), if_neg (by omega)]
    exact h _ _ _ (by omega) (by omega) (by omega)

theorem side_A {P : List Nat} (h : CycInc P) {c0 c1 : Nat} (h2 : c0 + 2 ≤ c1) (hlt : c1 < P.length) {i : Nat}
    (hi : i < (partA P c0 c1).length) :
    vx (partA P c0 c1) i = vx P c0 ∨ vx (partA P c0 c1) i = vx P c1 ∨ Cyc (vx P c0) (vx (partA P c0 c1) i) (vx P c1) := by
  rw [partA_length] at hi
  rw [vx_partA P hi]
  by_cases h0 : i = 0
  · subst h0
    exact Or.inl rfl
  · by_cases h1 : c0 + i = c1
    · rw [h1]
      exact Or.inr (Or.inl rfl)
    · exact Or.inr (Or.inr (h _ _ _ (by omega) (by omega) hlt))

theorem side_B {P : List Nat} (h : CycInc P) {c0 c1 : Nat} (h2 : c0 + 2 ≤ c1) (hlt : c1 < P.length) {i : Nat}
    (hi : i < (partB P c0 c1).length) :
    vx (partB P c0 c1) i = vx P c0 ∨ vx (partB P c0 c1) i = vx P c1 ∨ Cyc (vx P c0) (vx P c1) (vx (partB P c0 c1) i) := by
  rw [partB_length] at hi
  rw [vx_partB P hi, wrap_mod (by omega)]
  by_cases h0 : i = 0
  · subst h0
    rw [Nat.add_zero, if_pos hlt]
    exact Or.inr (Or.inl rfl)
  · split
    · exact Or.inr (Or.inr (h _ _ _ (by omega) (by omega) (by omega)))
    · by_cases h1 : c1 + i - P.length = c0
      · rw [h1]
        exact Or.inl rfl
      · exact Or.inr (Or.inr (h (c1 + i - P.length) c0 c1 (by omega) (by omega) hlt).rot)

theorem Proper.ends {P : List Nat} {c : Chord} (h : Proper P c) :
    (∃ i, i < P.length ∧ c.1 = vx P i) ∧ ∃ j, j < P.length ∧ c.2 = vx P j := by
  obtain ⟨i, j, hij, hj, -, h | h⟩ := h
  · exact ⟨⟨i, by omega, h.1⟩, j, hj, h.2⟩
  · exact ⟨⟨j, hj, h.1⟩, i, by omega, h.2⟩

/-- A diagonal of one part does not join the ends of the cut. -/
theorem Proper.not_cut {P : List Nat} {c : Chord} (h : Proper P c) (hc : CycInc P) (h3 : 3 ≤ P.length) :
    ¬ ((c.1 = vx P 0 ∧ c.2 = vx P (P.length - 1)) ∨ (c.1 = vx P (P.length - 1) ∧ c.2 = vx P 0)) := by
  have inj : ∀ i j, i < P.length → j < P.length → vx P i = vx P j → i = j := by
    intro i j hi hj e
    rcases Nat.lt_trichotomy i j with h | h | h
    · exact (hc.ne h3 h hj e).elim
    · exact h
    · exact (hc.ne h3 h hi e.symm).elim
  obtain ⟨i, j, hij, hj, hn, h⟩ := h
  rintro (⟨e1, e2⟩ | ⟨e1, e2⟩)
  · rcases h with ⟨f1, f2⟩ | ⟨f1, f2⟩
    · have := inj i 0 (by omega) (by omega) (f1.symm.trans e1)
      have := inj j _ hj (by omega) (f2.symm.trans e2)
      omega
    · have := inj j 0 (by omega) (by omega) (f1.symm.trans e1)
      omega
  · rcases h with ⟨f1, f2⟩ | ⟨f1, f2⟩
    · have := inj j 0 (by omega) (by omega) (f2.symm.trans e2)
      omega
    · have := inj i 0 (by omega) (by omega) (f2.symm.trans e2)
      have := inj j _ hj (by omega) (f1.symm.trans e1)
      omega

theorem Proper.ofA {P : List Nat} {c0 c1 : Nat} (h2 : c0 + 2 ≤ c1) (hlt : c1 < P.length)
    {c : Chord} (h : Proper (partA P c0 c1) c) : Proper P c := by
  obtain ⟨i, j, hij, hj, hn, h⟩ := h
  rw [partA_length] at hj hn
  rw [vx_partA P (by omega), vx_partA P hj] at h
  exact ⟨c0 + i, c0 + j, by omega, by omega, by omega, h⟩

theorem Proper.ofB {P : List Nat} {c0 c1 : Nat} (h2 : c0 + 2 ≤ c1) (hlt : c1 < P.length)
    {c : Chord} (h : Proper (partB P c0 c1) c) : Proper P c := by
  obtain ⟨i, j, hij, hj, hn, h⟩ := h
  rw [partB_length] at hj hn
  rw [vx_partB P (by omega), vx_partB P hj, wrap_mod (by omega), wrap_mod (by omega)] at h
  by_cases hi : c1 + i < P.length
  · rw [if_pos hi] at h
    by_cases hj' : c1 + j < P.length
    · rw [if_pos hj'] at h
      exact ⟨_, _, by omega, by omega, by omega, h⟩
    · rw [if_neg hj'] at h
      exact ⟨c1 + j - P.length, c1 + i, by omega, by omega, by omega, h.symm⟩
  · rw [if_neg hi, if_neg (by omega)] at h
    exact ⟨_, _, by omega, by omega, by omega, h⟩

/-- Chords on the two sides of a cut do not cross, and are equal only if they are the cut. -/
theorem sides_apart {u v : Nat} {c d : Chord}
    (c1 : c.1 = u ∨ c.1 = v ∨ Cyc u c.1 v) (c2 : c.2 = u ∨ c.2 = v ∨ Cyc u c.2 v)
    (d1 : d.1 = u ∨ d.1 = v ∨ Cyc u v d.1) (d2 : d.2 = u ∨ d.2 = v ∨ Cyc u v d.2)
    (hne : c.1 ≠ c.2) (hc : ¬ ((c.1 = u ∧ c.2 = v) ∨ (c.1 = v ∧ c.2 = u))) : ¬ Same c d ∧ ¬ Crossing c d := by
  obtain ⟨a, b⟩ := c
  obtain ⟨x, y⟩ := d
  simp only [Same, Crossing, Inside, Outside, Cyc] at *
  constructor
  · rintro (⟨rfl, rfl⟩ | ⟨rfl, rfl⟩) <;> omega
  · omega

theorem sides_apart' {u v : Nat} (huv : u ≠ v) {d : Chord}
    (d1 : d.1 = u ∨ d.1 = v ∨ Cyc u v d.1) (d2 : d.2 = u ∨ d.2 = v ∨ Cyc u v d.2)
    (hne : d.1 ≠ d.2) (hc : ¬ ((d.1 = u ∧ d.2 = v) ∨ (d.1 = v ∧ d.2 = u))) : ¬ Same (u, v) d ∧ ¬ Crossing (u, v) d := by
  obtain ⟨x, y⟩ := d
  simp only [Same, Crossing, Inside, Outside, Cyc] at *
  omega

theorem sides_apart'' {u v : Nat} (huv : u ≠ v) {d : Chord}
    (d1 : d.1 = u ∨ d.1 = v ∨ Cyc u d.1 v) (d2 : d.2 = u ∨ d.2 = v ∨ Cyc u d.2 v)
    (hne : d.1 ≠ d.2) (hc : ¬ ((d.1 = u ∧ d.2 = v) ∨ (d.1 = v ∧ d.2 = u))) : ¬ Same (u, v) d ∧ ¬ Crossing (u, v) d := by
  obtain ⟨x, y⟩ := d
  simp only [Same, Crossing, Inside, Outside, Cyc] at *
  omega

theorem Proper.ne {P : List Nat} {c : Chord} (h : Proper P c) (hc : CycInc P) (h3 : 3 ≤ P.length) : c.1 ≠ c.2 := by
  obtain ⟨i, j, hij, hj, -, ⟨e, f⟩ | ⟨e, f⟩⟩ := h
  · rw [e, f]; exact hc.ne h3 (by omega) hj
  · rw [e, f]; exact (hc.ne h3 (by omega) hj).symm

theorem Cut.good {P : List Nat} {cs : List Chord} (h : Cut P cs) : CycInc P →
    3 ≤ P.length ∧ cs.length = P.length - 3 ∧ (∀ c ∈ cs, Proper P c) ∧ cs.Pairwise (fun c d => ¬ Same c d ∧ ¬ Crossing c d) := by
  induction h with
  | tri P h => exact fun _ => ⟨by omega, by simp [h], by simp, by simp⟩
  | split P c0 c1 csA csB h2 hlt hp hA hB ihA ihB =>
    intro hc
    have hcA := cycInc_partA hc h2 hlt
    have hcB := cycInc_partB hc h2 hlt
    obtain ⟨a0, a1, a2, a3⟩ := ihA hcA
    obtain ⟨b0, b1, b2, b3⟩ := ihB hcB
    rw [partA_length] at a1
    rw [partB_length] at b1
    have h3 : 3 ≤ P.length := by omega
    have huv := hc.ne h3 (show c0 < c1 by omega) hlt
    have eA0 : vx (partA P c0 c1) 0 = vx P c0 := vx_partA P (by omega)
    have eA1 : vx (partA P c0 c1) ((partA P c0 c1).length - 1) = vx P c1 := by
      rw [partA_length, vx_partA P (by omega)]
      congr 1
      omega
    have eB0 : vx (partB P c0 c1) 0 = vx P c1 := by
      rw [vx_partB P (by omega), Nat.add_zero, Nat.mod_eq_of_lt hlt]
    have eB1 : vx (partB P c0 c1) ((partB P c0 c1).length - 1) = vx P c0 := by
      rw [partB_length, vx_partB P (by omega), wrap_mod (by omega), if_neg (by omega)]
      congr 1
      omega
    have sA : ∀ c ∈ csA, (c.1 = vx P c0 ∨ c.1 = vx P c1 ∨ Cyc (vx P c0) c.1 (vx P c1)) ∧
        (c.2 = vx P c0 ∨ c.2 = vx P c1 ∨ Cyc (vx P c0) c.2 (vx P c1)) ∧ c.1 ≠ c.2 ∧
        ¬ ((c.1 = vx P c0 ∧ c.2 = vx P c1) ∨ (c.1 = vx P c1 ∧ c.2 = vx P c0)) := by
      intro c hcm
      have hpr := a2 c hcm
      obtain ⟨⟨i, hi, ei⟩, j, hj, ej⟩ := hpr.ends
      refine ⟨?_, ?_, hpr.ne hcA a0, ?_⟩
      · rw [ei]; exact side_A hc h2 hlt hi
      · rw [ej]; exact side_A hc h2 hlt hj
      · have := hpr.not_cut hcA a0
        rwa [eA0, eA1] at this
    have sB : ∀ c ∈ csB, (c.1 = vx P c0 ∨ c.1 = vx P c1 ∨ Cyc (vx P c0) (vx P c1) c.1) ∧
        (c.2 = vx P c0 ∨ c.2 = vx P c1 ∨ Cyc (vx P c0) (vx P c1) c.2) ∧ c.1 ≠ c.2 ∧
        ¬ ((c.1 = vx P c0 ∧ c.2 = vx P c1) ∨ (c.1 = vx P c1 ∧ c.2 = vx P c0)) := by
      intro c hcm
      have hpr := b2 c hcm
      obtain ⟨⟨i, hi, ei⟩, j, hj, ej⟩ := hpr.ends
      refine ⟨?_, ?_, hpr.ne hcB b0, ?_⟩
      · rw [ei]; exact side_B hc h2 hlt hi
      · rw [ej]; exact side_B hc h2 hlt hj
      · have := hpr.not_cut hcB b0
        rw [eB0, eB1] at this
        exact fun h => this h.symm
    refine ⟨h3, ?_, ?_, ?_⟩
    · simp only [List.length_cons, List.length_append]
      omega
    · intro c hcm
      rcases List.mem_cons.1 hcm with rfl | hcm
      · exact ⟨c0, c1, h2, hlt, hp, Or.inl ⟨rfl, rfl⟩⟩
      · rcases List.mem_append.1 hcm with hcm | hcm
        · exact (a2 c hcm).ofA h2 hlt
        · exact (b2 c hcm).ofB h2 hlt
    · rw [List.pairwise_cons, List.pairwise_append]
      refine ⟨?_, a3, b3, ?_⟩
      · intro d hd
        rcases List.mem_append.1 hd with hd | hd
        · obtain ⟨x1, x2, x3, x4⟩ := sA d hd
          exact sides_apart'' huv x1 x2 x3 x4
        · obtain ⟨x1, x2, x3, x4⟩ := sB d hd
          exact sides_apart' huv x1 x2 x3 x4
      · intro c hcm d hd
        obtain ⟨x1, x2, x3, x4⟩ := sA c hcm
        obtain ⟨y1, y2, -, -⟩ := sB d hd
        exact sides_apart x1 x2 y1 y2 x3 x4

theorem Cut.triangulation {n : Nat} {cs : List Chord} (h : Cut (List.range n) cs) : IsTriangulation n cs := by
  obtain ⟨h3, h1, h2, h4⟩ := h.good (cycInc_range n)
  rw [List.length_range] at h1 h3
  refine ⟨h1, ?_, h4⟩
  intro c hc
  have e : ∀ i, i < n → vx (List.range n) i = i := by
    intro i hi
    simp [vx, hi]
  obtain ⟨i, j, hij, hj, hn, h⟩ := h2 c hc
  rw [List.length_range] at hj hn
  rw [e i (by omega), e j hj] at h
  obtain ⟨a, b⟩ := c
  simp only at h
  unfold Diagonal
  have m : ∀ a, a < n → (a + 1) % n = if a + 1 = n then 0 else a + 1 := by
    intro a ha
    split
    · rename_i h
      rw [h, Nat.mod_self]
    · exact Nat.mod_eq_of_lt (by omega)
  simp only
  rcases h with ⟨rfl, rfl⟩ | ⟨rfl, rfl⟩
  · rw [m _ (by omega), m _ hj]
    split <;> split <;> omega
  · rw [m a hj, m b (by omega)]
    split <;> split <;> omega

end Plc.Tri
