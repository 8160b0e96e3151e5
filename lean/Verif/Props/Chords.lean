import Verif.Proofs.Chords
import Verif.Proofs.Std
import Verif.Props.Builders
import Verif.Props.Multidx

/-!
# C48: the generated chord systems are triangulations

`IsTriangulation` is stated with the geometry of the n-gon only (`Spec/Chords`). The library's own check
(`tsmcmc_chord_system_ok`) is shown to decide the part of it that it is meant to decide.
-/

namespace Plc.Tri

open Build

def tagLe : Nat × Bool → Nat × Bool → Bool := fun x y => decide (x.1 ≤ y.1)

theorem sort_eq (Q : QSort) (l s : List (Nat × Bool)) (hp : s.Perm l) (hs : s.Pairwise (fun x y => x.1 < y.1)) :
    Q.sort tagLe l = s := by
  have hq := Q.sorted tagLe l (by intro a b _ _; simp only [tagLe, Bool.or_eq_true, decide_eq_true_eq]; omega)
    (by intro a b c _ _ _; simp only [tagLe, decide_eq_true_eq]; omega)
  have hinj : ∀ a ∈ s, ∀ b ∈ s, a.1 = b.1 → a = b := by
    have : ∀ (s : List (Nat × Bool)), s.Pairwise (fun x y => x.1 < y.1) → ∀ a ∈ s, ∀ b ∈ s, a.1 = b.1 → a = b := by
      intro s
      induction s with
      | nil => simp
      | cons x t ih =>
        intro h a ha b hb e
        rw [List.pairwise_cons] at h
        rcases List.mem_cons.1 ha with ea | ha <;> rcases List.mem_cons.1 hb with eb | hb
        · rw [ea, eb]
        · have := h.1 b hb
          rw [← ea] at this
          omega
        · have := h.1 a ha
          rw [← eb] at this
          omega
        · exact ih h.2 a ha b hb e
    exact this s hs
  refine List.Perm.eq_of_pairwise (le := fun a b => tagLe a b = true) ?_ hq (hs.imp ?_) ((Q.perm tagLe l).trans hp.symm)
  · intro a b ha hb h1 h2
    simp only [tagLe, decide_eq_true_eq] at h1 h2
    exact hinj a (hp.symm.subset ((Q.perm tagLe l).subset ha)) b hb (by omega)
  · intro a b h
    simp only [tagLe, decide_eq_true_eq]
    omega

/-- The tags in the order of the endpoints. -/
theorem tags_eq (Q : QSort) (l : List (Nat × Bool)) (A0 A1 B0 B1 : Nat)
    (hp : [(A0, true), (A1, true), (B0, false), (B1, false)].Perm l) (hA : A0 < A1) (hB : B0 < B1)
    (h1 : A0 ≠ B0) (h2 : A0 ≠ B1) (h3 : A1 ≠ B0) (h4 : A1 ≠ B1) :
    ((Q.sort tagLe l).map Prod.snd = [true, false, true, false] ∨
      (Q.sort tagLe l).map Prod.snd = [false, true, false, true]) ↔
    ((A0 < B0 ∧ B0 < A1 ∧ A1 < B1) ∨ (B0 < A0 ∧ A0 < B1 ∧ B1 < A1)) := by
  have key : ∀ s : List (Nat × Bool), s.Perm [(A0, true), (A1, true), (B0, false), (B1, false)] →
      s.Pairwise (fun x y => x.1 < y.1) → Q.sort tagLe l = s := fun s h1 h2 => sort_eq Q l s (h1.trans hp) h2
  rcases Nat.lt_or_gt_of_ne h1 with g1 | g1
  · rcases Nat.lt_or_gt_of_ne h3 with g3 | g3
    · rw [key [(A0, true), (A1, true), (B0, false), (B1, false)] (List.Perm.refl _) (by simp; omega)]
      simp; omega
    · rcases Nat.lt_or_gt_of_ne h4 with g4 | g4
      · rw [key [(A0, true), (B0, false), (A1, true), (B1, false)] (.cons _ (.swap _ _ _)) (by simp; omega)]
        simp; omega
      · rw [key [(A0, true), (B0, false), (B1, false), (A1, true)]
          (.cons _ (List.perm_append_comm (l₁ := [(B0, false), (B1, false)]) (l₂ := [(A1, true)]))) (by simp; omega)]
        simp; omega
  · rcases Nat.lt_or_gt_of_ne h2 with g2 | g2
    · rcases Nat.lt_or_gt_of_ne h4 with g4 | g4
      · rw [key [(B0, false), (A0, true), (A1, true), (B1, false)]
          (List.Perm.append_right [(B1, false)] (List.perm_append_comm (l₁ := [(B0, false)]) (l₂ := [(A0, true), (A1, true)])))
          (by simp; omega)]
        simp; omega
      · rw [key [(B0, false), (A0, true), (B1, false), (A1, true)]
          ((List.Perm.swap _ _ _).trans (.cons _ (List.perm_append_comm (l₁ := [(B0, false), (B1, false)]) (l₂ := [(A1, true)]))))
          (by simp; omega)]
        simp; omega
    · rw [key [(B0, false), (B1, false), (A0, true), (A1, true)]
        (List.perm_append_comm (l₁ := [(B0, false), (B1, false)]) (l₂ := [(A0, true), (A1, true)])) (by simp; omega)]
      simp; omega

/-- **C48** `tsmcmc_chords_cross` says yes exactly if the chords are equal or cross. -/
theorem C48_cross (Q : QSort) (c d : Chord) (hc : c.1 ≠ c.2) (hd : d.1 ≠ d.2) :
    chordsCross Q c d = true ↔ Same c d ∨ Crossing c d := by
  obtain ⟨a, b⟩ := c
  obtain ⟨x, y⟩ := d
  simp only at hc hd
  unfold chordsCross
  simp only
  by_cases hs : (a = x ∧ b = y) ∨ (a = y ∧ b = x)
  · rw [if_pos hs]
    simp only [true_iff]
    exact Or.inl hs
  rw [if_neg hs]
  have hns : ¬ Same (a, b) (x, y) := hs
  by_cases hm : a = x ∨ a = y ∨ b = x ∨ b = y
  · rw [if_pos hm]
    simp only [Bool.false_eq_true, false_iff, hns, false_or]
    unfold Crossing Inside Outside
    simp only
    omega
  rw [if_neg hm]
  simp only [hns, false_or, Crossing, Inside, Outside, decide_eq_true_eq]
  change ((Q.sort tagLe _).map Prod.snd = _ ∨ (Q.sort tagLe _).map Prod.snd = _) ↔ _
  rcases Nat.lt_or_gt_of_ne hc with g | g <;> rcases Nat.lt_or_gt_of_ne hd with k | k
  · rw [tags_eq Q _ a b x y (.refl _) g k (by omega) (by omega) (by omega) (by omega)]
    omega
  · rw [tags_eq Q _ a b y x (.cons _ (.cons _ (.swap _ _ _))) g k (by omega) (by omega) (by omega) (by omega)]
    omega
  · rw [tags_eq Q _ b a x y (.swap _ _ _) g k (by omega) (by omega) (by omega) (by omega)]
    omega
  · rw [tags_eq Q _ b a y x ((List.Perm.swap _ _ _).trans (.cons _ (.cons _ (.swap _ _ _)))) g k
      (by omega) (by omega) (by omega) (by omega)]
    omega

theorem crossesNone_iff (Q : QSort) (c : Chord) : ∀ l, crossesNone Q c l = true ↔ ∀ d ∈ l, chordsCross Q c d = false
  | [] => by simp [crossesNone]
  | d :: t => by
    rw [crossesNone]
    have ih := crossesNone_iff Q c t
    by_cases h : chordsCross Q c d = true
    · simp [h]
    · simp only [Bool.not_eq_true] at h
      simp [h, ih]

theorem sysLoop_iff (Q : QSort) : ∀ (l before : List Chord), sysLoop Q before l = true ↔
    (∀ c ∈ l, ∀ d ∈ before, chordsCross Q c d = false) ∧ l.Pairwise (fun d c => chordsCross Q c d = false)
  | [], before => by simp [sysLoop]
  | c :: t, before => by
    rw [sysLoop]
    have ih := sysLoop_iff Q t (before ++ [c])
    have hn := crossesNone_iff Q c before
    by_cases h : crossesNone Q c before = true
    · rw [if_pos h, ih, List.pairwise_cons]
      simp only [List.mem_append, List.mem_cons, List.not_mem_nil, or_false]
      constructor
      · rintro ⟨h1, h2⟩
        refine ⟨?_, fun d hd => h1 d hd c (Or.inr rfl), h2⟩
        rintro d (rfl | hd) e he
        · exact hn.1 h e he
        · exact h1 d hd e (Or.inl he)
      · rintro ⟨h1, h2, h3⟩
        refine ⟨?_, h3⟩
        rintro d hd e (he | rfl)
        · exact h1 d (Or.inr hd) e he
        · exact h2 d hd
    · rw [if_neg h]
      simp only [Bool.false_eq_true, false_iff]
      rintro ⟨h1, -⟩
      exact h (hn.2 (h1 c (by simp)))

theorem apart_symm {c d : Chord} (hc : c.1 ≠ c.2) (hd : d.1 ≠ d.2) :
    (¬ (Same c d ∨ Crossing c d)) ↔ (¬ Same d c ∧ ¬ Crossing d c) := by
  unfold Same Crossing Inside Outside
  omega

/-- **C48** `tsmcmc_chord_system_ok` accepts a system of chords exactly if no two are equal and no two cross. -/
theorem C48_system_ok (Q : QSort) (sys : List Chord) (h : ∀ c ∈ sys, c.1 ≠ c.2) :
    systemOk Q sys = true ↔ sys.Pairwise (fun c d => ¬ Same c d ∧ ¬ Crossing c d) := by
  unfold systemOk
  rw [sysLoop_iff]
  simp only [List.not_mem_nil, false_implies, implies_true, true_and]
  have e : ∀ {c d}, c ∈ sys → d ∈ sys → (chordsCross Q d c = false ↔ ¬ Same c d ∧ ¬ Crossing c d) := by
    intro c d hc hd
    rw [← apart_symm (h d hd) (h c hc), ← C48_cross Q d c (h d hd) (h c hc), Bool.not_eq_true]
  exact List.Pairwise.iff_of_mem e

theorem IsTriangulation.ok {n : Nat} {sys : List Chord} (h : IsTriangulation n sys) (Q : QSort) : systemOk Q sys = true :=
  (C48_system_ok Q sys (fun c hc => (h.2.1 c hc).2.2.1)).2 h.2.2

/-! ## The fan -/

theorem fanLoop_ok : ∀ (r i : Nat) (pre suf : List Chord), pre.length = i → suf.length = r →
    fanLoop r i (pre ++ suf) = .ok (pre ++ (List.range r).map (fun t => (0, i + t + 2)))
  | 0, i, pre, suf, _, hs => by
    have : suf = [] := List.eq_nil_of_length_eq_zero hs
    subst this
    rw [fanLoop]
    simp
  | r + 1, i, pre, [], _, hs => by simp at hs
  | r + 1, i, pre, x :: suf, hp, hs => by
    rw [fanLoop, wr_mid pre suf x _ hp.symm, ok_bind]
    have := fanLoop_ok r (i + 1) (pre ++ [(0, i + 2)]) suf (by simp [hp]) (by simpa using hs)
    rw [List.append_assoc, List.singleton_append] at this
    rw [this, List.range_succ_eq_map, List.map_cons, List.map_map, List.append_assoc]
    congr 3
    simp only [List.cons.injEq, List.singleton_append]
    refine ⟨trivial, List.map_congr_left (fun t _ => ?_)⟩
    simp only [Function.comp, Prod.mk.injEq, true_and]
    omega

/-- The chords of the fan. -/
def fanList (n : Nat) : List Chord := (List.range (n - 3)).map (fun t => (0, t + 2))

theorem fan_triangulation {n : Nat} : IsTriangulation n (fanList n) := by
  refine ⟨by simp [fanList], ?_, ?_⟩
  · intro c hc
    simp only [fanList, List.mem_map, List.mem_range] at hc
    obtain ⟨t, ht, rfl⟩ := hc
    unfold Diagonal
    simp only
    rw [Nat.mod_eq_of_lt (show 0 + 1 < n by omega), Nat.mod_eq_of_lt (show t + 2 + 1 < n by omega)]
    omega
  · unfold fanList
    rw [List.pairwise_map]
    refine List.pairwise_lt_range.imp ?_
    intro a b hab
    unfold Same Crossing Inside Outside
    simp only
    omega

/-- **C48** `tsmcmc_fan_triangulation` returns a triangulation, for every number of vertices. -/
theorem C48_fan (Q : QSort) (n : Nat) : ∃ sys, fan Q n = .ok sys ∧ IsTriangulation n sys := by
  refine ⟨fanList n, ?_, fan_triangulation⟩
  have h := fanLoop_ok (n - 3) 0 [] (List.replicate (n - 3) (0, 0)) rfl (by simp)
  simp only [List.nil_append, Nat.zero_add] at h
  rw [fan, h, ok_bind, assertC_ok, ok_bind]
  · rfl
  · exact fan_triangulation.ok Q

/-! ## The teeth -/

/-- Chord number `k` of the teeth. -/
def tooth (n k : Nat) : Chord := (n - 1 - k / 2, 1 + (k + 1) / 2)

theorem teethLoop_ok (n : Nat) : ∀ (r k : Nat) (suf : List Chord), suf.length = r → 0 < k →
    teethLoop r k ((List.range k).map (tooth n) ++ suf) = .ok ((List.range (k + r)).map (tooth n))
  | 0, k, suf, hs, _ => by
    have : suf = [] := List.eq_nil_of_length_eq_zero hs
    subst this
    rw [teethLoop]
    simp
  | r + 1, k, [], hs, _ => by simp at hs
  | r + 1, k, x :: suf, hs, hk => by
    rw [teethLoop, rd_ok (a := tooth n (k - 1)) (by
      rw [List.getElem?_append_left (by simp; omega), List.getElem?_map, List.getElem?_range (by omega)]; rfl), ok_bind,
      wr_mid _ suf x _ (by simp), ok_bind]
    have e : (if k % 2 ≠ 0 then ((tooth n (k - 1)).1, (tooth n (k - 1)).2 + 1) else ((tooth n (k - 1)).1 - 1, (tooth n (k - 1)).2))
        = tooth n k := by
      unfold tooth
      split <;> simp only [Prod.mk.injEq] <;> omega
    rw [e]
    have := teethLoop_ok n r (k + 1) suf (by simpa using hs) (by omega)
    rw [List.range_succ, List.map_append, List.append_assoc] at this
    simp only [List.map_cons, List.map_nil, List.singleton_append] at this
    rw [this]
    congr 3
    omega

theorem teeth_triangulation {n : Nat} : IsTriangulation n ((List.range (n - 3)).map (tooth n)) := by
  refine ⟨by simp, ?_, ?_⟩
  · intro c hc
    simp only [List.mem_map, List.mem_range] at hc
    obtain ⟨t, ht, rfl⟩ := hc
    unfold Diagonal tooth
    simp only
    rw [Nat.mod_eq_of_lt (show 1 + (t + 1) / 2 + 1 < n by omega)]
    by_cases h : t / 2 = 0
    · rw [h, Nat.sub_zero, show n - 1 + 1 = n by omega, Nat.mod_self]
      omega
    · rw [Nat.mod_eq_of_lt (by omega)]
      omega
  · rw [List.pairwise_map]
    have hm : (List.range (n - 3)).Pairwise (fun a b => a < b ∧ b < n - 3) := by
      refine List.pairwise_lt_range.imp_of_mem ?_
      intro a b _ hb hab
      exact ⟨hab, List.mem_range.1 hb⟩
    refine hm.imp ?_
    intro a b hab
    unfold Same Crossing Inside Outside tooth
    simp only
    omega

/-- **C48** `tsmcmc_teeth_triangulation` returns a triangulation, for every number of vertices from 4 on. -/
theorem C48_teeth (n : Nat) (h : 4 ≤ n) : ∃ sys, teeth n = .ok sys ∧ IsTriangulation n sys := by
  refine ⟨_, ?_, teeth_triangulation⟩
  obtain ⟨m, rfl⟩ : ∃ m, n = m + 4 := ⟨n - 4, by omega⟩
  rw [teeth, show m + 4 - 3 = m + 1 by omega, List.replicate_succ, wr_zero, ok_bind]
  have := teethLoop_ok (m + 4) m 1 (List.replicate m (0, 0)) (by simp) (by omega)
  rw [show m + 1 - 1 = m by omega, Nat.add_comm m 1]
  exact this

/-- **C48** For a triangle the code writes a chord into an array without room for one. -/
theorem C48_teeth_triangle : teeth 3 = .error .ub := rfl

/-! ## The random triangulation -/

theorem pick_ok (rng : Nat → Nat) (pos n : Nat) (h : 4 ≤ n) :
    ∃ c0 c1, pick rng pos n = .ok (c0, c1) ∧ c0 + 2 ≤ c1 ∧ c1 < n ∧ ¬ (c0 = 0 ∧ c1 + 1 = n) := by
  have h0 : rng pos % (n - 2) < n - 2 := Nat.mod_lt _ (by omega)
  unfold pick draw
  rw [if_pos (by omega), ok_bind]
  by_cases hc : rng pos % (n - 2) = 0
  · rw [if_pos hc, hc]
    rw [if_pos (show 0 < n - 0 - 3 by omega), ok_bind]
    have : rng (pos + 1) % (n - 0 - 3) < n - 0 - 3 := Nat.mod_lt _ (by omega)
    exact ⟨_, _, rfl, by omega, by omega, by omega⟩
  · rw [if_neg hc]
    by_cases h2 : 0 < n - rng pos % (n - 2) - 2
    · rw [if_pos h2, ok_bind]
      have : rng (pos + 1) % (n - rng pos % (n - 2) - 2) < n - rng pos % (n - 2) - 2 := Nat.mod_lt _ h2
      exact ⟨_, _, rfl, by omega, by omega, by omega⟩
    · omega

theorem mapM_vx (P : List Nat) (f : Nat → Nat) (k : Nat) (h : ∀ i < k, f i < P.length) :
    (List.range k).mapM (fun i => rd P (f i)) = .ok ((List.range k).map (fun i => vx P (f i))) := by
  refine Multidx.mapM_ok _ _ _ (by simp) ?_
  intro p a b ha hb
  have hp : p < k := by
    have := (List.getElem?_eq_some_iff.1 ha).1
    simpa using this
  rw [List.getElem?_range hp, Option.some.injEq] at ha
  subst ha
  rw [List.getElem?_map, List.getElem?_range hp, Option.map_some, Option.some.injEq] at hb
  subst hb
  exact rd_ok (vx_eq (h _ hp))

theorem worker_ok (rng : Nat → Nat) : ∀ (depth : Nat) (P : List Nat) (pre suf : List Chord) (pos : Nat),
    3 ≤ P.length → P.length ≤ depth → P.length - 3 ≤ suf.length →
    ∃ cs pos', Cut P cs ∧ cs.length = P.length - 3 ∧
      worker rng depth P ⟨pre.length, pre ++ suf, pos⟩ =
        .ok ⟨(pre ++ cs).length, (pre ++ cs) ++ suf.drop (P.length - 3), pos'⟩
  | 0, P, _, _, _, h3, hd, _ => by omega
  | depth + 1, P, pre, suf, pos, h3, hd, hs => by
    by_cases h : P.length = 3
    · refine ⟨[], pos, .tri P h, by simp [h], ?_⟩
      rw [worker, if_pos h, h]
      simp
    · obtain ⟨c0, c1, hpick, h2, hlt, hp⟩ := pick_ok rng pos P.length (by omega)
      obtain ⟨x, suf', rfl⟩ : ∃ x suf', suf = x :: suf' := by
        cases suf with
        | nil => simp at hs; omega
        | cons x s => exact ⟨x, s, rfl⟩
      simp only [List.length_cons] at hs
      have hA := mapM_vx P (fun i => c0 + i) (P.length + 2 - (P.length - (c1 - c0 - 1))) (by intro i hi; omega)
      have hB := mapM_vx P (fun i => (c1 + i) % P.length) (P.length - (c1 - c0 - 1))
        (fun i _ => Nat.mod_lt _ (by omega))
      rw [show P.length + 2 - (P.length - (c1 - c0 - 1)) = c1 - c0 + 1 by omega] at hA
      have lA := partA_length P c0 c1
      have lB := partB_length P c0 c1
      obtain ⟨csA, pA, cutA, lenA, eA⟩ := worker_ok rng depth (partA P c0 c1) (pre ++ [(vx P c0, vx P c1)]) suf' (pos + 2)
        (by omega) (by omega) (by omega)
      obtain ⟨csB, pB, cutB, lenB, eB⟩ := worker_ok rng depth (partB P c0 c1) (pre ++ [(vx P c0, vx P c1)] ++ csA)
        (suf'.drop ((partA P c0 c1).length - 3)) pA
        (by omega) (by omega) (by simp only [List.length_drop]; omega)
      refine ⟨(vx P c0, vx P c1) :: (csA ++ csB), pB, .split P c0 c1 csA csB h2 hlt hp cutA cutB, ?_, ?_⟩
      · simp only [List.length_cons, List.length_append]
        omega
      · rw [worker, if_neg h]
        simp only [hpick, ok_bind]
        rw [rd_ok (vx_eq (show c0 < P.length by omega)), ok_bind, rd_ok (vx_eq hlt), ok_bind, wr_mid pre suf' x _ rfl, ok_bind,
          show P.length + 2 - (P.length - (c1 - c0 - 1)) = c1 - c0 + 1 by omega, hA, ok_bind, hB, ok_bind]
        rw [show (pre ++ [(vx P c0, vx P c1)]).length = pre.length + 1 by simp, List.append_assoc pre, List.singleton_append] at eA
        change (worker rng depth (partA P c0 c1) _ >>= fun st => worker rng depth (partB P c0 c1) st) = _
        rw [eA, ok_bind]
        simp only [List.append_assoc, List.singleton_append, List.cons_append, List.nil_append, List.drop_drop] at eB ⊢
        rw [eB]
        congr 6
        rw [show P.length - 3 = ((partA P c0 c1).length - 3 + ((partB P c0 c1).length - 3)) + 1 by omega, List.drop_succ_cons]

/-- **C48** `tsmcmc_random_triangulation` returns a triangulation, whatever the random generator returns. -/
theorem C48_random (Q : QSort) (rng : Nat → Nat) (n : Nat) (h : 3 ≤ n) :
    ∃ sys, random Q rng n = .ok sys ∧ IsTriangulation n sys := by
  obtain ⟨cs, pos', cut, hl, hw⟩ := worker_ok rng n (List.range n) [] (List.replicate (n - 3) (0, 0)) 0 (by simpa using h)
    (by simp) (by simp)
  have ht := cut.triangulation
  refine ⟨cs, ?_, ht⟩
  simp only [List.length_nil, List.nil_append, List.length_range, List.drop_replicate, Nat.sub_self, List.replicate_zero,
    List.append_nil] at hw
  rw [random, hw, ok_bind, assertC_ok, ok_bind]
  exact ht.ok Q

/-! ## The spiral -/

/-- The vertices still active are those of the polygon. -/
def Act (active : List Bool) (P : List Nat) : Prop :=
  (∀ x, active[x]? = some true ↔ ∃ i, i < P.length ∧ vx P i = x)

theorem Act.lt {active : List Bool} {P : List Nat} (h : Act active P) {i : Nat} (hi : i < P.length) :
    vx P i < active.length := by
  have := (h (vx P i)).2 ⟨i, hi, rfl⟩
  exact (List.getElem?_eq_some_iff.1 this).1

theorem nextActive_ok (active : List Bool) : ∀ (d r i : Nat), 0 < d → d ≤ r → i < active.length →
    active[(i + d) % active.length]? = some true →
    (∀ t, 0 < t → t < d → active[(i + t) % active.length]? ≠ some true) →
    nextActive active r i = .ok ((i + d) % active.length)
  | 0, _, _, h, _, _, _, _ => by omega
  | d + 1, 0, i, _, hr, _, _, _ => by omega
  | d + 1, r + 1, i, _, hr, hi, ha, hn => by
    rw [nextActive]
    have hlt : (i + 1) % active.length < active.length := Nat.mod_lt _ (by omega)
    by_cases hd : d = 0
    · subst hd
      rw [rd_ok ha]
      rfl
    · have h1 := hn 1 (by omega) (by omega)
      have e : active[(i + 1) % active.length]? = some false := by
        rw [List.getElem?_eq_getElem hlt] at h1 ⊢
        cases hb : active[(i + 1) % active.length] with
        | true => exact absurd (congrArg some hb) h1
        | false => rfl
      have hmod : ∀ t, ((i + 1) % active.length + t) % active.length = (i + (t + 1)) % active.length := by
        intro t
        rw [Nat.mod_add_mod]
        congr 1
        omega
      rw [rd_ok e]
      have := nextActive_ok active d r ((i + 1) % active.length) (by omega) (by omega) hlt (by rw [hmod]; exact ha)
        (by intro t h0 h1; rw [hmod]; exact hn (t + 1) (by omega) (by omega))
      rw [hmod] at this
      exact this

/-- The search stops at `k` if no vertex strictly between `i` and `k` is active. -/
theorem nextActive_cyc (active : List Bool) {i k : Nat} (hi : i < active.length) (hk : active[k]? = some true) (hne : i ≠ k)
    (hn : ∀ x, Cyc i x k → active[x]? ≠ some true) : nextActive active active.length i = .ok k := by
  have hkl := (List.getElem?_eq_some_iff.1 hk).1
  obtain ⟨d, hd0, hdl, hd⟩ : ∃ d, 0 < d ∧ d < active.length ∧ (i + d = k ∨ i + d = k + active.length) := by
    rcases Nat.lt_or_gt_of_ne hne with h | h
    · exact ⟨k - i, by omega, by omega, by omega⟩
    · exact ⟨k + active.length - i, by omega, by omega, by omega⟩
  have hmod : (i + d) % active.length = k := by
    rw [wrap_mod (by omega)]
    split <;> omega
  have := nextActive_ok active d active.length i hd0 (by omega) hi (by rw [hmod]; exact hk) (by
    intro t h0 h1
    apply hn
    rw [wrap_mod (by omega)]
    unfold Cyc
    split <;> omega)
  rw [hmod] at this
  exact this

/-- One round: from `P0` the first active vertex is `P1`; without it the next one is `P2`, and the vertices left are
those of the polygon cut off along `P0 P2`. -/
theorem round_ok {active : List Bool} {P : List Nat} (ha : Act active P) (hc : CycInc P) (h4 : 4 ≤ P.length) :
    nextActive active active.length (vx P 0) = .ok (vx P 1) ∧
    wr active (vx P 1) false = .ok (active.set (vx P 1) false) ∧
    nextActive (active.set (vx P 1) false) active.length (vx P 1) = .ok (vx P 2) ∧
    Act (active.set (vx P 1) false) (partB P 0 2) := by
  have hset : ∀ x, (active.set (vx P 1) false)[x]? = some true ↔ active[x]? = some true ∧ x ≠ vx P 1 := by
    intro x
    rw [List.getElem?_set]
    by_cases h : vx P 1 = x
    · rw [if_pos h, if_pos (ha.lt (by omega))]
      simp [h]
    · rw [if_neg h]
      simp [Ne.symm h]
  refine ⟨?_, wr_lt (ha.lt (by omega)), ?_, ?_⟩
  · refine nextActive_cyc active (ha.lt (by omega)) ((ha _).2 ⟨1, by omega, rfl⟩) (hc.ne (by omega) (by omega) (by omega)) ?_
    intro x hx hax
    obtain ⟨i, hi, rfl⟩ := (ha x).1 hax
    by_cases h0 : i = 0
    · subst h0; unfold Cyc at hx; omega
    by_cases h1 : i = 1
    · subst h1; unfold Cyc at hx; omega
    have := hc 0 1 i (by omega) (by omega) hi
    unfold Cyc at this hx
    omega
  · have := nextActive_cyc (active.set (vx P 1) false) (i := vx P 1) (k := vx P 2) (by simpa using ha.lt (by omega))
      ((hset _).2 ⟨(ha _).2 ⟨2, by omega, rfl⟩, (hc.ne (by omega) (by omega) (by omega)).symm⟩)
      (hc.ne (by omega) (by omega) (by omega)) ?_
    · simpa using this
    · intro x hx hax
      obtain ⟨hax, hx1⟩ := (hset x).1 hax
      obtain ⟨i, hi, rfl⟩ := (ha x).1 hax
      by_cases h0 : i = 0
      · subst h0
        have := hc 0 1 2 (by omega) (by omega) (by omega)
        unfold Cyc at this hx
        omega
      by_cases h1 : i = 1
      · subst h1; exact hx1 rfl
      by_cases h2 : i = 2
      · subst h2; unfold Cyc at hx; omega
      have := hc 1 2 i (by omega) (by omega) hi
      unfold Cyc at this hx
      omega
  · intro x
    rw [hset, ha x]
    constructor
    · rintro ⟨⟨i, hi, rfl⟩, hx⟩
      have hi1 : i ≠ 1 := by rintro rfl; exact hx rfl
      by_cases h0 : i = 0
      · subst h0
        refine ⟨P.length - 2, by rw [partB_length]; omega, ?_⟩
        rw [vx_partB P (by omega), show 2 + (P.length - 2) = P.length by omega, Nat.mod_self]
      · refine ⟨i - 2, by rw [partB_length]; omega, ?_⟩
        rw [vx_partB P (by omega), show 2 + (i - 2) = i by omega, Nat.mod_eq_of_lt hi]
    · rintro ⟨i, hi, rfl⟩
      rw [partB_length] at hi
      rw [vx_partB P hi, wrap_mod (by omega)]
      split
      · exact ⟨⟨_, by omega, rfl⟩, (hc.ne (by omega) (by omega) (by omega)).symm⟩
      · refine ⟨⟨_, by omega, rfl⟩, ?_⟩
        exact hc.ne (by omega) (by omega) (by omega)

theorem spiralLoop_ok (n : Nat) : ∀ (r : Nat) (P : List Nat) (active : List Bool) (pre suf : List Chord) (q : Nat),
    P.length = r + 4 → CycInc P → Act active P → active.length = n → pre.length + P.length = n → suf.length = r →
    ∃ cs, Cut P cs ∧ spiralLoop n (r + 1) pre.length (vx P 0) active (pre ++ (vx P 0, q) :: suf) = .ok (pre ++ cs)
  | r, P, active, pre, suf, q, hr, hc, ha, hn, hp, hs => by
    obtain ⟨h1, h2, h3, h4⟩ := round_ok ha hc (by omega)
    have tri : Cut (partA P 0 2) [] := .tri _ (by rw [partA_length])
    have lB := partB_length P 0 2
    have hB0 : vx (partB P 0 2) 0 = vx P 2 := by
      rw [vx_partB P (by omega), Nat.add_zero, Nat.mod_eq_of_lt (by omega)]
    rw [hn] at h1 h3
    have hrd : rd (pre ++ (vx P 0, q) :: suf) pre.length = .ok (vx P 0, q) := rd_ok (by simp)
    have hwr := wr_mid pre suf (vx P 0, q) (vx P 0, vx P 2) rfl
    rw [spiralLoop, h1, ok_bind, h2, ok_bind, h3, ok_bind, hrd, ok_bind]
    simp only
    rw [hwr, ok_bind]
    match r, suf, hs with
    | 0, [], _ =>
      rw [if_neg (by omega), ok_bind, spiralLoop]
      have := Cut.split P 0 2 [] [] (by omega) (by omega) (by omega) tri (.tri _ (by rw [lB]; omega))
      exact ⟨_, this, rfl⟩
    | r + 1, y :: suf, hs =>
      have hrd2 : rd (pre ++ (vx P 0, vx P 2) :: y :: suf) (pre.length + 1) = .ok y := rd_ok (by simp)
      have hwr2 := wr_mid (pre ++ [(vx P 0, vx P 2)]) suf y (vx P 2, y.2) (i := pre.length + 1) (by simp)
      rw [List.append_assoc, List.singleton_append] at hwr2
      rw [if_pos (by omega), hrd2, ok_bind, hwr2, ok_bind]
      obtain ⟨cs, hcut, hres⟩ := spiralLoop_ok n r (partB P 0 2) (active.set (vx P 1) false) (pre ++ [(vx P 0, vx P 2)]) suf y.2
        (by omega) (cycInc_partB hc (by omega) (by omega)) h4 (by simpa using hn)
        (by simp only [List.length_append, List.length_singleton]; omega) (by simpa using hs)
      rw [hB0] at hres
      refine ⟨_, Cut.split P 0 2 [] cs (by omega) (by omega) (by omega) tri hcut, ?_⟩
      rw [show pre.length + 1 = (pre ++ [(vx P 0, vx P 2)]).length by simp, hres]
      simp

/-- **C48** `tsmcmc_spiral_triangulation` returns a triangulation, for every number of vertices from 4 on. -/
theorem C48_spiral (Q : QSort) (n : Nat) (h : 4 ≤ n) : ∃ sys, spiral Q n = .ok sys ∧ IsTriangulation n sys := by
  obtain ⟨m, rfl⟩ : ∃ m, n = m + 4 := ⟨n - 4, by omega⟩
  have hv : ∀ i, i < m + 4 → vx (List.range (m + 4)) i = i := by
    intro i hi
    simp [vx, hi]
  obtain ⟨cs, hcut, hres⟩ := spiralLoop_ok (m + 4) m (List.range (m + 4)) (List.replicate (m + 4) true) []
    (List.replicate m (0, 0)) 0 (by simp) (cycInc_range _) (by
      intro x
      rw [List.getElem?_replicate]
      simp only [List.length_range]
      constructor
      · intro hx
        split at hx
        · exact ⟨x, by assumption, hv x (by assumption)⟩
        · simp at hx
      · rintro ⟨i, hi, rfl⟩
        rw [hv i hi, if_pos hi]) (by simp) (by simp) (by simp)
  rw [hv 0 (by omega)] at hres
  have ht := hcut.triangulation
  refine ⟨cs, ?_, ht⟩
  simp only [List.nil_append, List.length_nil] at hres
  rw [spiral]
  rw [show m + 4 - 3 = m + 1 by omega, List.replicate_succ, wr_zero, ok_bind, hres, ok_bind, assertC_ok (ht.ok Q), ok_bind]

/-- **C48** For a triangle the code writes a chord into an array without room for one. -/
theorem C48_spiral_triangle (Q : QSort) : spiral Q 3 = .error .ub := rfl

/-! ## Cases -/

/-- The hypotheses of the theorems are met, and the systems are not empty. -/
theorem C48_nonvacuous : teeth 6 = .ok [(5, 1), (5, 2), (4, 2)] ∧ IsTriangulation 6 [(0, 2), (2, 4), (4, 0)] ∧
    ¬ IsTriangulation 6 [(0, 2), (1, 3), (4, 0)] := by
  refine ⟨by decide, ⟨rfl, ?_, ?_⟩, ?_⟩
  · simp [Diagonal]
  · simp [Same, Crossing, Inside, Outside]
  · rintro ⟨-, -, h⟩
    simp [Same, Crossing, Inside, Outside] at h

end Plc.Tri
