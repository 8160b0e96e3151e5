import Verif.Proofs.Isos
import Verif.Proofs.Std
import Verif.Props.Edgemap
import Verif.Spec.Examples

/-! # C31 and C32: cyclic comparison of buffers, and crossing maps

C31. `pdint_buffers_cycliceq` decides whether one buffer is a rotation of the other, or of the
other read backwards. It is false on two empty buffers.

C32. A crossing map built from an edge map sends each crossing to one with the images of its
edges in the same (or the mirrored) cyclic order, and is found whenever there is one. -/

namespace Plc

open Plc.Isos Plc.PermM Plc.Core Plc.Cmp List

/-- C31: on buffers of `n > 0` elements the comparison answers, and answers yes exactly when the
first is a rotation of the second, or, with the negative orientation, of its reversal. -/
theorem C31_cyclic_equality (A B : List Nat) (o : Or) (hn : A.length = B.length) (h0 : 0 < B.length) :
    ∃ b, buffersCyclicEq A B B.length o = .ok b ∧
      (b = true ↔ A ~r (if o = .pos then B else B.reverse)) := by
  unfold buffersCyclicEq
  rw [copyBuf_eq, ok_bind, if_neg (by omega)]
  generalize hb : (if o = .pos then B else B.reverse) = b
  have hl : b.length = B.length := by rw [← hb]; split <;> simp
  rw [← hl] at hn h0 ⊢
  obtain ⟨r, r1, r2⟩ := tryOffsets_ok hn h0 b.length 0
  refine ⟨r, r1, r2.trans ?_⟩
  rw [List.isRotated_comm, List.isRotated_iff_mod]
  constructor
  · rintro ⟨i, _, h1, h2⟩
    exact ⟨i, by omega, h2⟩
  · rintro ⟨i, h1, h2⟩
    rcases Nat.lt_or_eq_of_le h1 with h | h
    · exact ⟨i, by omega, by omega, h2⟩
    · exact ⟨0, by omega, by omega, by rw [← h2, h, List.rotate_length, List.rotate_zero]⟩

/-- C31: with the positive orientation the comparison is an equivalence: every buffer equals itself,
and the order of the arguments does not matter. -/
theorem C31_symmetric (A B : List Nat) (o : Or) (hn : A.length = B.length) (h0 : 0 < B.length) :
    buffersCyclicEq A B B.length o = buffersCyclicEq B A A.length o ∧
    buffersCyclicEq A A A.length .pos = .ok true := by
  constructor
  · obtain ⟨b, b1, b2⟩ := C31_cyclic_equality A B o hn h0
    obtain ⟨c, c1, c2⟩ := C31_cyclic_equality B A o hn.symm (by omega)
    rw [b1, c1]
    congr 1
    rw [Bool.eq_iff_iff, b2, c2]
    split
    · exact List.isRotated_comm
    · rw [← List.isRotated_reverse_iff, List.reverse_reverse, List.isRotated_comm]
  · obtain ⟨b, b1, b2⟩ := C31_cyclic_equality A A .pos rfl (by omega)
    rw [b1, b2.mpr (by simpa using List.IsRotated.refl A)]

/-- C31 fails for empty buffers: they are rotations of each other, but the answer is no. -/
theorem C31_empty_false : ∃ (A B : List Nat) (o : Or), A.length = B.length ∧ A ~r B ∧
    buffersCyclicEq A B B.length o = .ok false :=
  ⟨[], [], .pos, rfl, List.IsRotated.refl [], rfl⟩

/-- C31, neighbours on a cycle: `pdint_in_cyclic_order` answers whether `b` comes right after `a` on a
cycle of `n` places (positive), or right before it (negative). -/
theorem C31_in_cyclic_order (a b n : Nat) (o : Or) (ho : o ≠ .unset) (ha : a < n) (hb : b < n) (hn : n < 2 ^ 32) :
    inCyclicOrder a b n o = .ok (if o = .pos then decide (b = (a + 1) % n) else decide (a = (b + 1) % n)) := by
  have h1 : (a + 1) % 2 ^ 32 = a + 1 := Nat.mod_eq_of_lt (by omega)
  have h2 : (n + 2 ^ 32 - 1) % 2 ^ 32 = n - 1 := by omega
  have key : ∀ x y, x < n → y < n → (x = (y + 1) % n ↔ x = y + 1 ∨ (x = 0 ∧ y = n - 1)) := by
    intro x y hx hy
    by_cases h : y + 1 = n
    · rw [h, Nat.mod_self]; omega
    · rw [Nat.mod_eq_of_lt (by omega)]; omega
  unfold inCyclicOrder
  cases o with
  | unset => exact absurd rfl ho
  | pos =>
    rw [show assertC (orOk Or.pos) = .ok () from rfl, ok_bind, if_pos rfl, if_pos rfl, h1, h2]
    refine congrArg Except.ok ?_
    rw [Bool.eq_iff_iff]
    simp only [Bool.or_eq_true, Bool.and_eq_true, decide_eq_true_eq]
    rw [key b a hb ha]
  | neg =>
    rw [show assertC (orOk Or.neg) = .ok () from rfl, ok_bind, if_neg (by decide), if_neg (by decide), h2]
    refine congrArg Except.ok ?_
    rw [Bool.eq_iff_iff]
    simp only [Bool.or_eq_true, Bool.and_eq_true, decide_eq_true_eq]
    rw [key a b ha hb]
    by_cases h : a = 0
    · subst h
      have : (0 + 2 ^ 32 - 1) % 2 ^ 32 = 2 ^ 32 - 1 := rfl
      rw [this]
      omega
    · have : (a + 2 ^ 32 - 1) % 2 ^ 32 = a - 1 := by omega
      rw [this]
      omega

-- repeated entries, a rotation, and a reversal which is not a rotation
example : buffersCyclicEq [1, 2, 1, 3] [1, 3, 1, 2] 4 .pos = .ok true := by decide
example : buffersCyclicEq [1, 1, 2, 3] [1, 1, 3, 2] 4 .pos = .ok false := by decide
example : buffersCyclicEq [1, 1, 2, 3] [1, 1, 3, 2] 4 .neg = .ok true := by decide
example : inCyclicOrder 4 0 5 .pos = .ok true ∧ inCyclicOrder 0 4 5 .neg = .ok true ∧
  inCyclicOrder 0 4 5 .pos = .ok false := by decide

/-- The crossing `z` has the images of the edges of `x`, in the same cyclic order (or, for the negative
orientation, in the opposite one). -/
def CarriedTo (p : Nat → Nat) (o : Or) (x z : Cross) : Prop :=
  [z.e0, z.e1, z.e2, z.e3] ~r
    (if o = .neg then [p x.e3, p x.e2, p x.e1, p x.e0] else [p x.e0, p x.e1, p x.e2, p x.e3])

instance (p : Nat → Nat) (o : Or) (x z : Cross) : Decidable (CarriedTo p o x z) := by
  unfold CarriedTo; infer_instance

theorem Isos.carried_iff {signed : Bool} {m : List Nat} {o : Or} {x z : Cross} (h : ∀ k, x.at k < m.length) :
    Carried signed m o x z ↔ CarriedTo (fun e => m[e]!) o x z ∧ (signed = true → x.sign = z.sign) := by
  have h0 := h 0
  have h1 := h 1
  have h2 := h 2
  have h3 := h 3
  simp only [Cross.at, Nat.reduceMod] at h0 h1 h2 h3
  unfold Carried CarriedTo
  have : (readCross x o).map (ap m) = (if o = .neg then [m[x.e3]!, m[x.e2]!, m[x.e1]!, m[x.e0]!]
      else [m[x.e0]!, m[x.e1]!, m[x.e2]!, m[x.e3]!]) := by
    unfold readCross
    split <;> simp only [List.map_cons, List.map_nil, ap_lt h0, ap_lt h1, ap_lt h2, ap_lt h3,
      getElem!_pos m x.e0 h0, getElem!_pos m x.e1 h1, getElem!_pos m x.e2 h2, getElem!_pos m x.e3 h3]
  rw [this]
  rfl

/-- C32: the search for a crossing map returns. It finds one exactly when every crossing of the first
diagram is carried by the edge map to some crossing of the second (with the same sign, in the signed
version); and the map found is a permutation which sends each crossing to one it is carried to. -/
theorem C32_oriented_crossmap (bs : BSearch) (signed : Bool) (A B : List Cross) (m : List Nat) (o : Or)
    (hA : Canonical A) (hB : Canonical B) (hlen : A.length = B.length) (h0 : A ≠ [])
    (hsA : ∀ x ∈ A, ∀ k, x.at k < m.length) (hsB : ∀ z ∈ B, ∀ k, z.at k < m.length)
    (hm : m ~ List.range m.length) (hs : m.length ≤ 2 ^ 31) :
    ∃ r, orientedCrossmap bs signed A B m o = .ok r ∧
      (r ≠ none ↔ ∀ x ∈ A, ∃ z ∈ B, CarriedTo (fun e => m[e]!) o x z ∧ (signed = true → x.sign = z.sign)) ∧
      (∀ cm, r = some cm → cm.orient = o ∧ permOk cm.perm = .ok true ∧
        cm.perm.map ~ List.range A.length ∧
        ∀ (c : Nat) (x : Cross), A[c]? = some x → ∃ (i : Nat) (z : Cross), cm.perm.map[c]? = some i ∧
          B[i]? = some z ∧ CarriedTo (fun e => m[e]!) o x z ∧ (signed = true → x.sign = z.sign)) := by
  rcases orientedCrossmap_ok bs signed hA hB hlen h0 hsA hsB hm hs o with
    ⟨p, p1, p2, p3, p4, p5⟩ | ⟨r1, x, x1, x2⟩
  · have key : ∀ (c : Nat) (x : Cross), A[c]? = some x → ∃ (i : Nat) (z : Cross), p.map[c]? = some i ∧
        B[i]? = some z ∧ CarriedTo (fun e => m[e]!) o x z ∧ (signed = true → x.sign = z.sign) := by
      intro c x hx
      obtain ⟨i, z, h1, h2, h3⟩ := p5 c x hx
      exact ⟨i, z, h1, h2, (carried_iff (hsA x (List.mem_of_getElem? hx))).mp h3⟩
    refine ⟨_, p1, ?_, ?_⟩
    · simp only [ne_eq, reduceCtorEq, not_false_eq_true, true_iff]
      intro x hx
      obtain ⟨c, hc⟩ := List.mem_iff_getElem?.mp hx
      obtain ⟨i, z, _, h2, h3⟩ := key c x hc
      exact ⟨z, List.mem_of_getElem? h2, h3⟩
    · intro cm hcm
      cases hcm
      exact ⟨rfl, p4, by rw [← p2]; exact p3, key⟩
  · refine ⟨none, r1, ?_, by simp⟩
    simp only [ne_eq, not_true_eq_false, false_iff]
    intro h
    obtain ⟨z, z1, z2⟩ := h x x1
    exact x2 z z1 ((carried_iff (hsA x x1)).mpr z2)

/-- C32: there is never more than one crossing a crossing is carried to, so the map found is the only one
there is. -/
theorem C32_target_unique (B : List Cross) (hB : Canonical B) (p : Nat → Nat) (o : Or) (x : Cross) (i j : Nat)
    (y z : Cross) (hi : B[i]? = some y) (hj : B[j]? = some z) (h1 : CarriedTo p o x y) (h2 : CarriedTo p o x z) :
    i = j :=
  uniq_edges hB hi hj (uniq_rotated hB (List.mem_of_getElem? hi) (List.mem_of_getElem? hj) (h1.trans h2.symm))

/-- C32: `pd_build_crossmaps` and its signed version list the maps of the two orientations, the positive
one first. -/
theorem C32_build_crossmaps (bs : BSearch) (signed : Bool) (A B : List Cross) (m : List Nat)
    (hA : Canonical A) (hB : Canonical B) (hlen : A.length = B.length) (h0 : A ≠ [])
    (hsA : ∀ x ∈ A, ∀ k, x.at k < m.length) (hsB : ∀ z ∈ B, ∀ k, z.at k < m.length)
    (hm : m ~ List.range m.length) (hs : m.length ≤ 2 ^ 31) :
    ∃ l, buildCrossmaps bs signed A B m = .ok l ∧
      l.filterMap (fun cm => cm.map OMap.orient) = [Or.pos, Or.neg].filter (fun o =>
        decide (∀ x ∈ A, ∃ z ∈ B, CarriedTo (fun e => m[e]!) o x z ∧ (signed = true → x.sign = z.sign))) ∧
      ∀ ocm ∈ l, ∃ cm, ocm = some cm ∧ permOk cm.perm = .ok true ∧ cm.perm.map ~ List.range A.length ∧
        ∀ (c : Nat) (x : Cross), A[c]? = some x → ∃ (i : Nat) (z : Cross), cm.perm.map[c]? = some i ∧
          B[i]? = some z ∧ CarriedTo (fun e => m[e]!) cm.orient x z ∧ (signed = true → x.sign = z.sign) := by
  obtain ⟨p, p1, p2, p3⟩ := C32_oriented_crossmap bs signed A B m .pos hA hB hlen h0 hsA hsB hm hs
  obtain ⟨q, q1, q2, q3⟩ := C32_oriented_crossmap bs signed A B m .neg hA hB hlen h0 hsA hsB hm hs
  have hAl : ¬ (A.length = 0 ∧ B.length = 0) := by
    have := List.length_pos_iff.mpr h0
    omega
  unfold buildCrossmaps
  rw [if_neg hAl, p1, ok_bind, q1, ok_bind]
  refine ⟨_, rfl, ?_, ?_⟩
  · have hp := fun cm h => (p3 cm h).1
    have hq := fun cm h => (q3 cm h).1
    rw [List.filter_cons, List.filter_cons, List.filter_nil]
    simp only [decide_eq_true_eq, ← p2, ← q2]
    cases p <;> cases q <;> simp
    · exact hq _ rfl
    · exact hp _ rfl
    · exact ⟨hp _ rfl, hq _ rfl⟩
  · intro ocm h
    rw [List.mem_append] at h
    rcases h with h | h
    · cases p with
      | none => simp at h
      | some cm =>
        simp only [List.mem_cons, List.not_mem_nil, or_false] at h
        obtain ⟨a, b⟩ := p3 cm rfl
        exact ⟨cm, h, by rw [a]; exact b⟩
    · cases q with
      | none => simp at h
      | some cm =>
        simp only [List.mem_cons, List.not_mem_nil, or_false] at h
        obtain ⟨a, b⟩ := q3 cm rfl
        exact ⟨cm, h, by rw [a]; exact b⟩

/-- C32 without distinct crossings: when two crossings of the source go to the same crossing of the target
the search dies in `pd_regenerate_pcidx` instead of answering. -/
theorem C32_repeated_crossing_dies : ∃ (A B : List Cross) (m : List Nat), A.length = B.length ∧
    Canonical B ∧ m ~ List.range m.length ∧ (∀ x ∈ A, ∃ z ∈ B, CarriedTo (fun e => m[e]!) .pos x z) ∧
    orientedCrossmap linearBSearch false A B m .pos = .error .die := by
  refine ⟨[⟨0, 2, 1, 3, .pos⟩, ⟨0, 2, 1, 3, .pos⟩], hopf3, [0, 1, 2, 3], rfl, ⟨by decide, by decide, by decide⟩,
    List.Perm.refl _, ?_, by decide +kernel⟩
  intro x hx
  simp only [List.mem_cons, List.not_mem_nil, or_false, or_self] at hx
  subst hx
  exact ⟨⟨0, 2, 1, 3, .pos⟩, by decide, List.IsRotated.refl _⟩

-- hypotheses met: the Hopf link, with the map which exchanges its components
example : Canonical hopf3 := ⟨by decide, by decide, by decide⟩
example : ∀ x ∈ hopf3, ∀ k, x.at k < [2, 3, 0, 1].length := by
  intro x hx k
  simp only [hopf3, List.mem_cons, List.not_mem_nil, or_false] at hx
  have : k % 4 < 4 := Nat.mod_lt _ (by decide)
  rw [at_lt]
  generalize k % 4 = r at this ⊢
  rcases hx with rfl | rfl <;> (interval_cases r <;> decide)
example : ([2, 3, 0, 1] : List Nat) ~ List.range 4 := by decide
example : (buildCrossmaps linearBSearch true hopf3 hopf3 [2, 3, 0, 1]).map
      (·.map (·.map (fun cm => (cm.perm.map, cm.orient)))) =
    .ok [some ([1, 0], .pos), some ([0, 1], .neg)] := by decide +kernel
example : (buildCrossmaps linearBSearch true hopf3 hopf3 [0, 2, 1, 3]) = .ok [] := by decide +kernel

end Plc
