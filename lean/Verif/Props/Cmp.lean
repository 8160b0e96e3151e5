import Verif.Model.Buffers
import Verif.Proofs.Cmp

/-! # Property C16: comparison functions are consistent orders -/

namespace Plc.Cmp

/-- **C16, crossings.** For edge numbers below 2^31. -/
theorem C16_cross_cmp : ConsistentOrder (fun c => Small (edges c))
    (fun a b => a.e0 = b.e0 ∧ a.e1 = b.e1 ∧ a.e2 = b.e2 ∧ a.e3 = b.e3) crossCmp :=
  order_of_key edges (fun a b ha hb => lexU_spec _ _ rfl ha hb) (by intros; simp [edges])

/-- **C16, indices.** No bound on the values is needed here. -/
theorem C16_idx_cmp : ConsistentOrder (fun _ => True) (fun a b => a = b) Buffers.idxCmp := by
  refine ⟨?_, ?_, ?_⟩
  · intro a b _ _; unfold Buffers.idxCmp; split <;> split <;> omega
  · intro a b _ _; unfold Buffers.idxCmp; repeat' split
    all_goals omega
  · intro a b c _ _ _; unfold Buffers.idxCmp; repeat' split
    all_goals omega

/-- **C16, faces.** Orientations are not looked at. -/
theorem C16_face_cmp : ConsistentOrder (fun f : Face => Small f.edge ∧ f.edge.length < 2 ^ 31)
    (fun a b => a.edge = b.edge) faceCmp :=
  order_of_key (fun f => (2 ^ 31 - f.edge.length) :: f.edge)
    (fun a b ha hb => longLex_spec _ _ ha.1 hb.1 ha.2 hb.2)
    (by
      intro a b ha hb
      simp only [List.cons.injEq]
      exact ⟨fun h => h.2, fun h => ⟨by rw [h], h⟩⟩)

/-- **C16, components.** Tags are not looked at. -/
theorem C16_component_cmp : ConsistentOrder (fun f : Comp => Small f.edge ∧ f.edge.length < 2 ^ 31)
    (fun a b => a.edge = b.edge) compCmp :=
  order_of_key (fun f => (2 ^ 31 - f.edge.length) :: f.edge)
    (fun a b ha hb => longLex_spec _ _ ha.1 hb.1 ha.2 hb.2)
    (by
      intro a b ha hb
      simp only [List.cons.injEq]
      exact ⟨fun h => h.2, fun h => ⟨by rw [h], h⟩⟩)

/-- Faces and components are ordered longest first. -/
theorem C16_longest_first (a b : Face) (ha : a.edge.length < 2 ^ 31) (hb : b.edge.length < 2 ^ 31)
    (h : faceCmp a b ≤ 0) : b.edge.length ≤ a.edge.length := by
  unfold faceCmp longLex at h
  split at h
  · rw [udiff_eq hb ha] at h; omega
  · omega

def orKey (o : Or) : Nat := if o = .pos then 0 else 1

theorem orCmp_ok {a b : Or} (ha : orOk a = true) (hb : orOk b = true) :
    orCmp a b = .ok (if a = b then 0 else if a = .pos then -1 else 1) := by
  cases a <;> cases b <;> first | rfl | (exact absurd ha (by decide)) | (exact absurd hb (by decide))

/-- **C16, orientations.** -/
theorem C16_or_cmp : ConsistentOrderR (fun o => orOk o = true) (fun a b => a = b) orCmp := by
  refine ⟨fun a b => if a = b then 0 else if a = .pos then -1 else 1,
    fun a b ha hb => orCmp_ok ha hb, ?_, ?_, ?_⟩
  all_goals
    intro a b
    first
    | (intro ha hb; cases a <;> cases b <;> revert ha hb <;> decide)
    | (intro c ha hb hc; cases a <;> cases b <;> cases c <;> revert ha hb hc <;> decide)

theorem C16_orientation_cmp :
    ConsistentOrder (fun o => orOk o = true) (fun a b => a = b) orientationCmp := by
  refine ⟨?_, ?_, ?_⟩
  all_goals
    intro a b
    first
    | (intro ha hb; cases a <;> cases b <;> revert ha hb <;> decide)
    | (intro c ha hb hc; cases a <;> cases b <;> cases c <;> revert ha hb hc <;> decide)

/-- **C16, permutations and cyclic elements**, of the same size. -/
theorem C16_perm_cmp (n : Nat) :
    ConsistentOrderR (fun p : List Nat => p.length = n ∧ Small p) (fun a b => a = b) permCmp := by
  refine ⟨lexU, ?_, order_of_key id (fun a b ha hb => lexU_spec a b (by rw [ha.1, hb.1]) ha.2 hb.2)
    (fun _ _ _ _ => Iff.rfl)⟩
  intro a b ha hb
  unfold permCmp
  rw [assertC_ok (by simp [ha.1, hb.1])]
  rfl

theorem C16_cyclic_cmp (n : Nat) :
    ConsistentOrderR (fun p : List Nat => p.length = n ∧ Small p) (fun a b => a = b) cyclicCmp :=
  C16_perm_cmp n

/-- **C16, dihedral elements.** -/
theorem C16_dihedral_cmp (n : Nat) :
    ConsistentOrderR (fun d : Iters.Dihedral => d.map.length = n ∧ Small d.map ∧ orOk d.orient = true)
      (fun a b => a = b) dihedralCmp := by
  refine ⟨fun a b => if a.orient ≠ b.orient then (if a.orient = .pos then -1 else 1)
      else lexU a.map b.map, ?_, order_of_key (fun d => orKey d.orient :: d.map) ?_ ?_⟩
  · intro a b ha hb
    unfold dihedralCmp
    rw [assertC_ok (by simp [ha.1, hb.1])]
    simp only [ok_bind]
    split <;> rfl
  · rintro ⟨am, ao⟩ ⟨bm, bo⟩ ⟨h1, h2, h3⟩ ⟨g1, g2, g3⟩
    have := lexU_spec am bm (by rw [h1, g1]) h2 g2
    simp only at h3 g3
    cases ao <;> cases bo <;>
      first
      | (exact absurd h3 (by decide))
      | (exact absurd g3 (by decide))
      | (simp [List.cons_lt_cons_iff, orKey, this.1, this.2])
  · rintro ⟨am, ao⟩ ⟨bm, bo⟩ ⟨h1, h2, h3⟩ ⟨g1, g2, g3⟩
    simp only at h3 g3
    cases ao <;> cases bo <;>
      first
      | (exact absurd h3 (by decide))
      | (exact absurd g3 (by decide))
      | (simp [orKey])

/-- Value of the orientation loop. -/
def orsVal : List Or → List Or → Int
  | a :: l, b :: m => if a = b then orsVal l m else if a = .pos then -1 else 1
  | _, _ => 0

theorem orsCmp_ok : ∀ (a b : List Or), (∀ o ∈ a, orOk o = true) → (∀ o ∈ b, orOk o = true) →
    orsCmp a b = .ok (orsVal a b)
  | [], _, _, _ => rfl
  | _ :: _, [], _, _ => rfl
  | a :: l, b :: m, ha, hb => by
    unfold orsCmp orsVal
    rw [orCmp_ok (ha a (by simp)) (hb b (by simp)), ok_bind]
    by_cases h : a = b
    · simp only [h, if_true, ne_eq, not_true_eq_false, if_false]
      exact orsCmp_ok l m (fun o ho => ha o (by simp [ho])) (fun o ho => hb o (by simp [ho]))
    · simp only [h, if_false]
      by_cases h2 : a = .pos <;> simp [h2]

theorem orKey_inj {a b : Or} (ha : orOk a = true) (hb : orOk b = true) :
    orKey a = orKey b ↔ a = b := by
  cases a <;> cases b <;> revert ha hb <;> decide

theorem orsVal_spec : ∀ (a b : List Or), a.length = b.length → (∀ o ∈ a, orOk o = true) →
    (∀ o ∈ b, orOk o = true) →
    (orsVal a b < 0 ↔ a.map orKey < b.map orKey) ∧ (orsVal a b = 0 ↔ a.map orKey = b.map orKey)
  | [], [], _, _, _ => by simp [orsVal]
  | [], b :: bs, h, _, _ => by simp at h
  | a :: as, [], h, _, _ => by simp at h
  | a :: as, b :: bs, h, ha, hb => by
    have ih := orsVal_spec as bs (by simpa using h) (fun x hx => ha x (by simp [hx]))
      (fun x hx => hb x (by simp [hx]))
    have h1 := ha a (by simp)
    have h2 := hb b (by simp)
    unfold orsVal
    simp only [List.map_cons, List.cons_lt_cons_iff, List.cons.injEq, orKey_inj h1 h2]
    by_cases hab : a = b
    · subst hab
      simpa using ih
    · simp only [hab, if_false, false_and, or_false, iff_false]
      cases a <;> cases b <;>
        first
        | (exact absurd h1 (by decide))
        | (exact absurd h2 (by decide))
        | (exact absurd rfl hab)
        | (simp [orKey])

theorem append_lt_iff {α : Type} [LinearOrder α] : ∀ {a b c d : List α}, a.length = b.length →
    (a ++ c < b ++ d ↔ a < b ∨ (a = b ∧ c < d))
  | [], [], c, d, _ => by simp
  | [], b :: bs, _, _, h => by simp at h
  | a :: as, [], _, _, h => by simp at h
  | a :: as, b :: bs, c, d, h => by
    simp only [List.cons_append, List.cons_lt_cons_iff, append_lt_iff (by simpa using h : as.length = bs.length),
      List.cons.injEq]
    tauto

theorem app_inj {α : Type} {a b c d : List α} (h : a.length = b.length) :
    a ++ c = b ++ d ↔ a = b ∧ c = d :=
  ⟨fun e => List.append_inj e h, fun ⟨e, f⟩ => by rw [e, f]⟩

/-- An edge map: a permutation and one orientation per edge. -/
abbrev EM := List Nat × List Or

/-- **C16, edge maps** of the same size. -/
theorem C16_edgemap_cmp (n : Nat) :
    ConsistentOrderR (fun e : EM => e.1.length = n ∧ e.2.length = n ∧ Small e.1 ∧
        ∀ o ∈ e.2, orOk o = true)
      (fun a b => a = b) (fun a b => edgemapCmp a.1 a.2 b.1 b.2) := by
  refine ⟨fun a b => if lexU a.1 b.1 ≠ 0 then lexU a.1 b.1 else orsVal a.2 b.2, ?_,
    order_of_key (fun e => e.1 ++ e.2.map orKey) ?_ ?_⟩
  · intro a b ha hb
    unfold edgemapCmp permCmp
    beta_reduce
    rw [assertC_ok (by simp [ha.1, hb.1])]
    simp only [ok_bind]
    split
    · rfl
    · exact orsCmp_ok _ _ ha.2.2.2 hb.2.2.2
  · intro a b ha hb
    have h1 := lexU_spec a.1 b.1 (by rw [ha.1, hb.1]) ha.2.2.1 hb.2.2.1
    have h2 := orsVal_spec a.2 b.2 (by rw [ha.2.1, hb.2.1]) ha.2.2.2 hb.2.2.2
    rw [append_lt_iff (by rw [ha.1, hb.1]), app_inj (by rw [ha.1, hb.1])]
    by_cases h : a.1 = b.1
    · have e : lexU a.1 b.1 = 0 := h1.2.mpr h
      rw [e]
      simp [h, h2.1, h2.2]
    · have e : lexU a.1 b.1 ≠ 0 := fun h' => h (h1.2.mp h')
      simp [e, h, h1.1]
  · intro a b ha hb
    rw [app_inj (by rw [ha.1, hb.1])]
    constructor
    · rintro ⟨h1, h2⟩
      refine Prod.ext h1 ?_
      have gen : ∀ (x y : List Or), (∀ o ∈ x, orOk o = true) → (∀ o ∈ y, orOk o = true) →
          x.map orKey = y.map orKey → x = y := by
        intro x
        induction x with
        | nil => intro y _ _ h; cases y <;> simp_all
        | cons u x ih =>
          intro y hx hy h
          cases y with
          | nil => simp at h
          | cons v y =>
            simp only [List.map_cons, List.cons.injEq] at h
            rw [(orKey_inj (hx u (by simp)) (hy v (by simp))).mp h.1,
              ih y (fun o ho => hx o (by simp [ho])) (fun o ho => hy o (by simp [ho])) h.2]
      exact gen _ _ ha.2.2.2 hb.2.2.2 h2
    · rintro rfl; exact ⟨rfl, rfl⟩

/-- A crossing map or a face map: an orientation and a permutation. -/
abbrev CM := Or × List Nat

/-- **C16, crossing and face maps** of the same size. -/
theorem C16_crossmap_cmp (n : Nat) :
    ConsistentOrderR (fun e : CM => orOk e.1 = true ∧ e.2.length = n ∧ Small e.2)
      (fun a b => a = b) (fun a b => crossmapCmp a.1 a.2 b.1 b.2) := by
  refine ⟨fun a b => if a.1 = b.1 then lexU a.2 b.2 else if a.1 = .pos then -1 else 1, ?_,
    order_of_key (fun e => orKey e.1 :: e.2) ?_ ?_⟩
  · intro a b ha hb
    unfold crossmapCmp permCmp
    beta_reduce
    rw [orCmp_ok ha.1 hb.1, assertC_ok (by simp [ha.2.1, hb.2.1])]
    simp only [ok_bind]
    by_cases h : a.1 = b.1
    · simp [h]
    · by_cases h2 : a.1 = .pos <;> simp [h, h2]
      rw [h2] at h
      simp [h]
  · rintro ⟨ao, am⟩ ⟨bo, bm⟩ ⟨h3, h1, h2⟩ ⟨g3, g1, g2⟩
    simp only at h1 h2 h3 g1 g2 g3
    have := lexU_spec am bm (by rw [h1, g1]) h2 g2
    cases ao <;> cases bo <;>
      first
      | (exact absurd h3 (by decide))
      | (exact absurd g3 (by decide))
      | (simp [List.cons_lt_cons_iff, orKey, this.1, this.2])
  · rintro ⟨ao, am⟩ ⟨bo, bm⟩ ⟨h3, h1, h2⟩ ⟨g3, g1, g2⟩
    simp only at h3 g3
    cases ao <;> cases bo <;>
      first
      | (exact absurd h3 (by decide))
      | (exact absurd g3 (by decide))
      | (simp [orKey])

/-- Elements of the domains: a crossing, a face, two edge maps that differ only in an
orientation. -/
example : crossCmp ⟨0, 3, 1, 4, .pos⟩ ⟨0, 3, 2, 1, .neg⟩ = -1 ∧
    faceCmp ⟨[5, 6, 7], [.pos, .pos, .neg]⟩ ⟨[0, 1], [.pos, .pos]⟩ = -1 ∧
    edgemapCmp [1, 0] [.pos, .neg] [1, 0] [.pos, .pos] = .ok 1 := by decide

/-- **C16, the bound is needed.** With edge numbers 2^31 apart both orders are reported
as "less". -/
theorem C16_large_indices_false :
    crossCmp ⟨0, 0, 0, 0, .pos⟩ ⟨2 ^ 31, 0, 0, 0, .pos⟩ < 0 ∧
    crossCmp ⟨2 ^ 31, 0, 0, 0, .pos⟩ ⟨0, 0, 0, 0, .pos⟩ < 0 := by decide

/-- **C16, false for `crossing_strand_cmp`**: the tolerance of 1e-8 makes it
non-transitive (0 and 6e-9 are equal, 6e-9 and 12e-9 are equal, 0 and 12e-9 are not), so
no notion of sameness makes it a consistent order. -/
theorem C16_strand_cmp_false (same : Nat × Int → Nat × Int → Prop) :
    ¬ ConsistentOrder (fun _ => True) same (fun a b => strandCmp a.1 a.2 b.1 b.2) := by
  intro h
  have := h.trans (0, 12) (0, 6) (0, 0) trivial trivial trivial (by decide) (by decide)
  exact absurd this (by decide)

end Plc.Cmp
