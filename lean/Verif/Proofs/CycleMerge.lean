import Verif.Proofs.CycleCount

/-! Exchanging two values of a permutation joins two cycles, or cuts one in two. -/

namespace Plc.Orbit

open Function

variable {α : Type} [DecidableEq α]

/-- `g` is `f` with the values at `x` and `y` exchanged. -/
structure Exchanged (f g : α → α) (S : Finset α) (x y : α) : Prop where
  hf : InjOn f S
  hg : InjOn g S
  hx : x ∈ S
  hy : y ∈ S
  gx : g x = f y
  gy : g y = f x
  other : ∀ z ∈ S, z ≠ x → z ≠ y → g z = f z

variable {f g : α → α} {S : Finset α} {x y : α}

theorem Exchanged.symm (h : Exchanged f g S x y) : Exchanged g f S x y :=
  ⟨h.hg, h.hf, h.hx, h.hy, h.gy.symm, h.gx.symm, fun z hz h1 h2 => (h.other z hz h1 h2).symm⟩

omit [DecidableEq α] in
theorem Exchanged.comm (h : Exchanged f g S x y) : Exchanged f g S y x :=
  ⟨h.hf, h.hg, h.hy, h.hx, h.gy, h.gx, fun z hz h1 h2 => h.other z hz h2 h1⟩

/-- Following `f` from `f y` one comes back to `y`; if one does not meet `x` before, then `g` goes the same way. -/
theorem Exchanged.reach (h : Exchanged f g S x y) (hxy : ¬ ∃ k, f^[k] x = y) : ∃ k, g^[k] x = y := by
  have back : ∃ k, f^[k] (f y) = y := by
    obtain ⟨k, hk⟩ := h.hf.reach_symm h.hy ⟨1, rfl⟩
    exact ⟨k, hk⟩
  have key : ∀ k, (∀ j, j < k → f^[j] (f y) ≠ y) → g^[k] (f y) = f^[k] (f y) := by
    intro k
    induction k with
    | zero => exact fun _ => rfl
    | succ k ih =>
      intro hk
      rw [iterate_succ_apply', ih (fun j hj => hk j (by omega)), iterate_succ_apply']
      refine h.other _ (h.hf.iterate_mem (h.hf.maps y h.hy) k) ?_ (hk k (by omega))
      intro he
      apply hxy
      refine h.hf.reach_symm h.hy ⟨k + 1, ?_⟩
      rw [iterate_succ_apply]
      exact he
  classical
  obtain ⟨k, hk, hmin⟩ : ∃ k, f^[k] (f y) = y ∧ ∀ j, j < k → f^[j] (f y) ≠ y :=
    ⟨Nat.find back, Nat.find_spec back, fun j hj => Nat.find_min back hj⟩
  refine ⟨k + 1, ?_⟩
  rw [iterate_succ_apply, h.gx, key k hmin, hk]

/-- The joined cycles. -/
theorem Exchanged.reach_iff (h : Exchanged f g S x y) (hxy : ¬ ∃ k, f^[k] x = y) {z w : α} (hz : z ∈ S) :
    (∃ k, g^[k] z = w) ↔ (∃ k, f^[k] z = w) ∨
      (((∃ k, f^[k] x = z) ∨ ∃ k, f^[k] y = z) ∧ ((∃ k, f^[k] x = w) ∨ ∃ k, f^[k] y = w)) := by
  have hyx : ¬ ∃ k, f^[k] y = x := fun hc => hxy (h.hf.reach_symm h.hy hc)
  have gxy := h.reach hxy
  have gyx := h.comm.reach hyx
  -- one step of `f` can be made with `g`
  have step : ∀ z ∈ S, ∃ k, g^[k] z = f z := by
    intro z hz
    by_cases h1 : z = x
    · subst h1
      exact reach_trans gxy ⟨1, h.gy⟩
    · by_cases h2 : z = y
      · subst h2
        exact reach_trans gyx ⟨1, h.gx⟩
      · exact ⟨1, h.other z hz h1 h2⟩
  have steps : ∀ k, ∀ z ∈ S, ∃ m, g^[m] z = f^[k] z := by
    intro k
    induction k with
    | zero => exact fun z _ => ⟨0, rfl⟩
    | succ k ih =>
      intro z hz
      rw [iterate_succ_apply]
      exact reach_trans (step z hz) (ih _ (h.hf.maps z hz))
  have toG : ∀ {a b : α}, a ∈ S → (∃ k, f^[k] a = b) → ∃ k, g^[k] a = b := by
    rintro a b ha ⟨k, rfl⟩
    exact steps k a ha
  constructor
  · rintro ⟨k, rfl⟩
    induction k generalizing z with
    | zero => exact .inl ⟨0, rfl⟩
    | succ k ih =>
      rw [iterate_succ_apply]
      have := ih (h.hg.maps z hz)
      by_cases h1 : z = x
      · subst h1
        rw [h.gx] at this ⊢
        refine .inr ⟨.inl ⟨0, rfl⟩, ?_⟩
        rcases this with q | ⟨-, q⟩
        · exact .inr (reach_trans ⟨1, rfl⟩ q)
        · exact q
      · by_cases h2 : z = y
        · subst h2
          rw [h.gy] at this ⊢
          refine .inr ⟨.inr ⟨0, rfl⟩, ?_⟩
          rcases this with q | ⟨-, q⟩
          · exact .inl (reach_trans ⟨1, rfl⟩ q)
          · exact q
        · rw [h.other z hz h1 h2] at this ⊢
          rcases this with q | ⟨q1, q2⟩
          · exact .inl (reach_trans ⟨1, rfl⟩ q)
          · refine .inr ⟨?_, q2⟩
            have bk : ∃ k, f^[k] (f z) = z := h.hf.reach_symm hz ⟨1, rfl⟩
            rcases q1 with q1 | q1
            · exact .inl (reach_trans q1 bk)
            · exact .inr (reach_trans q1 bk)
  · rintro (q | ⟨q1, q2⟩)
    · exact toG hz q
    · have a1 : ∃ k, g^[k] z = x := by
        rcases q1 with q1 | q1
        · exact toG hz (h.hf.reach_symm h.hx q1)
        · exact reach_trans (toG hz (h.hf.reach_symm h.hy q1)) gyx
      refine reach_trans a1 ?_
      rcases q2 with q2 | q2
      · exact toG h.hx q2
      · exact reach_trans gxy (toG h.hy q2)

/-- There is one cycle less. -/
theorem Exchanged.reps (h : Exchanged f g S x y) (hxy : y ∉ cyc f x) {reps : List α} (hR : Reps f S reps) :
    ∃ reps', Reps g S reps' ∧ reps'.length + 1 = reps.length := by
  rw [h.hf.mem_cyc h.hx] at hxy
  obtain ⟨rx, x1, x2⟩ := hR.cover x h.hx
  obtain ⟨ry, y1, y2⟩ := hR.cover y h.hy
  have hrx := hR.mem rx x1
  have hry := hR.mem ry y1
  rw [h.hf.mem_cyc hrx] at x2
  rw [h.hf.mem_cyc hry] at y2
  have hne : rx ≠ ry := by
    rintro rfl
    exact hxy (reach_trans (h.hf.reach_symm hrx x2) y2)
  have hnd : reps.Nodup := by
    refine List.Pairwise.imp_of_mem ?_ hR.sep
    rintro a b ha hb hab rfl
    exact hab (h.hf.self_mem_cyc (hR.mem a ha))
  -- two representatives in the same `f`-cycle are equal
  have uniq : ∀ a ∈ reps, ∀ b ∈ reps, (∃ k, f^[k] a = b) → a = b := by
    intro a ha b hb hab
    by_contra hn
    have sep : reps.Pairwise (fun p q => (¬ ∃ k, f^[k] p = q) ∧ ¬ ∃ k, f^[k] q = p) := by
      refine List.Pairwise.imp_of_mem ?_ hR.sep
      intro p q hp hq hpq
      rw [h.hf.mem_cyc (hR.mem p hp)] at hpq
      exact ⟨hpq, fun hc => hpq (h.hf.reach_symm (hR.mem q hq) hc)⟩
    have : Std.Symm (fun p q : α => (¬ ∃ k, f^[k] p = q) ∧ ¬ ∃ k, f^[k] q = p) := ⟨fun _ _ q => ⟨q.2, q.1⟩⟩
    exact (sep.forall ha hb hn).1 hab
  have cx : ∀ {a : α}, a ∈ reps → ((∃ k, f^[k] x = a) ∨ ∃ k, f^[k] y = a) → a = rx ∨ a = ry := by
    rintro a ha (q | q)
    · exact .inl (uniq rx x1 a ha (reach_trans x2 q)).symm
    · exact .inr (uniq ry y1 a ha (reach_trans y2 q)).symm
  refine ⟨reps.erase ry, ⟨fun a ha => hR.mem a (List.mem_of_mem_erase ha), ?_, ?_⟩, ?_⟩
  · have nd' := hnd.erase ry
    refine List.Pairwise.imp_of_mem ?_ nd'
    intro a b ha hb hab hc
    obtain ⟨ha1, ha2⟩ := (hnd.mem_erase_iff).mp ha
    obtain ⟨hb1, hb2⟩ := (hnd.mem_erase_iff).mp hb
    rw [h.hg.mem_cyc (hR.mem a ha2), h.reach_iff hxy (hR.mem a ha2)] at hc
    rcases hc with hc | ⟨q1, q2⟩
    · exact hab (uniq a ha2 b hb2 hc)
    · rcases cx ha2 q1 with rfl | rfl
      · rcases cx hb2 q2 with rfl | rfl
        · exact hab rfl
        · exact hb1 rfl
      · exact ha1 rfl
  · intro z hz
    obtain ⟨r, r1, r2⟩ := hR.cover z hz
    rw [h.hf.mem_cyc (hR.mem r r1)] at r2
    by_cases hr : r = ry
    · subst hr
      refine ⟨rx, (hnd.mem_erase_iff).mpr ⟨hne, x1⟩, ?_⟩
      rw [h.hg.mem_cyc hrx, h.reach_iff hxy hrx]
      exact .inr ⟨.inl (h.hf.reach_symm hrx x2), .inr (reach_trans (h.hf.reach_symm hry y2) r2)⟩
    · refine ⟨r, (hnd.mem_erase_iff).mpr ⟨hr, r1⟩, ?_⟩
      rw [h.hg.mem_cyc (hR.mem r r1), h.reach_iff hxy (hR.mem r r1)]
      exact .inl r2
  · rw [List.length_erase_of_mem y1]
    have := List.length_pos_of_mem y1
    omega

/-- Two points of one cycle are in different cycles afterwards. -/
theorem Exchanged.apart (h : Exchanged f g S x y) (hne : x ≠ y) (hxy : ∃ k, f^[k] x = y) : ¬ ∃ k, g^[k] x = y := by
  -- follow `g` from `g x = f y`: it is `f` until `x` is met again, and `y` is not met before that
  classical
  have back : ∃ k, f^[k] (f y) = x := by
    obtain ⟨k, hk⟩ := h.hf.reach_symm h.hx hxy
    cases k with
    | zero => exact absurd hk.symm hne
    | succ k => exact ⟨k, hk⟩
  obtain ⟨m, hm, hmin⟩ : ∃ k, f^[k] (f y) = x ∧ ∀ j, j < k → f^[j] (f y) ≠ x :=
    ⟨Nat.find back, Nat.find_spec back, fun j hj => Nat.find_min back hj⟩
  -- `y` is not met on the way
  have noy : ∀ j, j ≤ m → f^[j] (f y) ≠ y := by
    intro j hj hc
    rcases Nat.lt_or_ge j m with hlt | hge
    · have : f^[m - j - 1] (f y) = x := by
        rw [← hm, show m = (m - j - 1) + (j + 1) by omega, iterate_add_apply]
        congr 1
        · congr 1
          omega
        · rw [iterate_succ_apply', hc]
      exact hmin (m - j - 1) (by omega) this
    · rw [show j = m by omega, hm] at hc
      exact hne hc
  have key : ∀ j, j ≤ m → g^[j] (f y) = f^[j] (f y) := by
    intro j
    induction j with
    | zero => exact fun _ => rfl
    | succ j ih =>
      intro hj
      rw [iterate_succ_apply', ih (by omega), iterate_succ_apply']
      exact h.other _ (h.hf.iterate_mem (h.hf.maps y h.hy) j) (hmin j (by omega)) (noy j (by omega))
  -- the cycle of `x` under `g`
  have per : g^[m + 1] x = x := by
    rw [iterate_succ_apply, h.gx, key m le_rfl, hm]
  rintro ⟨k, hk⟩
  have hmod : ∀ k, g^[k] x = g^[k % (m + 1)] x := by
    intro k
    induction k using Nat.strongRecOn with
    | ind k ih =>
      rcases Nat.lt_or_ge k (m + 1) with hlt | hge
      · rw [Nat.mod_eq_of_lt hlt]
      · rw [Nat.mod_eq_sub_mod hge, ← ih (k - (m + 1)) (by omega)]
        conv_lhs => rw [show k = (k - (m + 1)) + (m + 1) by omega, iterate_add_apply, per]
  rw [hmod k] at hk
  have hlt := Nat.mod_lt k (show 0 < m + 1 by omega)
  generalize k % (m + 1) = j at hk hlt
  cases j with
  | zero => exact hne hk
  | succ j =>
    rw [iterate_succ_apply, h.gx, key j (by omega)] at hk
    exact noy j (by omega) hk

/-- There is one cycle more. -/
theorem Exchanged.reps_split (h : Exchanged f g S x y) (hne : x ≠ y) (hxy : y ∈ cyc f x) {reps : List α} (hR : Reps f S reps) :
    ∃ reps', Reps g S reps' ∧ reps'.length = reps.length + 1 := by
  rw [h.hf.mem_cyc h.hx] at hxy
  obtain ⟨R, hR'⟩ := exists_reps h.hg
  obtain ⟨R2, h1, h2⟩ := h.symm.reps (by rw [h.hg.mem_cyc h.hx]; exact h.apart hne hxy) hR'
  exact ⟨R, hR', by rw [← h2, hR.length_eq h.hf h1]⟩

end Plc.Orbit
