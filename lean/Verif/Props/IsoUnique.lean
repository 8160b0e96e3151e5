import Verif.Proofs.IsoBuild
import Verif.Proofs.Std

/-! # C53: the checks for repetitions -/

namespace Plc

open Plc.Cmp Plc.PermM Plc.Emap Plc.Isos Plc.IsoSearch List

theorem IsoSearch.noneSame_sorted {α : Type} {P : α → Prop} {same : α → α → Prop} {c : α → α → Int}
    (h2 : ConsistentOrder P same c) {eq : α → α → Res Bool}
    (heq : ∀ a b, P a → P b → ∃ s, eq a b = .ok s ∧ (s = true ↔ same a b)) :
    ∀ (l : List α), l ≠ [] → (∀ a ∈ l, P a) → l.Pairwise (fun a b => c a b ≤ 0) →
    ∃ b, noneSame eq l = .ok b ∧ (b = true ↔ l.Pairwise (fun a b => ¬ same a b))
  | [], h, _, _ => absurd rfl h
  | [a], _, _, _ => ⟨true, rfl, by simp⟩
  | a :: b :: l, _, hP, hs => by
    rw [List.pairwise_cons] at hs
    obtain ⟨s, s1, s2⟩ := heq a b (hP a (by simp)) (hP b (by simp))
    obtain ⟨r, r1, r2⟩ := noneSame_sorted h2 heq (b :: l) (by simp) (fun x hx => hP x (by simp [hx])) hs.2
    rw [noneSame, s1, ok_bind]
    cases s with
    | true =>
      refine ⟨false, rfl, ?_⟩
      simp only [Bool.false_eq_true, false_iff]
      intro h
      exact (List.pairwise_cons.mp h).1 b (by simp) (s2.mp rfl)
    | false =>
      refine ⟨r, r1, ?_⟩
      rw [r2]
      refine ⟨fun h => List.pairwise_cons.mpr ⟨?_, h⟩, fun h => (List.pairwise_cons.mp h).2⟩
      have ha := hP a (by simp)
      have hb := hP b (by simp)
      have hab : ¬ same a b := fun h => by simpa using s2.mpr h
      intro x hx
      rcases List.mem_cons.mp hx with rfl | hx
      · exact hab
      · intro hax
        have hx' := hP x (by simp [hx])
        have e1 := (h2.zero a x ha hx').mpr hax
        have e2 := hs.1 b (by simp)
        have e3 := (List.pairwise_cons.mp hs.2).1 x hx
        have e4 := h2.swap a x ha hx'
        have e4' := h2.swap x a hx' ha
        have e5 := h2.trans b x a hb hx' ha e3 (by omega)
        have e6 := h2.swap a b ha hb
        have e7 : c a b ≠ 0 := fun h => hab ((h2.zero a b ha hb).mp h)
        omega

/-- Sorting and comparing neighbours finds out whether anything is repeated. -/
theorem IsoSearch.sorted_exact {α : Type} (qs : QSort) {P : α → Prop} {same : α → α → Prop} {cmp : α → α → Res Int}
    (hc : ConsistentOrderR P same cmp) {l : List α} (hP : ∀ a ∈ l, P a) (hne : l ≠ []) (hsymm : ∀ a b, same a b → same b a)
    {eq : α → α → Res Bool} (heq : ∀ a b, P a → P b → ∃ s, eq a b = .ok s ∧ (s = true ↔ same a b)) :
    ∃ s b, sortR qs cmp l = .ok s ∧ s ~ l ∧ noneSame eq s = .ok b ∧ (b = true ↔ l.Pairwise (fun a b => ¬ same a b)) := by
  obtain ⟨c, h1, h2⟩ := hc
  have hok : pairsOk cmp l = true := pairsOk_true (fun a ha b hb => h1 a b (hP a ha) (hP b hb))
  have hp := qs.perm (leOf cmp) l
  have hle : ∀ a b, P a → P b → (leOf cmp a b = true ↔ c a b ≤ 0) := by
    intro a b ha hb
    unfold leOf
    rw [h1 a b ha hb]
    simp
  have hsort := qs.sorted (leOf cmp) l
    (by
      intro a b ha hb
      rw [Bool.or_eq_true, hle a b (hP a ha) (hP b hb), hle b a (hP b hb) (hP a ha)]
      have := h2.swap a b (hP a ha) (hP b hb)
      have := h2.swap b a (hP b hb) (hP a ha)
      omega)
    (by
      intro a b d ha hb hd
      rw [hle a b (hP a ha) (hP b hb), hle b d (hP b hb) (hP d hd), hle a d (hP a ha) (hP d hd)]
      exact h2.trans a b d (hP a ha) (hP b hb) (hP d hd))
  have hP' : ∀ a ∈ qs.sort (leOf cmp) l, P a := fun a ha => hP a (hp.subset ha)
  obtain ⟨b, b1, b2⟩ := noneSame_sorted h2 heq (qs.sort (leOf cmp) l)
    (by
      intro h
      rw [h] at hp
      exact hne hp.symm.eq_nil) hP'
    (hsort.imp_of_mem (fun {a b} ha hb h => (hle a b (hP' a ha) (hP' b hb)).mp h))
  refine ⟨_, b, by rw [sortR, if_pos hok], hp, b1, ?_⟩
  rw [b2]
  exact hp.pairwise_iff (fun h h' => h (hsymm _ _ h'))

/-- **C53.** `pd_isos_unique` finds out whether a list of isomorphisms between diagrams of the same sizes has
a repetition. -/
theorem C53_isos_unique (qs : QSort) (nk ne nc nf : Nat) (l : List Iso) (h : ∀ i ∈ l, IsoShape nk ne nc nf i) (h0 : l ≠ []) :
    ∃ b, isosUnique qs l = .ok b ∧ (b = true ↔ (l.map isoData).Nodup) := by
  obtain ⟨s, b, s1, -, s3, s4⟩ := sorted_exact qs (isoCmp_order nk ne nc nf) h h0 (fun _ _ h => h.symm)
    (sameBy_ok (isoCmp_order nk ne nc nf))
  refine ⟨b, by rw [isosUnique, s1, ok_bind, s3], ?_⟩
  rw [s4, List.Nodup, List.pairwise_map]

/-- **C53.** `pd_edgemaps_ok` does the same for edge maps that are permutations with directions. -/
theorem C53_edgemaps_unique (qs : QSort) (n : Nat) (hn : n < 2 ^ 31) (l : List EMap) (h0 : l ≠ [])
    (h : ∀ e ∈ l, emapOk e = .ok true ∧ e.perm.map ~ List.range n ∧ e.orient.length = n) :
    ∃ b, edgemapsOk qs l = .ok b ∧ (b = true ↔ (l.map (fun e => (e.perm.map, e.orient))).Nodup) := by
  have hc := orderR_pull (C16_edgemap_cmp n) (fun e : EMap => (e.perm.map, e.orient))
    (Q := fun e => e.perm.map.length = n ∧ e.orient.length = n ∧ Small e.perm.map ∧ ∀ o ∈ e.orient, orOk o = true)
    (cmp' := emapCmp) (fun _ h => h) (fun _ _ _ _ => rfl)
  obtain ⟨s, b, s1, -, s3, s4⟩ := sorted_exact qs hc (l := l)
    (by
      intro e he
      obtain ⟨h1, h2, h3⟩ := h e he
      refine ⟨by simpa using h2.length_eq, h3, small_of_perm h2 hn, ?_⟩
      intro o ho
      have := (emapOk_parts h1).2 o ho
      cases o <;> first | rfl | exact absurd rfl this)
    h0 (fun _ _ h => h.symm) (sameBy_ok hc)
  refine ⟨b, by rw [edgemapsOk, allOk_true (fun e he => (h e he).1), ok_bind, if_pos rfl, s1, ok_bind, s3], ?_⟩
  rw [s4, List.Nodup, List.pairwise_map]

/-- **C53.** `pd_perms_unique` does the same for permutations. -/
theorem C53_perms_unique (qs : QSort) (n : Nat) (hn : n < 2 ^ 31) (l : List Perm) (h0 : l ≠ [])
    (h : ∀ p ∈ l, p.map ~ List.range n) :
    ∃ s b, permsUnique qs l = .ok (s, b) ∧ s ~ l ∧ (b = true ↔ (l.map (·.map)).Nodup) := by
  obtain ⟨s, b, s1, s2, s3, s4⟩ := sorted_exact qs
    (orderR_pull (C16_perm_cmp n) (fun p : Perm => p.map) (Q := fun p => p.map.length = n ∧ Small p.map)
      (cmp' := fun a b => permCmp a.map b.map) (fun _ h => h) (fun _ _ _ _ => rfl))
    (l := l) (fun p hp => ⟨by simpa using (h p hp).length_eq, small_of_perm (h p hp) hn⟩) h0 (fun _ _ h => h.symm)
    (eq := fun a b : Perm => .ok (decide (a.map = b.map))) (fun a b _ _ => ⟨_, rfl, by simp⟩)
  refine ⟨s, b, by rw [permsUnique, s1, ok_bind, s3, ok_bind], s2, ?_⟩
  rw [s4, List.Nodup, List.pairwise_map]

example : (permsUnique insQSort [⟨[1, 0, 2], 2⟩, ⟨[0, 1, 2], 0⟩, ⟨[1, 0, 2], 2⟩]).map Prod.snd = .ok false ∧
    (permsUnique insQSort [⟨[1, 0, 2], 2⟩, ⟨[0, 1, 2], 0⟩, ⟨[2, 0, 1], 4⟩]).map Prod.snd = .ok true := by decide +kernel

end Plc
