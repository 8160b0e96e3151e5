import Verif.Proofs.Locate

/-! Which crossings `findcrossings` lists. -/

namespace Plc.FindCrossings

open Plc.Core Plc.FromCurve

theorem project_eq (v : V3) : project v = ⟨v.x, v.y, 0⟩ := by
  unfold project V3.sub V3.scale V3.dot
  simp

/-- Twice the area of a triangle in the plane. -/
noncomputable def area (a b c : V3) : ℝ := (b.x - a.x) * (c.y - a.y) - (b.y - a.y) * (c.x - a.x)

theorem side_cases (A B C : V3) : (side (project A) (project B) (project C) = 1 ∧ 1e-10 < area A B C) ∨
    (side (project A) (project B) (project C) = -1 ∧ area A B C < -1e-10) ∨
    (side (project A) (project B) (project C) = 0 ∧ |area A B C| ≤ 1e-10) := by
  have e : side (project A) (project B) (project C) = if area A B C > 1e-10 then 1 else if area A B C < -1e-10 then -1 else 0 := by
    unfold side area
    simp only [project_eq, V3.sub, V3.crossProd]
  rw [e]
  by_cases h1 : area A B C > 1e-10
  · exact .inl ⟨if_pos h1, h1⟩
  · rw [if_neg h1]
    by_cases h2 : area A B C < -1e-10
    · exact .inr (.inl ⟨if_pos h2, h2⟩)
    · exact .inr (.inr ⟨if_neg h2, abs_le.mpr ⟨not_lt.mp h2, not_lt.mp h1⟩⟩)

theorem opposite {A B C D : V3} (h : side (project A) (project B) (project C) * side (project A) (project B) (project D) = -1) :
    (0 < area A B C ∧ area A B D < 0) ∨ (area A B C < 0 ∧ 0 < area A B D) := by
  rcases side_cases A B C with ⟨a, b⟩ | ⟨a, b⟩ | ⟨a, b⟩ <;> rcases side_cases A B D with ⟨c, d⟩ | ⟨c, d⟩ | ⟨c, d⟩ <;> rw [a, c] at h
  all_goals first
    | (exfalso; revert h; decide)
    | (left; constructor <;> linarith)
    | (right; constructor <;> linarith)

theorem sameSide {A B C D : V3} (h : side (project A) (project B) (project C) * side (project A) (project B) (project D) = 1) :
    (0 < area A B C ∧ 0 < area A B D) ∨ (area A B C < 0 ∧ area A B D < 0) := by
  rcases side_cases A B C with ⟨a, b⟩ | ⟨a, b⟩ | ⟨a, b⟩ <;> rcases side_cases A B D with ⟨c, d⟩ | ⟨c, d⟩ | ⟨c, d⟩ <;> rw [a, c] at h
  all_goals first
    | (exfalso; revert h; decide)
    | (left; constructor <;> linarith)
    | (right; constructor <;> linarith)

theorem frac {p q s : ℝ} (h : (0 < p ∧ q < 0) ∨ (p < 0 ∧ 0 < q)) (e : s * (p - q) = p) : 0 < s ∧ s < 1 := by
  rcases h with ⟨h1, h2⟩ | ⟨h1, h2⟩
  · constructor
    · by_contra hc
      nlinarith
    · by_contra hc
      nlinarith
  · constructor
    · by_contra hc
      nlinarith
    · by_contra hc
      nlinarith

/-- What `locate_crossing` computes for two segments which cross. -/
theorem locate_meets {A0 A1 B0 B1 : V3} {sA sB : ℝ}
    (hA : side (project A0) (project A1) (project B0) * side (project A0) (project A1) (project B1) = -1)
    (hB : side (project B0) (project B1) (project A0) * side (project B0) (project B1) (project A1) = -1)
    (h : locate (project A0) (project A1) (project B0) (project B1) = some (sA, sB)) :
    0 < sA ∧ sA < 1 ∧ 0 < sB ∧ sB < 1 ∧ (1 - sA) * A0.x + sA * A1.x = (1 - sB) * B0.x + sB * B1.x ∧
      (1 - sA) * A0.y + sA * A1.y = (1 - sB) * B0.y + sB * B1.y ∧ (A1.x - A0.x) * (B1.y - B0.y) - (A1.y - A0.y) * (B1.x - B0.x) ≠ 0 ∧
      ∀ t u, (1 - t) * A0.x + t * A1.x = (1 - u) * B0.x + u * B1.x → (1 - t) * A0.y + t * A1.y = (1 - u) * B0.y + u * B1.y → t = sA ∧ u = sB := by
  have oA := opposite hA
  have oB := opposite hB
  have i1 : (A0.x - B1.x) * (B0.y - B1.y) - (A0.y - B1.y) * (B0.x - B1.x) = area B0 B1 A0 := by unfold area; ring
  have i2 : (A0.x - B1.x) * (A1.y - A0.y) - (A0.y - B1.y) * (A1.x - A0.x) = area A0 A1 B1 := by unfold area; ring
  have i3 : (B0.x - B1.x) * (A1.y - A0.y) - (B0.y - B1.y) * (A1.x - A0.x) = area A0 A1 B1 - area A0 A1 B0 := by unfold area; ring
  have i4 : area A0 A1 B1 - area A0 A1 B0 = area B0 B1 A0 - area B0 B1 A1 := by unfold area; ring
  have hs : 0 < area B0 B1 A0 * area A0 A1 B1 := by
    rcases oA with ⟨a, b⟩ | ⟨a, b⟩ <;> rcases oB with ⟨c, d⟩ | ⟨c, d⟩
    · linarith
    · nlinarith
    · nlinarith
    · linarith
  have hd : area A0 A1 B1 - area A0 A1 B0 ≠ 0 := by
    rcases oA with ⟨a, b⟩ | ⟨a, b⟩
    · intro e; linarith
    · intro e; linarith
  have L := locate_eq (A0 := project A0) (A1 := project A1) (B0 := project B0) (B1 := project B1) (by rw [project_eq]) (by rw [project_eq])
    (by rw [project_eq]) (by rw [project_eq]) h
    (by simp only [project_eq]; rw [i1, i2]; exact hs) (by simp only [project_eq]; rw [i3]; exact hd)
  simp only [project_eq] at L
  rw [i1, i2, i3] at L
  obtain ⟨e1, e2⟩ := L
  obtain ⟨p1, p2⟩ := frac oB (by rw [← i4]; exact e1)
  obtain ⟨q1, q2⟩ := frac (s := 1 - sB) (p := area A0 A1 B1) (q := area A0 A1 B0) (by rcases oA with h | h; exacts [.inr ⟨h.2, h.1⟩, .inl ⟨h.2, h.1⟩]) e2
  have hx : (1 - sA) * A0.x + sA * A1.x = (1 - sB) * B0.x + sB * B1.x := by
    apply mul_right_cancel₀ hd
    have : ((1 - sA) * A0.x + sA * A1.x - ((1 - sB) * B0.x + sB * B1.x)) * (area A0 A1 B1 - area A0 A1 B0) =
      (A0.x - B1.x) * (area A0 A1 B1 - area A0 A1 B0) + (A1.x - A0.x) * (sA * (area A0 A1 B1 - area A0 A1 B0)) -
        (B0.x - B1.x) * ((1 - sB) * (area A0 A1 B1 - area A0 A1 B0)) := by ring
    rw [e1, e2] at this
    have z : (A0.x - B1.x) * (area A0 A1 B1 - area A0 A1 B0) + (A1.x - A0.x) * area B0 B1 A0 - (B0.x - B1.x) * area A0 A1 B1 = 0 := by
      unfold area; ring
    rw [z] at this
    linarith
  have hy : (1 - sA) * A0.y + sA * A1.y = (1 - sB) * B0.y + sB * B1.y := by
    apply mul_right_cancel₀ hd
    have : ((1 - sA) * A0.y + sA * A1.y - ((1 - sB) * B0.y + sB * B1.y)) * (area A0 A1 B1 - area A0 A1 B0) =
      (A0.y - B1.y) * (area A0 A1 B1 - area A0 A1 B0) + (A1.y - A0.y) * (sA * (area A0 A1 B1 - area A0 A1 B0)) -
        (B0.y - B1.y) * ((1 - sB) * (area A0 A1 B1 - area A0 A1 B0)) := by ring
    rw [e1, e2] at this
    have z : (A0.y - B1.y) * (area A0 A1 B1 - area A0 A1 B0) + (A1.y - A0.y) * area B0 B1 A0 - (B0.y - B1.y) * area A0 A1 B1 = 0 := by
      unfold area; ring
    rw [z] at this
    linarith
  have hdd : (A1.x - A0.x) * (B1.y - B0.y) - (A1.y - A0.y) * (B1.x - B0.x) = area A0 A1 B1 - area A0 A1 B0 := by unfold area; ring
  refine ⟨p1, p2, by linarith, by linarith, hx, hy, by rw [hdd]; exact hd, ?_⟩
  intro t u tx ty
  have d1 : (t - sA) * (A1.x - A0.x) = (u - sB) * (B1.x - B0.x) := by linarith
  have d2 : (t - sA) * (A1.y - A0.y) = (u - sB) * (B1.y - B0.y) := by linarith
  have k1 : (t - sA) * (area A0 A1 B1 - area A0 A1 B0) = 0 := by
    rw [← hdd]
    linear_combination (B1.y - B0.y) * d1 - (B1.x - B0.x) * d2
  have k2 : (u - sB) * (area A0 A1 B1 - area A0 A1 B0) = 0 := by
    rw [← hdd]
    linear_combination (A1.y - A0.y) * d1 - (A1.x - A0.x) * d2
  constructor
  · have := (mul_eq_zero.mp k1).resolve_right hd
    linarith
  · have := (mul_eq_zero.mp k2).resolve_right hd
    linarith

/-- Segments which are separated by the line through one of them do not meet. -/
theorem separated {A0 A1 B0 B1 : V3} (h : (0 < area A0 A1 B0 ∧ 0 < area A0 A1 B1) ∨ (area A0 A1 B0 < 0 ∧ area A0 A1 B1 < 0)) {t u : ℝ}
    (h0 : 0 ≤ u) (h1 : u ≤ 1) (hx : (1 - t) * A0.x + t * A1.x = (1 - u) * B0.x + u * B1.x)
    (hy : (1 - t) * A0.y + t * A1.y = (1 - u) * B0.y + u * B1.y) : False := by
  have e : (1 - u) * area A0 A1 B0 + u * area A0 A1 B1 = 0 := by
    unfold area
    linear_combination (A1.y - A0.y) * hx - (A1.x - A0.x) * hy
  rcases h with ⟨a, b⟩ | ⟨a, b⟩
  · rcases h0.eq_or_lt with rfl | h0
    · linarith
    · nlinarith [mul_nonneg (sub_nonneg.mpr h1) a.le, mul_pos h0 b]
  · rcases h0.eq_or_lt with rfl | h0
    · linarith
    · nlinarith [mul_nonneg (sub_nonneg.mpr h1) (neg_nonneg.mpr a.le), mul_pos h0 (neg_pos.mpr b)]

/-! ### Vertices and pairs -/

theorem vtx_spec {L : List Strand3} {c i : Nat} (h : i < nv L c) :
    ∃ s : Strand3, L[c]? = some s ∧ s.2[i]? = some (vtx L c i) ∧ s.2[(i + 1) % s.2.length]? = some (vtx L c (i + 1)) ∧ nv L c = s.2.length := by
  unfold nv at h
  cases hs : L[c]? with
  | none => rw [hs] at h; simp at h
  | some s =>
    rw [hs] at h
    simp only [Option.map_some, Option.getD_some] at h
    have h2 : (i + 1) % s.2.length < s.2.length := Nat.mod_lt _ (by omega)
    refine ⟨s, rfl, ?_, ?_, ?_⟩
    · unfold vtx
      rw [hs]
      simp only [Nat.mod_eq_of_lt h]
      rw [List.getElem?_eq_getElem h]
      rfl
    · unfold vtx
      rw [hs]
      simp only
      rw [List.getElem?_eq_getElem h2]
      rfl
    · unfold nv
      rw [hs]
      rfl

theorem nv_lt {L : List Strand3} {c i : Nat} (h : i < nv L c) : c < L.length := by
  obtain ⟨s, hs, -⟩ := vtx_spec h
  exact (List.getElem?_eq_some_iff.mp hs).1

theorem mem_pairs {L : List Strand3} {a i b j : Nat} : ((a, i), (b, j)) ∈ pairs L ↔
    a ≤ b ∧ b < L.length ∧ i < nv L a ∧ j < nv L b ∧ (a = b → i + 2 ≤ j ∧ (i = 0 → j + 1 < nv L b)) := by
  unfold pairs
  simp only [List.mem_flatMap, List.mem_range, List.mem_range'_1, List.mem_map, Prod.mk.injEq]
  constructor
  · rintro ⟨a', ha, b', hb, i', hi, j', hj, ⟨rfl, rfl⟩, rfl, rfl⟩
    by_cases hab : a' = b'
    · subst hab
      rw [if_pos rfl, if_pos rfl] at hj
      by_cases h0 : i' = 0
      · rw [if_pos h0] at hj
        refine ⟨hb.1, by omega, hi, by omega, fun _ => ⟨by omega, fun _ => by omega⟩⟩
      · rw [if_neg h0] at hj
        refine ⟨hb.1, by omega, hi, by omega, fun _ => ⟨by omega, fun e => absurd e h0⟩⟩
    · rw [if_neg hab, if_neg hab] at hj
      exact ⟨hb.1, by omega, hi, by omega, fun e => absurd e hab⟩
  · rintro ⟨h1, h2, h3, h4, h5⟩
    refine ⟨a, by omega, b, by omega, i, h3, j, ?_, ⟨rfl, rfl⟩, rfl, rfl⟩
    by_cases hab : a = b
    · obtain ⟨h6, h7⟩ := h5 hab
      rw [if_pos hab, if_pos hab]
      by_cases h0 : i = 0
      · rw [if_pos h0]
        have := h7 h0
        omega
      · rw [if_neg h0]
        omega
    · rw [if_neg hab, if_neg hab]
      omega

theorem nodup_flatMap' {α β : Type} {l : List α} {f : α → List β} (hl : l.Nodup) (h1 : ∀ a ∈ l, (f a).Nodup)
    (h2 : ∀ a ∈ l, ∀ b ∈ l, ∀ x, x ∈ f a → x ∈ f b → a = b) : (l.flatMap f).Nodup := by
  induction l with
  | nil => simp
  | cons a l ih =>
    rw [List.flatMap_cons, List.nodup_append']
    rw [List.nodup_cons] at hl
    refine ⟨h1 a (List.mem_cons_self ..), ih hl.2 (fun b hb => h1 b (List.mem_cons_of_mem _ hb))
      (fun b hb c hc => h2 b (List.mem_cons_of_mem _ hb) c (List.mem_cons_of_mem _ hc)), ?_⟩
    intro x hx hx'
    obtain ⟨b, hb, hxb⟩ := List.mem_flatMap.mp hx'
    have := h2 a (List.mem_cons_self ..) b (List.mem_cons_of_mem _ hb) x hx hxb
    exact hl.1 (this ▸ hb)

theorem pairs_nodup (L : List Strand3) : (pairs L).Nodup := by
  unfold pairs
  refine nodup_flatMap' List.nodup_range ?_ ?_
  · intro a _
    refine nodup_flatMap' (List.nodup_range' ..) ?_ ?_
    · intro b _
      refine nodup_flatMap' List.nodup_range ?_ ?_
      · intro i _
        exact (List.nodup_range' ..).map (fun x y h => by simpa using h)
      · intro i _ i' _ x hx hx'
        obtain ⟨j, _, rfl⟩ := List.mem_map.mp hx
        obtain ⟨j', _, h⟩ := List.mem_map.mp hx'
        simp only [Prod.mk.injEq] at h
        exact h.1.2.symm
    · intro b _ b' _ x hx hx'
      obtain ⟨i, _, h1⟩ := List.mem_flatMap.mp hx
      obtain ⟨j, _, rfl⟩ := List.mem_map.mp h1
      obtain ⟨i', _, h2⟩ := List.mem_flatMap.mp hx'
      obtain ⟨j', _, h⟩ := List.mem_map.mp h2
      simp only [Prod.mk.injEq] at h
      exact h.2.1.symm
  · intro a _ a' _ x hx hx'
    obtain ⟨b, _, h0⟩ := List.mem_flatMap.mp hx
    obtain ⟨i, _, h1⟩ := List.mem_flatMap.mp h0
    obtain ⟨j, _, rfl⟩ := List.mem_map.mp h1
    obtain ⟨b', _, h0'⟩ := List.mem_flatMap.mp hx'
    obtain ⟨i', _, h2⟩ := List.mem_flatMap.mp h0'
    obtain ⟨j', _, h⟩ := List.mem_map.mp h2
    simp only [Prod.mk.injEq] at h
    exact h.1.1.symm

theorem mod_succ {n i : Nat} (h : i < n) : (i + 1) % n = if i + 1 = n then 0 else i + 1 := by
  split
  · next e => rw [e, Nat.mod_self]
  · exact Nat.mod_eq_of_lt (by omega)

theorem pairs_apart {L : List Strand3} {a i b j : Nat} (h : ((a, i), (b, j)) ∈ pairs L) : ApartEdges L a i b j := by
  obtain ⟨-, -, h3, h4, h5⟩ := mem_pairs.mp h
  by_cases hab : a = b
  · subst hab
    obtain ⟨h6, h7⟩ := h5 rfl
    obtain ⟨s, hs, -, -, hn⟩ := vtx_spec h3
    rw [hn] at h3 h4 h7
    refine .inr ⟨s, hs, by omega, ?_, ?_⟩
    · rw [mod_succ h3]
      split <;> omega
    · rw [mod_succ h4]
      split
      · intro e
        have := h7 e.symm
        omega
      · omega
  · exact .inl hab

theorem apart_symm {L : List Strand3} {c i d j : Nat} (h : ApartEdges L c i d j) : ApartEdges L d j c i := by
  by_cases hcd : c = d
  · subst hcd
    rcases h with h | ⟨s, h1, h2, h3, h4⟩
    · exact absurd rfl h
    · exact .inr ⟨s, h1, h2.symm, h4, h3⟩
  · exact .inl (Ne.symm hcd)

theorem apart_pairs {L : List Strand3} {c i d j : Nat} (hi : i < nv L c) (hj : j < nv L d) (h : ApartEdges L c i d j) :
    ((c, i), (d, j)) ∈ pairs L ∨ ((d, j), (c, i)) ∈ pairs L := by
  have hc := nv_lt hi
  have hd := nv_lt hj
  rcases Nat.lt_trichotomy c d with hlt | rfl | hgt
  · exact .inl (mem_pairs.mpr ⟨hlt.le, hd, hi, hj, fun e => absurd e hlt.ne⟩)
  · rcases h with h | ⟨s, h1, h2, h3, h4⟩
    · exact absurd rfl h
    obtain ⟨s', hs', -, -, hn⟩ := vtx_spec hi
    rw [h1] at hs'
    cases hs'
    rw [hn] at hi hj
    rw [mod_succ hi] at h3
    rw [mod_succ hj] at h4
    rcases Nat.lt_or_gt_of_ne h2 with hlt | hgt
    · refine .inl (mem_pairs.mpr ⟨le_refl _, hc, by omega, by omega, fun _ => ⟨?_, ?_⟩⟩)
      · split at h3 <;> omega
      · intro e
        split at h4 <;> omega
    · refine .inr (mem_pairs.mpr ⟨le_refl _, hc, by omega, by omega, fun _ => ⟨?_, ?_⟩⟩)
      · split at h4 <;> omega
      · intro e
        split at h3 <;> omega
  · exact .inr (mem_pairs.mpr ⟨hgt.le, hc, hj, hi, fun e => absurd e hgt.ne⟩)

theorem collect_some {L : List Strand3} : ∀ {ps : List ((Nat × Nat) × (Nat × Nat))} {cc : List (Crossing ℝ)}, collect L ps = some cc →
    (∀ p ∈ ps, ∃ c, visit L p = some c) ∧ cc = ps.flatMap (fun p => (visit L p).getD [])
  | [], cc, h => by
    simp only [collect, Option.some.injEq] at h
    subst h
    exact ⟨by simp, rfl⟩
  | p :: ps, cc, h => by
    unfold collect at h
    cases hv : visit L p with
    | none => rw [hv] at h; simp at h
    | some c =>
      rw [hv] at h
      cases hw : collect L ps with
      | none => rw [hw] at h; simp at h
      | some dd =>
        rw [hw] at h
        simp only [Option.some.injEq] at h
        obtain ⟨i1, i2⟩ := collect_some hw
        constructor
        · intro q hq
          rcases List.mem_cons.mp hq with rfl | hq
          · exact ⟨c, hv⟩
          · exact i1 q hq
        · rw [List.flatMap_cons, hv, ← i2, ← h]
          rfl

theorem some_collect {L : List Strand3} : ∀ {ps : List ((Nat × Nat) × (Nat × Nat))}, (∀ p ∈ ps, ∃ c, visit L p = some c) →
    ∃ cc, collect L ps = some cc
  | [], _ => ⟨[], rfl⟩
  | p :: ps, h => by
    obtain ⟨c, hc⟩ := h p (List.mem_cons_self ..)
    obtain ⟨cc, hcc⟩ := some_collect (fun q hq => h q (List.mem_cons_of_mem _ hq))
    exact ⟨c ++ cc, by unfold collect; rw [hc, hcc]⟩

end Plc.FindCrossings
