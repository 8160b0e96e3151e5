import Mathlib.Data.List.Rotate
import Mathlib.Data.List.Nodup
import Mathlib.Tactic.ByContra
import Verif.Proofs.Renamed

/-! # Lists of cycles

A finite set cut into cycles of a relation, written down as lists. Two such listings of the same cycles
agree up to order of the lists and rotation of each list. -/

namespace Plc.Cycles

variable {α β : Type}

/-- The lists together contain every member of `S` once; along each list the relation holds, cyclically. -/
structure Cycles (R : α → α → Prop) (S : α → Prop) (LL : List (List α)) : Prop where
  nodup : LL.flatten.Nodup
  mem : ∀ x, x ∈ LL.flatten ↔ S x
  ne : ∀ l ∈ LL, l ≠ []
  next : ∀ l ∈ LL, ∀ (j : Nat) (x : α), l[j]? = some x → ∃ y, l[(j + 1) % l.length]? = some y ∧ R x y

theorem flat_unique {LL : List (List α)} (h : LL.flatten.Nodup) {i i' : Nat} {l l' : List α} {x : α}
    (hi : LL[i]? = some l) (hi' : LL[i']? = some l') (hx : x ∈ l) (hx' : x ∈ l') : i = i' := by
  rw [List.nodup_flatten] at h
  by_contra hne
  obtain ⟨h1, e1⟩ := List.getElem?_eq_some_iff.mp hi
  obtain ⟨h2, e2⟩ := List.getElem?_eq_some_iff.mp hi'
  have hp := List.pairwise_iff_getElem.mp h.2
  rcases Nat.lt_or_gt_of_ne hne with hlt | hlt
  · have := hp i i' h1 h2 hlt
    rw [e1, e2] at this
    exact this hx hx'
  · have := hp i' i h2 h1 hlt
    rw [e1, e2] at this
    exact this hx' hx

theorem Cycles.nodup_of {R : α → α → Prop} {S : α → Prop} {LL : List (List α)} (h : Cycles R S LL) {l : List α}
    (hl : l ∈ LL) : l.Nodup := (List.nodup_flatten.mp h.nodup).1 l hl

theorem Cycles.at_iter {R : α → α → Prop} {S : α → Prop} {LL : List (List α)} (h : Cycles R S LL) {l : List α}
    (hl : l ∈ LL) (j : Nat) : ∃ x, l[j % l.length]? = some x := by
  have := List.length_pos_iff.mpr (h.ne l hl)
  exact ⟨_, List.getElem?_eq_getElem (Nat.mod_lt _ this)⟩

theorem Cycles.get {R : α → α → Prop} {S : α → Prop} {LL : List (List α)} (h : Cycles R S LL) {x : α} (hx : S x) :
    ∃ (i : Nat) (l : List α) (j : Nat), LL[i]? = some l ∧ l ∈ LL ∧ l[j]? = some x := by
  have h1 := (h.mem x).mpr hx
  rw [List.mem_flatten] at h1
  obtain ⟨l, hl, hx⟩ := h1
  obtain ⟨i, hi⟩ := List.mem_iff_getElem?.mp hl
  obtain ⟨j, hj⟩ := List.mem_iff_getElem?.mp hx
  exact ⟨i, l, j, hi, hl, hj⟩

/-- Reading every list backwards. -/
theorem Cycles.reverse {R : α → α → Prop} {S : α → Prop} {LL : List (List α)} (h : Cycles R S LL) :
    Cycles (fun x y => R y x) S (LL.map List.reverse) where
  nodup := by
    have h1 := h.nodup
    rw [List.nodup_flatten] at h1 ⊢
    constructor
    · intro l hl
      obtain ⟨l', h2, rfl⟩ := List.mem_map.mp hl
      exact List.nodup_reverse.mpr (h1.1 l' h2)
    · rw [List.pairwise_map]
      refine h1.2.imp ?_
      intro a b hab x hx hx'
      exact hab (List.mem_reverse.mp hx) (List.mem_reverse.mp hx')
  mem := by
    intro x
    rw [← h.mem x, List.mem_flatten, List.mem_flatten]
    constructor
    · rintro ⟨l, hl, hx⟩
      obtain ⟨l', h2, rfl⟩ := List.mem_map.mp hl
      exact ⟨l', h2, List.mem_reverse.mp hx⟩
    · rintro ⟨l, hl, hx⟩
      exact ⟨l.reverse, List.mem_map_of_mem hl, List.mem_reverse.mpr hx⟩
  ne := by
    intro l hl
    obtain ⟨l', h2, rfl⟩ := List.mem_map.mp hl
    simpa using h.ne l' h2
  next := by
    intro l hl j x hx
    obtain ⟨l', h2, rfl⟩ := List.mem_map.mp hl
    have hlt : j < l'.length := by
      have := (List.getElem?_eq_some_iff.mp hx).1
      simpa using this
    rw [List.getElem?_reverse hlt] at hx
    have hm : (j + 1) % l'.length < l'.length := Nat.mod_lt _ (by omega)
    rw [List.length_reverse, List.getElem?_reverse hm]
    obtain ⟨y, hy⟩ : ∃ y, l'[l'.length - 1 - (j + 1) % l'.length]? = some y :=
      ⟨_, List.getElem?_eq_getElem (by omega)⟩
    refine ⟨y, hy, ?_⟩
    obtain ⟨z, hz, hR⟩ := h.next l' h2 _ y hy
    have e : (l'.length - 1 - (j + 1) % l'.length + 1) % l'.length = l'.length - 1 - j := by
      by_cases hj : j + 1 = l'.length
      · rw [hj, Nat.mod_self, Nat.sub_zero, Nat.sub_add_cancel (by omega), Nat.mod_self]
        omega
      · rw [Nat.mod_eq_of_lt (show j + 1 < l'.length by omega), Nat.mod_eq_of_lt (by omega)]
        omega
    rw [e, hx] at hz
    cases hz
    exact hR

/-- Replacing the members. -/
theorem Cycles.image {R : α → α → Prop} {S : α → Prop} {LL : List (List α)} (h : Cycles R S LL) {R' : β → β → Prop}
    {f : α → β} (hinj : ∀ x y, S x → S y → f x = f y → x = y)
    (hR : ∀ x y, S x → S y → R x y → R' (f x) (f y)) :
    Cycles R' (fun y => ∃ x, S x ∧ f x = y) (LL.map (List.map f)) where
  nodup := by
    rw [← List.map_flatten]
    refine List.Nodup.map_on ?_ h.nodup
    intro x hx y hy he
    exact hinj x y ((h.mem x).mp hx) ((h.mem y).mp hy) he
  mem := by
    intro y
    rw [← List.map_flatten, List.mem_map]
    constructor
    · rintro ⟨x, hx, he⟩
      exact ⟨x, (h.mem x).mp hx, he⟩
    · rintro ⟨x, hx, he⟩
      exact ⟨x, (h.mem x).mpr hx, he⟩
  ne := by
    intro l hl
    obtain ⟨l', h1, rfl⟩ := List.mem_map.mp hl
    simpa using h.ne l' h1
  next := by
    intro l hl j x hx
    obtain ⟨l', h1, rfl⟩ := List.mem_map.mp hl
    rw [List.getElem?_map, Option.map_eq_some_iff] at hx
    obtain ⟨x', hx', rfl⟩ := hx
    obtain ⟨y, y1, y2⟩ := h.next l' h1 j x' hx'
    refine ⟨f y, by rw [List.length_map, List.getElem?_map, y1]; rfl, ?_⟩
    exact hR _ _ ((h.mem _).mp (List.mem_flatten.mpr ⟨l', h1, List.mem_of_getElem? hx'⟩))
      ((h.mem _).mp (List.mem_flatten.mpr ⟨l', h1, List.mem_of_getElem? y1⟩)) y2

/-- Two listings together. -/
theorem Cycles.append {R : α → α → Prop} {S T : α → Prop} {LL MM : List (List α)} (h : Cycles R S LL)
    (h' : Cycles R T MM) (hd : ∀ x, S x → ¬ T x) : Cycles R (fun x => S x ∨ T x) (LL ++ MM) where
  nodup := by
    rw [List.flatten_append, List.nodup_append]
    refine ⟨h.nodup, h'.nodup, ?_⟩
    intro a ha b hb he
    subst he
    exact hd a ((h.mem a).mp ha) ((h'.mem a).mp hb)
  mem := by
    intro x
    rw [List.flatten_append, List.mem_append, h.mem, h'.mem]
  ne := by
    intro l hl
    rcases List.mem_append.mp hl with hl | hl
    · exact h.ne l hl
    · exact h'.ne l hl
  next := by
    intro l hl
    rcases List.mem_append.mp hl with hl | hl
    · exact h.next l hl
    · exact h'.next l hl

/-- Two listings of corresponding cycles: one list of the second for each of the first, rotated. -/
theorem Cycles.match {R : α → α → Prop} {S : α → Prop} {LL : List (List α)} {R' : β → β → Prop} {S' : β → Prop}
    {MM : List (List β)} (h : Cycles R S LL) (h' : Cycles R' S' MM) {δ : α → β}
    (hfun : ∀ x y z, S' x → S' y → S' z → R' x y → R' x z → y = z) (hmap : ∀ x, S x → S' (δ x))
    (hinj : ∀ x y, S x → S y → δ x = δ y → x = y) (hsurj : ∀ y, S' y → ∃ x, S x ∧ δ x = y)
    (hR : ∀ x y, S x → S y → R x y → R' (δ x) (δ y)) :
    LL.length = MM.length ∧ ∃ φ : Nat → Nat, (∀ i, i < LL.length → φ i < LL.length) ∧
      (∀ i j, i < LL.length → j < LL.length → φ i = φ j → i = j) ∧
      ∀ i l, LL[i]? = some l → ∃ m, MM[φ i]? = some m ∧ m ~r l.map δ := by
  have hS : ∀ l ∈ LL, ∀ x ∈ l, S x := fun l hl x hx => (h.mem x).mp (List.mem_flatten.mpr ⟨l, hl, hx⟩)
  have hS' : ∀ l ∈ MM, ∀ x ∈ l, S' x := fun l hl x hx => (h'.mem x).mp (List.mem_flatten.mpr ⟨l, hl, hx⟩)
  have key : ∀ i : Nat, ∃ k : Nat, ∀ l, LL[i]? = some l → ∃ m, MM[k]? = some m ∧ m ~r l.map δ := by
    intro i
    by_cases hi : i < LL.length
    swap
    · exact ⟨0, fun l hl => absurd (List.getElem?_eq_some_iff.mp hl).1 hi⟩
    have hl : LL[i] ∈ LL := List.getElem_mem hi
    have hget : LL[i]? = some LL[i] := List.getElem?_eq_getElem hi
    generalize LL[i] = l at hl hget
    have hne := h.ne l hl
    have hpos := List.length_pos_iff.mpr hne
    have h0 : l[0]? = some l[0] := List.getElem?_eq_getElem hpos
    obtain ⟨k, m, p, hk, hm, hp⟩ := h'.get (hmap _ (hS l hl _ (List.getElem_mem hpos)))
    refine ⟨k, ?_⟩
    intro l' hl'
    rw [hget] at hl'
    cases hl'
    refine ⟨m, hk, ?_⟩
    have hmpos := List.length_pos_iff.mpr (h'.ne m hm)
    have hplt := (List.getElem?_eq_some_iff.mp hp).1
    have walk : ∀ j : Nat, ∃ x, l[j % l.length]? = some x ∧ m[(p + j) % m.length]? = some (δ x) := by
      intro j
      induction j with
      | zero =>
        refine ⟨l[0], ?_, ?_⟩
        · rw [Nat.zero_mod]; exact h0
        · rw [Nat.add_zero, Nat.mod_eq_of_lt hplt]; exact hp
      | succ j ih =>
        obtain ⟨x, x1, x2⟩ := ih
        obtain ⟨y, y1, y2⟩ := h.next l hl _ x x1
        obtain ⟨z, z1, z2⟩ := h'.next m hm _ _ x2
        rw [Nat.mod_add_mod] at y1 z1
        have hx := hS l hl x (List.mem_of_getElem? x1)
        have hy := hS l hl y (List.mem_of_getElem? y1)
        have := hfun _ _ _ (hmap x hx) (hS' m hm z (List.mem_of_getElem? z1)) (hmap y hy) z2 (hR x y hx hy y2)
        rw [this] at z1
        exact ⟨y, y1, z1⟩
    have hln := h.nodup_of hl
    have hmn := h'.nodup_of hm
    have hlen : l.length = m.length := by
      rcases Nat.lt_trichotomy l.length m.length with hlt | he | hlt
      · obtain ⟨x, x1, x2⟩ := walk l.length
        rw [Nat.mod_self, h0] at x1
        cases x1
        have he := (List.getElem?_inj (Nat.mod_lt _ hmpos) hmn).mp (x2.trans hp.symm)
        rw [Nat.mod_eq_iff] at he
        rcases he with he | ⟨-, q, hq⟩
        · omega
        · rcases q with - | q
          · omega
          · rw [Nat.mul_add, Nat.mul_one] at hq; omega
      · exact he
      · obtain ⟨x, x1, x2⟩ := walk m.length
        rw [Nat.add_mod_right, Nat.mod_eq_of_lt hplt, hp] at x2
        rw [Nat.mod_eq_of_lt hlt] at x1
        have he := hinj _ _ (hS l hl _ (List.mem_of_getElem? h0)) (hS l hl _ (List.mem_of_getElem? x1))
          (Option.some.inj x2)
        rw [← he, ← h0] at x1
        have := (List.getElem?_inj hlt hln).mp x1
        omega
    refine ⟨p, ?_⟩
    apply List.ext_getElem?
    intro j
    by_cases hj : j < l.length
    · rw [List.getElem?_rotate (by omega)]
      obtain ⟨x, x1, x2⟩ := walk j
      rw [Nat.add_comm, x2, List.getElem?_map]
      rw [Nat.mod_eq_of_lt hj] at x1
      rw [x1]
      rfl
    · rw [List.getElem?_eq_none (by simpa using by omega), List.getElem?_eq_none (by simpa using by omega)]
  choose φ hφ using key
  have hinj' : ∀ i j, i < LL.length → j < LL.length → φ i = φ j → i = j := by
    intro i j hi hj he
    obtain ⟨m, m1, m2⟩ := hφ i _ (List.getElem?_eq_getElem hi)
    obtain ⟨m', n1, n2⟩ := hφ j _ (List.getElem?_eq_getElem hj)
    rw [he, n1] at m1
    cases m1
    have hr := (m2.symm.trans n2).perm
    have hpos := List.length_pos_iff.mpr (h.ne _ (List.getElem_mem hi))
    have hx : LL[i][0] ∈ LL[i] := List.getElem_mem hpos
    have := hr.mem_iff.mp (List.mem_map_of_mem (f := δ) hx)
    obtain ⟨y, y1, y2⟩ := List.mem_map.mp this
    have hxy := hinj _ _ (hS _ (List.getElem_mem hi) _ hx) (hS _ (List.getElem_mem hj) _ y1) y2.symm
    exact flat_unique h.nodup (List.getElem?_eq_getElem hi) (List.getElem?_eq_getElem hj) hx (by rw [hxy]; exact y1)
  have hlt : ∀ i, i < LL.length → φ i < MM.length := by
    intro i hi
    obtain ⟨m, m1, -⟩ := hφ i _ (List.getElem?_eq_getElem hi)
    exact (List.getElem?_eq_some_iff.mp m1).1
  have hsur : ∀ k, k < MM.length → ∃ i, i < LL.length ∧ φ i = k := by
    intro k hk
    have hpos := List.length_pos_iff.mpr (h'.ne _ (List.getElem_mem hk))
    obtain ⟨x, x1, x2⟩ := hsurj _ (hS' _ (List.getElem_mem hk) _ (List.getElem_mem hpos))
    obtain ⟨i, l, j, hi, hl, hj⟩ := h.get x1
    obtain ⟨m, m1, m2⟩ := hφ i l hi
    refine ⟨i, (List.getElem?_eq_some_iff.mp hi).1, ?_⟩
    refine flat_unique h'.nodup m1 (List.getElem?_eq_getElem hk) (x := δ x) ?_ ?_
    · exact m2.perm.mem_iff.mpr (List.mem_map_of_mem (List.mem_of_getElem? hj))
    · rw [x2]; exact List.getElem_mem hpos
  have hle : LL.length = MM.length := by
    apply Nat.le_antisymm
    · have := Finset.card_le_card_of_injOn (s := Finset.range LL.length) (t := Finset.range MM.length) φ
        (by intro i hi; simp at hi ⊢; exact hlt i hi) (by intro i hi j hj; simp at hi hj; exact hinj' i j hi hj)
      simpa using this
    · have := Finset.card_le_card_of_surjOn (s := Finset.range LL.length) (t := Finset.range MM.length) φ
        (by
          intro k hk
          simp at hk
          obtain ⟨i, h1, h2⟩ := hsur k hk
          exact ⟨i, by simpa using h1, h2⟩)
      simpa using this
  exact ⟨hle, φ, fun i hi => by rw [hle]; exact hlt i hi, hinj', hφ⟩

/-- Labels: when the labels along the lists of the second listing are those of the first, rotated and
renamed, there is a map between the members themselves. -/
theorem Cycles.lift {R : α → α → Prop} {S : α → Prop} {LL : List (List α)} {R' : β → β → Prop} {S' : β → Prop}
    {MM : List (List β)} (h : Cycles R S LL) (h' : Cycles R' S' MM) {ℓ : α → Nat} {ℓ' : β → Nat} {τ : Nat → Nat}
    (hfun : ∀ x y z, S x → S y → S z → R x y → R x z → y = z) [Inhabited β]
    {φ : Nat → Nat} (hφ : ∀ i j, i < LL.length → j < LL.length → φ i = φ j → i = j)
    (hl : ∀ i l, LL[i]? = some l → ∃ m, MM[φ i]? = some m ∧ m.map ℓ' ~r (l.map ℓ).map τ) :
    ∃ δ : α → β, (∀ x, S x → S' (δ x)) ∧ (∀ x y, S x → S y → δ x = δ y → x = y) ∧
      (∀ x, S x → ℓ' (δ x) = τ (ℓ x)) ∧ (∀ x y, S x → S y → R x y → R' (δ x) (δ y)) := by
  have hS : ∀ l ∈ LL, ∀ x ∈ l, S x := fun l hl x hx => (h.mem x).mp (List.mem_flatten.mpr ⟨l, hl, hx⟩)
  -- rotation amounts
  have hrot : ∀ i : Nat, ∃ p : Nat, ∀ l, LL[i]? = some l → ∃ m, MM[φ i]? = some m ∧ m.length = l.length ∧
      ∀ j, j < l.length → ∃ x y, l[j]? = some x ∧ m[(p + j) % l.length]? = some y ∧ ℓ' y = τ (ℓ x) := by
    intro i
    by_cases hi : i < LL.length
    swap
    · exact ⟨0, fun l hl => absurd (List.getElem?_eq_some_iff.mp hl).1 hi⟩
    obtain ⟨m, m1, p, m2⟩ := hl i _ (List.getElem?_eq_getElem hi)
    refine ⟨p, ?_⟩
    intro l hl'
    rw [List.getElem?_eq_getElem hi] at hl'
    cases hl'
    have hlen : m.length = LL[i].length := by
      have := congrArg List.length m2
      simpa using this
    refine ⟨m, m1, hlen, ?_⟩
    intro j hj
    have h1 : (p + j) % LL[i].length < m.length := by rw [hlen]; exact Nat.mod_lt _ (by omega)
    refine ⟨LL[i][j], m[(p + j) % LL[i].length], List.getElem?_eq_getElem hj, List.getElem?_eq_getElem h1, ?_⟩
    have h2 := congrArg (fun l : List Nat => l[j]?) m2
    rw [List.getElem?_rotate (by simpa using by omega), List.getElem?_map, List.getElem?_map, List.getElem?_map,
      List.getElem?_eq_getElem hj, List.length_map, hlen, Nat.add_comm, List.getElem?_eq_getElem h1] at h2
    simpa using h2
  choose p hp using hrot
  have hδ : ∀ x : α, ∃ y : β, S x → ∃ (i : Nat) (l : List α) (j : Nat) (m : List β), LL[i]? = some l ∧ l[j]? = some x ∧
      MM[φ i]? = some m ∧ m.length = l.length ∧ m[(p i + j) % l.length]? = some y ∧ ℓ' y = τ (ℓ x) := by
    intro x
    by_cases hx : S x
    swap
    · exact ⟨default, fun h => absurd h hx⟩
    obtain ⟨i, l, j, hi, hl', hj⟩ := h.get hx
    obtain ⟨m, m1, m2, m3⟩ := hp i l hi
    obtain ⟨x', y, x1, x2, x3⟩ := m3 j (List.getElem?_eq_some_iff.mp hj).1
    rw [hj] at x1
    cases x1
    exact ⟨y, fun _ => ⟨i, l, j, m, hi, hj, m1, m2, x2, x3⟩⟩
  choose δ hδ using hδ
  refine ⟨δ, ?_, ?_, ?_, ?_⟩
  · intro x hx
    obtain ⟨i, l, j, m, -, -, m1, -, m2, -⟩ := hδ x hx
    exact (h'.mem _).mp (List.mem_flatten.mpr ⟨m, List.mem_of_getElem? m1, List.mem_of_getElem? m2⟩)
  · intro x y hx hy he
    obtain ⟨i, l, j, m, a1, a2, a3, a4, a5, -⟩ := hδ x hx
    obtain ⟨i', l', j', m', b1, b2, b3, b4, b5, -⟩ := hδ y hy
    have e1 := flat_unique h'.nodup a3 b3 (List.mem_of_getElem? a5) (by rw [he]; exact List.mem_of_getElem? b5)
    have e2 := hφ _ _ (List.getElem?_eq_some_iff.mp a1).1 (List.getElem?_eq_some_iff.mp b1).1 e1
    subst e2
    rw [a1] at b1
    cases b1
    rw [a3] at b3
    cases b3
    have hjl := (List.getElem?_eq_some_iff.mp a2).1
    have hjl' := (List.getElem?_eq_some_iff.mp b2).1
    have := (List.getElem?_inj (by rw [a4]; exact Nat.mod_lt _ (by omega)) (h'.nodup_of (List.mem_of_getElem? a3))).mp
      (a5.trans (by rw [he]; exact b5.symm))
    have e3 : j = j' := by
      have := Nat.ModEq.add_left_cancel' (p i) (show p i + j ≡ p i + j' [MOD l.length] from this)
      unfold Nat.ModEq at this
      rwa [Nat.mod_eq_of_lt hjl, Nat.mod_eq_of_lt hjl'] at this
    rw [← e3, a2] at b2
    exact Option.some.inj b2
  · intro x hx
    obtain ⟨i, l, j, m, -, -, -, -, -, m2⟩ := hδ x hx
    exact m2
  · intro x y hx hys hxy
    obtain ⟨i, l, j, m, a1, a2, a3, a4, a5, -⟩ := hδ x hx
    have hl' := List.mem_of_getElem? a1
    obtain ⟨y', c1, c2⟩ := h.next l hl' j x a2
    have := hfun x y y' hx hys (hS l hl' y' (List.mem_of_getElem? c1)) hxy c2
    subst this
    obtain ⟨z, z1, z2⟩ := h'.next m (List.mem_of_getElem? a3) _ _ a5
    obtain ⟨i', l', j', m', b1, b2, b3, b4, b5, -⟩ := hδ y (hS l hl' y (List.mem_of_getElem? c1))
    have e2 := flat_unique h.nodup a1 b1 (List.mem_of_getElem? c1) (List.mem_of_getElem? b2)
    subst e2
    rw [a1] at b1
    cases b1
    rw [a3] at b3
    cases b3
    have hjl := (List.getElem?_eq_some_iff.mp a2).1
    have e3 := (List.getElem?_inj (Nat.mod_lt _ (by omega)) (h.nodup_of hl')).mp (c1.trans b2.symm)
    rw [← e3, Nat.add_mod_mod] at b5
    rw [a4, Nat.mod_add_mod] at z1
    rw [Nat.add_assoc, b5] at z1
    rw [Option.some.inj z1]
    exact z2

end Plc.Cycles
