import Verif.Model.Basic
import Mathlib.Data.Finset.Card
import Mathlib.Data.Nat.Find
import Mathlib.Tactic.Ring

/-! # Systems of chords which do not cross

Chord `k` is between the positions `lo k` and `hi k` on a line. -/

namespace Plc.Tri

/-- Different chords, each skipping a position, which do not cross. -/
structure Sys (m : Nat) (lo hi : Nat → Nat) : Prop where
  gap : ∀ k, k < m → lo k + 2 ≤ hi k
  inj : ∀ k l, k < m → l < m → lo k = lo l → hi k = hi l → k = l
  nocross : ∀ k l, k < m → l < m → ¬ (lo k < lo l ∧ lo l < hi k ∧ hi k < hi l)

variable {m : Nat} {lo hi : Nat → Nat}

/-- The chords between `i` and `j`. -/
def within (m : Nat) (lo hi : Nat → Nat) (i j : Nat) : Finset Nat := (Finset.range m).filter (fun k => i ≤ lo k ∧ hi k ≤ j)

/-- The chords between `i` and `j` other than that from `i` to `j`. -/
def below (m : Nat) (lo hi : Nat → Nat) (i j : Nat) : Finset Nat :=
  (Finset.range m).filter (fun k => (i ≤ lo k ∧ hi k ≤ j) ∧ ¬ (lo k = i ∧ hi k = j))

/-- There is a step or a chord from `i` to `v`. -/
def Link (m : Nat) (lo hi : Nat → Nat) (i v : Nat) : Prop := v = i + 1 ∨ ∃ k, k < m ∧ lo k = i ∧ hi k = v

theorem exists_last {i j : Nat} (h : i + 2 ≤ j) : ∃ v, i < v ∧ v < j ∧ Link m lo hi i v ∧ ∀ v', Link m lo hi i v' → v' < j → v' ≤ v := by
  classical
  have h1 : Link m lo hi i (i + 1) := .inl rfl
  refine ⟨Nat.findGreatest (Link m lo hi i) (j - 1), ?_, ?_, ?_, ?_⟩
  · have := Nat.le_findGreatest (P := Link m lo hi i) (n := j - 1) (by omega) h1
    omega
  · have := Nat.findGreatest_le (P := Link m lo hi i) (j - 1)
    omega
  · exact Nat.findGreatest_spec (P := Link m lo hi i) (n := j - 1) (m := i + 1) (by omega) h1
  · intro v' hv hlt
    exact Nat.le_findGreatest (by omega) hv

/-- The chords below `i`, `j` are those on the two sides of the last link of `i`. -/
theorem below_split (S : Sys m lo hi) {i v j : Nat} (hv : i < v) (hvj : v < j) (hl : Link m lo hi i v)
    (hmax : ∀ v', Link m lo hi i v' → v' < j → v' ≤ v) : below m lo hi i j = within m lo hi i v ∪ within m lo hi v j := by
  ext k
  simp only [below, within, Finset.mem_filter, Finset.mem_range, Finset.mem_union]
  constructor
  · rintro ⟨hk, ⟨h1, h2⟩, h3⟩
    by_cases hc : hi k ≤ v
    · exact .inl ⟨hk, h1, hc⟩
    · by_cases hd : v ≤ lo k
      · exact .inr ⟨hk, hd, h2⟩
      · exfalso
        by_cases he : lo k = i
        · have hlt : hi k < j := by
            rcases Nat.lt_or_ge (hi k) j with h | h
            · exact h
            · exact absurd ⟨he, by omega⟩ h3
          have := hmax (hi k) (.inr ⟨k, hk, he, rfl⟩) hlt
          omega
        · rcases hl with hl | ⟨l, hl, hl1, hl2⟩
          · omega
          · exact S.nocross l k hl hk ⟨by omega, by omega, by omega⟩
  · rintro (⟨hk, h1, h2⟩ | ⟨hk, h1, h2⟩)
    · exact ⟨hk, ⟨h1, by omega⟩, by omega⟩
    · exact ⟨hk, ⟨by omega, h2⟩, by omega⟩

theorem within_disjoint (S : Sys m lo hi) {i v j : Nat} : Disjoint (within m lo hi i v) (within m lo hi v j) := by
  rw [Finset.disjoint_left]
  intro k h1 h2
  simp only [within, Finset.mem_filter, Finset.mem_range] at h1 h2
  have := S.gap k h1.1
  omega

theorem within_step (S : Sys m lo hi) {i j : Nat} (h : j ≤ i + 1) : within m lo hi i j = ∅ := by
  ext k
  simp only [within, Finset.mem_filter, Finset.mem_range]
  constructor
  · rintro ⟨hk, h1, h2⟩
    have := S.gap k hk
    omega
  · intro h; simp at h

theorem within_card_le (S : Sys m lo hi) {i j : Nat} : (within m lo hi i j).card ≤ (below m lo hi i j).card + 1 := by
  have : (within m lo hi i j) ⊆ below m lo hi i j ∪ (Finset.range m).filter (fun k => lo k = i ∧ hi k = j) := by
    intro k hk
    simp only [within, below, Finset.mem_filter, Finset.mem_range, Finset.mem_union] at hk ⊢
    by_cases h : lo k = i ∧ hi k = j
    · exact .inr ⟨hk.1, h⟩
    · exact .inl ⟨hk.1, hk.2, h⟩
  have h1 := (Finset.card_le_card this).trans (Finset.card_union_le _ _)
  have h2 : ((Finset.range m).filter (fun k => lo k = i ∧ hi k = j)).card ≤ 1 := by
    rw [Finset.card_le_one]
    intro a ha b hb
    simp only [Finset.mem_filter, Finset.mem_range] at ha hb
    exact S.inj a b ha.1 hb.1 (by omega) (by omega)
  omega

/-- If there is no chord from `i` to `j` all chords between them are below. -/
theorem within_below {i j : Nat} (h : ¬ ∃ k, k < m ∧ lo k = i ∧ hi k = j) : within m lo hi i j = below m lo hi i j := by
  ext k
  simp only [within, below, Finset.mem_filter, Finset.mem_range]
  constructor
  · rintro ⟨hk, h1⟩; exact ⟨hk, h1, fun h2 => h ⟨k, hk, h2⟩⟩
  · rintro ⟨hk, h1, _⟩; exact ⟨hk, h1⟩

theorem card_bound (S : Sys m lo hi) : ∀ (d i j : Nat), j - i ≤ d → i < j → (below m lo hi i j).card ≤ j - i - 2 ∧ (within m lo hi i j).card ≤ j - i - 1
  | 0, i, j, hd, hij => by omega
  | d + 1, i, j, hd, hij => by
    by_cases h2 : i + 2 ≤ j
    · obtain ⟨v, v1, v2, v3, v4⟩ := exists_last (m := m) (lo := lo) (hi := hi) h2
      have hs := below_split S v1 v2 v3 v4
      have c1 := (card_bound S d i v (by omega) v1).2
      have c2 := (card_bound S d v j (by omega) v2).2
      have hb : (below m lo hi i j).card ≤ j - i - 2 := by
        rw [hs, Finset.card_union_of_disjoint (within_disjoint S)]
        omega
      exact ⟨hb, by have := within_card_le S (i := i) (j := j); omega⟩
    · have h0 := within_step S (i := i) (j := j) (by omega)
      have : below m lo hi i j ⊆ within m lo hi i j := by
        intro k hk
        simp only [within, below, Finset.mem_filter, Finset.mem_range] at hk ⊢
        exact ⟨hk.1, hk.2.1⟩
      have hc := Finset.card_le_card this
      rw [h0] at hc ⊢
      simp only [Finset.card_empty] at hc ⊢
      omega

/-- If the chords are as many as possible there is a triangle at `i` and `j`, and both sides have as many as possible. -/
theorem full_split (S : Sys m lo hi) {i j : Nat} (h2 : i + 2 ≤ j) (hf : (below m lo hi i j).card = j - i - 2) :
    ∃ v, i < v ∧ v < j ∧ Link m lo hi i v ∧ Link m lo hi v j ∧ (∀ v', Link m lo hi i v' → v' < j → v' ≤ v) ∧ (∀ q, i < q → Link m lo hi q j → v ≤ q) ∧
      (i + 2 ≤ v → (below m lo hi i v).card = v - i - 2) ∧ (v + 2 ≤ j → (below m lo hi v j).card = j - v - 2) ∧
      below m lo hi i j = within m lo hi i v ∪ within m lo hi v j := by
  obtain ⟨v, v1, v2, v3, v4⟩ := exists_last (m := m) (lo := lo) (hi := hi) h2
  have hs := below_split S v1 v2 v3 v4
  have c1 := card_bound S (v - i) i v (by omega) v1
  have c2 := card_bound S (j - v) v j (by omega) v2
  have hc := hf
  rw [hs, Finset.card_union_of_disjoint (within_disjoint S)] at hc
  have e1 : (within m lo hi i v).card = v - i - 1 := by omega
  have e2 : (within m lo hi v j).card = j - v - 1 := by omega
  have w1 := within_card_le S (i := i) (j := v)
  have w2 := within_card_le S (i := v) (j := j)
  refine ⟨v, v1, v2, v3, ?_, v4, ?_, fun _ => by omega, fun _ => by omega, hs⟩
  · by_cases h : j = v + 1
    · exact .inl h
    · refine .inr ?_
      by_contra hno
      rw [within_below hno] at e2
      omega
  · intro q hq hl
    by_contra hlt
    rcases v3 with h | ⟨l, hl1, hl2, hl3⟩
    · omega
    · rcases hl with h | ⟨k, hk1, hk2, hk3⟩
      · omega
      · exact S.nocross l k hl1 hk1 ⟨by omega, by omega, by omega⟩

end Plc.Tri
