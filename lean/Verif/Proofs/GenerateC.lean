import Verif.Proofs.GenerateB
import Verif.Props.Chords

/-! # Triangulations from systems of chords: from chords to positions -/

namespace Plc.Embed

open Plc.Core Plc.Tri

/-- The position of a vertex. -/
def pos (n x : Nat) : Nat := if x = 0 then n - 1 else x - 1

theorem pos_cases {n x : Nat} (h : x < n) : (x = 0 ∧ pos n x + 1 = n) ∨ (0 < x ∧ pos n x + 1 = x) := by
  unfold pos; split <;> omega

theorem vx_pos {n x : Nat} (h : x < n) : vx n (pos n x) = x := by
  have := pos_cases h
  unfold vx; split <;> omega

/-- Chord number `k`. -/
def chd (sys : List Chord) (k : Nat) : Chord := (sys[k]?).getD (0, 0)

def low (n : Nat) (sys : List Chord) (k : Nat) : Nat := min (pos n (chd sys k).1) (pos n (chd sys k).2)

def high (n : Nat) (sys : List Chord) (k : Nat) : Nat := max (pos n (chd sys k).1) (pos n (chd sys k).2)

theorem next_cases {n x : Nat} (h : x < n) : (x + 1 = n ∧ (x + 1) % n = 0) ∨ (x + 1 < n ∧ (x + 1) % n = x + 1) := by
  rcases Nat.lt_or_ge (x + 1) n with h1 | h1
  · exact .inr ⟨h1, Nat.mod_eq_of_lt h1⟩
  · have : x + 1 = n := by omega
    exact .inl ⟨this, by rw [this, Nat.mod_self]⟩

theorem diagonal_pos {n : Nat} {c : Chord} (h : Diagonal n c) : pos n c.1 < n ∧ pos n c.2 < n ∧
    (pos n c.1 + 2 ≤ pos n c.2 ∧ ¬ (pos n c.1 = 0 ∧ pos n c.2 + 1 = n) ∨ pos n c.2 + 2 ≤ pos n c.1 ∧ ¬ (pos n c.2 = 0 ∧ pos n c.1 + 1 = n)) := by
  obtain ⟨h1, h2, h3, h4, h5⟩ := h
  have p1 := pos_cases h1
  have p2 := pos_cases h2
  have q1 := next_cases h1
  have q2 := next_cases h2
  omega

theorem crossing_pos {n : Nat} {c d : Chord} (hc : Diagonal n c) (hd : Diagonal n d)
    (h : min (pos n c.1) (pos n c.2) < min (pos n d.1) (pos n d.2) ∧ min (pos n d.1) (pos n d.2) < max (pos n c.1) (pos n c.2) ∧
      max (pos n c.1) (pos n c.2) < max (pos n d.1) (pos n d.2)) : Crossing c d := by
  have p1 := pos_cases hc.1
  have p2 := pos_cases hc.2.1
  have p3 := pos_cases hd.1
  have p4 := pos_cases hd.2.1
  have := hc.1
  have := hc.2.1
  have := hd.1
  have := hd.2.1
  unfold Crossing Inside Outside
  rcases Nat.le_total (pos n c.1) (pos n c.2) with h1 | h1 <;> rcases Nat.le_total (pos n d.1) (pos n d.2) with h2 | h2 <;>
    simp only [Nat.min_eq_left h1, Nat.min_eq_right h1, Nat.max_eq_left h1, Nat.max_eq_right h1, Nat.min_eq_left h2, Nat.min_eq_right h2,
      Nat.max_eq_left h2, Nat.max_eq_right h2] at h <;> omega

theorem chd_get {sys : List Chord} {k : Nat} (h : k < sys.length) : sys[k]? = some (chd sys k) := by
  unfold chd
  rw [List.getElem?_eq_getElem h]
  rfl

theorem chd_mem {sys : List Chord} {k : Nat} (h : k < sys.length) : chd sys k ∈ sys := List.mem_of_getElem? (chd_get h)

theorem pairwise_chd {n : Nat} {sys : List Chord} (hd : ∀ c ∈ sys, Diagonal n c) (hp : sys.Pairwise (fun c d => ¬ Same c d ∧ ¬ Crossing c d)) {k l : Nat}
    (hk : k < sys.length) (hl : l < sys.length) (hkl : k ≠ l) : ¬ Same (chd sys k) (chd sys l) ∧ ¬ Crossing (chd sys k) (chd sys l) := by
  rw [List.pairwise_iff_getElem] at hp
  have e1 : sys[k] = chd sys k := by have := chd_get hk; rw [List.getElem?_eq_getElem hk] at this; exact Option.some.inj this
  have e2 : sys[l] = chd sys l := by have := chd_get hl; rw [List.getElem?_eq_getElem hl] at this; exact Option.some.inj this
  rcases Nat.lt_or_ge k l with h | h
  · have := hp k l hk hl h
    rwa [e1, e2] at this
  · have := hp l k hl hk (by omega)
    rw [e1, e2] at this
    have h2 := (apart_symm ((hd _ (chd_mem hl)).2.2.1) ((hd _ (chd_mem hk)).2.2.1)).mp (by rintro (h | h); exacts [this.1 h, this.2 h])
    exact h2

theorem poly_of {n : Nat} {sys : List Chord} (h4 : 4 ≤ n) (h : IsTriangulation n sys) : Poly n (n - 3) (low n sys) (high n sys) := by
  obtain ⟨hl, hd, hp⟩ := h
  have hD : ∀ k, k < n - 3 → Diagonal n (chd sys k) := fun k hk => hd _ (chd_mem (by omega))
  refine ⟨⟨?_, ?_, ?_⟩, h4, ?_, ?_⟩
  · intro k hk
    have := diagonal_pos (hD k hk)
    unfold low high
    omega
  · intro k l hk hl' h1 h2
    by_contra hkl
    have := (pairwise_chd hd hp (by omega) (by omega) hkl).1
    apply this
    unfold low at h1
    unfold high at h2
    have p1 := pos_cases (hD k hk).1
    have p2 := pos_cases (hD k hk).2.1
    have p3 := pos_cases (hD l hl').1
    have p4 := pos_cases (hD l hl').2.1
    have := (hD k hk).1
    have := (hD k hk).2.1
    have := (hD l hl').1
    have := (hD l hl').2.1
    unfold Same
    omega
  · intro k l hk hl' hc
    by_cases hkl : k = l
    · subst hkl; omega
    · exact (pairwise_chd hd hp (by omega) (by omega) hkl).2 (crossing_pos (hD k hk) (hD l hl') hc)
  · intro k hk
    have := diagonal_pos (hD k hk)
    unfold high
    omega
  · intro k hk
    have := diagonal_pos (hD k hk)
    unfold low high
    omega

theorem laid_of {n : Nat} {sys : List Chord} (h : IsTriangulation n sys) : Laid n (n - 3) (low n sys) (high n sys) sys := by
  obtain ⟨hl, hd, hp⟩ := h
  refine ⟨hl, ?_⟩
  intro k hk
  have hD : Diagonal n (chd sys k) := hd _ (chd_mem (by omega))
  rw [chd_get (by omega)]
  unfold low high
  rcases Nat.le_total (pos n (chd sys k).1) (pos n (chd sys k).2) with h1 | h1
  · left
    rw [Nat.min_eq_left h1, Nat.max_eq_right h1, vx_pos hD.1, vx_pos hD.2.1]
  · right
    rw [Nat.min_eq_right h1, Nat.max_eq_left h1, vx_pos hD.1, vx_pos hD.2.1]

theorem same_of {n : Nat} {sys ds : List Chord} (h : IsTriangulation n sys) (hL : Laid n (n - 3) (low n sys) (high n sys) ds) {k : Nat} {c : Chord} (hc : sys[k]? = some c) :
    ∃ d, ds[k]? = some d ∧ Same d c := by
  have hk : k < n - 3 := by rw [← h.1]; exact (List.getElem?_eq_some_iff.mp hc).1
  have h1 := (laid_of h).chord k hk
  rw [hc] at h1
  rcases hL.chord k hk with h2 | h2 <;> refine ⟨_, h2, ?_⟩ <;> rcases h1 with h1 | h1 <;> rw [Option.some.inj h1] <;> unfold Same <;> simp

theorem full_of {n m : Nat} {lo hi : Nat → Nat} (P : Poly n m lo hi) (hm : m = n - 3) : (below m lo hi 0 (n - 1)).card = n - 1 - 0 - 2 := by
  have h4 := P.four
  have : below m lo hi 0 (n - 1) = Finset.range m := by
    ext k
    simp only [below, Finset.mem_filter, Finset.mem_range]
    constructor
    · exact fun h => h.1
    · intro h
      have h1 := P.top k h
      have h2 := P.whole k h
      refine ⟨h, ⟨by omega, by omega⟩, fun h3 => h2 ⟨h3.1, by omega⟩⟩
  rw [this, Finset.card_range]
  omega

theorem mapM_rd_go {α : Type} (l : List α) : ∀ (is : List Nat), (∀ i ∈ is, i < l.length) → ∃ r, is.mapM (fun i => rd l i) = .ok r ∧ r.length = is.length ∧ ∀ (k i : Nat), is[k]? = some i → r[k]? = l[i]?
  | [], _ => ⟨[], rfl, rfl, by simp⟩
  | i :: is, h => by
    obtain ⟨r, h1, h2, h3⟩ := mapM_rd_go l is (fun x hx => h x (by simp [hx]))
    have hi := h i (by simp)
    refine ⟨l[i] :: r, ?_, by simp [h2], ?_⟩
    · rw [List.mapM_cons, rd_lt hi]
      show (do let bs ← is.mapM (fun i => rd l i); pure (l[i] :: bs)) = _
      rw [h1]
      rfl
    · intro k x hx
      rcases k with _ | k
      · have : i = x := by simpa using hx
        subst this
        simp [List.getElem?_eq_getElem hi]
      · simpa using h3 k x (by simpa using hx)

theorem mapM_rd_all {α : Type} (l : List α) {n : Nat} (h : n = l.length) : (List.range n).mapM (fun i => rd l i) = .ok l := by
  obtain ⟨r, h1, h2, h3⟩ := mapM_rd_go l (List.range n) (by intro i hi; rw [List.mem_range] at hi; omega)
  rw [h1]
  congr 1
  apply List.ext_getElem?
  intro k
  rw [List.length_range] at h2
  rcases Nat.lt_or_ge k n with hk | hk
  · exact h3 k k (List.getElem?_range hk)
  · rw [List.getElem?_eq_none (by omega), List.getElem?_eq_none (by omega)]

theorem seg_all {n : Nat} (h : 3 ≤ n) : seg n 0 (n - 1) = (List.range (n - 2)).map (fun q => q + 2) := by
  unfold seg
  rw [show n - 1 - 0 - 1 = n - 2 by omega]
  apply List.map_congr_left
  intro q hq
  rw [List.mem_range] at hq
  unfold vx
  rw [if_neg (by omega)]
  omega

end Plc.Embed
