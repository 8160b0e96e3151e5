import Verif.Model.Generate
import Verif.Spec.Embed
import Verif.Spec.Chords
import Verif.Proofs.Basic
import Verif.Proofs.Noncross

/-! # Triangulations from systems of chords: lemmas

Positions are counted from vertex 1 on, so that vertex 0 is the last one. -/

namespace Plc.Embed

open Plc.Core Plc.Tri

/-- The vertex at position `p`. -/
def vx (n p : Nat) : Nat := if p + 1 = n then 0 else p + 1

theorem vx_mod {n p : Nat} (h : p < n) : (p + 1) % n = vx n p := by
  unfold vx
  split
  · rename_i h1; rw [h1, Nat.mod_self]
  · exact Nat.mod_eq_of_lt (by omega)

theorem vx_cases {n p : Nat} (h : p < n) : (p + 1 = n ∧ vx n p = 0) ∨ (p + 1 < n ∧ vx n p = p + 1) := by
  unfold vx
  split
  · left; omega
  · right; omega

/-- The chords of the polygon, by position. -/
structure Poly (n m : Nat) (lo hi : Nat → Nat) : Prop extends Sys m lo hi where
  four : 4 ≤ n
  top : ∀ k, k < m → hi k < n
  whole : ∀ k, k < m → ¬ (lo k = 0 ∧ hi k + 1 = n)

/-- The list holds the chords, each in one of the two orientations. -/
structure Laid (n m : Nat) (lo hi : Nat → Nat) (diags : List Chord) : Prop where
  len : diags.length = m
  chord : ∀ k, k < m → diags[k]? = some (vx n (lo k), vx n (hi k)) ∨ diags[k]? = some (vx n (hi k), vx n (lo k))

/-- The chord ends at position `p`. -/
def Inc (n m : Nat) (lo hi : Nat → Nat) (p : Nat) (c : CRef) : Prop :=
  c = ⟨false, vx n p⟩ ∨ c = ⟨false, p⟩ ∨ ∃ k, k < m ∧ c = ⟨true, k⟩ ∧ (lo k = p ∨ hi k = p)

/-- How far its other end is from position `p`, forwards. -/
def key (n : Nat) (lo hi : Nat → Nat) (p : Nat) (c : CRef) : Nat :=
  if c.diag then (if lo c.num = p then hi c.num - p else lo c.num + n - p) else if c.num = vx n p then 1 else n - 1

variable {n m : Nat} {lo hi : Nat → Nat}

theorem farEnd_key (P : Poly n m lo hi) {diags : List Chord} (hL : Laid n m lo hi diags) {p k : Nat} (hp : p < n) (hk : k < m) (hi' : lo k = p ∨ hi k = p) :
    farEnd diags n (vx n p) k = key n lo hi p ⟨true, k⟩ := by
  have g := P.gap k hk
  have t := P.top k hk
  unfold farEnd key
  simp only [if_true]
  have v1 := vx_cases (n := n) (p := lo k) (by omega)
  have v2 := vx_cases (n := n) (p := hi k) (by omega)
  have v3 := vx_cases hp
  rcases hL.chord k hk with h | h <;> rw [h] <;> simp only [Option.getD_some]
  · by_cases e : vx n (lo k) = vx n p
    · rw [if_pos e]
      have e' : lo k = p := by omega
      rw [if_pos e']; split_ifs <;> omega
    · rw [if_neg e]
      have e' : ¬ lo k = p := by rintro rfl; exact e rfl
      rw [if_neg e']; split_ifs <;> omega
  · by_cases e : vx n (hi k) = vx n p
    · rw [if_pos e]
      have e' : ¬ lo k = p := by omega
      rw [if_neg e']; split_ifs <;> omega
    · rw [if_neg e]
      have e' : lo k = p := by omega
      rw [if_pos e']; split_ifs <;> omega

theorem before_num {p : Nat} (h4 : 4 ≤ n) (hp : p < n) : (vx n p + n - 1) % n = p := by
  unfold vx
  split
  · rename_i h; rw [show 0 + n - 1 = n - 1 by omega, Nat.mod_eq_of_lt (by omega)]; omega
  · rw [show p + 1 + n - 1 = p + n by omega, Nat.add_mod_right, Nat.mod_eq_of_lt hp]

theorem vx_ne {p : Nat} (h4 : 4 ≤ n) : vx n p ≠ p := by unfold vx; split <;> omega

theorem le_key (P : Poly n m lo hi) {diags : List Chord} (hL : Laid n m lo hi diags) {p : Nat} (hp : p < n) {a b : CRef} (ha : Inc n m lo hi p a)
    (hb : Inc n m lo hi p b) : tchordLe diags n (vx n p) a b = decide (key n lo hi p a ≤ key n lo hi p b) := by
  have h4 := P.four
  have hne := vx_ne (n := n) (p := p) h4
  unfold tchordLe
  by_cases hab : a = b
  · rw [if_pos hab, hab]; simp
  rw [if_neg hab, before_num h4 hp]
  rcases ha with rfl | rfl | ⟨k, hk, rfl, hk'⟩
  · simp only [Bool.not_false, if_true]
    rw [decide_eq_true (hne : (⟨false, vx n p⟩ : CRef).num ≠ p)]
    symm
    rw [decide_eq_true_iff]
    unfold key
    rcases hb with rfl | rfl | ⟨l, hl, rfl, hl'⟩
    · exact le_refl _
    · simp; split_ifs <;> omega
    · have := P.gap l hl
      have := P.top l hl
      simp; split_ifs <;> omega
  · simp only [Bool.not_false, if_true, ne_eq, not_true_eq_false, decide_false]
    symm
    rw [decide_eq_false_iff_not]
    unfold key
    rcases hb with rfl | rfl | ⟨l, hl, rfl, hl'⟩
    · simp [Ne.symm hne]; omega
    · exact absurd rfl hab
    · have := P.gap l hl
      have := P.top l hl
      have := P.whole l hl
      simp [Ne.symm hne]; split_ifs <;> omega
  · have g1 := P.gap k hk
    have g2 := P.top k hk
    have g3 := P.whole k hk
    rcases hb with rfl | rfl | ⟨l, hl, rfl, hl'⟩
    · simp only [Bool.not_true, Bool.false_eq_true, if_false, Bool.not_false, if_true]
      rw [decide_eq_false (hne : ¬ (⟨false, vx n p⟩ : CRef).num = p)]
      symm
      rw [decide_eq_false_iff_not]
      unfold key
      simp; split_ifs <;> omega
    · simp only [Bool.not_true, Bool.false_eq_true, if_false, Bool.not_false, if_true, decide_true]
      symm
      rw [decide_eq_true_iff]
      unfold key
      simp [Ne.symm hne]; split_ifs <;> omega
    · simp only [Bool.not_true, Bool.false_eq_true, if_false]
      rw [farEnd_key P hL hp hk hk', farEnd_key P hL hp hl hl']

theorem key_inj (P : Poly n m lo hi) {p : Nat} (hp : p < n) {a b : CRef} (ha : Inc n m lo hi p a) (hb : Inc n m lo hi p b)
    (h : key n lo hi p a = key n lo hi p b) : a = b := by
  have h4 := P.four
  have hne := vx_ne (n := n) (p := p) h4
  unfold key at h
  rcases ha with rfl | rfl | ⟨k, hk, rfl, hk'⟩ <;> rcases hb with rfl | rfl | ⟨l, hl, rfl, hl'⟩
  · rfl
  · simp [Ne.symm hne] at h; omega
  · have := P.gap l hl
    have := P.top l hl
    have := P.whole l hl
    simp only [if_true, if_false, Bool.false_eq_true] at h
    split_ifs at h <;> omega
  · simp [Ne.symm hne] at h; omega
  · rfl
  · have := P.gap l hl
    have := P.top l hl
    have := P.whole l hl
    simp only [if_true, if_false, Bool.false_eq_true, if_neg (Ne.symm hne)] at h
    split_ifs at h <;> omega
  · have := P.gap k hk
    have := P.top k hk
    have := P.whole k hk
    simp only [if_true, if_false, Bool.false_eq_true] at h
    split_ifs at h <;> omega
  · have := P.gap k hk
    have := P.top k hk
    have := P.whole k hk
    simp only [if_true, if_false, Bool.false_eq_true, if_neg (Ne.symm hne)] at h
    split_ifs at h <;> omega
  · have g1 := P.gap k hk
    have g2 := P.top k hk
    have g3 := P.gap l hl
    have g4 := P.top l hl
    simp only [if_true] at h
    have : k = l := P.inj k l hk hl (by split_ifs at h <;> omega) (by split_ifs at h <;> omega)
    rw [this]

/-! ## The table of chords at the vertices -/

/-- What is put into the buffer of `v`. -/
def entries (v : Nat) : List Chord → Nat → List CRef
  | [], _ => []
  | d :: ds, k => (if d.1 = v then [⟨true, k⟩] else []) ++ (if d.2 = v then [⟨true, k⟩] else []) ++ entries v ds (k + 1)

theorem fillLoop_ok : ∀ (ds : List Chord) (k : Nat) (vi : List (List CRef)), (∀ d ∈ ds, d.1 < vi.length ∧ d.2 < vi.length) →
    ∃ vi', fillLoop ds k vi = .ok vi' ∧ vi'.length = vi.length ∧ ∀ (v : Nat) (l : List CRef), vi[v]? = some l → vi'[v]? = some (l ++ entries v ds k)
  | [], k, vi, _ => ⟨vi, rfl, rfl, fun v l h => by simp [entries, h]⟩
  | d :: ds, k, vi, h => by
    obtain ⟨h1, h2⟩ := h d (by simp)
    have p1 : push vi d.1 ⟨true, k⟩ = .ok (vi.set d.1 (vi[d.1] ++ [⟨true, k⟩])) := by
      unfold push
      rw [rd_lt h1, ok_bind, wr_lt h1]
    obtain ⟨vi1, e1⟩ : ∃ v, v = vi.set d.1 (vi[d.1] ++ [(⟨true, k⟩ : CRef)]) := ⟨_, rfl⟩
    have l1 : vi1.length = vi.length := by rw [e1, List.length_set]
    have h2' : d.2 < vi1.length := by rw [l1]; exact h2
    have p2 : push vi1 d.2 ⟨true, k⟩ = .ok (vi1.set d.2 (vi1[d.2] ++ [⟨true, k⟩])) := by
      unfold push
      rw [rd_lt h2', ok_bind, wr_lt h2']
    obtain ⟨vi2, e2⟩ : ∃ v, v = vi1.set d.2 (vi1[d.2] ++ [(⟨true, k⟩ : CRef)]) := ⟨_, rfl⟩
    have l2 : vi2.length = vi.length := by rw [e2, List.length_set, l1]
    obtain ⟨vi', r1, r2, r3⟩ := fillLoop_ok ds (k + 1) vi2 (by
      intro x hx; rw [l2]; exact h x (by simp [hx]))
    refine ⟨vi', ?_, by rw [r2, l2], ?_⟩
    · unfold fillLoop
      rw [p1, ok_bind, ← e1, p2, ok_bind, ← e2]
      exact r1
    · intro v l hl
      have hv := (List.getElem?_eq_some_iff.mp hl).1
      have a1 : vi1[v]? = some (l ++ if d.1 = v then [⟨true, k⟩] else []) := by
        rw [e1, List.getElem?_set]
        by_cases hc : d.1 = v
        · subst hc
          rw [if_pos rfl, if_pos h1, if_pos rfl]
          rw [List.getElem?_eq_getElem h1] at hl
          cases hl
          rfl
        · rw [if_neg hc, if_neg hc, hl, List.append_nil]
      have a2 : vi2[v]? = some ((l ++ if d.1 = v then [⟨true, k⟩] else []) ++ if d.2 = v then [⟨true, k⟩] else []) := by
        rw [e2, List.getElem?_set]
        by_cases hc : d.2 = v
        · subst hc
          rw [if_pos rfl, if_pos h2', if_pos rfl]
          rw [List.getElem?_eq_getElem h2'] at a1
          have a1 := Option.some.inj a1
          rw [a1]
        · rw [if_neg hc, if_neg hc, a1, List.append_nil]
      rw [r3 v _ a2]
      simp only [entries, List.append_assoc]

theorem entries_mem {v : Nat} : ∀ (ds : List Chord) (k : Nat) (c : CRef), c ∈ entries v ds k ↔ ∃ (i : Nat) (d : Chord), ds[i]? = some d ∧ c = ⟨true, k + i⟩ ∧ (d.1 = v ∨ d.2 = v)
  | [], k, c => by simp [entries]
  | d :: ds, k, c => by
    have ih := entries_mem (v := v) ds (k + 1) c
    simp only [entries, List.mem_append, ih]
    constructor
    · rintro ((h | h) | ⟨i, d', h1, h2, h3⟩)
      · split at h
        · rename_i hd
          rw [List.mem_singleton] at h
          exact ⟨0, d, rfl, by rw [h]; rfl, .inl hd⟩
        · simp at h
      · split at h
        · rename_i hd
          rw [List.mem_singleton] at h
          exact ⟨0, d, rfl, by rw [h]; rfl, .inr hd⟩
        · simp at h
      · exact ⟨i + 1, d', by simpa using h1, by rw [h2]; congr 1; omega, h3⟩
    · rintro ⟨i, d', h1, h2, h3⟩
      rcases i with _ | i
      · have : d = d' := by simpa using h1
        subst this
        rcases h3 with h3 | h3
        · left; left; rw [if_pos h3, h2]; simp
        · left; right; rw [if_pos h3, h2]; simp
      · right
        exact ⟨i, d', by simpa using h1, by rw [h2]; congr 1; omega, h3⟩

theorem entries_nodup {v : Nat} : ∀ (ds : List Chord) (k : Nat), (∀ d ∈ ds, d.1 ≠ d.2) → (entries v ds k).Nodup
  | [], _, _ => by simp [entries]
  | d :: ds, k, h => by
    have ih := entries_nodup (v := v) ds (k + 1) (fun x hx => h x (by simp [hx]))
    have hd := h d (by simp)
    have hno : (⟨true, k⟩ : CRef) ∉ entries v ds (k + 1) := by
      rw [entries_mem]
      rintro ⟨i, d', _, h2, _⟩
      simp at h2
      omega
    simp only [entries]
    by_cases h1 : d.1 = v
    · have h2 : ¬ d.2 = v := by omega
      rw [if_pos h1, if_neg h2]
      simp [hno, ih]
    · rw [if_neg h1]
      by_cases h2 : d.2 = v
      · rw [if_pos h2]; simp [hno, ih]
      · rw [if_neg h2]; simpa using ih

/-- The chords at the vertices, in order. -/
def Table (n m : Nat) (lo hi : Nat → Nat) (vi : List (List CRef)) : Prop :=
  ∀ p, p < n → ∃ l, vi[vx n p]? = some l ∧ l.Pairwise (fun a b => key n lo hi p a < key n lo hi p b) ∧ ∀ c, c ∈ l ↔ Inc n m lo hi p c

theorem vx_lt {p : Nat} (hp : p < n) : vx n p < n := by unfold vx; split <;> omega

theorem vx_inj {p q : Nat} (hp : p < n) (hq : q < n) : vx n p = vx n q ↔ p = q := by
  unfold vx
  constructor
  · intro h; split at h <;> split at h <;> omega
  · rintro rfl; rfl

theorem buildVit_ok (Q : QSort) (P : Poly n m lo hi) {diags : List Chord} (hL : Laid n m lo hi diags) : ∃ vi, buildVit Q n diags = .ok vi ∧ Table n m lo hi vi := by
  have h4 := P.four
  have hd : ∀ d ∈ diags, d.1 < n ∧ d.2 < n ∧ d.1 ≠ d.2 := by
    intro d hd
    obtain ⟨k, hk, rfl⟩ := List.getElem_of_mem hd
    have hk' : k < m := by rw [← hL.len]; exact hk
    have g1 := P.gap k hk'
    have g2 := P.top k hk'
    have := hL.chord k hk'
    rw [List.getElem?_eq_getElem hk] at this
    have x1 := vx_lt (n := n) (p := lo k) (by omega)
    have x2 := vx_lt (n := n) (p := hi k) (by omega)
    have x3 : vx n (lo k) ≠ vx n (hi k) := by rw [Ne, vx_inj (by omega) (by omega)]; omega
    rcases this with h | h <;> rw [Option.some.inj h]
    · exact ⟨x1, x2, x3⟩
    · exact ⟨x2, x1, fun h => x3 h.symm⟩
  obtain ⟨vi', r1, r2, r3⟩ := fillLoop_ok diags 0 ((List.range n).map (fun v => [(⟨false, (v + n - 1) % n⟩ : CRef), ⟨false, v⟩])) (by
    intro d h
    simp only [List.length_map, List.length_range]
    exact ⟨(hd d h).1, (hd d h).2.1⟩)
  refine ⟨_, by unfold buildVit; rw [r1, ok_bind], ?_⟩
  intro p hp
  have hvp := vx_lt hp
  have hne := vx_ne (n := n) (p := p) h4
  have hv := r3 (vx n p) [⟨false, p⟩, ⟨false, vx n p⟩] (by
    rw [List.getElem?_map, List.getElem?_range hvp]
    simp [before_num h4 hp])
  obtain ⟨l, el⟩ : ∃ l, l = [⟨false, p⟩, ⟨false, vx n p⟩] ++ entries (vx n p) diags 0 := ⟨_, rfl⟩
  rw [← el] at hv
  have hmem : ∀ c, c ∈ l ↔ Inc n m lo hi p c := by
    intro c
    rw [el, List.mem_append, entries_mem]
    unfold Inc
    constructor
    · rintro (h | ⟨i, d, h1, h2, h3⟩)
      · simp at h; rcases h with h | h
        · exact .inr (.inl h)
        · exact .inl h
      · have hi' : i < m := by rw [← hL.len]; exact (List.getElem?_eq_some_iff.mp h1).1
        have g1 := P.gap i hi'
        have g2 := P.top i hi'
        refine .inr (.inr ⟨i, hi', by rw [h2]; simp, ?_⟩)
        rcases hL.chord i hi' with h | h <;> rw [h1] at h <;> rw [Option.some.inj h] at h3 <;> simp only at h3 <;>
          rw [vx_inj (by omega) hp, vx_inj (by omega) hp] at h3 <;> omega
    · rintro (h | h | ⟨k, hk, h1, h2⟩)
      · left; rw [h]; simp
      · left; rw [h]; simp
      · right
        rcases hL.chord k hk with h | h
        · refine ⟨k, _, h, by rw [h1]; simp, ?_⟩
          rcases h2 with h2 | h2
          · left; rw [h2]
          · right; rw [h2]
        · refine ⟨k, _, h, by rw [h1]; simp, ?_⟩
          rcases h2 with h2 | h2
          · right; rw [h2]
          · left; rw [h2]
  have hnd : l.Nodup := by
    rw [el, List.nodup_append]
    refine ⟨by simp [Ne.symm hne], entries_nodup diags 0 (fun d h => (hd d h).2.2), ?_⟩
    intro a ha b hb hab
    subst hab
    rw [entries_mem] at hb
    obtain ⟨i, d, _, h2, _⟩ := hb
    rw [h2] at ha
    simp at ha
  refine ⟨Q.sort (tchordLe diags n (vx n p)) l, ?_, ?_, ?_⟩
  · rw [List.getElem?_mapIdx, hv]; rfl
  · have hpm := Q.perm (tchordLe diags n (vx n p)) l
    have hs := Q.sorted (tchordLe diags n (vx n p)) l (by
      intro a b ha hb
      rw [le_key P hL hp ((hmem a).mp ha) ((hmem b).mp hb), le_key P hL hp ((hmem b).mp hb) ((hmem a).mp ha)]
      rw [Bool.or_eq_true, decide_eq_true_iff, decide_eq_true_iff]
      omega) (by
      intro a b c ha hb hc h1 h2
      rw [le_key P hL hp ((hmem a).mp ha) ((hmem b).mp hb), decide_eq_true_iff] at h1
      rw [le_key P hL hp ((hmem b).mp hb) ((hmem c).mp hc), decide_eq_true_iff] at h2
      rw [le_key P hL hp ((hmem a).mp ha) ((hmem c).mp hc), decide_eq_true_iff]
      omega)
    have hnd' : (Q.sort (tchordLe diags n (vx n p)) l).Nodup := hpm.nodup_iff.mpr hnd
    refine List.Pairwise.imp_of_mem ?_ (hs.and hnd')
    intro a b ha hb ⟨h1, h2⟩
    have ia := (hmem a).mp (hpm.mem_iff.mp ha)
    have ib := (hmem b).mp (hpm.mem_iff.mp hb)
    rw [le_key P hL hp ia ib, decide_eq_true_iff] at h1
    rcases Nat.lt_or_ge (key n lo hi p a) (key n lo hi p b) with h | h
    · exact h
    · exact absurd (key_inj P hp ia ib (by omega)) h2
  · intro c
    rw [(Q.perm _ l).mem_iff, hmem c]

end Plc.Embed
