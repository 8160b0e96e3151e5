import Verif.Spec.Nearest
import Verif.Proofs.Measure

/-! # Nearest points: lemmas -/

namespace Plc.Nearest

open Plc.Core Plc.FindCrossings Plc.RandomPolygon Plc.Equilateral Plc.Motions Plc.Measure

theorem sqDist_eq (a b : V3) : sqDist a b = distSq a b := by
  unfold sqDist distSq V3.sub V3.dot; ring

theorem apart_le_iff (p a b : V3) : apart p a ≤ apart p b ↔ distSq p a ≤ distSq p b := by
  unfold apart
  rw [Real.sqrt_le_sqrt_iff (by unfold distSq; positivity)]

theorem coord_le (a b : V3) (d : Nat) : coord a d - coord b d ≤ apart a b := by
  unfold apart coord
  refine Real.le_sqrt_of_sq_le ?_
  unfold distSq
  split
  · nlinarith [sq_nonneg (a.y - b.y), sq_nonneg (a.z - b.z)]
  · split
    · nlinarith [sq_nonneg (a.x - b.x), sq_nonneg (a.z - b.z)]
    · nlinarith [sq_nonneg (a.x - b.x), sq_nonneg (a.y - b.y)]

/-- The loop keeps the best index seen. -/
theorem exLoop_ok (q : V3) (buf : List V3) : ∀ (k pos : Nat) (best : ℝ) (bp : Nat), pos + k ≤ buf.length →
    ∃ r : Nat, exLoop q buf k pos best bp = .ok r ∧
      ((r = bp ∧ ∀ (j : Nat) (w : V3), pos ≤ j → j < pos + k → buf[j]? = some w → best ≤ distSq q w) ∨
       (pos ≤ r ∧ r < pos + k ∧ ∃ v, buf[r]? = some v ∧ distSq q v < best ∧
         ∀ (j : Nat) (w : V3), pos ≤ j → j < pos + k → buf[j]? = some w → distSq q v ≤ distSq q w)) := by
  intro k
  induction k with
  | zero =>
    intro pos best bp _
    exact ⟨bp, rfl, .inl ⟨rfl, fun j w h1 h2 _ => absurd h2 (by omega)⟩⟩
  | succ k ih =>
    intro pos best bp h
    have hp : pos < buf.length := by omega
    unfold exLoop
    rw [rd_lt hp, ok_bind, sqDist_eq]
    have hg : buf[pos]? = some buf[pos] := List.getElem?_eq_getElem hp
    by_cases hb : distSq q buf[pos] < best
    · rw [if_pos hb]
      obtain ⟨r, hr, h1 | h1⟩ := ih (pos + 1) (distSq q buf[pos]) pos (by omega)
      · refine ⟨r, hr, .inr ⟨by omega, by omega, buf[pos], by rw [h1.1, hg], hb, ?_⟩⟩
        intro j w ha hc hw
        rcases Nat.lt_or_ge pos j with hj | hj
        · exact h1.2 j w (by omega) (by omega) hw
        · have : j = pos := by omega
          subst this
          rw [hg] at hw; cases hw; exact le_refl _
      · obtain ⟨ha, hc, v, hv, hlt, hall⟩ := h1
        refine ⟨r, hr, .inr ⟨by omega, by omega, v, hv, lt_trans hlt hb, ?_⟩⟩
        intro j w hja hjc hw
        rcases Nat.lt_or_ge pos j with hj | hj
        · exact hall j w (by omega) (by omega) hw
        · have : j = pos := by omega
          subst this
          rw [hg] at hw; cases hw; exact le_of_lt hlt
    · rw [if_neg hb]
      obtain ⟨r, hr, h1 | h1⟩ := ih (pos + 1) best bp (by omega)
      · refine ⟨r, hr, .inl ⟨h1.1, ?_⟩⟩
        intro j w ha hc hw
        rcases Nat.lt_or_ge pos j with hj | hj
        · exact h1.2 j w (by omega) (by omega) hw
        · have : j = pos := by omega
          subst this
          rw [hg] at hw; cases hw; exact not_lt.mp hb
      · obtain ⟨ha, hc, v, hv, hlt, hall⟩ := h1
        refine ⟨r, hr, .inr ⟨by omega, by omega, v, hv, hlt, ?_⟩⟩
        intro j w hja hjc hw
        rcases Nat.lt_or_ge pos j with hj | hj
        · exact hall j w (by omega) (by omega) hw
        · have : j = pos := by omega
          subst this
          rw [hg] at hw; cases hw; exact le_trans (le_of_lt hlt) (not_lt.mp hb)

theorem take_get {α : Type} {l : List α} {n i : Nat} {v : α} : (l.take n)[i]? = some v ↔ i < n ∧ l[i]? = some v := by
  rw [List.getElem?_take]
  split <;> simp_all

theorem take_mem {α : Type} {l : List α} {n : Nat} {v : α} : v ∈ l.take n ↔ ∃ i : Nat, i < n ∧ l[i]? = some v := by
  rw [List.mem_iff_getElem?]
  constructor
  · rintro ⟨i, h⟩; exact ⟨i, take_get.mp h⟩
  · rintro ⟨i, h⟩; exact ⟨i, take_get.mpr h⟩

theorem exhaustive_ok (big : ℝ) (q : V3) (n : Nat) (buf : List V3) (hn : n ≤ buf.length) (hr : Reachable big q (buf.take n)) :
    ∃ r, exhaustive big q n buf = .ok r ∧ NearestIn q (buf.take n) r := by
  obtain ⟨r, hr1, h | h⟩ := exLoop_ok q buf n 0 big 0 (by omega)
  · obtain ⟨v, hv, hlt⟩ := hr
    obtain ⟨i, hi, hg⟩ := take_mem.mp hv
    exact absurd (h.2 i v (by omega) (by omega) hg) (not_le.mpr hlt)
  · obtain ⟨_, h2, v, hv, _, hall⟩ := h
    refine ⟨r, hr1, v, take_get.mpr ⟨by omega, hv⟩, ?_⟩
    intro w hw
    obtain ⟨i, hi, hg⟩ := take_mem.mp hw
    exact (apart_le_iff _ _ _).mpr (hall i w (by omega) (by omega) hg)

/-- With every point too far away, the answer is 0. -/
theorem exhaustive_far (big : ℝ) (q : V3) (n : Nat) (buf : List V3) (hn : n ≤ buf.length)
    (hf : ∀ v ∈ buf.take n, big ≤ distSq q v) : exhaustive big q n buf = .ok 0 := by
  obtain ⟨r, hr1, h | h⟩ := exLoop_ok q buf n 0 big 0 (by omega)
  · rw [exhaustive, hr1, h.1]
  · obtain ⟨_, h2, v, hv, hlt, _⟩ := h
    exact absurd (hf v (take_mem.mpr ⟨r, by omega, hv⟩)) (not_le.mpr hlt)

/-! ## The bounding box -/

/-- The loop finds the least and the greatest coordinate. -/
theorem boxLoop_ok (buf : List V3) (d : Nat) : ∀ (k i : Nat) (lo hi : ℝ), i + k ≤ buf.length →
    ∃ lo' hi' : ℝ, boxLoop buf d k i lo hi = .ok (lo', hi') ∧ lo' ≤ lo ∧ hi ≤ hi' ∧
      (∀ (j : Nat) (w : V3), i ≤ j → j < i + k → buf[j]? = some w → lo' ≤ coord w d ∧ coord w d ≤ hi') ∧
      (lo' = lo ∨ ∃ (j : Nat) (w : V3), i ≤ j ∧ j < i + k ∧ buf[j]? = some w ∧ coord w d = lo') ∧
      (hi' = hi ∨ ∃ (j : Nat) (w : V3), i ≤ j ∧ j < i + k ∧ buf[j]? = some w ∧ coord w d = hi') := by
  intro k
  induction k with
  | zero =>
    intro i lo hi _
    exact ⟨lo, hi, rfl, le_refl _, le_refl _, fun j w h1 h2 _ => absurd h2 (by omega), .inl rfl, .inl rfl⟩
  | succ k ih =>
    intro i lo hi h
    have hp : i < buf.length := by omega
    unfold boxLoop
    rw [rd_lt hp, ok_bind]
    have hg : buf[i]? = some buf[i] := List.getElem?_eq_getElem hp
    obtain ⟨c, hc⟩ : ∃ c, c = coord buf[i] d := ⟨_, rfl⟩
    obtain ⟨l1, hl1⟩ : ∃ l1, l1 = (if lo < coord buf[i] d then lo else coord buf[i] d) := ⟨_, rfl⟩
    obtain ⟨h1, hh1⟩ : ∃ h1, h1 = (if coord buf[i] d < hi then hi else coord buf[i] d) := ⟨_, rfl⟩
    rw [← hl1, ← hh1]
    obtain ⟨lo', hi', he, hlo, hhi, hall, hol, hoh⟩ := ih (i + 1) l1 h1 (by omega)
    have hl2 : l1 ≤ lo ∧ l1 ≤ coord buf[i] d := by
      rw [hl1]; split
      · exact ⟨le_refl _, le_of_lt (by assumption)⟩
      · exact ⟨not_lt.mp (by assumption), le_refl _⟩
    have hh2 : hi ≤ h1 ∧ coord buf[i] d ≤ h1 := by
      rw [hh1]; split
      · exact ⟨le_refl _, le_of_lt (by assumption)⟩
      · exact ⟨not_lt.mp (by assumption), le_refl _⟩
    have hl3 : l1 = lo ∨ l1 = coord buf[i] d := by rw [hl1]; split <;> simp
    have hh3 : h1 = hi ∨ h1 = coord buf[i] d := by rw [hh1]; split <;> simp
    refine ⟨lo', hi', he, le_trans hlo hl2.1, le_trans hh2.1 hhi, ?_, ?_, ?_⟩
    · intro j w ha hb hw
      rcases Nat.lt_or_ge i j with hj | hj
      · exact hall j w (by omega) (by omega) hw
      · have : j = i := by omega
        subst this
        rw [hg] at hw; cases hw
        exact ⟨le_trans hlo hl2.2, le_trans hh2.2 hhi⟩
    · rcases hol with h2 | ⟨j, w, ha, hb, hw, hcw⟩
      · rcases hl3 with h3 | h3
        · exact .inl (h2.trans h3)
        · exact .inr ⟨i, buf[i], by omega, by omega, hg, by rw [h2, h3]⟩
      · exact .inr ⟨j, w, by omega, by omega, hw, hcw⟩
    · rcases hoh with h2 | ⟨j, w, ha, hb, hw, hcw⟩
      · rcases hh3 with h3 | h3
        · exact .inl (h2.trans h3)
        · exact .inr ⟨i, buf[i], by omega, by omega, hg, by rw [h2, h3]⟩
      · exact .inr ⟨j, w, by omega, by omega, hw, hcw⟩

/-- The extent of the first `n` points in coordinate `d`. -/
def Extent (vs : List V3) (d : Nat) (e : ℝ) : Prop :=
  (∀ a ∈ vs, ∀ b ∈ vs, coord a d - coord b d ≤ e) ∧ ∃ a ∈ vs, ∃ b ∈ vs, coord a d - coord b d = e

theorem boxDim_eq (n : Nat) (buf : List V3) (d : Nat) (hn : n ≤ buf.length) (h0 : 0 < n) :
    ∃ e : ℝ, Extent (buf.take n) d e ∧ 0 ≤ e ∧ boxDim n buf d = toInt e := by
  have hp : 0 < buf.length := by omega
  have hg : buf[0]? = some buf[0] := List.getElem?_eq_getElem hp
  obtain ⟨lo, hi, he, hlo, hhi, hall, hol, hoh⟩ := boxLoop_ok buf d n 0 (coord buf[0] d) (coord buf[0] d) (by omega)
  refine ⟨hi - lo, ⟨?_, ?_⟩, by linarith, ?_⟩
  · intro a ha b hb
    obtain ⟨i, hi1, hgi⟩ := take_mem.mp ha
    obtain ⟨j, hj1, hgj⟩ := take_mem.mp hb
    have h1 := (hall i a (by omega) (by omega) hgi).2
    have h2 := (hall j b (by omega) (by omega) hgj).1
    linarith
  · have hl : ∃ b ∈ buf.take n, coord b d = lo := by
      rcases hol with h | ⟨j, w, _, hj, hw, hc⟩
      · exact ⟨buf[0], take_mem.mpr ⟨0, h0, hg⟩, h.symm⟩
      · exact ⟨w, take_mem.mpr ⟨j, by omega, hw⟩, hc⟩
    have hh : ∃ b ∈ buf.take n, coord b d = hi := by
      rcases hoh with h | ⟨j, w, _, hj, hw, hc⟩
      · exact ⟨buf[0], take_mem.mpr ⟨0, h0, hg⟩, h.symm⟩
      · exact ⟨w, take_mem.mpr ⟨j, by omega, hw⟩, hc⟩
    obtain ⟨b, hb, hbl⟩ := hl
    obtain ⟨a, ha, hah⟩ := hh
    exact ⟨a, ha, b, hb, by rw [hah, hbl]⟩
  · unfold boxDim
    rw [rd_lt hp, ok_bind, he, ok_bind]

theorem toInt_ok {e : ℝ} (h0 : 0 ≤ e) (h : e < 2 ^ 31) : toInt e = .ok ⌊e⌋ := by
  unfold toInt
  simp only [if_pos h0]
  have h1 : (0 : Int) ≤ ⌊e⌋ := Int.floor_nonneg.mpr h0
  have h2 : ⌊e⌋ < (2 ^ 31 : Int) := Int.floor_lt.mpr (by push_cast; norm_num at h ⊢; exact h)
  rw [if_pos ⟨by omega, h2⟩]

theorem toInt_ub {e : ℝ} (h : 2 ^ 31 ≤ e) : toInt e = .error .ub := by
  unfold toInt
  have h0 : (0 : ℝ) ≤ e := le_trans (by positivity) h
  simp only [if_pos h0]
  have h2 : (2 ^ 31 : Int) ≤ ⌊e⌋ := Int.le_floor.mpr (by push_cast; norm_num at h ⊢; exact h)
  rw [if_neg (by omega)]

theorem fits_coord {vs : List V3} (h : Fits vs) {a b : V3} (ha : a ∈ vs) (hb : b ∈ vs) (d : Nat) : coord a d - coord b d < 2 ^ 31 := by
  obtain ⟨h1, h2, h3⟩ := h a ha b hb
  unfold coord
  split
  · exact h1
  · split <;> assumption

theorem maxDimension_eq (n : Nat) (buf : List V3) (hn : n ≤ buf.length) (h0 : 0 < n) (hf : Fits (buf.take n)) :
    ∃ (d : Nat) (e0 e1 e2 e : ℝ), maxDimension n buf = .ok d ∧ d < 3 ∧ Extent (buf.take n) 0 e0 ∧ Extent (buf.take n) 1 e1 ∧
      Extent (buf.take n) 2 e2 ∧ Extent (buf.take n) d e ∧ e0 < e + 1 ∧ e1 < e + 1 ∧ e2 < e + 1 := by
  obtain ⟨e0, x0, p0, q0⟩ := boxDim_eq n buf 0 hn h0
  obtain ⟨e1, x1, p1, q1⟩ := boxDim_eq n buf 1 hn h0
  obtain ⟨e2, x2, p2, q2⟩ := boxDim_eq n buf 2 hn h0
  have lim : ∀ (d : Nat) (e : ℝ), Extent (buf.take n) d e → e < 2 ^ 31 := by
    rintro d e ⟨_, a, ha, b, hb, h⟩
    rw [← h]; exact fits_coord hf ha hb d
  rw [toInt_ok p0 (lim 0 e0 x0)] at q0
  rw [toInt_ok p1 (lim 1 e1 x1)] at q1
  rw [toInt_ok p2 (lim 2 e2 x2)] at q2
  have big : ∀ a b : ℝ, ⌊a⌋ ≤ ⌊b⌋ → a < b + 1 := by
    intro a b h
    have h1 := Int.lt_floor_add_one a
    have h2 := Int.floor_le b
    have h3 : ((⌊a⌋ : Int) : ℝ) ≤ (⌊b⌋ : Int) := by exact_mod_cast h
    linarith
  unfold maxDimension
  rw [q0, ok_bind, q1, ok_bind, q2, ok_bind]
  by_cases h10 : ⌊e1⌋ < ⌊e0⌋
  · rw [if_pos h10]
    by_cases h20 : ⌊e2⌋ < ⌊e0⌋
    · rw [if_pos h20]
      exact ⟨0, e0, e1, e2, e0, rfl, by omega, x0, x1, x2, x0, by linarith, big _ _ (by omega), big _ _ (by omega)⟩
    · rw [if_neg h20]
      exact ⟨2, e0, e1, e2, e2, rfl, by omega, x0, x1, x2, x2, big _ _ (by omega), big _ _ (by omega), by linarith⟩
  · rw [if_neg h10]
    by_cases h21 : ⌊e2⌋ < ⌊e1⌋
    · rw [if_pos h21]
      exact ⟨1, e0, e1, e2, e1, rfl, by omega, x0, x1, x2, x1, big _ _ (by omega), by linarith, big _ _ (by omega)⟩
    · rw [if_neg h21]
      exact ⟨2, e0, e1, e2, e2, rfl, by omega, x0, x1, x2, x2, big _ _ (by omega), big _ _ (by omega), by linarith⟩

/-! ## The sorted buffer -/

/-- A list of the first `n` indices in the order of coordinate `d`. -/
structure Ordered (n : Nat) (buf : List V3) (d : Nat) (l : List Nat) : Prop where
  perm : l.Perm (List.range n)
  mono : ∀ (a b i j : Nat) (v w : V3), a ≤ b → l[a]? = some i → l[b]? = some j → buf[i]? = some v → buf[j]? = some w →
    coord v d ≤ coord w d

theorem Ordered.len {n d : Nat} {buf : List V3} {l : List Nat} (h : Ordered n buf d l) : l.length = n := by
  rw [h.perm.length_eq, List.length_range]

theorem Ordered.entry {n d : Nat} {buf : List V3} {l : List Nat} (h : Ordered n buf d l) (hn : n ≤ buf.length) {k : Nat} (hk : k < n) :
    ∃ (i : Nat) (v : V3), l[k]? = some i ∧ i < n ∧ buf[i]? = some v ∧ entry buf (some l) k = .ok (i, v) := by
  have hkl : k < l.length := by rw [h.len]; exact hk
  have hi : l[k] < n := List.mem_range.mp (h.perm.mem_iff.mp (List.getElem_mem hkl))
  refine ⟨l[k], buf[l[k]], List.getElem?_eq_getElem hkl, hi, List.getElem?_eq_getElem (by omega), ?_⟩
  simp only [Nearest.entry]
  rw [rd_lt hkl, ok_bind, rd_lt (by omega), ok_bind]

theorem sort_ordered (qs : QSort) (n : Nat) (buf : List V3) (d : Nat) (hn : n ≤ buf.length) :
    Ordered n buf d (qs.sort (nnLe buf d) (List.range n)) := by
  refine ⟨qs.perm _ _, ?_⟩
  have hs := qs.sorted (nnLe buf d) (List.range n) ?_ ?_
  · intro a b i j v w hab ha hb hv hw
    rcases Nat.lt_or_ge a b with h | h
    · obtain ⟨ha1, ha2⟩ := List.getElem?_eq_some_iff.mp ha
      obtain ⟨hb1, hb2⟩ := List.getElem?_eq_some_iff.mp hb
      have := List.pairwise_iff_getElem.mp hs a b ha1 hb1 h
      rw [ha2, hb2, nnLe, hv, hw] at this
      exact of_decide_eq_true this
    · have : a = b := by omega
      subst this
      rw [ha] at hb; cases hb
      rw [hv] at hw; cases hw
      exact le_refl _
  · intro a b ha hb
    have ha := List.mem_range.mp ha
    have hb := List.mem_range.mp hb
    unfold nnLe
    rw [List.getElem?_eq_getElem (show a < buf.length by omega), List.getElem?_eq_getElem (show b < buf.length by omega)]
    simp only [Bool.or_eq_true, decide_eq_true_eq]
    exact le_total _ _
  · intro a b c ha hb hc
    have ha := List.mem_range.mp ha
    have hb := List.mem_range.mp hb
    have hc := List.mem_range.mp hc
    unfold nnLe
    rw [List.getElem?_eq_getElem (show a < buf.length by omega), List.getElem?_eq_getElem (show b < buf.length by omega),
      List.getElem?_eq_getElem (show c < buf.length by omega)]
    simp only [decide_eq_true_eq]
    exact le_trans

theorem bisect_ok (pt : V3) (n : Nat) (buf : List V3) (d : Nat) (l : List Nat) (hn : n ≤ buf.length) (ho : Ordered n buf d l) :
    ∀ (f low high : Nat), low < n → high < n → ∃ s, bisect pt buf (some l) d f low high = .ok s ∧ s < n := by
  intro f
  induction f with
  | zero => intro low high h1 h2; exact ⟨low, rfl, h1⟩
  | succ f ih =>
    intro low high h1 h2
    unfold bisect
    split
    · have hm : (high + low) / 2 < n := by omega
      obtain ⟨i, v, _, _, _, he⟩ := ho.entry hn hm
      rw [he, ok_bind]
      dsimp only
      split
      · exact ih _ _ hm h2
      · exact ih _ _ h1 hm
    · exact ⟨low, rfl, h1⟩

theorem startAt_ok (pt : V3) (n : Nat) (buf : List V3) (d : Nat) (l : List Nat) (hn : n ≤ buf.length) (h0 : 0 < n) (ho : Ordered n buf d l) :
    ∃ s, startAt pt n buf (some l) d = .ok s ∧ s < n := by
  unfold startAt
  obtain ⟨i, v, _, _, _, he⟩ := ho.entry hn h0
  obtain ⟨j, w, _, _, _, hf⟩ := ho.entry hn (show n - 1 < n by omega)
  rw [he, ok_bind, hf]
  dsimp only
  split
  · exact ⟨0, rfl, h0⟩
  · rw [ok_bind]
    dsimp only
    split
    · exact ⟨n - 1, rfl, by omega⟩
    · exact bisect_ok pt n buf d l hn ho n 0 (n - 1) h0 (by omega)

theorem scanUp_ok (pt : V3) (n : Nat) (buf : List V3) (d : Nat) (l : List Nat) (hn : n ≤ buf.length) (ho : Ordered n buf d l) :
    ∀ (k up : Nat) (bd : ℝ) (bi : Nat) (vb : V3), up + k = n → bi < n → buf[bi]? = some vb → bd = apart pt vb →
      ∃ (bd' : ℝ) (bi' : Nat) (vb' : V3), scanUp pt buf (some l) d k up bd bi = .ok (bd', bi') ∧ bi' < n ∧ buf[bi']? = some vb' ∧
        bd' = apart pt vb' ∧ bd' ≤ bd ∧
        ∀ (a i : Nat) (v : V3), up ≤ a → a < n → l[a]? = some i → buf[i]? = some v → bd' ≤ apart pt v := by
  intro k
  induction k with
  | zero =>
    intro up bd bi vb hk hbi hvb hbd
    exact ⟨bd, bi, vb, rfl, hbi, hvb, hbd, le_refl _, fun a i v h1 h2 _ _ => absurd h2 (by omega)⟩
  | succ k ih =>
    intro up bd bi vb hk hbi hvb hbd
    obtain ⟨i, v, hli, hin, hgi, he⟩ := ho.entry hn (show up < n by omega)
    unfold scanUp
    rw [he, ok_bind]
    dsimp only
    split
    · rw [dist3_eq]
      have rest : ∀ {bd' bd1 : ℝ}, bd' ≤ bd1 → bd1 ≤ apart pt v →
          (∀ (a i : Nat) (v : V3), up + 1 ≤ a → a < n → l[a]? = some i → buf[i]? = some v → bd' ≤ apart pt v) →
          ∀ (a i : Nat) (v : V3), up ≤ a → a < n → l[a]? = some i → buf[i]? = some v → bd' ≤ apart pt v := by
        intro bd' bd1 h1 h2 hall a i' v' ha hb hl hg
        rcases Nat.lt_or_ge up a with hj | hj
        · exact hall a i' v' (by omega) hb hl hg
        · have : a = up := by omega
          subst this
          rw [hli] at hl; cases hl
          rw [hgi] at hg; cases hg
          linarith
      split
      · obtain ⟨bd', bi', vb', h1, h2, h3, h4, h5, h6⟩ := ih (up + 1) (apart pt v) i v (by omega) hin hgi rfl
        exact ⟨bd', bi', vb', h1, h2, h3, h4, by linarith, rest h5 (le_refl _) h6⟩
      · obtain ⟨bd', bi', vb', h1, h2, h3, h4, h5, h6⟩ := ih (up + 1) bd bi vb (by omega) hbi hvb hbd
        exact ⟨bd', bi', vb', h1, h2, h3, h4, h5, rest h5 (by linarith) h6⟩
    · rename_i hs
      refine ⟨bd, bi, vb, rfl, hbi, hvb, hbd, le_refl _, ?_⟩
      intro a i' v' ha hb hl hg
      have h1 := ho.mono up a i i' v v' ha hli hl hgi hg
      have h2 := coord_le v' pt d
      rw [apart_comm] at h2
      linarith

theorem scanDown_ok (pt : V3) (n : Nat) (buf : List V3) (d : Nat) (l : List Nat) (hn : n ≤ buf.length) (ho : Ordered n buf d l) :
    ∀ (k : Nat) (bd : ℝ) (bi : Nat) (vb : V3), k ≤ n → bi < n → buf[bi]? = some vb → bd = apart pt vb →
      ∃ (bd' : ℝ) (bi' : Nat) (vb' : V3), scanDown pt buf (some l) d k bd bi = .ok (bd', bi') ∧ bi' < n ∧ buf[bi']? = some vb' ∧
        bd' = apart pt vb' ∧ bd' ≤ bd ∧
        ∀ (a i : Nat) (v : V3), a < k → l[a]? = some i → buf[i]? = some v → bd' ≤ apart pt v := by
  intro k
  induction k with
  | zero =>
    intro bd bi vb hk hbi hvb hbd
    exact ⟨bd, bi, vb, rfl, hbi, hvb, hbd, le_refl _, fun a i v h1 _ _ => absurd h1 (by omega)⟩
  | succ k ih =>
    intro bd bi vb hk hbi hvb hbd
    obtain ⟨i, v, hli, hin, hgi, he⟩ := ho.entry hn (show k < n by omega)
    unfold scanDown
    rw [he, ok_bind]
    dsimp only
    split
    · rw [dist3_eq]
      have rest : ∀ {bd' bd1 : ℝ}, bd' ≤ bd1 → bd1 ≤ apart pt v →
          (∀ (a i : Nat) (v : V3), a < k → l[a]? = some i → buf[i]? = some v → bd' ≤ apart pt v) →
          ∀ (a i : Nat) (v : V3), a < k + 1 → l[a]? = some i → buf[i]? = some v → bd' ≤ apart pt v := by
        intro bd' bd1 h1 h2 hall a i' v' ha hl hg
        rcases Nat.lt_or_ge a k with hj | hj
        · exact hall a i' v' hj hl hg
        · have : a = k := by omega
          subst this
          rw [hli] at hl; cases hl
          rw [hgi] at hg; cases hg
          linarith
      split
      · obtain ⟨bd', bi', vb', h1, h2, h3, h4, h5, h6⟩ := ih (apart pt v) i v (by omega) hin hgi rfl
        exact ⟨bd', bi', vb', h1, h2, h3, h4, by linarith, rest h5 (le_refl _) h6⟩
      · obtain ⟨bd', bi', vb', h1, h2, h3, h4, h5, h6⟩ := ih bd bi vb (by omega) hbi hvb hbd
        exact ⟨bd', bi', vb', h1, h2, h3, h4, h5, rest h5 (by linarith) h6⟩
    · rename_i hs
      refine ⟨bd, bi, vb, rfl, hbi, hvb, hbd, le_refl _, ?_⟩
      intro a i' v' ha hl hg
      have h1 := ho.mono a k i' i v' v (by omega) hl hli hg hgi
      have h2 := coord_le pt v' d
      linarith

/-- The search finds a nearest point, wherever it starts. -/
theorem search_ok (pt : V3) (n : Nat) (buf : List V3) (p : Pc) (l : List Nat) (hl : p.sorted = some l) (hn : n ≤ buf.length) (h0 : 0 < n)
    (ho : Ordered n buf p.dim l) : ∃ i, search pt n buf p = .ok i ∧ NearestIn pt (buf.take n) i := by
  unfold search
  rw [hl]
  obtain ⟨s, hs, hsn⟩ := startAt_ok pt n buf p.dim l hn h0 ho
  obtain ⟨i, v, hli, hin, hgi, he⟩ := ho.entry hn hsn
  obtain ⟨bd, bi, vb, h1, h2, h3, h4, h5, h6⟩ := scanUp_ok pt n buf p.dim l hn ho (n - s) s (apart pt v) i v (by omega) hin hgi rfl
  obtain ⟨bd', bi', vb', k1, k2, k3, k4, k5, k6⟩ := scanDown_ok pt n buf p.dim l hn ho (s + 1) bd bi vb (by omega) h2 h3 h4
  rw [hs, ok_bind, he, ok_bind]
  dsimp only
  rw [dist3_eq, h1, ok_bind]
  dsimp only
  rw [k1, ok_bind]
  refine ⟨bi', rfl, vb', take_get.mpr ⟨k2, k3⟩, ?_⟩
  intro w hw
  obtain ⟨j, hj, hgj⟩ := take_mem.mp hw
  have hm : j ∈ l := ho.perm.mem_iff.mpr (List.mem_range.mpr hj)
  obtain ⟨a, ha⟩ := List.mem_iff_getElem?.mp hm
  have han : a < n := by
    rw [← ho.len]; exact (List.getElem?_eq_some_iff.mp ha).1
  rw [← k4]
  rcases Nat.lt_or_ge a (s + 1) with h | h
  · exact k6 a j w h ha hgj
  · exact le_trans k5 (h6 a j w (by omega) han ha hgj)

/-- Precomputed data which can be used for the first `n` points of this buffer. -/
def Usable (n addr : Nat) (buf : List V3) : Option (Option Pc) → Prop
  | some (some p) => p.check = addr → 5000 ≤ n → ∃ l, p.sorted = some l ∧ Ordered n buf p.dim l
  | _ => True

def isStale (addr : Nat) : Option (Option Pc) → Bool
  | some (some p) => p.check != addr
  | _ => false

theorem nearest_ok (qs : QSort) (big : ℝ) (pt : V3) (n addr : Nat) (buf : List V3) (pc : Option (Option Pc)) (hn : n ≤ buf.length)
    (h0 : 0 < n) (hf : 5000 ≤ n → Fits (buf.take n)) (hu : Usable n addr buf pc) :
    ∃ (i : Nat) (pc' : Option (Option Pc)), nearest qs big pt n addr buf pc = .ok (i, pc', isStale addr pc) ∧
      (i < n ∧ ((5000 ≤ n ∨ Reachable big pt (buf.take n)) → NearestIn pt (buf.take n) i)) ∧ Usable n addr buf pc' ∧ (pc'.isSome = pc.isSome) ∧ (pc.isSome → ∃ p, pc' = some (some p) ∧ p.check = addr) ∧
      (isStale addr pc = false → ∀ p, pc = some (some p) → pc' = pc) := by
  by_cases h5 : n < 5000
  · obtain ⟨r, hr1, hr2⟩ : ∃ r, exhaustive big pt n buf = .ok r ∧
        (r < n ∧ ((5000 ≤ n ∨ Reachable big pt (buf.take n)) → NearestIn pt (buf.take n) r)) := by
      by_cases hr : Reachable big pt (buf.take n)
      · obtain ⟨r, hr1, hr2⟩ := exhaustive_ok big pt n buf hn hr
        obtain ⟨v, hv, _⟩ := id hr2
        exact ⟨r, hr1, (take_get.mp hv).1, fun _ => hr2⟩
      · refine ⟨0, exhaustive_far big pt n buf hn ?_, h0, fun h => h.elim (fun h => absurd h (by omega)) (fun h => absurd h hr)⟩
        intro v hv
        exact not_lt.mp (fun h => hr ⟨v, hv, h⟩)
    rcases pc with _ | _ | p
    · simp only [nearest, h5, if_true, hr1, ok_bind]
      exact ⟨r, none, rfl, hr2, trivial, rfl, by simp, by simp⟩
    · simp only [nearest, h5, if_true, hr1, ok_bind]
      exact ⟨r, _, rfl, hr2, fun _ h => absurd h (by omega), rfl, by simp, by simp⟩
    · by_cases hp : p.check = addr
      · have hs : (p.check != addr) = false := by simp [hp]
        simp only [nearest, h5, if_true, hr1, ok_bind, hs, isStale]
        exact ⟨r, _, rfl, hr2, hu, rfl, fun _ => ⟨p, rfl, hp⟩, fun _ _ _ => rfl⟩
      · have hs : (p.check != addr) = true := by simp [hp]
        simp only [nearest, h5, if_true, hr1, ok_bind, hs, isStale]
        exact ⟨r, _, rfl, hr2, fun _ h => absurd h (by omega), rfl, fun _ => ⟨_, rfl, rfl⟩, by simp⟩
  · obtain ⟨d, _, _, _, _, hd, _⟩ := maxDimension_eq n buf hn h0 (hf (by omega))
    have hpre : precompute qs n addr buf = .ok ⟨addr, d, some (qs.sort (nnLe buf d) (List.range n))⟩ := by
      unfold precompute; rw [hd, ok_bind]
    have ho := sort_ordered qs n buf d hn
    have wrap : ∀ i, NearestIn pt (buf.take n) i →
        (i < n ∧ ((5000 ≤ n ∨ Reachable big pt (buf.take n)) → NearestIn pt (buf.take n) i)) := by
      intro i h
      obtain ⟨v, hv, _⟩ := id h
      exact ⟨(take_get.mp hv).1, fun _ => h⟩
    obtain ⟨i, hi, hin⟩ := search_ok pt n buf ⟨addr, d, some (qs.sort (nnLe buf d) (List.range n))⟩ _ rfl hn h0 ho
    rcases pc with _ | _ | p
    · simp only [nearest, h5, if_false, hpre, ok_bind, hi, Bool.false_eq_true]
      exact ⟨i, none, rfl, wrap _ hin, trivial, rfl, by simp, by simp⟩
    · simp only [nearest, h5, if_false, hpre, ok_bind, hi, Bool.false_eq_true]
      exact ⟨i, _, rfl, wrap _ hin, fun _ _ => ⟨_, rfl, ho⟩, rfl, fun _ => ⟨_, rfl, rfl⟩, by simp⟩
    · by_cases hp : p.check = addr
      · have hs : (p.check != addr) = false := by simp [hp]
        obtain ⟨l, hl, hol⟩ := hu hp (by omega)
        obtain ⟨j, hj, hjn⟩ := search_ok pt n buf p l hl hn h0 hol
        simp only [nearest, h5, if_false, hj, ok_bind, hs, isStale, Bool.false_eq_true]
        exact ⟨j, _, rfl, wrap _ hjn, fun _ _ => ⟨l, hl, hol⟩, rfl, fun _ => ⟨p, rfl, hp⟩, fun _ _ _ => rfl⟩
      · have hs : (p.check != addr) = true := by simp [hp]
        simp only [nearest, h5, if_false, if_true, hpre, ok_bind, hi, hs, isStale]
        exact ⟨i, _, rfl, wrap _ hin, fun _ _ => ⟨_, rfl, ho⟩, rfl, fun _ => ⟨_, rfl, rfl⟩, by simp⟩

theorem served_usable {qs : QSort} {big : ℝ} {n addr : Nat} {buf : List V3} {pc : Option (Option Pc)} (hn : n ≤ buf.length) (h0 : 0 < n)
    (hf : 5000 ≤ n → Fits (buf.take n)) (hs : Served qs big n addr buf pc) : Usable n addr buf pc := by
  induction hs with
  | unused => trivial
  | fresh => trivial
  | other p h => exact fun h' => absurd h' h
  | after pt pc pc' i st _ hc ih =>
    obtain ⟨i', pc'', h1, _, h2, _⟩ := nearest_ok qs big pt n addr buf pc hn h0 hf ih
    rw [h1] at hc
    cases hc
    exact h2

/-! ## Curves -/

/-- Data of a component which can be used: none, for its vertices, or recognisably for others. -/
def Fit (c : Part) (p : Option Pc) : Prop := Usable c.vt.length c.addr c.vt (some p)

/-- Data of a component is for other vertices. -/
def anyStale : List Part → List (Option Pc) → Bool
  | c :: cs, p :: ps => isStale c.addr (some p) || anyStale cs ps
  | _, _ => false

theorem anyStale_none (L : List Part) : anyStale L (List.replicate L.length none) = false := by
  induction L with
  | nil => rfl
  | cons c cs ih => simp [List.replicate_succ, anyStale, isStale, ih]

theorem anyStale_iff : ∀ (L : List Part) (ps : List (Option Pc)), anyStale L ps = true ↔
    ∃ (k : Nat) (c : Part) (q : Pc), L[k]? = some c ∧ ps[k]? = some (some q) ∧ q.check ≠ c.addr
  | [], ps => by simp [anyStale]
  | c :: cs, [] => by simp [anyStale]
  | c :: cs, p :: ps => by
    rw [anyStale, Bool.or_eq_true, anyStale_iff cs ps]
    constructor
    · rintro (h | ⟨k, c', q, h1, h2, h3⟩)
      · rcases p with _ | q
        · simp [isStale] at h
        · exact ⟨0, c, q, rfl, rfl, by simpa [isStale] using h⟩
      · exact ⟨k + 1, c', q, by simpa using h1, by simpa using h2, h3⟩
    · rintro ⟨k, c', q, h1, h2, h3⟩
      rcases k with _ | k
      · simp only [List.getElem?_cons_zero, Option.some.injEq] at h1 h2
        subst h1 h2
        exact .inl (by simpa [isStale] using h3)
      · exact .inr ⟨k, c', q, by simpa using h1, by simpa using h2, h3⟩

def VUsable (addr : Nat) (L : List Part) : Option (Option VPc) → Prop
  | some (some p) => p.check = addr → List.Forall₂ Fit L p.comps
  | _ => True

theorem fit_none (L : List Part) : List.Forall₂ Fit L (List.replicate L.length none) := by
  induction L with
  | nil => exact .nil
  | cons c cs ih => exact .cons trivial ih

/-- The chosen vertices of the components. -/
inductive Chosen (big : ℝ) (pt : V3) : List Part → List Nat → List V3 → Prop
  | nil : Chosen big pt [] [] []
  | cons {c : Part} {i : Nat} {v : V3} {cs : List Part} {is : List Nat} {vs : List V3} (hv : c.vt[i]? = some v)
      (hb : ∀ w ∈ c.vt, distSq pt w < big → apart pt v ≤ apart pt w) (h : Chosen big pt cs is vs) :
      Chosen big pt (c :: cs) (i :: is) (v :: vs)

theorem partLoop_ok (qs : QSort) (big : ℝ) (pt : V3) (L : List Part) (hne : ∀ c ∈ L, c.vt ≠ []) (hf : ∀ c ∈ L, 5000 ≤ c.vt.length → Fits c.vt) :
    ∀ pcs, List.Forall₂ Fit L pcs → ∃ is vs ps, partLoop qs big pt L pcs = .ok (is, vs, ps, anyStale L pcs) ∧ Chosen big pt L is vs ∧ List.Forall₂ Fit L ps := by
  induction L with
  | nil =>
    intro pcs h
    cases h
    exact ⟨[], [], [], rfl, .nil, .nil⟩
  | cons c cs ih =>
    intro pcs h
    rcases h with _ | ⟨hp, hps⟩
    rename_i p pcs
    have hc0 : 0 < c.vt.length := List.length_pos_of_ne_nil (hne c List.mem_cons_self)
    obtain ⟨i, pc', h1, ⟨hin, hnear⟩, hu, _, hsome, _⟩ := nearest_ok qs big pt c.vt.length c.addr c.vt (some p) (le_refl _) hc0
      (by rw [List.take_length]; exact hf c List.mem_cons_self) hp
    obtain ⟨q, hq, hqa⟩ := hsome rfl
    obtain ⟨is, vs, ps, k1, k2, k3⟩ := ih (fun c hc => hne c (List.mem_cons_of_mem _ hc)) (fun c hc => hf c (List.mem_cons_of_mem _ hc)) pcs hps
    refine ⟨i :: is, c.vt[i] :: vs, some q :: ps, ?_, .cons (List.getElem?_eq_getElem hin) ?_ k2, .cons (by rw [hq] at hu; exact hu) k3⟩
    · unfold partLoop
      rw [h1, ok_bind]
      dsimp only
      rw [rd_lt hin, ok_bind, k1, ok_bind, hq]
      rfl
    · intro w hw hb
      rw [List.take_length] at hnear
      obtain ⟨v, hv, hall⟩ := hnear (.inr ⟨w, hw, hb⟩)
      rw [List.getElem?_eq_getElem hin] at hv
      cases hv
      exact hall w hw

theorem Chosen.length {big : ℝ} {pt : V3} {L : List Part} {is : List Nat} {vs : List V3} (h : Chosen big pt L is vs) :
    is.length = L.length ∧ vs.length = L.length := by
  induction h with
  | nil => exact ⟨rfl, rfl⟩
  | cons _ _ _ ih => simp [ih.1, ih.2]

theorem Chosen.at {big : ℝ} {pt : V3} {L : List Part} {is : List Nat} {vs : List V3} (h : Chosen big pt L is vs) :
    ∀ (k : Nat) (v : V3), vs[k]? = some v → ∃ c i, L[k]? = some c ∧ is[k]? = some i ∧ c.vt[i]? = some v := by
  induction h with
  | nil => intro k v hv; simp at hv
  | cons hv _ _ ih =>
    intro k v hk
    rcases k with _ | k
    · simp only [List.getElem?_cons_zero, Option.some.injEq] at hk
      subst hk
      exact ⟨_, _, rfl, rfl, hv⟩
    · exact ih k v hk

theorem Chosen.best {big : ℝ} {pt : V3} {L : List Part} {is : List Nat} {vs : List V3} (h : Chosen big pt L is vs) :
    ∀ c ∈ L, ∀ w ∈ c.vt, distSq pt w < big → ∃ v ∈ vs, apart pt v ≤ apart pt w := by
  induction h with
  | nil => intro c hc; simp at hc
  | cons _ hb _ ih =>
    intro c hc w hw hlt
    rcases List.mem_cons.mp hc with rfl | hc
    · exact ⟨_, List.mem_cons_self, hb w hw hlt⟩
    · obtain ⟨v, hv, hle⟩ := ih c hc w hw hlt
      exact ⟨v, List.mem_cons_of_mem _ hv, hle⟩

def vStale (addr : Nat) : Option (Option VPc) → Bool
  | some (some p) => p.check != addr
  | _ => false

/-- Data for another curve, or for other vertices. -/
def vReport (addr : Nat) (L : List Part) : Option (Option VPc) → Bool
  | some (some p) => p.check != addr || anyStale L p.comps
  | _ => false

theorem nearestVertex_ok (qs : QSort) (big : ℝ) (pt : V3) (addr : Nat) (L : List Part) (pc : Option (Option VPc))
    (hL : L ≠ []) (hne : ∀ c ∈ L, c.vt ≠ []) (hf : ∀ c ∈ L, 5000 ≤ c.vt.length → Fits c.vt) (hu : VUsable addr L pc) :
    ∃ v cp vt pc', nearestVertex qs big pt addr L pc = .ok (v, cp, vt, pc', vReport addr L pc) ∧ VUsable addr L pc' ∧
      (∃ c, L[cp]? = some c ∧ c.vt[vt]? = some v) ∧
      ((∃ c ∈ L, Reachable big pt c.vt) → ∀ c ∈ L, ∀ w ∈ c.vt, apart pt v ≤ apart pt w) := by
  obtain ⟨old, hold, hfit⟩ : ∃ old, old = (match pc with
      | some (some p) => if vStale addr pc then List.replicate L.length none else p.comps
      | _ => List.replicate L.length none) ∧ List.Forall₂ Fit L old := by
    refine ⟨_, rfl, ?_⟩
    rcases pc with _ | _ | p
    · exact fit_none L
    · exact fit_none L
    · dsimp only
      by_cases hp : p.check = addr
      · have : vStale addr (some (some p)) = false := by simp [vStale, hp]
        rw [this]; exact hu hp
      · have : vStale addr (some (some p)) = true := by simp [vStale, hp]
        rw [this]; exact fit_none L
  obtain ⟨is, vs, ps, h1, h2, h3⟩ := partLoop_ok qs big pt L hne hf old hfit
  have hlen := h2.length
  have hpos : 0 < L.length := List.length_pos_of_ne_nil hL
  have htake : vs.take L.length = vs := by rw [← hlen.2, List.take_length]
  obtain ⟨cp, hcp, hcpl, hbest⟩ : ∃ cp, exhaustive big pt L.length vs = .ok cp ∧ cp < vs.length ∧
      (Reachable big pt vs → NearestIn pt vs cp) := by
    by_cases hr : Reachable big pt vs
    · obtain ⟨r, hr1, hr2⟩ := exhaustive_ok big pt L.length vs (by omega) (by rw [htake]; exact hr)
      rw [htake] at hr2
      obtain ⟨v, hv, _⟩ := id hr2
      exact ⟨r, hr1, (List.getElem?_eq_some_iff.mp hv).1, fun _ => hr2⟩
    · refine ⟨0, exhaustive_far big pt L.length vs (by omega) ?_, by omega, fun h => absurd h hr⟩
      rw [htake]
      exact fun v hv => not_lt.mp (fun h => hr ⟨v, hv, h⟩)
  obtain ⟨c, i, hc, hi, hv⟩ := h2.at cp vs[cp] (List.getElem?_eq_getElem hcpl)
  refine ⟨vs[cp], cp, i, (match pc with
    | none => none
    | some _ => some (some ⟨addr, ps⟩)), ?_, ?_, ⟨c, hc, hv⟩, ?_⟩
  · rcases pc with _ | _ | p
    · subst hold
      simp only [nearestVertex, h1, hcp, ok_bind, rd_ok hi, rd_ok hc, rd_ok hv, vReport, anyStale_none, Bool.or_false, Bool.false_or, Bool.true_or]
    · subst hold
      simp only [nearestVertex, h1, hcp, ok_bind, rd_ok hi, rd_ok hc, rd_ok hv, vReport, anyStale_none, Bool.or_false, Bool.false_or, Bool.true_or]
    · subst hold
      rcases hs : (p.check != addr) with _ | _
      · simp only [vStale, hs, Bool.false_eq_true, if_false] at h1
        simp only [nearestVertex, hs, Bool.false_eq_true, if_false, h1, hcp, ok_bind, rd_ok hi, rd_ok hc, rd_ok hv, vReport, anyStale_none, hs, Bool.or_false, Bool.false_or, Bool.true_or]
      · simp only [vStale, hs, if_true] at h1
        simp only [nearestVertex, hs, if_true, h1, hcp, ok_bind, rd_ok hi, rd_ok hc, rd_ok hv, vReport, anyStale_none, hs, Bool.or_false, Bool.false_or, Bool.true_or]
  · rcases pc with _ | _ | p
    · trivial
    · exact fun _ => h3
    · exact fun _ => h3
  · rintro ⟨c0, hc0, w0, hw0, hb0⟩ c' hc' w hw
    have hr : Reachable big pt vs := by
      obtain ⟨v, hv, hle⟩ := h2.best c0 hc0 w0 hw0 hb0
      exact ⟨v, hv, lt_of_le_of_lt ((apart_le_iff _ _ _).mp hle) hb0⟩
    obtain ⟨v, hv, hall⟩ := hbest hr
    rw [List.getElem?_eq_getElem hcpl] at hv
    cases hv
    by_cases hb : distSq pt w < big
    · obtain ⟨u, hu1, hu2⟩ := h2.best c' hc' w hw hb
      exact le_trans (hall u hu1) hu2
    · obtain ⟨u, hu1, hu2⟩ := hr
      exact le_trans (hall u hu1) ((apart_le_iff _ _ _).mpr (le_trans (le_of_lt hu2) (not_lt.mp hb)))

theorem vserved_usable {qs : QSort} {big : ℝ} {addr : Nat} {L : List Part} {pc : Option (Option VPc)}
    (hL : L ≠ []) (hne : ∀ c ∈ L, c.vt ≠ []) (hf : ∀ c ∈ L, 5000 ≤ c.vt.length → Fits c.vt) (hs : VServed qs big addr L pc) :
    VUsable addr L pc := by
  induction hs with
  | unused => trivial
  | fresh => trivial
  | other p h => exact fun h' => absurd h' h
  | parts p h =>
    intro _
    have : ∀ (L' : List Part) (ps : List (Option Pc)), (∀ c ∈ L', c ∈ L) → List.Forall₂ (fun c q => Served qs big c.vt.length c.addr c.vt (some q)) L' ps →
        List.Forall₂ Fit L' ps := by
      intro L' ps hm h
      induction h with
      | nil => exact .nil
      | cons h1 _ ih =>
        have hmem := hm _ List.mem_cons_self
        exact .cons (served_usable (le_refl _) (List.length_pos_of_ne_nil (hne _ hmem)) (by rw [List.take_length]; exact hf _ hmem) h1)
          (ih (fun c hc => hm c (List.mem_cons_of_mem _ hc)))
    exact this L p.comps (fun c hc => hc) h
  | after pt pc pc' v cp vt st _ hc ih =>
    obtain ⟨v', cp', vt', pc'', h1, h2, _⟩ := nearestVertex_ok qs big pt addr L pc hL hne hf ih
    rw [h1] at hc
    cases hc
    exact h2

end Plc.Nearest
