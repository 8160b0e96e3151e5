import Verif.Model.Isos
import Verif.Proofs.Reorient2
import Mathlib.Data.List.Rotate

namespace Plc.Isos

open Plc.Core Plc.Cmp Plc.PermM Plc.Emap List

theorem copyBuf_ok (bufB : List Nat) (n : Nat) (o : Or) (hn : bufB.length = n) : ∀ (k i : Nat), i + k = n →
    ∃ c, copyBuf bufB n o k i = .ok c ∧ c.length = k ∧
      ∀ j, j < k → c[j]? = bufB[if o = .pos then i + j else n - 1 - (i + j)]?
  | 0, _, _ => ⟨[], rfl, rfl, fun j h => by omega⟩
  | k + 1, i, h => by
    obtain ⟨c, h1, h2, h3⟩ := copyBuf_ok bufB n o hn k (i + 1) (by omega)
    have hl : (if o = .pos then i else n - 1 - i) < bufB.length := by split <;> omega
    refine ⟨bufB[if o = .pos then i else n - 1 - i] :: c, ?_, by simp [h2], ?_⟩
    · unfold copyBuf
      rw [rd_lt hl, ok_bind, h1, ok_bind]
    · intro j hj
      cases j with
      | zero => simp [hl]
      | succ j =>
        rw [List.getElem?_cons_succ, h3 j (by omega)]
        congr 1
        rw [show i + 1 + j = i + (j + 1) by omega]

theorem copyBuf_eq (bufB : List Nat) (o : Or) :
    copyBuf bufB bufB.length o bufB.length 0 = .ok (if o = .pos then bufB else bufB.reverse) := by
  obtain ⟨c, h1, h2, h3⟩ := copyBuf_ok bufB bufB.length o rfl bufB.length 0 (by omega)
  rw [h1]
  congr 1
  apply List.ext_getElem?
  intro j
  by_cases hj : j < bufB.length
  · rw [h3 j hj, Nat.zero_add]
    split
    · rfl
    · rw [List.getElem?_reverse hj]
  · rw [List.getElem?_eq_none (by omega), List.getElem?_eq_none]
    split
    · omega
    · rw [List.length_reverse]; omega

theorem sameAt_ok (b : List Nat) (n ofs : Nat) (hn : b.length = n) (h0 : 0 < n) : ∀ (l : List Nat) (i : Nat),
    ∃ r, sameAt b n ofs i l = .ok r ∧ (r = true ↔ ∀ j (h : j < l.length), l[j] = b[(i + j + ofs) % n]!)
  | [], i => ⟨true, rfl, by simp⟩
  | a :: l, i => by
    have hl : (i + ofs) % n < b.length := by rw [hn]; exact Nat.mod_lt _ h0
    obtain ⟨r, h1, h2⟩ := sameAt_ok b n ofs hn h0 l (i + 1)
    unfold sameAt
    rw [rd_lt hl, ok_bind]
    by_cases ha : a = b[(i + ofs) % n]
    · rw [if_neg (by simpa using ha)]
      refine ⟨r, h1, h2.trans ?_⟩
      constructor
      · intro h j hj
        cases j with
        | zero => rw [List.getElem_cons_zero, Nat.add_zero, getElem!_pos b _ hl, ha]
        | succ j =>
          rw [List.getElem_cons_succ, h j (by simpa using hj)]
          congr 2
          omega
      · intro h j hj
        have := h (j + 1) (by simpa using hj)
        rw [List.getElem_cons_succ] at this
        rw [this]
        congr 2
        omega
    · rw [if_pos (by simpa using ha)]
      refine ⟨false, rfl, ?_⟩
      simp only [Bool.false_eq_true, false_iff]
      intro h
      have := h 0 (by simp)
      rw [List.getElem_cons_zero, Nat.add_zero, getElem!_pos b _ hl] at this
      exact ha this

theorem rotate_iff {A b : List Nat} (hn : A.length = b.length) (h0 : 0 < b.length) (ofs : Nat) :
    (∀ j (h : j < A.length), A[j] = b[(0 + j + ofs) % b.length]!) ↔ b.rotate ofs = A := by
  constructor
  · intro h
    apply List.ext_getElem (by simp [hn])
    intro i h1 h2
    rw [List.getElem_rotate, h i h2, Nat.zero_add, getElem!_pos b _ (Nat.mod_lt _ h0)]
  · rintro rfl j hj
    rw [List.getElem_rotate, Nat.zero_add, getElem!_pos b _ (Nat.mod_lt _ h0)]

theorem tryOffsets_ok {A b : List Nat} (hn : A.length = b.length) (h0 : 0 < b.length) : ∀ (k ofs : Nat),
    ∃ r, tryOffsets A b b.length k ofs = .ok r ∧ (r = true ↔ ∃ i, ofs ≤ i ∧ i < ofs + k ∧ b.rotate i = A)
  | 0, ofs => ⟨false, rfl, by simp; intro i h1 h2; omega⟩
  | k + 1, ofs => by
    obtain ⟨r, h1, h2⟩ := tryOffsets_ok hn h0 k (ofs + 1)
    obtain ⟨s, s1, s2⟩ := sameAt_ok b b.length ofs rfl h0 (A.take b.length) 0
    have ht : A.take b.length = A := List.take_of_length_le (by omega)
    rw [ht] at s2
    rw [rotate_iff hn h0] at s2
    unfold tryOffsets
    rw [s1, ok_bind]
    cases s with
    | true => exact ⟨true, by simp, by simpa using ⟨ofs, by omega, by omega, s2.mp rfl⟩⟩
    | false =>
      refine ⟨r, by simpa using h1, h2.trans ?_⟩
      constructor
      · rintro ⟨i, a, c, d⟩
        exact ⟨i, by omega, by omega, d⟩
      · rintro ⟨i, a, c, d⟩
        refine ⟨i, ?_, by omega, d⟩
        rcases Nat.lt_or_eq_of_le a with h | h
        · omega
        · subst h
          exact absurd (s2.mpr d) (by simp)

/-! ### Looking up crossings -/

/-- Searching a sorted list of crossings. -/
theorem find_cross (bs : BSearch) {B : List Cross} {y : Cross} (hs : B.Pairwise (fun a b => ¬ edges b < edges a))
    (hB : ∀ z ∈ B, Small (edges z)) (hy : Small (edges y)) :
    (∀ i, bs.find (fun z => crossCmp y z) B = some i → ∃ z, B[i]? = some z ∧ edges z = edges y) ∧
    (bs.find (fun z => crossCmp y z) B = none → ∀ z ∈ B, edges z ≠ edges y) := by
  have key : ∀ z, Small (edges z) → (crossCmp y z < 0 ↔ edges y < edges z) ∧ (crossCmp y z = 0 ↔ edges y = edges z) :=
    fun z hz => lexU_spec (edges y) (edges z) rfl hy hz
  have hmono : B.Pairwise (fun a b => (crossCmp y b > 0 → crossCmp y a > 0) ∧ (crossCmp y b = 0 → crossCmp y a ≥ 0)) := by
    refine hs.imp_of_mem ?_
    intro a b ha hb hab
    have ka := key a (hB a ha)
    have kb := key b (hB b hb)
    have hle : edges a ≤ edges b := not_lt.mp hab
    constructor
    · intro h
      have h1 : edges b < edges y := by
        rcases lt_trichotomy (edges y) (edges b) with h2 | h2 | h2
        · rw [← kb.1] at h2; omega
        · rw [← kb.2] at h2; omega
        · exact h2
      have h3 : edges a < edges y := lt_of_le_of_lt hle h1
      by_contra hn
      rcases (show crossCmp y a < 0 ∨ crossCmp y a = 0 by omega) with h4 | h4
      · rw [ka.1] at h4; exact absurd h4 (not_lt.mpr h3.le)
      · rw [ka.2] at h4; rw [h4] at h3; exact absurd h3 (lt_irrefl _)
    · intro h
      rw [kb.2] at h
      by_contra hn
      have h4 : crossCmp y a < 0 := by omega
      rw [ka.1, h] at h4
      exact absurd h4 (not_lt.mpr hle)
  constructor
  · intro i hi
    obtain ⟨z, h1, h2⟩ := bs.hit _ B i hmono hi
    exact ⟨z, h1, ((key z (hB z (List.mem_of_getElem? h1))).2.mp h2).symm⟩
  · intro hi z hz he
    exact bs.miss _ B hmono hi z hz ((key z (hB z hz)).2.mpr he.symm)

/-- The image of a crossing under an edge map. -/
def image (m : List Nat) (x : Cross) : Cross := mapC (ap m) x

theorem mapCross_ok {m : List Nat} {x : Cross} (h : ∀ k, x.at k < m.length) (o : Or) :
    mapCross m x o = .ok (canonorderCross (image m x) o) := by
  have h0 := h 0
  have h1 := h 1
  have h2 := h 2
  have h3 := h 3
  simp only [Cross.at, Nat.reduceMod] at h0 h1 h2 h3
  unfold mapCross
  rw [rd_lt h0, ok_bind, rd_lt h1, ok_bind, rd_lt h2, ok_bind, rd_lt h3, ok_bind]
  unfold image mapC
  rw [ap_lt h0, ap_lt h1, ap_lt h2, ap_lt h3]

theorem ap_inj {m : List Nat} (hm : m ~ List.range m.length) : Function.Injective (ap m) := by
  have big : ∀ a, ¬ a < m.length → ap m a = a := by
    intro a ha
    simp [ap, List.getD, List.getElem?_eq_none (not_lt.mp ha)]
  intro a b h
  by_cases ha : a < m.length <;> by_cases hb : b < m.length
  · rw [ap_lt ha, ap_lt hb] at h
    exact (List.Nodup.getElem_inj_iff (valid_nodup hm)).mp h
  · rw [ap_lt ha, big b hb] at h
    have := valid_lt hm (List.getElem_mem ha)
    omega
  · rw [ap_lt hb, big a ha] at h
    have := valid_lt hm (List.getElem_mem hb)
    omega
  · rwa [big a ha, big b hb] at h

theorem rotated_of_map {f : Nat → Nat} (hf : Function.Injective f) {l l' : List Nat}
    (h : l.map f ~r l'.map f) : l ~r l' := by
  obtain ⟨k, hk⟩ := h
  refine ⟨k, ?_⟩
  rw [← List.map_rotate] at hk
  exact List.map_injective_iff.mpr hf hk

theorem readCross_image (m : List Nat) (x : Cross) (o : Or) :
    readCross (image m x) o = (readCross x o).map (ap m) := by
  unfold readCross image mapC
  split <;> rfl

theorem readCross_pos (x : Cross) : readCross x .pos = edges x := rfl

theorem readCross_rev {x y : Cross} {o : Or} (h : readCross x o ~r readCross y o) : edges x ~r edges y := by
  unfold readCross at h
  split at h
  · exact h.reverse
  · exact h

theorem canon_sign (z : Cross) (s : Or) :
    canonorderCross { z with sign := s } .pos = { canonorderCross z .pos with sign := s } := by
  have hat : ∀ k, ({ z with sign := s } : Cross).at k = z.at k := fun k => rfl
  have hstep : ∀ p t, rdistStep { z with sign := s } p t = rdistStep z p t := fun p t => rfl
  have hr : rdist { z with sign := s } = rdist z := by
    unfold rdist
    simp only [hstep, hat]
  have hn : ¬ (Or.pos = Or.neg) := by decide
  unfold canonorderCross
  simp only [if_neg hn]
  rw [hr]
  unfold rotL
  simp only [hat]

/-- A canonical crossing has the edges of the image exactly when it has them up to rotation. -/
theorem edges_canon_iff {m : List Nat} {x z : Cross} {o : Or} (hz : canonorderCross z .pos = z)
    (hl : LowNotOpposite z) :
    edges z = edges (canonorderCross (image m x) o) ↔ edges z ~r (readCross x o).map (ap m) := by
  rw [← readCross_image]
  constructor
  · intro h
    rw [h]
    exact (C17_canonorder_rotation _ o).1
  · intro h
    have hz' : canonorderCross { z with sign := x.sign } .pos = { z with sign := x.sign } := by
      rw [canon_sign, hz]
    have := (C17_canonorder_canonical { z with sign := x.sign } (image m x) .pos o hl).mpr
      ⟨rfl, h⟩
    rw [hz'] at this
    rw [← this]
    rfl

variable {A B : List Cross} {m : List Nat}

/-- Where the loop finds the image of a crossing. -/
def Carried (signed : Bool) (m : List Nat) (o : Or) (x z : Cross) : Prop :=
  edges z ~r (readCross x o).map (ap m) ∧ (signed = true → x.sign = z.sign)

theorem small_canon {m : List Nat} {x : Cross} {o : Or} (h : ∀ k, x.at k < m.length)
    (hm : m ~ List.range m.length) (hs : m.length ≤ 2 ^ 31) : Small (edges (canonorderCross (image m x) o)) := by
  have hp : edges (canonorderCross (image m x) o) ~ readCross (image m x) o :=
    (C17_canonorder_rotation _ o).1.perm
  intro a ha
  have ha := hp.subset ha
  rw [readCross_image, List.mem_map] at ha
  obtain ⟨e, he, rfl⟩ := ha
  have he' : e < m.length := by
    have h0 := h 0
    have h1 := h 1
    have h2 := h 2
    have h3 := h 3
    simp only [Cross.at, Nat.reduceMod] at h0 h1 h2 h3
    unfold readCross at he
    split at he <;> simp only [List.mem_cons, List.not_mem_nil, or_false] at he <;> omega
  rw [ap_lt he']
  have := valid_lt hm (List.getElem_mem he')
  omega

theorem uniq_edges (hB : Canonical B) {i j : Nat} {y z : Cross} (hi : B[i]? = some y) (hj : B[j]? = some z)
    (h : edges y = edges z) : i = j := by
  obtain ⟨hi', rfl⟩ := List.getElem?_eq_some_iff.mp hi
  obtain ⟨hj', rfl⟩ := List.getElem?_eq_some_iff.mp hj
  rcases Nat.lt_trichotomy i j with h1 | h1 | h1
  · have := List.pairwise_iff_getElem.mp hB.strict i j hi' hj' h1
    change edges B[i] < edges B[j] at this
    rw [h] at this
    exact absurd this (lt_irrefl _)
  · exact h1
  · have := List.pairwise_iff_getElem.mp hB.strict j i hj' hi' h1
    change edges B[j] < edges B[i] at this
    rw [h] at this
    exact absurd this (lt_irrefl _)

theorem uniq_rotated (hB : Canonical B) {y z : Cross} (hy : y ∈ B) (hz : z ∈ B)
    (h : edges y ~r edges z) : edges y = edges z := by
  have h1 := edges_canon_iff (m := []) (x := z) (o := .pos) (hB.rot y hy) (hB.low y hy)
  have h2 := edges_canon_iff (m := []) (x := z) (o := .pos) (hB.rot z hz) (hB.low z hz)
  have hid : (readCross z .pos).map (ap []) = edges z := by
    simp [readCross, ap, edges]
  rw [hid] at h1 h2
  rw [h1.mpr h, ← h2.mpr (List.IsRotated.refl _)]

theorem crossLoop_ok (bs : BSearch) (signed : Bool) (hB : Canonical B) (hsB : ∀ z ∈ B, Small (edges z))
    (hm : m ~ List.range m.length) (hs : m.length ≤ 2 ^ 31) (o : Or) : ∀ {A : List Cross},
    (∀ x ∈ A, ∀ k, x.at k < m.length) →
    (∃ r, crossLoop bs signed B m o A = .ok (some r) ∧ r.length = A.length ∧
      ∀ (c : Nat) (x : Cross), A[c]? = some x → ∃ (i : Nat) (z : Cross), r[c]? = some i ∧ B[i]? = some z ∧
        Carried signed m o x z) ∨
    (crossLoop bs signed B m o A = .ok none ∧ ∃ x ∈ A, ∀ z ∈ B, ¬ Carried signed m o x z)
  | [], _ => Or.inl ⟨[], rfl, rfl, by simp⟩
  | x :: A, hA => by
    have hx := hA x (by simp)
    unfold crossLoop
    rw [mapCross_ok hx, ok_bind]
    have hsort : B.Pairwise (fun a b => ¬ edges b < edges a) :=
      hB.strict.imp (fun h => not_lt.mpr (le_of_lt h))
    obtain ⟨hit, miss⟩ := find_cross bs hsort hsB (small_canon (o := o) hx hm hs)
    have hiff : ∀ z ∈ B, (edges z = edges (canonorderCross (image m x) o) ↔ edges z ~r (readCross x o).map (ap m)) :=
      fun z hz => edges_canon_iff (hB.rot z hz) (hB.low z hz)
    cases hf : bs.find (fun z => crossCmp (canonorderCross (image m x) o) z) B with
    | none =>
      right
      refine ⟨rfl, x, by simp, ?_⟩
      intro z hz hc
      exact miss hf z hz ((hiff z hz).mpr hc.1)
    | some i =>
      obtain ⟨z, z1, z2⟩ := hit i hf
      have hzB := List.mem_of_getElem? z1
      simp only []
      rw [rd_eq_ok.mpr z1, ok_bind]
      by_cases hsg : signed = true ∧ x.sign ≠ z.sign
      · rw [if_pos (by simpa using hsg)]
        right
        refine ⟨rfl, x, by simp, ?_⟩
        intro w hw hc
        obtain ⟨j, hj⟩ := List.mem_iff_getElem?.mp hw
        have hij : i = j := uniq_edges hB z1 hj (z2.trans ((hiff w hw).mpr hc.1).symm)
        subst hij
        rw [z1] at hj
        cases hj
        exact hsg.2 (hc.2 hsg.1)
      · rw [if_neg (by simpa using hsg)]
        have hcar : Carried signed m o x z := by
          refine ⟨(hiff z hzB).mp z2, ?_⟩
          intro h
          by_contra hne
          exact hsg ⟨h, hne⟩
        rcases crossLoop_ok bs signed hB hsB hm hs o (A := A) (fun y hy => hA y (by simp [hy])) with
          ⟨r, r1, r2, r3⟩ | ⟨r1, y, y1, y2⟩
        · left
          rw [r1, ok_bind]
          refine ⟨i :: r, rfl, by simp [r2], ?_⟩
          intro c y hy
          cases c with
          | zero =>
            simp only [List.getElem?_cons_zero, Option.some.injEq] at hy
            subst hy
            exact ⟨i, z, by simp, z1, hcar⟩
          | succ c =>
            rw [List.getElem?_cons_succ] at hy
            obtain ⟨j, w, w1, w2, w3⟩ := r3 c y hy
            exact ⟨j, w, by simpa using w1, w2, w3⟩
        · right
          rw [r1, ok_bind]
          exact ⟨rfl, y, by simp [y1], y2⟩

theorem orientedCrossmap_ok (bs : BSearch) (signed : Bool) (hA : Canonical A) (hB : Canonical B)
    (hlen : A.length = B.length) (h0 : A ≠ [])
    (hsA : ∀ x ∈ A, ∀ k, x.at k < m.length) (hsB : ∀ z ∈ B, ∀ k, z.at k < m.length)
    (hm : m ~ List.range m.length) (hs : m.length ≤ 2 ^ 31) (o : Or) :
    (∃ p, orientedCrossmap bs signed A B m o = .ok (some ⟨p, o⟩) ∧ p.map.length = A.length ∧
      p.map ~ List.range p.map.length ∧ permOk p = .ok true ∧
      ∀ (c : Nat) (x : Cross), A[c]? = some x → ∃ (i : Nat) (z : Cross), p.map[c]? = some i ∧ B[i]? = some z ∧
        Carried signed m o x z) ∨
    (orientedCrossmap bs signed A B m o = .ok none ∧ ∃ x ∈ A, ∀ z ∈ B, ¬ Carried signed m o x z) := by
  have hsB' : ∀ z ∈ B, Small (edges z) := by
    intro z hz e he
    have h0 := hsB z hz 0
    have h1 := hsB z hz 1
    have h2 := hsB z hz 2
    have h3 := hsB z hz 3
    simp only [Cross.at, Nat.reduceMod] at h0 h1 h2 h3
    simp only [edges, List.mem_cons, List.not_mem_nil, or_false] at he
    omega
  unfold orientedCrossmap
  rw [assertC_ok (by simpa using hlen), ok_bind]
  rcases crossLoop_ok bs signed hB hsB' hm hs o hsA with ⟨r, r1, r2, r3⟩ | ⟨r1, r2⟩
  · left
    have hr : r ~ List.range r.length := by
      rw [valid_iff]
      constructor
      · intro i hi
        obtain ⟨c, hc⟩ := List.mem_iff_getElem?.mp hi
        have hcl : c < A.length := by rw [← r2]; exact (List.getElem?_eq_some_iff.mp hc).1
        obtain ⟨j, z, j1, j2, _⟩ := r3 c A[c] (by simp [hcl])
        rw [j1] at hc
        cases hc
        rw [r2, hlen]
        exact (List.getElem?_eq_some_iff.mp j2).1
      · rw [List.nodup_iff_getElem?_ne_getElem?]
        intro c d hcd hd heq
        have hcl : c < A.length := by omega
        have hdl : d < A.length := by omega
        obtain ⟨i, z, i1, i2, i3⟩ := r3 c A[c] (by simp [hcl])
        obtain ⟨j, w, j1, j2, j3⟩ := r3 d A[d] (by simp [hdl])
        rw [i1, j1] at heq
        cases heq
        rw [i2] at j2
        cases j2
        have h1 : (readCross A[c] o).map (ap m) ~r (readCross A[d] o).map (ap m) := i3.1.symm.trans j3.1
        have h2 := readCross_rev (rotated_of_map (ap_inj hm) h1)
        have h3 := uniq_rotated hA (List.getElem_mem hcl) (List.getElem_mem hdl) h2
        have := uniq_edges hA (i := c) (j := d) (by simp [hcl]) (by simp [hdl]) h3
        omega
    have hpos : 1 ≤ r.length := by
      rw [r2]
      exact List.length_pos_iff.mpr h0
    obtain ⟨p, p1, p2, p3⟩ := regenPc_permOk bs hr hpos
    rw [r1, ok_bind]
    simp only []
    rw [p1, ok_bind]
    exact ⟨p, rfl, by rw [p2, r2], by rw [p2]; exact hr, p3, by rw [p2]; exact r3⟩
  · right
    rw [r1, ok_bind]
    exact ⟨rfl, r2⟩

end Plc.Isos
