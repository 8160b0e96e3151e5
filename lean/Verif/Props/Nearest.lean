import Verif.Proofs.Nearest

/-! # C84: the nearest point of a buffer, the nearest vertex of a curve -/

namespace Plc.Nearest

open Plc.Core Plc.FindCrossings Plc.RandomPolygon Plc.Equilateral Plc.Motions Plc.Measure

/-- `plc_nearest_neighbor` answers with a point no other is nearer than, for every number of points, without precomputed data, with data
of another buffer, and with the data left by any number of earlier searches; data of another buffer, and nothing else, is reported. -/
theorem C84_neighbour (qs : QSort) (big : ℝ) (pt : V3) (n addr : Nat) (buf : List V3) (pc : Option (Option Pc)) (hn : n ≤ buf.length)
    (h0 : 0 < n) (hr : n < 5000 → Reachable big pt (buf.take n)) (hf : 5000 ≤ n → Fits (buf.take n)) (hs : Served qs big n addr buf pc) :
    ∃ (i : Nat) (pc' : Option (Option Pc)) (st : Bool), nearest qs big pt n addr buf pc = .ok (i, pc', st) ∧ NearestIn pt (buf.take n) i ∧
      (st = true ↔ ∃ p, pc = some (some p) ∧ p.check ≠ addr) := by
  obtain ⟨i, pc', h1, ⟨_, h2⟩, _⟩ := nearest_ok qs big pt n addr buf pc hn h0 hf (served_usable hn h0 hf hs)
  refine ⟨i, pc', _, h1, h2 ?_, ?_⟩
  · rcases Nat.lt_or_ge n 5000 with h | h
    · exact .inr (hr h)
    · exact .inl h
  · rcases pc with _ | _ | p <;> simp [isStale]

/-- Data which is there is kept: a second search leaves the same data behind, and data is left behind exactly if it was asked for. -/
theorem C84_data_kept (qs : QSort) (big : ℝ) (pt : V3) (n addr : Nat) (buf : List V3) (pc pc' : Option (Option Pc)) (i : Nat) (st : Bool)
    (hn : n ≤ buf.length) (h0 : 0 < n) (hf : 5000 ≤ n → Fits (buf.take n)) (hs : Served qs big n addr buf pc)
    (hc : nearest qs big pt n addr buf pc = .ok (i, pc', st)) :
    (pc = none ↔ pc' = none) ∧ (∀ p, pc = some (some p) → p.check = addr → pc' = pc) ∧ (pc ≠ none → ∃ p, pc' = some (some p) ∧ p.check = addr) := by
  obtain ⟨i', pc'', h1, _, _, h3, h4, h5⟩ := nearest_ok qs big pt n addr buf pc hn h0 hf (served_usable hn h0 hf hs)
  rw [h1] at hc
  cases hc
  refine ⟨?_, ?_, ?_⟩
  · rcases pc with _ | pc <;> rcases pc' with _ | pc' <;> simp_all
  · intro p hp hpa
    exact h5 (by simp [hp, isStale, hpa]) p hp
  · intro h
    exact h4 (by rcases pc with _ | pc <;> simp_all)

/-- `plc_nearest_vertex` answers with a vertex of the curve, its component and its index, and no vertex of any component is nearer; data of
another curve, or for vertices a component had elsewhere, and nothing else, is reported. -/
theorem C84_vertex (qs : QSort) (big : ℝ) (pt : V3) (addr : Nat) (L : List Part) (pc : Option (Option VPc))
    (hne : ∀ c ∈ L, c.vt ≠ []) (hf : ∀ c ∈ L, 5000 ≤ c.vt.length → Fits c.vt) (hr : ∃ c ∈ L, Reachable big pt c.vt)
    (hs : VServed qs big addr L pc) :
    ∃ (v : V3) (cp vt : Nat) (pc' : Option (Option VPc)) (st : Bool), nearestVertex qs big pt addr L pc = .ok (v, cp, vt, pc', st) ∧
      (∃ c, L[cp]? = some c ∧ c.vt[vt]? = some v) ∧ (∀ c ∈ L, ∀ w ∈ c.vt, apart pt v ≤ apart pt w) ∧
      (st = true ↔ ∃ p, pc = some (some p) ∧ (p.check ≠ addr ∨
        ∃ (k : Nat) (c : Part) (q : Pc), L[k]? = some c ∧ p.comps[k]? = some (some q) ∧ q.check ≠ c.addr)) := by
  have hL : L ≠ [] := by rintro rfl; obtain ⟨c, hc, _⟩ := hr; simp at hc
  obtain ⟨v, cp, vt, pc', h1, _, h2, h3⟩ := nearestVertex_ok qs big pt addr L pc hL hne hf (vserved_usable hL hne hf hs)
  refine ⟨v, cp, vt, pc', _, h1, h2, h3 hr, ?_⟩
  rcases pc with _ | _ | p <;> simp [vReport, anyStale_iff]

/-- Coordinate number `d`. -/
noncomputable def axis (d : Nat) (v : V3) : ℝ := [v.x, v.y, v.z].getD d 0

theorem coord_axis (v : V3) {d : Nat} (h : d < 3) : coord v d = axis d v := by
  have : d = 0 ∨ d = 1 ∨ d = 2 := by omega
  rcases this with rfl | rfl | rfl <;> simp [coord, axis]

/-- `max_dimension` answers with a coordinate in which the bounding box is at most one shorter than in any other. -/
theorem C84_dimension (n : Nat) (buf : List V3) (hn : n ≤ buf.length) (h0 : 0 < n) (hf : Fits (buf.take n)) :
    ∃ d, maxDimension n buf = .ok d ∧ d < 3 ∧ ∃ a ∈ buf.take n, ∃ b ∈ buf.take n, ∀ k, k < 3 → ∀ a' ∈ buf.take n, ∀ b' ∈ buf.take n,
      axis k a' - axis k b' < axis d a - axis d b + 1 := by
  obtain ⟨d, e0, e1, e2, e, h1, h2, x0, x1, x2, ⟨_, a, ha, b, hb, hab⟩, l0, l1, l2⟩ := maxDimension_eq n buf hn h0 hf
  refine ⟨d, h1, h2, a, ha, b, hb, ?_⟩
  intro k hk a' ha' b' hb'
  rw [← coord_axis a h2, ← coord_axis b h2, ← coord_axis a' hk, ← coord_axis b' hk, hab]
  have : k = 0 ∨ k = 1 ∨ k = 2 := by omega
  rcases this with rfl | rfl | rfl
  · exact lt_of_le_of_lt (x0.1 a' ha' b' hb') l0
  · exact lt_of_le_of_lt (x1.1 a' ha' b' hb') l1
  · exact lt_of_le_of_lt (x2.1 a' ha' b' hb') l2

/-! ## Where the claim fails -/

theorem exactly {vs : List V3} {d : Nat} {e c : ℝ} (hx : Extent vs d e) (h1 : ∀ a ∈ vs, ∀ b ∈ vs, coord a d - coord b d ≤ c)
    (h2 : ∃ a ∈ vs, ∃ b ∈ vs, coord a d - coord b d = c) : e = c := by
  obtain ⟨a, ha, b, hb, h⟩ := hx.2
  obtain ⟨a', ha', b', hb', h'⟩ := h2
  have := h1 a ha b hb
  have := hx.1 a' ha' b' hb'
  linarith

/-- `max_dimension` compares whole numbers: the box of these two points is long in the first coordinate only, and the last is answered. -/
theorem C84_dimension_wrong : maxDimension 2 [⟨0, 0, 0⟩, ⟨9 / 10, 0, 0⟩] = .ok 2 := by
  have hl : (2 : Nat) ≤ [(⟨0, 0, 0⟩ : V3), ⟨9 / 10, 0, 0⟩].length := by simp
  obtain ⟨e0, x0, p0, q0⟩ := boxDim_eq 2 [⟨0, 0, 0⟩, ⟨9 / 10, 0, 0⟩] 0 hl (by omega)
  obtain ⟨e1, x1, p1, q1⟩ := boxDim_eq 2 [⟨0, 0, 0⟩, ⟨9 / 10, 0, 0⟩] 1 hl (by omega)
  obtain ⟨e2, x2, p2, q2⟩ := boxDim_eq 2 [⟨0, 0, 0⟩, ⟨9 / 10, 0, 0⟩] 2 hl (by omega)
  have z0 : e0 = 9 / 10 := exactly x0 (by simp [coord]; norm_num) (by simp [coord])
  have z1 : e1 = 0 := exactly x1 (by simp [coord]) (by simp [coord])
  have z2 : e2 = 0 := exactly x2 (by simp [coord]) (by simp [coord])
  rw [toInt_ok p0 (by rw [z0]; norm_num), z0] at q0
  rw [toInt_ok p1 (by rw [z1]; norm_num), z1] at q1
  rw [toInt_ok p2 (by rw [z2]; norm_num), z2] at q2
  have f0 : ⌊(9 / 10 : ℝ)⌋ = 0 := by rw [Int.floor_eq_iff]; norm_num
  rw [f0] at q0
  unfold maxDimension
  rw [q0, ok_bind, q1, ok_bind, q2, ok_bind]
  simp

theorem boxDim_ub_or (n : Nat) (buf : List V3) (d : Nat) (hn : n ≤ buf.length) (h0 : 0 < n) :
    boxDim n buf d = .error .ub ∨ ∃ k, boxDim n buf d = .ok k := by
  obtain ⟨e, _, p, q⟩ := boxDim_eq n buf d hn h0
  rw [q]
  rcases lt_or_ge e (2 ^ 31) with h | h
  · exact .inr ⟨_, toInt_ok p h⟩
  · exact .inl (toInt_ub h)

/-- Two points of a large buffer `2 ^ 31` or more apart in one coordinate: a number which is too large is put into an `int`. -/
theorem C84_box_too_large (qs : QSort) (big : ℝ) (pt : V3) (n addr : Nat) (buf : List V3) (hn : n ≤ buf.length) (h5 : 5000 ≤ n)
    (a b : V3) (ha : a ∈ buf.take n) (hb : b ∈ buf.take n) (k : Nat) (hk : k < 3) (hab : 2 ^ 31 ≤ axis k a - axis k b) :
    nearest qs big pt n addr buf none = .error .ub ∧ nearest qs big pt n addr buf (some none) = .error .ub := by
  have hbad : boxDim n buf k = .error .ub := by
    obtain ⟨e, x, p, q⟩ := boxDim_eq n buf k hn (by omega)
    rw [q]
    refine toInt_ub (le_trans hab ?_)
    rw [← coord_axis a hk, ← coord_axis b hk]
    exact x.1 a ha b hb
  have hm : maxDimension n buf = .error .ub := by
    unfold maxDimension
    have : k = 0 ∨ k = 1 ∨ k = 2 := by omega
    rcases boxDim_ub_or n buf 0 hn (by omega) with e0 | ⟨k0, e0⟩
    · rw [e0]; rfl
    · rw [e0, ok_bind]
      rcases boxDim_ub_or n buf 1 hn (by omega) with e1 | ⟨k1, e1⟩
      · rw [e1]; rfl
      · rw [e1, ok_bind]
        rcases boxDim_ub_or n buf 2 hn (by omega) with e2 | ⟨k2, e2⟩
        · rw [e2]; rfl
        · rcases this with rfl | rfl | rfl
          · rw [e0] at hbad; simp at hbad
          · rw [e1] at hbad; simp at hbad
          · rw [e2] at hbad; simp at hbad
  have h : ¬ n < 5000 := by omega
  constructor <;>
    simp only [nearest, h, if_false, precompute, hm, error_bind, Bool.false_eq_true]

/-- With every distance beyond `DBL_MAX` (squared), the answer for a small buffer is 0, whichever point is nearest. -/
theorem C84_too_far (qs : QSort) (big : ℝ) (pt : V3) (n addr : Nat) (buf : List V3) (hn : n ≤ buf.length) (h5 : n < 5000)
    (hf : ∀ v ∈ buf.take n, big ≤ distSq pt v) : nearest qs big pt n addr buf none = .ok (0, none, false) := by
  simp only [nearest, h5, if_true, exhaustive_far big pt n buf hn hf, ok_bind]
  rfl

/-- Searching fewer than 5000 points of a buffer and then 5000 or more of the same buffer: the data of the first search has no sorted
buffer, and the second search reads through a NULL pointer. -/
theorem C84_grown_buffer (qs : QSort) (big : ℝ) (pt pt' : V3) (k n addr : Nat) (buf : List V3) (hk : k < 5000)
    (h5 : 5000 ≤ n) (hn : n ≤ buf.length) :
    ∃ i pc', nearest qs big pt k addr buf (some none) = .ok (i, pc', false) ∧ nearest qs big pt' n addr buf pc' = .error .ub := by
  obtain ⟨r, hr, _⟩ := exLoop_ok pt buf k 0 big 0 (by omega)
  have he : exhaustive big pt k buf = .ok r := hr
  refine ⟨r, some (some ⟨addr, 0, none⟩), ?_, ?_⟩
  · simp only [nearest, hk, if_true, he, ok_bind]; rfl
  · have h : ¬ n < 5000 := by omega
    have hs : search pt' n buf ⟨addr, 0, none⟩ = .error .ub := rfl
    simp [nearest, h, hs]

/-- The vertices changed between two searches, in the same place: the data is not recognised as old, and the answer is wrong. -/
theorem C84_changed_buffer (qs : QSort) (big : ℝ) (pt : V3) (n addr : Nat) (buf : List V3) (h5 : 5000 ≤ n) (hn : n = buf.length) (hf : Fits buf) :
    ∃ i pc', nearest qs big pt n addr buf (some none) = .ok (i, pc', false) ∧
      ∃ (buf' : List V3) (pt' : V3) (i' : Nat) (pc'' : Option (Option Pc)), buf'.length = n ∧
        nearest qs big pt' n addr buf' pc' = .ok (i', pc'', false) ∧ ¬ NearestIn pt' buf' i' := by
  have hle : n ≤ buf.length := by omega
  have htk : buf.take n = buf := by rw [hn, List.take_length]
  have h : ¬ n < 5000 := by omega
  obtain ⟨d, _, _, _, _, hd, hd3, _⟩ := maxDimension_eq n buf hle (by omega) (by rw [htk]; exact hf)
  obtain ⟨l, hl⟩ : ∃ l, l = qs.sort (nnLe buf d) (List.range n) := ⟨_, rfl⟩
  have ho : Ordered n buf d l := hl ▸ sort_ordered qs n buf d hle
  have hpre : precompute qs n addr buf = .ok ⟨addr, d, some l⟩ := by unfold precompute; rw [hd, ok_bind, hl]
  obtain ⟨i, hi, _⟩ := search_ok pt n buf ⟨addr, d, some l⟩ l rfl hle (by omega) ho
  refine ⟨i, some (some ⟨addr, d, some l⟩), ?_, ?_⟩
  · simp only [nearest, h, if_false, hpre, hi, ok_bind, Bool.false_eq_true]
  · have hlen := ho.len
    have hnd : l.Nodup := ho.perm.nodup_iff.mpr List.nodup_range
    have hne : l[0]'(by omega) ≠ l[1]'(by omega) := by
      intro he
      have := (List.Nodup.getElem_inj_iff hnd).mp he
      omega
    have hlt : ∀ (k : Nat) (hk : k < l.length), l[k] < n := fun k hk => List.mem_range.mp (ho.perm.mem_iff.mp (List.getElem_mem hk))
    have h0 := hlt 0 (by omega)
    have h1 := hlt 1 (by omega)
    obtain ⟨j, hj⟩ : ∃ j, j = l[1]'(by omega) := ⟨_, rfl⟩
    obtain ⟨f, hfv⟩ : ∃ f : V3, f = ⟨if d = 0 then 10 else 0, if d = 1 then 10 else 0, if d = 2 then 10 else 0⟩ := ⟨_, rfl⟩
    obtain ⟨o, hov⟩ : ∃ o : V3, o = ⟨0, 0, 0⟩ := ⟨_, rfl⟩
    have hd' : d = 0 ∨ d = 1 ∨ d = 2 := by omega
    have hdist : apart o f = 10 := by
      have : distSq o f = 10 ^ 2 := by
        rw [hov, hfv]; rcases hd' with rfl | rfl | rfl <;> simp [distSq]
      rw [apart, this, Real.sqrt_sq (by norm_num)]
    have hcf : coord f d = 10 := by rw [hfv]; rcases hd' with rfl | rfl | rfl <;> simp [coord]
    have hco : coord o d = 0 := by rw [hov]; rcases hd' with rfl | rfl | rfl <;> simp [coord]
    obtain ⟨buf', hb'⟩ : ∃ b' : List V3, b' = (List.range n).map (fun k => if k = j then o else f) := ⟨_, rfl⟩
    have hbl : buf'.length = n := by rw [hb']; simp
    have hbg : ∀ k, k < n → buf'[k]? = some (if k = j then o else f) := by
      intro k hk; rw [hb']; simp [hk]
    have hg0 : buf'[l[0]'(by omega)]? = some f := by
      rw [hbg _ h0, if_neg (by rw [hj]; exact hne)]
    have hgj : buf'[j]? = some o := by rw [hbg _ (hj ▸ h1), if_pos rfl]
    have hent : entry buf' (some l) 0 = .ok (l[0]'(by omega), f) := by
      simp only [entry]
      rw [rd_lt (by omega), ok_bind, rd_ok hg0, ok_bind]
    have hst : startAt o n buf' (some l) d = .ok 0 := by
      unfold startAt
      rw [hent, ok_bind]
      dsimp only
      rw [hcf, hco, if_pos (by norm_num)]
    have hup : scanUp o buf' (some l) d (n - 0) 0 (dist3 o f) (l[0]'(by omega)) = .ok (dist3 o f, l[0]'(by omega)) := by
      obtain ⟨m, hm⟩ : ∃ m, n - 0 = m + 1 := ⟨n - 1, by omega⟩
      rw [hm]
      unfold scanUp
      rw [hent, ok_bind]
      dsimp only
      rw [dist3_eq, hdist, hcf, hco, if_neg (by norm_num)]
    have hdn : scanDown o buf' (some l) d (0 + 1) (dist3 o f) (l[0]'(by omega)) = .ok (dist3 o f, l[0]'(by omega)) := by
      unfold scanDown
      rw [hent, ok_bind]
      dsimp only
      rw [dist3_eq, hdist, hcf, hco, if_pos (by norm_num), if_neg (by norm_num)]
      try rfl
    have hse : search o n buf' ⟨addr, d, some l⟩ = .ok (l[0]'(by omega)) := by
      unfold search
      dsimp only
      rw [hst, ok_bind, hent, ok_bind]
      dsimp only
      rw [hup, ok_bind]
      dsimp only
      rw [hdn, ok_bind]
    refine ⟨buf', o, l[0]'(by omega), some (some ⟨addr, d, some l⟩), hbl, ?_, ?_⟩
    · simp only [nearest, h, if_false, bne_self_eq_false, Bool.false_eq_true, hse, ok_bind]
      try rfl
    · rintro ⟨v, hv, hall⟩
      rw [hg0] at hv
      cases hv
      have := hall o (List.mem_of_getElem? hgj)
      rw [hdist, apart_self] at this
      norm_num at this

/-- A curve without components: a vertex which is not there is read. -/
theorem C84_vertex_of_nothing (qs : QSort) (big : ℝ) (pt : V3) (addr : Nat) : nearestVertex qs big pt addr [] (some none) = .error .ub := by
  simp [nearestVertex, partLoop, exhaustive, exLoop, rd]

/-- 6000 points in a row: the claims are about it, for every point. -/
example (qs : QSort) (big : ℝ) (pt : V3) :
    ∃ (i : Nat) (pc' : Option (Option Pc)), nearest qs big pt 6000 1 ((List.range 6000).map fun (k : Nat) => (⟨(k : ℝ), 0, 0⟩ : V3)) (some none) = .ok (i, pc', false) ∧
      NearestIn pt ((List.range 6000).map fun (k : Nat) => (⟨(k : ℝ), 0, 0⟩ : V3)) i := by
  have ht : ((List.range 6000).map fun (k : Nat) => (⟨(k : ℝ), 0, 0⟩ : V3)).take 6000 = (List.range 6000).map fun (k : Nat) => (⟨(k : ℝ), 0, 0⟩ : V3) := by
    rw [List.take_of_length_le]; rw [List.length_map, List.length_range]
  have hf : Fits (((List.range 6000).map fun (k : Nat) => (⟨(k : ℝ), 0, 0⟩ : V3)).take 6000) := by
    rw [ht]
    intro a ha b hb
    obtain ⟨i, hi, rfl⟩ := List.mem_map.mp ha
    obtain ⟨j, hj, rfl⟩ := List.mem_map.mp hb
    have hi := List.mem_range.mp hi
    have h1 : (i : ℝ) < 6000 := by exact_mod_cast hi
    have h2 : (0 : ℝ) ≤ j := by positivity
    refine ⟨?_, by norm_num, by norm_num⟩
    norm_num
    linarith
  obtain ⟨i, pc', st, h1, h2, h3⟩ := C84_neighbour qs big pt 6000 1 ((List.range 6000).map fun (k : Nat) => (⟨(k : ℝ), 0, 0⟩ : V3)) (some none)
    (by rw [List.length_map, List.length_range]) (by omega) (fun h => absurd h (by omega)) (fun _ => hf) .fresh
  have : st = false := by
    rcases st with _ | _
    · rfl
    · obtain ⟨p, hp, _⟩ := h3.mp rfl
      simp at hp
  subst this
  exact ⟨i, pc', h1, by rw [ht] at h2; exact h2⟩

end Plc.Nearest
