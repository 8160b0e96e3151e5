import Verif.Model.Core
import Verif.Proofs.Cmp
import Verif.Proofs.Diagram
import Verif.Proofs.PermGroup

namespace Plc.Core

open Plc.Cmp

theorem at_lt (c : Cross) (k : Nat) : c.at k = c.at (k % 4) := by simp [Cross.at]

theorem rotL_at (c : Cross) (k p : Nat) : (rotL c k).at p = c.at (p + k) := by
  have h : ∀ q, q < 4 → ∀ k, (rotL c k).at q = c.at (q + k) := by
    intro q hq k
    match q, hq with
    | 0, _ => simp [rotL, Cross.at]
    | 1, _ => rfl
    | 2, _ => rfl
    | 3, _ => rfl
  rw [at_lt, h (p % 4) (Nat.mod_lt _ (by decide)), at_lt c (p % 4 + k), at_lt c (p + k)]
  congr 1
  omega

theorem cross_ext {a b : Cross} (h : ∀ p, a.at p = b.at p) (hs : a.sign = b.sign) : a = b := by
  have h0 := h 0; have h1 := h 1; have h2 := h 2; have h3 := h 3
  cases a; cases b
  simp_all [Cross.at]

theorem rotL_add (c : Cross) (j k : Nat) : rotL (rotL c j) k = rotL c (j + k) := by
  apply cross_ext
  · intro p; rw [rotL_at, rotL_at, rotL_at]; congr 1; omega
  · rfl

theorem rotL_mod (c : Cross) (k : Nat) : rotL c (k % 4) = rotL c k := by
  apply cross_ext
  · intro p; rw [rotL_at, rotL_at, at_lt c (p + k % 4), at_lt c (p + k)]; congr 1; omega
  · rfl

theorem rotL_zero (c : Cross) : rotL c 0 = c := by
  apply cross_ext
  · intro p; rw [rotL_at, Nat.add_zero]
  · rfl

/-- What the search for the lowest edge maintains. -/
theorem rdistStep_inv (c : Cross) (pos : Nat) (s : Nat × Nat) (h1 : c.at s.1 = s.2) (h2 : s.1 < 4)
    (hp : pos < 4) :
    c.at (rdistStep c pos s).1 = (rdistStep c pos s).2 ∧ (rdistStep c pos s).1 < 4 ∧
      (rdistStep c pos s).2 ≤ s.2 ∧ (rdistStep c pos s).2 ≤ c.at pos := by
  unfold rdistStep
  split
  · exact ⟨rfl, hp, by simp only; omega, Nat.le_refl _⟩
  · exact ⟨h1, h2, Nat.le_refl _, by omega⟩

/-- The lowest edge is found, and where it sits next to itself, the first place. -/
theorem rdist_full (c : Cross) : rdist c < 4 ∧ (∀ p, c.at (rdist c) ≤ c.at p) ∧
    ((∀ p, c.at p = c.at (rdist c) → c.at (p + 2) ≠ c.at (rdist c)) →
      c.at (rdist c + 3) ≠ c.at (rdist c)) := by
  obtain ⟨a1, a2, a3, a4⟩ := rdistStep_inv c 1 (0, c.at 0) rfl (by show 0 < 4; decide) (by decide)
  obtain ⟨b1, b2, b3, b4⟩ := rdistStep_inv c 2 _ a1 a2 (by decide)
  obtain ⟨d1, d2, d3, d4⟩ := rdistStep_inv c 3 _ b1 b2 (by decide)
  unfold rdist
  generalize hs1 : rdistStep c 1 (0, c.at 0) = s1 at *
  generalize hs2 : rdistStep c 2 s1 = s2 at *
  generalize hs3 : rdistStep c 3 s2 = s3 at *
  simp only at a3
  have low : ∀ p, s3.2 ≤ c.at p := by
    intro p
    rw [at_lt c p]
    have hp : p % 4 < 4 := Nat.mod_lt _ (by decide)
    have : p % 4 = 0 ∨ p % 4 = 1 ∨ p % 4 = 2 ∨ p % 4 = 3 := by omega
    rcases this with h | h | h | h <;> rw [h] <;> omega
  simp only
  split
  · rename_i h
    have e : c.at ((s3.1 + 3) % 4) = s3.2 := by rw [← at_lt]; exact h
    refine ⟨Nat.mod_lt _ (by decide), fun p => by rw [e]; exact low p, ?_⟩
    rw [e]
    intro hopp hc
    refine hopp s3.1 d1 ?_
    rw [← hc, at_lt c (s3.1 + 2), at_lt c ((s3.1 + 3) % 4 + 3)]
    congr 1; omega
  · rename_i h
    refine ⟨d2, fun p => by rw [d1]; exact low p, ?_⟩
    rw [d1]
    exact fun _ => h

/-! ### Re-sorting the crossings -/

open PermM (ap ap_lt)

/-- `newnum` inverts the sorting permutation. -/
theorem invLoop_any {p : List Nat} {n : Nat} (hp : p.Perm (List.range n)) (out : List Nat)
    (ho : out.length = n) :
    ∃ B, PermM.invLoop p 0 out = .ok B ∧ B.length = n ∧
      (∀ i, i < n → ap B (ap p i) = i) ∧ (∀ c, c < n → ap B c < n ∧ ap p (ap B c) = c) := by
  have hl : p.length = n := by simpa using hp.length_eq
  have hp' : p.Perm (List.range p.length) := by rw [hl]; exact hp
  obtain ⟨B, h1, h2, h3, _⟩ := PermM.invLoop_spec p 0 out (PermM.valid_nodup hp')
    (fun x hx => by have := PermM.valid_lt hp' hx; omega)
  have hBA : ∀ i, i < n → ap B (ap p i) = i := by
    intro i hi
    have := h3 i (by omega)
    rw [ap_lt (by omega : i < p.length)]
    have hlt : p[i] < B.length := by
      have := PermM.valid_lt hp' (List.getElem_mem (by omega : i < p.length)); omega
    rw [List.getElem?_eq_getElem hlt] at this
    rw [ap_lt hlt, Option.some.inj this]
    omega
  refine ⟨B, h1, by omega, hBA, ?_⟩
  intro c hc
  have hm : c ∈ p := hp.mem_iff.mpr (List.mem_range.mpr hc)
  obtain ⟨i, hi, rfl⟩ := List.getElem_of_mem hm
  have e : ap p i = p[i] := ap_lt hi
  have := hBA i (by omega)
  rw [← e, this]
  exact ⟨by omega, rfl⟩

theorem shiftEdges_ok (rots : List Nat) : ∀ (l : List Edge),
    (∀ r ∈ l, r.head < rots.length ∧ r.tail < rots.length) →
    shiftEdges rots l = .ok (l.map (fun e => { e with
      headpos := (e.headpos + 4 - ap rots e.head) % 4,
      tailpos := (e.tailpos + 4 - ap rots e.tail) % 4 }))
  | [], _ => rfl
  | e :: l, h => by
    unfold shiftEdges
    have := h e (by simp)
    rw [rd_lt this.1, ok_bind, rd_lt this.2, ok_bind,
      shiftEdges_ok rots l (fun r hr => h r (by simp [hr])), ok_bind, List.map_cons,
      ap_lt this.1, ap_lt this.2]

theorem renameEnds_ok (num : List Nat) : ∀ (l : List Edge),
    (∀ r ∈ l, r.head < num.length ∧ r.tail < num.length) →
    renameEnds num l = .ok (l.map (fun e => { e with head := ap num e.head, tail := ap num e.tail }))
  | [], _ => rfl
  | e :: l, h => by
    unfold renameEnds
    have := h e (by simp)
    rw [rd_lt this.1, ok_bind, rd_lt this.2, ok_bind,
      renameEnds_ok num l (fun r hr => h r (by simp [hr])), ok_bind, List.map_cons,
      ap_lt this.1, ap_lt this.2]

theorem permute_ok {α : Type} (l : List α) : ∀ (p : List Nat), (∀ i ∈ p, i < l.length) →
    ∃ m, permute l p = .ok m ∧ m.length = p.length ∧
      ∀ i, i < p.length → m[i]? = l[ap p i]?
  | [], _ => ⟨[], rfl, rfl, by simp⟩
  | a :: p, h => by
    obtain ⟨m, h1, h2, h3⟩ := permute_ok l p (fun i hi => h i (by simp [hi]))
    have ha := h a (by simp)
    refine ⟨l[a] :: m, ?_, by simp [h2], ?_⟩
    · unfold permute
      rw [rd_lt ha, ok_bind, h1, ok_bind]
    · intro i hi
      cases i with
      | zero => simp [ap, ha]
      | succ i =>
        have := h3 i (by simpa using hi)
        have hi' : i < p.length := by simpa using hi
        rw [List.getElem?_cons_succ, this, ap_lt hi', ap_lt hi, List.getElem_cons_succ]

/-- How the output of `pd_regenerate_crossings` is related to its input. -/
structure Resort (cross : List Cross) (edge : List Edge) (cross' : List Cross) (edge' : List Edge)
    (σ ρ : Nat → Nat) : Prop where
  len : cross'.length = cross.length
  elen : edge'.length = edge.length
  lt : ∀ c, c < cross.length → σ c < cross.length
  inj : ∀ c d, c < cross.length → d < cross.length → σ c = σ d → c = d
  cross : ∀ (c : Nat) (x : Cross), cross[c]? = some x → cross'[σ c]? = some (rotL x (ρ c))
  edge : ∀ (e : Nat) (r : Edge), edge[e]? = some r → edge'[e]? = some
    ⟨σ r.head, (r.headpos + 4 - ρ r.head) % 4, σ r.tail, (r.tailpos + 4 - ρ r.tail) % 4⟩
  rho : ∀ c, ρ c < 4

theorem Resort.slot {cross : List Cross} {edge : List Edge} {cross' : List Cross}
    {edge' : List Edge} {σ ρ : Nat → Nat} (h : Resort cross edge cross' edge' σ ρ) {c k : Nat}
    (hc : c < cross.length) (hk : k < 4) :
    slot cross' (σ c) ((k + 4 - ρ c) % 4) = Plc.slot cross c k := by
  have hr := h.rho c
  have := h.cross c cross[c] (by simp [hc])
  have h2 : (rotL cross[c] (ρ c)).at ((k + 4 - ρ c) % 4) = cross[c].at k := by
    rw [rotL_at, at_lt, at_lt cross[c] k]; congr 1; omega
  rw [slot_of_lt hc hk, slot_eq_some]
  exact ⟨Nat.mod_lt _ (by decide), _, this, h2⟩

theorem Resort.consistent {cross : List Cross} {edge : List Edge} {cross' : List Cross}
    {edge' : List Edge} {σ ρ : Nat → Nat} (h : Resort cross edge cross' edge' σ ρ)
    (hC : Consistent cross edge) : Consistent cross' edge' := by
  have get : ∀ (e : Nat) (r' : Edge), edge'[e]? = some r' → ∃ r, edge[e]? = some r ∧ r' =
      ⟨σ r.head, (r.headpos + 4 - ρ r.head) % 4, σ r.tail, (r.tailpos + 4 - ρ r.tail) % 4⟩ := by
    intro e r' he
    have hlt : e < edge.length := by
      have := (List.getElem?_eq_some_iff.mp he).1; rw [h.elen] at this; exact this
    refine ⟨edge[e], by simp [hlt], ?_⟩
    have := h.edge e edge[e] (by simp [hlt])
    rw [he] at this
    exact Option.some.inj this
  refine ⟨by rw [h.len, h.elen, hC.count], ?_, ?_, ?_⟩
  · intro e r' he
    obtain ⟨r, hr, rfl⟩ := get e r' he
    have hs := hC.head e r hr
    have := slot_lt hs
    simp only
    rw [h.slot this.1 this.2, hs]
  · intro e r' he
    obtain ⟨r, hr, rfl⟩ := get e r' he
    have hs := hC.tail e r hr
    have := slot_lt hs
    simp only
    rw [h.slot this.1 this.2, hs]
  · intro e r' he
    obtain ⟨r, hr, rfl⟩ := get e r' he
    have h1 := slot_lt (hC.head e r hr)
    have h2 := slot_lt (hC.tail e r hr)
    intro heq
    simp only [Prod.mk.injEq] at heq
    have e1 := h.inj _ _ h1.1 h2.1 heq.1
    refine hC.ends_ne e r hr ?_
    have r1 := h.rho r.tail
    rw [e1] at heq
    rw [Prod.mk.injEq]
    refine ⟨e1, ?_⟩
    omega

theorem Resort.oriented {cross : List Cross} {edge : List Edge} {cross' : List Cross}
    {edge' : List Edge} {σ ρ : Nat → Nat} (h : Resort cross edge cross' edge' σ ρ)
    (hC : Consistent cross edge) (hO : Oriented cross edge) : Oriented cross' edge' := by
  have get : ∀ (e : Nat) (r' : Edge), edge'[e]? = some r' → ∃ r, edge[e]? = some r ∧ r' =
      ⟨σ r.head, (r.headpos + 4 - ρ r.head) % 4, σ r.tail, (r.tailpos + 4 - ρ r.tail) % 4⟩ := by
    intro e r' he
    have hlt : e < edge.length := by
      have := (List.getElem?_eq_some_iff.mp he).1; rw [h.elen] at this; exact this
    refine ⟨edge[e], by simp [hlt], ?_⟩
    have := h.edge e edge[e] (by simp [hlt])
    rw [he] at this
    exact Option.some.inj this
  constructor
  · intro e r' he
    obtain ⟨r, hr, rfl⟩ := get e r' he
    obtain ⟨f, q, hq, h1, h2⟩ := hO.through_head e r hr
    refine ⟨f, _, h.edge f q hq, by simp only [h1], ?_⟩
    have := slot_lt (hC.head e r hr)
    have r1 := h.rho r.head
    simp only [h1, h2]
    omega
  · intro e r' he
    obtain ⟨r, hr, rfl⟩ := get e r' he
    obtain ⟨f, q, hq, h1, h2⟩ := hO.through_tail e r hr
    refine ⟨f, _, h.edge f q hq, by simp only [h1], ?_⟩
    have := slot_lt (hC.tail e r hr)
    have r1 := h.rho r.tail
    simp only [h1, h2]
    omega

theorem edges_mem {c : Cross} {x : Nat} (h : x ∈ edges c) : ∃ k, k < 4 ∧ c.at k = x := by
  simp only [edges, List.mem_cons, List.not_mem_nil, or_false] at h
  rcases h with rfl | rfl | rfl | rfl
  · exact ⟨0, by decide, rfl⟩
  · exact ⟨1, by decide, rfl⟩
  · exact ⟨2, by decide, rfl⟩
  · exact ⟨3, by decide, rfl⟩

theorem rotL_edges_small {c : Cross} (k : Nat) (h : Small (edges c)) : Small (edges (rotL c k)) := by
  intro x hx
  obtain ⟨p, hp, rfl⟩ := edges_mem hx
  rw [rotL_at, at_lt]
  have hlt : (p + k) % 4 < 4 := Nat.mod_lt _ (by decide)
  have : (p + k) % 4 = 0 ∨ (p + k) % 4 = 1 ∨ (p + k) % 4 = 2 ∨ (p + k) % 4 = 3 := by omega
  apply h
  rcases this with h | h | h | h <;> rw [h] <;> simp [edges, Cross.at]

theorem regen_ok (qs : QSort) {cross : List Cross} {edge : List Edge}
    (hb : ∀ r ∈ edge, r.head < cross.length ∧ r.tail < cross.length)
    (hsm : ∀ c ∈ cross, Small (edges c)) :
    ∃ (cross' : List Cross) (edge' : List Edge) (σ ρ : Nat → Nat),
      regenCrossings qs cross edge = .ok (cross', edge') ∧
      Resort cross edge cross' edge' σ ρ ∧
      cross'.Pairwise (fun a b => crossCmp a b ≤ 0) ∧
      (∀ c ∈ cross', ∀ k, c.at 0 ≤ c.at k) := by
  have hcm : ∀ a b : Cross, Small (edges a) → Small (edges b) → crossCmp a b ≤ 0 ∨ crossCmp b a ≤ 0 := by
    have := (order_of_key (P := fun c => Small (edges c)) (same := fun a b => edges a = edges b)
      edges (cmp := crossCmp) (fun a b ha hb => lexU_spec _ _ rfl ha hb) (by intros; rfl)).swap
    intro a b ha hb
    have := this a b ha hb
    omega
  have htr := (order_of_key (P := fun c => Small (edges c)) (same := fun a b => edges a = edges b)
      edges (cmp := crossCmp) (fun a b ha hb => lexU_spec _ _ rfl ha hb) (by intros; rfl)).trans
  have hlen : (cross.map (fun c => rotL c (rdist c))).length = cross.length := by simp
  have hget : ∀ i, i < cross.length → (cross.map (fun c => rotL c (rdist c)))[i]? =
      some (rotL cross[i]! (rdist cross[i]!)) := by
    intro i hi
    simp [hi]
  have hsm' : ∀ i, i < cross.length → Small (edges (rotL cross[i]! (rdist cross[i]!))) := by
    intro i hi
    apply rotL_edges_small
    apply hsm
    simp [hi]
  have hperm := qs.perm (crossLe (cross.map (fun c => rotL c (rdist c))))
    (List.range (cross.map (fun c => rotL c (rdist c))).length)
  have hsorted := qs.sorted (crossLe (cross.map (fun c => rotL c (rdist c))))
    (List.range (cross.map (fun c => rotL c (rdist c))).length)
    (by
      intro a b ha hb
      rw [List.mem_range, hlen] at ha hb
      unfold crossLe
      rw [hget a ha, hget b hb]
      have := hcm _ _ (hsm' a ha) (hsm' b hb)
      simpa using this)
    (by
      intro a b c ha hb hc
      rw [List.mem_range, hlen] at ha hb hc
      unfold crossLe
      rw [hget a ha, hget b hb, hget c hc]
      simp only [decide_eq_true_eq]
      exact htr _ _ _ (hsm' a ha) (hsm' b hb) (hsm' c hc))
  unfold regenCrossings
  simp only
  rw [shiftEdges_ok _ _ (by simpa using hb), ok_bind]
  generalize hP : qs.sort (crossLe (cross.map (fun c => rotL c (rdist c))))
    (List.range (cross.map (fun c => rotL c (rdist c))).length) = P at *
  rw [hlen] at hperm ⊢
  obtain ⟨B, b1, b2, b3, b4⟩ := invLoop_any hperm (List.replicate cross.length 0) (by simp)
  rw [b1, ok_bind, renameEnds_ok, ok_bind]
  · obtain ⟨m, m1, m2, m3⟩ := permute_ok (cross.map (fun c => rotL c (rdist c))) P
      (fun i hi => by rw [hlen]; exact List.mem_range.mp (hperm.mem_iff.mp hi))
    rw [m1, ok_bind]
    have hPl : P.length = cross.length := by simpa using hperm.length_eq
    refine ⟨m, _, ap B, fun c => if h : c < cross.length then rdist cross[c] else 0, rfl, ?_, ?_, ?_⟩
    · refine ⟨by rw [m2, hPl], by simp, fun c hc => (b4 c hc).1, ?_, ?_, ?_, ?_⟩
      · intro c d hc hd h
        rw [← (b4 c hc).2, h, (b4 d hd).2]
      · intro c x hx
        obtain ⟨hc, rfl⟩ := List.getElem?_eq_some_iff.mp hx
        have := m3 (ap B c) (by rw [hPl]; exact (b4 c hc).1)
        rw [this, (b4 c hc).2]
        simp [hc]
      · intro e r hr
        obtain ⟨he, rfl⟩ := List.getElem?_eq_some_iff.mp hr
        have := hb edge[e] (List.getElem_mem he)
        have a1 : ap (cross.map rdist) edge[e].head = rdist cross[edge[e].head] := by
          rw [ap_lt (by simpa using this.1)]; simp
        have a2 : ap (cross.map rdist) edge[e].tail = rdist cross[edge[e].tail] := by
          rw [ap_lt (by simpa using this.2)]; simp
        simp [he, this.1, this.2, a1, a2]
      · intro c
        split
        · exact (rdist_full _).1
        · decide
    · -- sorted
      rw [List.pairwise_iff_getElem]
      intro i j hi hj hij
      have hi' : i < P.length := by omega
      have hj' : j < P.length := by omega
      have h1 := m3 i hi'
      have h2 := m3 j hj'
      rw [ap_lt hi', List.getElem?_eq_getElem hi] at h1
      rw [ap_lt hj', List.getElem?_eq_getElem hj] at h2
      have := (List.pairwise_iff_getElem.mp hsorted) i j hi' hj' hij
      unfold crossLe at this
      rw [← h1, ← h2] at this
      simpa using this
    · intro c hc k
      obtain ⟨i, hi, rfl⟩ := List.getElem_of_mem hc
      have hi' : i < P.length := by omega
      have h1 := m3 i hi'
      have hp : P[i] < cross.length := List.mem_range.mp (hperm.mem_iff.mp (List.getElem_mem hi'))
      rw [ap_lt hi', List.getElem?_eq_getElem hi, hget _ hp] at h1
      rw [Option.some.inj h1, rotL_at, rotL_at, Nat.zero_add]
      exact (rdist_full _).2.1 _
  · intro r hr
    rw [List.mem_map] at hr
    obtain ⟨r, hr, rfl⟩ := hr
    simp only
    rw [b2]
    exact hb r hr

end Plc.Core
