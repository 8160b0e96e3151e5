import Verif.Props.Components

/-!
# Doubling the vertices of a curve
-/

namespace Plc

open Plc.Io Plc.Cst Plc.Vect

variable {N : NumFmt}

namespace Vect

/-- Where `plc_double_verts` lets the constraint start: a plane on the last vertex is moved to the last new one. -/
def dblLo (nvs : List Nat) (c : Cst (VV N)) : Int :=
  if c.kind = .plane ∧ ∃ n, nvs[c.cmp]? = some n ∧ c.vert = (n : Int) - 1 then c.vert * 2 + 1 else c.vert * 2

/-- Kind and vectors of a constraint, as the functions for setting fixed, line and plane constraints make them. -/
def plainKey (c : Cst (VV N)) : Kind × VV N :=
  match c.kind with
  | .fixed => (.fixed, c.vect.1, zero3 N)
  | .line => (.line, c.vect)
  | .plane => (.plane, c.vect.1, (c.vect.2.1, N.zero, N.zero))
  | .unconstrained => (.unconstrained, c.vect)

/-- All constraints are inside the curve. -/
def InsideAll (nvs : List Nat) (l : List (Cst (VV N))) : Prop :=
  ∀ c ∈ l, 0 ≤ c.vert ∧ (c.kind = .fixed → c.num = 1) ∧ ∃ n, nvs[c.cmp]? = some n ∧ c.vert + c.num ≤ (n : Int)

theorem dblCsts_ok (nvs : List Nat) : ∀ (t acc : List (Cst (VV N))), Tidy t → InsideAll nvs t → Tidy acc →
    (∀ d ∈ t, Past d.cmp (d.vert * 2) acc) →
    ∃ acc', dblCsts nvs (nvs.map (2 * ·)) acc t = .ok acc' ∧ Tidy acc' ∧
      ∀ p w k, D acc' p w k ↔ D acc p w k ∨
        ∃ c ∈ t, p = c.cmp ∧ dblLo nvs c ≤ w ∧ w < dblLo nvs c + (2 * c.num - 1) ∧ plainKey c = k
  | [], acc, _, _, ha, _ => ⟨acc, rfl, ha, by simp⟩
  | c :: t, acc, ht, hin, ha, hp => by
    obtain ⟨h1, h2, n, h3, h4⟩ := hin c (by simp)
    obtain ⟨t1, t2, t3, t4⟩ := tidy_cons.1 ht
    have hlo : c.vert * 2 ≤ dblLo nvs c ∧ dblLo nvs c ≤ c.vert * 2 + 1 := by
      unfold dblLo
      split <;> omega
    have hlo2 : dblLo nvs c + (2 * c.num - 1) ≤ 2 * (n : Int) := by
      unfold dblLo
      split
      · next h =>
        obtain ⟨-, m, hm, hv⟩ := h
        rw [h3] at hm
        cases hm
        omega
      · omega
    have hkey : (plainKey c).1 = c.kind := by
      unfold plainKey
      cases c.kind <;> rfl
    obtain ⟨i1, i2, i3⟩ := insert_end (plainKey c).1 (by rw [hkey]; exact t3) (plainKey c).2 c.cmp (dblLo nvs c)
      (2 * c.num - 1) (by omega) acc ha ((hp c (by simp)).mono hlo.1)
    have hset : Cst.set (nvs.map (2 * ·)) acc c.cmp (dblLo nvs c) (2 * c.num - 1) (plainKey c).1 (plainKey c).2 =
        .ok (Cst.insert (plainKey c).1 (plainKey c).2 c.cmp (dblLo nvs c) (2 * c.num - 1) acc) := by
      unfold Cst.set
      rw [assertC_ok]
      · rfl
      · unfold valid
        rw [List.getElem?_map, h3]
        simp only [Option.map_some, decide_eq_true_eq]
        push_cast
        refine ⟨by omega, by omega, by omega, by omega, ?_⟩
        rw [hkey]
        by_cases hf : c.kind = .fixed
        · right
          have := h2 hf
          omega
        · exact Or.inl hf
    have step : dblCsts nvs (nvs.map (2 * ·)) acc (c :: t) =
        dblCsts nvs (nvs.map (2 * ·)) (Cst.insert (plainKey c).1 (plainKey c).2 c.cmp (dblLo nvs c) (2 * c.num - 1) acc) t := by
      rw [dblCsts]
      cases hk : c.kind with
      | unconstrained => exact absurd hk t3
      | fixed =>
        have e1 : dblLo nvs c = c.vert * 2 := by unfold dblLo; rw [hk]; simp
        have e2 : plainKey c = (.fixed, c.vect.1, zero3 N) := by unfold plainKey; rw [hk]
        have e3 := h2 hk
        rw [e1, e2, e3] at hset
        rw [e1, e2, e3]
        simp only at hset ⊢
        rw [show (2 : Int) * 1 - 1 = 1 from rfl] at hset ⊢
        rw [hset]
        rfl
      | line =>
        have e1 : dblLo nvs c = c.vert * 2 := by unfold dblLo; rw [hk]; simp
        have e2 : plainKey c = (.line, c.vect) := by unfold plainKey; rw [hk]
        rw [e1, e2] at hset
        rw [e1, e2]
        simp only at hset ⊢
        rw [hset]
        rfl
      | plane =>
        have e1 : (if c.vert = (n : Int) - 1 then c.vert * 2 + 1 else c.vert * 2) = dblLo nvs c := by
          unfold dblLo
          rw [hk, h3]
          simp
        have e2 : plainKey c = (.plane, c.vect.1, (c.vect.2.1, N.zero, N.zero)) := by unfold plainKey; rw [hk]
        rw [e2] at hset
        simp only [rd_ok h3, ok_bind, e1]
        rw [e2]
        simp only at hset ⊢
        rw [hset]
        rfl
    obtain ⟨acc', r1, r2, r3⟩ := dblCsts_ok nvs t _ t4 (fun d hd => hin d (by simp [hd])) i1 (by
      intro d hd
      have hcd := t1 d hd
      intro x hx
      have := i2 x hx
      rcases hcd with hcd | ⟨hcd, hv⟩
      · omega
      · omega)
    refine ⟨acc', step.trans r1, r2, ?_⟩
    intro p w k
    rw [r3, i3]
    constructor
    · rintro ((h | ⟨rfl, a, b, e⟩) | ⟨d, hd, h⟩)
      · exact Or.inl h
      · exact Or.inr ⟨c, by simp, rfl, a, b, e⟩
      · exact Or.inr ⟨d, by simp [hd], h⟩
    · rintro (h | ⟨d, hd, h⟩)
      · exact Or.inl (Or.inl h)
      · rcases List.mem_cons.1 hd with rfl | hd
        · exact Or.inl (Or.inr ⟨h.1, h.2.1, h.2.2.1, h.2.2.2⟩)
        · exact Or.inr ⟨d, hd, h⟩

/-! ### Vertices -/

/-- The vertex before number `i` and the one behind it, as a settled component sees them. -/
theorem vertAt_in (s : Strand N) (i : Nat) (v : V3 N) (h : s.vt[i]? = some v) : vertAt s i = .ok v := by
  have := (List.getElem?_eq_some_iff.1 h).1
  unfold vertAt
  rw [if_neg (by omega), if_neg (by omega), if_neg (by omega), show Int.toNat (i : Int) = i from rfl, rd_ok h]

theorem dblVerts_ok (S : Spline N) (s : Strand N) : ∀ (n i : Nat), i + n ≤ s.vt.length →
    (∀ j, i ≤ j → j < i + n → ∃ p, mpsVerts S s j = .ok p) →
    ∃ r, dblVerts S s n i = .ok r ∧ r.length = 2 * n ∧ ∀ j p, j < n → mpsVerts S s (i + j) = .ok p →
      r[2 * j]? = some p.1 ∧ r[2 * j + 1]? = some p.2
  | 0, i, _, _ => ⟨[], rfl, rfl, by intro j p h; omega⟩
  | n + 1, i, h, hm => by
    obtain ⟨q, hq⟩ := hm i (Nat.le_refl _) (by omega)
    obtain ⟨r, r1, r2, r3⟩ := dblVerts_ok S s n (i + 1) (by omega) (fun j a b => hm j (by omega) (by omega))
    refine ⟨q.1 :: q.2 :: r, ?_, by simp only [List.length_cons, r2]; omega, ?_⟩
    · unfold dblVerts
      rw [hq, ok_bind, r1]
      rfl
    · intro j p hj hp
      cases j with
      | zero =>
        rw [Nat.add_zero, hq] at hp
        cases hp
        exact ⟨rfl, rfl⟩
      | succ j =>
        rw [show i + (j + 1) = i + 1 + j by omega] at hp
        exact r3 j p (by omega) hp

/-- The two points for each vertex. -/
theorem mps_ok (S : Spline N) (s : Strand N) (hs : Settled s) (i : Nat) (hi : i < s.vt.length) :
    ∃ p, mpsVerts S s i = .ok p := by
  have ev := vertAt_in s i _ (List.getElem?_eq_getElem hi)
  have en : ∃ w, vertAt s (i + 1) = .ok w := by
    by_cases h : i + 1 < s.vt.length
    · exact ⟨_, vertAt_in s (i + 1) _ (List.getElem?_eq_getElem h)⟩
    · refine ⟨s.hi, ?_⟩
      unfold vertAt
      rw [if_neg (by omega), if_pos (by omega)]
  have ep : ∃ u, vertAt s ((i : Int) - 1) = .ok u := by
    cases i with
    | zero => exact ⟨s.lo, rfl⟩
    | succ j =>
      refine ⟨s.vt[j], ?_⟩
      rw [show ((j + 1 : Nat) : Int) - 1 = (j : Int) by omega]
      exact vertAt_in s j _ (List.getElem?_eq_getElem (by omega))
  obtain ⟨w, hw⟩ := en
  obtain ⟨u, hu⟩ := ep
  unfold mpsVerts
  rw [ev, ok_bind]
  split
  · rw [hw]; exact ⟨_, rfl⟩
  · split
    · rw [hu]; exact ⟨_, rfl⟩
    · rw [hu, ok_bind, hw]; exact ⟨_, rfl⟩

/-! ### Colours -/

theorem dblCols_ok (old : List (Col N)) : ∀ (n i : Nat) (new : List (Col N)), i + n ≤ old.length →
    2 * (i + n) ≤ new.length →
    ∃ r, dblCols old n i new = .ok r ∧ r.length = new.length ∧
      (∀ j, i ≤ j → j < i + n → r[2 * j]? = old[j]? ∧ r[2 * j + 1]? = old[j]?) ∧
      ∀ m, (m < 2 * i ∨ 2 * (i + n) ≤ m) → r[m]? = new[m]?
  | 0, i, new, _, _ => ⟨new, rfl, rfl, by intro j a b; omega, fun _ _ => rfl⟩
  | n + 1, i, new, h1, h2 => by
    have ho : i < old.length := by omega
    obtain ⟨r, r1, r2, r3, r4⟩ := dblCols_ok old n (i + 1) ((new.set (2 * i) old[i]).set (2 * i + 1) old[i]) (by omega)
      (by simp; omega)
    refine ⟨r, ?_, by simpa using r2, ?_, ?_⟩
    · unfold dblCols
      rw [rd_lt ho, ok_bind, wr_lt (by omega), ok_bind, wr_lt (by rw [List.length_set]; omega), ok_bind]
      exact r1
    · intro j a b
      by_cases hj : j = i
      · subst hj
        rw [r4 _ (by omega), r4 _ (by omega), List.getElem?_set_ne (by omega), List.getElem?_set_self (by omega),
          List.getElem?_set_self (by rw [List.length_set]; omega), List.getElem?_eq_getElem ho]
        exact ⟨rfl, rfl⟩
      · exact r3 j (by omega) (by omega)
    · intro m hm
      rw [r4 m (by omega), List.getElem?_set_ne (by omega), List.getElem?_set_ne (by omega)]

theorem dblCols_empty (old new : List (Col N)) (n i : Nat) (hn : 1 ≤ n) (h : old = []) : dblCols old n i new = .error .ub := by
  cases n with
  | zero => omega
  | succ n =>
    unfold dblCols
    subst h
    rw [rd_none (by simp)]
    rfl

/-- The colours `plc_double_verts` can handle. -/
def Colored (s : Strand N) : Prop := s.clr.length = 1 ∨ s.clr.length = s.vt.length ∨ s.vt.length = 1

/-- The new number of colours. -/
def newCc (s : Strand N) : Nat := if s.clr.length = 0 ∨ s.clr.length = 1 then s.clr.length else 2 * s.vt.length

theorem dblSizes_ok : ∀ (l : List (Strand N)),
    (∀ s ∈ l, s.clr.length = 0 ∨ s.clr.length = 1 ∨ s.clr.length = s.vt.length) → dblSizes l = .ok (l.map newCc)
  | [], _ => rfl
  | s :: ss, h => by
    have e : dblCc s = .ok (newCc s) := by
      unfold dblCc newCc
      split
      · rfl
      · rw [assertC_ok]
        · rfl
        · have := h s (by simp)
          simp
          omega
    unfold dblSizes
    rw [e, ok_bind, dblSizes_ok ss (fun x hx => h x (by simp [hx]))]
    rfl

theorem dblColors_ok (s : Strand N) (hv : 1 ≤ s.vt.length) (hc : Colored s) (hl : s.clr.length ≤ s.vt.length) :
    ∃ k, dblColors s (newCc s) = .ok k ∧ k.length = newCc s ∧ (s.clr.length ≤ 1 → k = s.clr) ∧
      (2 ≤ s.clr.length → (∀ i, i + 1 < s.vt.length → k[2 * i]? = s.clr[i]? ∧ k[2 * i + 1]? = s.clr[i]?) ∧
        ∀ m, 2 * s.vt.length ≤ m + 2 → m < 2 * s.vt.length → k[m]? = some (N.zero, N.zero, N.zero, N.zero)) := by
  unfold dblColors
  by_cases h1 : s.clr.length = 1
  · have e : newCc s = 1 := by unfold newCc; simp [h1]
    rw [e]
    simp only [if_true]
    match hs : s.clr with
    | [] => rw [hs] at h1; simp at h1
    | _ :: _ :: _ => rw [hs] at h1; simp at h1
    | [c] =>
      refine ⟨[c], rfl, rfl, fun _ => rfl, ?_⟩
      intro h
      simp at h
  · by_cases h0 : s.clr.length = 0
    · have e : newCc s = 0 := by unfold newCc; simp [h0]
      have hn : s.vt.length = 1 := by
        rcases hc with h | h | h
        · omega
        · omega
        · exact h
      rw [e, hn]
      refine ⟨[], rfl, rfl, ?_, ?_⟩
      · intro _
        rw [List.eq_nil_of_length_eq_zero h0]
      · intro h
        omega
    · have e : newCc s = 2 * s.vt.length := by unfold newCc; rw [if_neg (by omega)]
      have hn : s.clr.length = s.vt.length := by
        rcases hc with h | h | h
        · omega
        · omega
        · omega
      rw [e, if_neg (by omega)]
      obtain ⟨r, r1, r2, r3, r4⟩ := dblCols_ok s.clr (s.vt.length - 1) 0
        (List.replicate (2 * s.vt.length) (N.zero, N.zero, N.zero, N.zero)) (by omega) (by rw [List.length_replicate]; omega)
      refine ⟨r, r1, by simpa using r2, by intro h; omega, ?_⟩
      intro _
      refine ⟨fun i hi => r3 i (by omega) (by omega), ?_⟩
      intro m h3 h4
      rw [r4 m (by omega), List.getElem?_replicate]
      simp [h4]

theorem newOk_dbl : ∀ (l : List (Strand N)), (∀ s ∈ l, 1 ≤ s.vt.length ∧ s.clr.length ≤ s.vt.length) →
    newOk (l.map fun s => 2 * s.vt.length) ((l.map newCc).map fun c : Nat => (c : Int)) = true
  | [], _ => rfl
  | s :: ss, h => by
    obtain ⟨a, b⟩ := h s (by simp)
    have hc : newCc s ≤ 2 * s.vt.length := by
      unfold newCc
      split <;> omega
    simp only [List.map_cons, newOk, newOk_dbl ss (fun x hx => h x (by simp [hx])), Bool.and_true, Bool.and_eq_true,
      decide_eq_true_eq]
    omega

/-- One new component. -/
def dblStrand (S : Spline N) (s : Strand N) : Res (Strand N) := do
  let v ← dblVerts S (fixWrap s) s.vt.length 0
  let k ← dblColors s (newCc s)
  .ok ⟨s.isOpen, v, k, zero3 N, zero3 N⟩

theorem dblComps_ok (S : Spline N) : ∀ (l : List (Strand N)), (∀ s ∈ l, ∃ s', dblStrand S s = .ok s') →
    ∃ r, dblComps S l (l.map newCc) = .ok r ∧ r.length = l.length ∧
      ∀ (p : Nat) (s : Strand N), l[p]? = some s → ∃ s', r[p]? = some s' ∧ dblStrand S s = .ok s'
  | [], _ => ⟨[], rfl, rfl, by intro p s h; simp at h⟩
  | s :: ss, h => by
    obtain ⟨s', hs⟩ := h s (by simp)
    obtain ⟨r, r1, r2, r3⟩ := dblComps_ok S ss (fun x hx => h x (by simp [hx]))
    refine ⟨s' :: r, ?_, by simp [r2], ?_⟩
    · have hs2 := hs
      unfold dblStrand at hs2
      obtain ⟨v, hv, hs2⟩ := bind_ok_iff.1 hs2
      obtain ⟨k, hk, hs2⟩ := bind_ok_iff.1 hs2
      cases hs2
      rw [List.map_cons, dblComps, hv, ok_bind, hk, ok_bind, r1]
      rfl
    · intro p x hx
      cases p with
      | zero =>
        simp at hx
        subst hx
        exact ⟨s', rfl, hs⟩
      | succ p => exact r3 p x hx

theorem dblComps_ub (S : Spline N) : ∀ (l : List (Strand N)),
    (∀ s ∈ l, (∃ s', dblStrand S s = .ok s') ∨ dblStrand S s = .error .ub) →
    (∃ s ∈ l, dblStrand S s = .error .ub) → dblComps S l (l.map newCc) = .error .ub
  | [], _, h => by obtain ⟨s, hs, -⟩ := h; simp at hs
  | s :: ss, h, hex => by
    rcases h s (by simp) with ⟨s', hs⟩ | hs
    · have hs2 := hs
      unfold dblStrand at hs2
      obtain ⟨v, hv, hs2⟩ := bind_ok_iff.1 hs2
      obtain ⟨k, hk, hs2⟩ := bind_ok_iff.1 hs2
      rw [List.map_cons, dblComps, hv, ok_bind, hk, ok_bind, dblComps_ub S ss (fun x hx => h x (by simp [hx])) ?_]
      · rfl
      · obtain ⟨x, hx, hu⟩ := hex
        rcases List.mem_cons.1 hx with rfl | hx
        · rw [hs] at hu
          cases hu
        · exact ⟨x, hx, hu⟩
    · unfold dblStrand at hs
      rw [List.map_cons, dblComps]
      cases hv : dblVerts S (fixWrap s) s.vt.length 0 with
      | error e =>
        rw [hv] at hs
        cases hs
        rfl
      | ok v =>
        rw [hv, ok_bind] at hs
        rw [ok_bind]
        cases hk : dblColors s (newCc s) with
        | error e =>
          rw [hk] at hs
          cases hs
          rfl
        | ok k =>
          rw [hk] at hs
          cases hs

/-- The vertices of a new component. -/
theorem verts_all (S : Spline N) (s : Strand N) (hs : Settled s) :
    ∃ r, dblVerts S (fixWrap s) s.vt.length 0 = .ok r ∧ r.length = 2 * s.vt.length ∧
      ∀ j p, j < s.vt.length → mpsVerts S s j = .ok p → r[2 * j]? = some p.1 ∧ r[2 * j + 1]? = some p.2 := by
  rw [fixWrap_settled hs]
  obtain ⟨r, r1, r2, r3⟩ := dblVerts_ok S s s.vt.length 0 (by omega) (fun j _ hj => mps_ok S s hs j (by omega))
  refine ⟨r, r1, r2, ?_⟩
  intro j p hj hp
  exact r3 j p hj (by rw [Nat.zero_add]; exact hp)

theorem csts_all (L : Curve N) (hp : Proper L) :
    ∃ acc, dblCsts (L.cp.map fun s => s.vt.length) (L.cp.map fun s => 2 * s.vt.length) [] L.cst = .ok acc ∧ Tidy acc ∧
      ∀ p w k, D acc p w k ↔ ∃ c ∈ L.cst, p = c.cmp ∧ dblLo (L.cp.map fun s => s.vt.length) c ≤ w ∧
        w < dblLo (L.cp.map fun s => s.vt.length) c + (2 * c.num - 1) ∧ plainKey c = k := by
  have h := dblCsts_ok (L.cp.map fun s => s.vt.length) L.cst [] hp.tidy (by
    intro c hc
    obtain ⟨a, b, s, hs, e⟩ := hp.inside c hc
    exact ⟨a, b, s.vt.length, by rw [List.getElem?_map, hs]; rfl, e⟩) (by simp [Tidy]) (by intro d _ x hx; simp at hx)
  rw [List.map_map] at h
  obtain ⟨acc, h1, h2, h3⟩ := h
  refine ⟨acc, h1, h2, ?_⟩
  intro p w k
  rw [h3, D_nil]
  simp only [false_or]

/-- A constraint on a plane that starts at the last vertex of its component. -/
def LastPlane (L : Curve N) (c : Cst (VV N)) : Prop :=
  c.kind = .plane ∧ ∃ s, L.cp[c.cmp]? = some s ∧ c.vert + 1 = (s.vt.length : Int)

theorem dblLo_last {L : Curve N} {c : Cst (VV N)} (h : LastPlane L c) :
    dblLo (L.cp.map fun s => s.vt.length) c = c.vert * 2 + 1 := by
  obtain ⟨h1, s, h2, h3⟩ := h
  unfold dblLo
  rw [if_pos]
  refine ⟨h1, s.vt.length, by rw [List.getElem?_map, h2]; rfl, by omega⟩

theorem dblLo_other {L : Curve N} {c : Cst (VV N)} (h : ¬ LastPlane L c) :
    dblLo (L.cp.map fun s => s.vt.length) c = c.vert * 2 := by
  unfold dblLo
  rw [if_neg]
  rintro ⟨h1, n, h2, h3⟩
  apply h
  refine ⟨h1, ?_⟩
  rw [List.getElem?_map] at h2
  cases hs : L.cp[c.cmp]? with
  | none => rw [hs] at h2; cases h2
  | some s =>
    rw [hs] at h2
    simp at h2
    exact ⟨s, rfl, by omega⟩

end Vect

/-- What `plc_double_verts` makes of a component. -/
structure Vect.Doubled (S : Spline N) (s s' : Strand N) : Prop where
  /-- twice as many vertices -/
  len : s'.vt.length = 2 * s.vt.length
  settled : Settled s'
  isOpen : s'.isOpen = s.isOpen
  /-- ends of open components stay -/
  ends : s.isOpen = true → s'.vt[0]? = s.vt[0]? ∧
    (2 ≤ s.vt.length → s'.vt[2 * s.vt.length - 1]? = s.vt[s.vt.length - 1]?)
  /-- the vertices next to the ends -/
  nextFirst : s.isOpen = true → ∀ v w, s.vt[0]? = some v → s.vt[1]? = some w → s'.vt[1]? = some (S.quarter v w)
  nextLast : s.isOpen = true → 2 ≤ s.vt.length → ∀ u v, s.vt[s.vt.length - 2]? = some u →
    s.vt[s.vt.length - 1]? = some v → s'.vt[2 * s.vt.length - 2]? = some (S.late u v)
  /-- all others come from the spline -/
  inner : ∀ i u v w, (s.isOpen = true → 0 < i ∧ i + 1 < s.vt.length) →
    s.vt[(i + s.vt.length - 1) % s.vt.length]? = some u → s.vt[i]? = some v → s.vt[(i + 1) % s.vt.length]? = some w →
    s'.vt[2 * i]? = some (S.inner u v w).1 ∧ s'.vt[2 * i + 1]? = some (S.inner u v w).2
  /-- no colour, or one for the whole component -/
  few : s.clr.length ≤ 1 → s'.clr = s.clr
  /-- a colour for each vertex: both new ones have it, but for the last -/
  many : 2 ≤ s.clr.length → s'.clr.length = 2 * s.vt.length ∧
    (∀ i, i + 1 < s.vt.length → s'.clr[2 * i]? = s.clr[i]? ∧ s'.clr[2 * i + 1]? = s.clr[i]?) ∧
    ∀ m, 2 * s.vt.length ≤ m + 2 → m < 2 * s.vt.length → s'.clr[m]? = some (N.zero, N.zero, N.zero, N.zero)

theorem Vect.doubled_of (S : Spline N) (s : Strand N) (hs : Settled s) (hc : Colored s) (hl : s.clr.length ≤ s.vt.length)
    (h2 : 2 ≤ s.vt.length ∨ s.vt.length = 1) :
    ∃ s', dblStrand S s = .ok s' ∧ Doubled S s (fixWrap s') := by
  obtain ⟨r, r1, r2, r3⟩ := verts_all S s hs
  obtain ⟨k, k1, k2, k3, k4⟩ := dblColors_ok s (by omega) hc hl
  refine ⟨⟨s.isOpen, r, k, zero3 N, zero3 N⟩, by unfold dblStrand; rw [r1, ok_bind, k1]; rfl, ?_⟩
  have hop : s.isOpen = false → 3 ≤ s.vt.length := by
    intro h
    rcases hs with h' | ⟨-, h', -⟩
    · exact h'.2.1 h
    · rw [h] at h'
      cases h'
  have pr : ∀ i (u : V3 N), s.vt[(i + s.vt.length - 1) % s.vt.length]? = some u → i < s.vt.length →
      (s.isOpen = true → 0 < i) → vertAt s ((i : Int) - 1) = .ok u := by
    intro i u hu hi ho
    cases i with
    | zero =>
      rw [Nat.zero_add, Nat.mod_eq_of_lt (by omega)] at hu
      have hf : s.isOpen = false := by
        cases h : s.isOpen with
        | false => rfl
        | true => have := ho h; omega
      rcases hs with h' | ⟨-, h', -⟩
      · have := h'.2.2.1
        rw [hf] at this
        simp only [Bool.false_eq_true, if_false, hu, Option.some.injEq] at this
        rw [← this]
        rfl
      · rw [hf] at h'
        cases h'
    | succ j =>
      rw [show j + 1 + s.vt.length - 1 = j + s.vt.length by omega, Nat.add_mod_right, Nat.mod_eq_of_lt (by omega)] at hu
      rw [show ((j + 1 : Nat) : Int) - 1 = (j : Int) by omega]
      exact vertAt_in s j u hu
  have nx : ∀ i (w : V3 N), s.vt[(i + 1) % s.vt.length]? = some w → i < s.vt.length →
      (s.isOpen = true → i + 1 < s.vt.length) → vertAt s ((i : Int) + 1) = .ok w := by
    intro i w hw hi ho
    by_cases h : i + 1 < s.vt.length
    · rw [Nat.mod_eq_of_lt h] at hw
      exact vertAt_in s (i + 1) w hw
    · have e : i + 1 = s.vt.length := by omega
      rw [e, Nat.mod_self] at hw
      have hf : s.isOpen = false := by
        cases h' : s.isOpen with
        | false => rfl
        | true => exact absurd (ho h') h
      rcases hs with h' | ⟨-, h', -⟩
      · have := h'.2.2.2
        rw [hf] at this
        simp only [Bool.false_eq_true, if_false, hw, Option.some.injEq] at this
        rw [← this]
        unfold vertAt
        rw [if_neg (by omega), if_pos (by omega)]
      · rw [hf] at h'
        cases h'
  have first : s.isOpen = true → ∀ v w, s.vt[0]? = some v → vertAt s 1 = .ok w →
      mpsVerts S s 0 = .ok (v, S.quarter v w) := by
    intro ho v w hv hw
    unfold mpsVerts
    rw [vertAt_in s 0 v hv, ok_bind, if_pos ⟨ho, rfl⟩, show (((0 : Nat) : Int) + 1) = 1 from rfl, hw]
    rfl
  refine ⟨by rw [fixWrap_vt, r2], ?_, ?_, ?_, ?_, ?_, ?_, ?_, ?_⟩
  · apply fixWrap_fixes
    · simp only [r2]
      omega
    · intro _
      rfl
  · rw [fixWrap_open]
    simp only [r2]
    cases ho : s.isOpen with
    | true => rfl
    | false =>
      have := hop ho
      simp
      omega
  · intro ho
    rw [fixWrap_vt]
    simp only
    have h0 : 0 < s.vt.length := by omega
    constructor
    · obtain ⟨p, hp⟩ := mps_ok S s hs 0 h0
      rw [List.getElem?_eq_getElem h0]
      have hx := (r3 0 p h0 hp).1
      rw [Nat.mul_zero] at hx
      rw [hx]
      unfold mpsVerts at hp
      rw [vertAt_in s 0 _ (List.getElem?_eq_getElem h0), ok_bind, if_pos ⟨ho, rfl⟩] at hp
      obtain ⟨w, -, hp⟩ := bind_ok_iff.1 hp
      cases hp
      rfl
    · intro hn
      · have hl : s.vt.length - 1 < s.vt.length := by omega
        obtain ⟨p, hp⟩ := mps_ok S s hs _ hl
        rw [List.getElem?_eq_getElem hl]
        have hx := (r3 _ p hl hp).2
        rw [show 2 * (s.vt.length - 1) + 1 = 2 * s.vt.length - 1 by omega] at hx
        rw [hx]
        unfold mpsVerts at hp
        rw [vertAt_in s _ _ (List.getElem?_eq_getElem hl), ok_bind, if_neg (by omega), if_pos ⟨ho, by omega⟩] at hp
        obtain ⟨w, -, hp⟩ := bind_ok_iff.1 hp
        cases hp
        rfl
  · intro ho v w hv hw
    rw [fixWrap_vt]
    have h1 := (List.getElem?_eq_some_iff.1 hw).1
    exact (r3 0 _ (by omega) (first ho v w hv (vertAt_in s 1 w hw))).2
  · intro ho h2 u v hu hv
    rw [fixWrap_vt]
    simp only
    have hm : mpsVerts S s (s.vt.length - 1) = .ok (S.late u v, v) := by
      unfold mpsVerts
      rw [vertAt_in s _ v hv, ok_bind, if_neg (by omega), if_pos ⟨ho, by omega⟩,
        show ((s.vt.length - 1 : Nat) : Int) - 1 = ((s.vt.length - 2 : Nat) : Int) by omega, vertAt_in s _ u hu]
      rfl
    have := (r3 _ _ (by omega) hm).1
    rw [show 2 * (s.vt.length - 1) = 2 * s.vt.length - 2 by omega] at this
    exact this
  · intro i u v w ho hu hv hw
    rw [fixWrap_vt]
    simp only
    have hi := (List.getElem?_eq_some_iff.1 hv).1
    apply r3 i _ hi
    unfold mpsVerts
    rw [vertAt_in s i v hv, ok_bind, if_neg, if_neg, pr i u hu hi (fun h => (ho h).1), ok_bind,
      nx i w hw hi (fun h => (ho h).2)]
    · rfl
    · rintro ⟨h, h'⟩
      have := ho h
      omega
    · rintro ⟨h, h'⟩
      have := ho h
      omega
  · intro h
    rw [fixWrap_clr]
    exact k3 h
  · intro h
    rw [fixWrap_clr]
    have hn : newCc s = 2 * s.vt.length := by
      unfold newCc
      rw [if_neg (by omega)]
    exact ⟨by simp only; rw [k2, hn], k4 h⟩

/-- **C69, doubling.** On a proper curve with settled components, each with one colour for the whole component or one for
each vertex, `plc_double_verts` gives a curve of as many components, each doubled as `Doubled` says. Its constraints:
vertex `2 v` has the constraint of vertex `v` — unless that is a plane which starts at the last vertex of the component;
this goes to vertex `2 v + 1`. Between two vertices of the same constraint, `2 v + 1` has it as well, and there are no
others. -/
theorem C69_double (S : Spline N) (L : Curve N) (hp : Proper L) (hs : ∀ s ∈ L.cp, Settled s)
    (hc : ∀ s ∈ L.cp, Colored s) :
    ∃ L', doubleVerts S L = .ok L' ∧ L'.cp.length = L.cp.length ∧
      (∀ (p : Nat) (s : Strand N), L.cp[p]? = some s → ∃ s', L'.cp[p]? = some s' ∧ Doubled S s s') ∧
      Tidy L'.cst ∧
      (∀ (p : Nat) (v : Int) k, answer L'.cst p (2 * v) = some k ↔
        ∃ c ∈ L.cst, Cov c p v ∧ ¬ LastPlane L c ∧ plainKey c = k) ∧
      ∀ (p : Nat) (v : Int) k, answer L'.cst p (2 * v + 1) = some k ↔
        ∃ c ∈ L.cst, ((Cov c p v ∧ Cov c p (v + 1)) ∨ (Cov c p v ∧ LastPlane L c)) ∧ plainKey c = k := by
  obtain ⟨acc, a1, a2, a3⟩ := csts_all L hp
  have hd : ∀ s ∈ L.cp, ∃ s', dblStrand S s = .ok s' ∧ Doubled S s (fixWrap s') := by
    intro s h
    have := hp.verts s h
    exact doubled_of S s (hs s h) (hc s h) this.2 (by omega)
  obtain ⟨r, r1, r2, r3⟩ := dblComps_ok S L.cp (fun s h => (hd s h).imp fun _ h => h.1)
  have hpos : 0 < L.cp.length := by
    cases h : L.cp with
    | nil => exact absurd h hp.comps
    | cons a b => simp
  have e : doubleVerts S L = .ok (fixWrapAll ⟨r, acc⟩) := by
    unfold doubleVerts
    rw [dblSizes_ok L.cp, ok_bind, assertC_ok (by simpa using hpos), ok_bind, assertC_ok (newOk_dbl L.cp hp.verts), ok_bind,
      a1, ok_bind, r1]
    · rfl
    · intro s h
      have := hp.verts s h
      rcases hc s h with h | h | h <;> omega
  have lastNum : ∀ c ∈ L.cst, LastPlane L c → c.num = 1 := by
    rintro c h ⟨-, s, h1, h2⟩
    obtain ⟨-, -, s', h3, h4⟩ := hp.inside c h
    rw [h1] at h3
    cases h3
    have := (hp.tidy.2 c h).1
    omega
  refine ⟨_, e, ?_, ?_, a2, ?_, ?_⟩
  · simp [fixWrapAll, r2]
  · intro p s h
    obtain ⟨s', h1, h2⟩ := r3 p s h
    obtain ⟨s'', h3, h4⟩ := hd s (List.mem_of_getElem? h)
    rw [h2] at h3
    cases h3
    exact ⟨fixWrap s', by simp [fixWrapAll, h1], h4⟩
  · intro p v k
    rw [answer_iff (show Tidy (fixWrapAll ⟨r, acc⟩).cst from a2), show (fixWrapAll ⟨r, acc⟩).cst = acc from rfl, a3]
    constructor
    · rintro ⟨c, h1, rfl, h3, h4, h5⟩
      refine ⟨c, h1, ?_, ?_, h5⟩
      · by_cases hl : LastPlane L c
        · rw [dblLo_last hl, lastNum c h1 hl] at h4
          rw [dblLo_last hl] at h3
          omega
        · rw [dblLo_other hl] at h3 h4
          exact ⟨rfl, by omega, by omega⟩
      · intro hl
        rw [dblLo_last hl, lastNum c h1 hl] at h4
        rw [dblLo_last hl] at h3
        omega
    · rintro ⟨c, h1, ⟨rfl, h2, h3⟩, h4, h5⟩
      exact ⟨c, h1, rfl, by rw [dblLo_other h4]; omega, by rw [dblLo_other h4]; omega, h5⟩
  · intro p v k
    rw [answer_iff (show Tidy (fixWrapAll ⟨r, acc⟩).cst from a2), show (fixWrapAll ⟨r, acc⟩).cst = acc from rfl, a3]
    constructor
    · rintro ⟨c, h1, rfl, h3, h4, h5⟩
      refine ⟨c, h1, ?_, h5⟩
      by_cases hl : LastPlane L c
      · rw [dblLo_last hl, lastNum c h1 hl] at h4
        rw [dblLo_last hl] at h3
        exact Or.inr ⟨⟨rfl, by omega, by have := lastNum c h1 hl; omega⟩, hl⟩
      · rw [dblLo_other hl] at h3 h4
        exact Or.inl ⟨⟨rfl, by omega, by omega⟩, ⟨rfl, by omega, by omega⟩⟩
    · rintro ⟨c, h1, h2, h5⟩
      have hnum := (hp.tidy.2 c h1).1
      rcases h2 with ⟨⟨rfl, h2, h3⟩, ⟨-, h4, h6⟩⟩ | ⟨⟨rfl, h2, h3⟩, hl⟩
      · have hl : ¬ LastPlane L c := by
          intro hl
          have := lastNum c h1 hl
          omega
        exact ⟨c, h1, rfl, by rw [dblLo_other hl]; omega, by rw [dblLo_other hl]; omega, h5⟩
      · have := lastNum c h1 hl
        exact ⟨c, h1, rfl, by rw [dblLo_last hl]; omega, by rw [dblLo_last hl]; omega, h5⟩

/-- **C69, the last vertex.** Of all constraints on the last vertex of a component only a plane that starts there is kept
by the last vertex of the new curve: an open component held at both ends is held at one of them. -/
theorem C69_last_vertex (S : Spline N) (L : Curve N) (hp : Proper L) (hs : ∀ s ∈ L.cp, Settled s)
    (hc : ∀ s ∈ L.cp, Colored s) (p : Nat) (s : Strand N) (h : L.cp[p]? = some s)
    (hn : ∀ c ∈ L.cst, c.cmp = p → ¬ LastPlane L c) :
    ∃ L', doubleVerts S L = .ok L' ∧ answer L'.cst p (2 * (s.vt.length : Int) - 1) = none := by
  obtain ⟨L', h1, -, -, -, -, h6⟩ := C69_double S L hp hs hc
  refine ⟨L', h1, ?_⟩
  cases ha : answer L'.cst p (2 * (s.vt.length : Int) - 1) with
  | none => rfl
  | some k =>
    rw [show 2 * (s.vt.length : Int) - 1 = 2 * ((s.vt.length : Int) - 1) + 1 by omega] at ha
    obtain ⟨c, c1, c2, -⟩ := (h6 p _ k).1 ha
    rcases c2 with ⟨-, e1, e2, e3⟩ | ⟨⟨e1, -, -⟩, e2⟩
    · obtain ⟨-, -, s', i1, i2⟩ := hp.inside c c1
      rw [e1, h] at i1
      cases i1
      omega
    · exact absurd e2 (hn c c1 e1)

/-- **C69, no colours.** A curve with a component of two or more vertices and no colours cannot be doubled:
`plc_double_verts` reads and writes colours that are not there. -/
theorem C69_no_colours (S : Spline N) (L : Curve N) (hp : Proper L) (hs : ∀ s ∈ L.cp, Settled s)
    (hc : ∀ s ∈ L.cp, s.clr.length = 0 ∨ s.clr.length = 1 ∨ s.clr.length = s.vt.length)
    (s : Strand N) (h : s ∈ L.cp) (h0 : s.clr = []) (h2 : 2 ≤ s.vt.length) : doubleVerts S L = .error .ub := by
  obtain ⟨acc, a1, a2, a3⟩ := csts_all L hp
  have hpos : 0 < L.cp.length := by
    cases h : L.cp with
    | nil => exact absurd h hp.comps
    | cons a b => simp
  have bad : ∀ s ∈ L.cp, s.clr = [] → 2 ≤ s.vt.length → dblStrand S s = .error .ub := by
    intro s h h0 h2
    obtain ⟨r, r1, -⟩ := verts_all S s (hs s h)
    unfold dblStrand
    rw [r1, ok_bind]
    have e : newCc s = 0 := by unfold newCc; simp [h0]
    rw [e]
    unfold dblColors
    simp only [show ¬ (0 : Nat) = 1 by omega, if_false]
    rw [dblCols_empty _ _ _ _ (by omega) h0]
    rfl
  unfold doubleVerts
  rw [dblSizes_ok L.cp hc, ok_bind, assertC_ok (by simpa using hpos), ok_bind, assertC_ok (newOk_dbl L.cp hp.verts), ok_bind,
    a1, ok_bind, dblComps_ub S L.cp ?_ ⟨s, h, bad s h h0 h2⟩]
  · rfl
  · intro x hx
    have hv := hp.verts x hx
    by_cases hx0 : x.clr.length = 0 ∧ 2 ≤ x.vt.length
    · exact Or.inr (bad x hx (List.eq_nil_of_length_eq_zero hx0.1) hx0.2)
    · left
      obtain ⟨x', e, -⟩ := doubled_of S x (hs x hx) (by
        have := hc x hx
        unfold Colored
        omega) hv.2 (by omega)
      exact ⟨x', e⟩

/-- **C69, other numbers of colours** stop the program. -/
theorem C69_wrong_colours (S : Spline N) (L : Curve N) (s : Strand N) (h : s ∈ L.cp) (h1 : 2 ≤ s.clr.length)
    (h2 : s.clr.length ≠ s.vt.length) : doubleVerts S L = .error .die := by
  have : ∀ l : List (Strand N), s ∈ l → dblSizes l = .error .die := by
    intro l
    induction l with
    | nil => intro h; simp at h
    | cons a b ih =>
      intro h
      unfold dblSizes
      rcases List.mem_cons.1 h with rfl | h
      · have : dblCc s = .error .die := by
          unfold dblCc
          rw [if_neg (by omega)]
          simp [h2]
        rw [this]
        rfl
      · cases ha : dblCc a with
        | ok c => rw [ok_bind, ih h]; rfl
        | error e =>
          unfold dblCc at ha
          split at ha
          · cases ha
          · by_cases hx : a.clr.length = a.vt.length
            · simp [hx] at ha
            · simp [hx] at ha
              rw [← ha]
              rfl
  unfold doubleVerts
  rw [this L.cp h]
  rfl

/-! ## Examples -/

namespace Vect

/-- Splines need not be computed for the examples. -/
def dull : Spline textFmt := ⟨fun _ w => w, fun u _ => u, fun u _ w => (u, w)⟩

/-- A triangle of one colour with two vertices on a line, and an open curve with a colour for each of its four vertices,
the first and the last held in place. -/
def colored : Curve textFmt where
  cp := [⟨false, [(tx "0", tx "0.25", tx "-1e-05"), (tx "1", tx "2", tx "3"), (tx "7", tx "2", tx "9.125")],
      [(tx "1", tx "0", tx "0.5", tx "1")], (tx "7", tx "2", tx "9.125"), (tx "0", tx "0.25", tx "-1e-05")⟩,
    ⟨true, [(tx "5", tx "6", tx "7"), (tx "1", tx "2", tx "3"), (tx "1", tx "2", tx "4"), (tx "1", tx "2", tx "5")],
      [(tx "1", tx "0", tx "0", tx "1"), (tx "1", tx "1", tx "0", tx "1"), (tx "0", tx "1", tx "0", tx "1"),
        (tx "0", tx "0", tx "1", tx "1")], (tx "1", tx "2", tx "3"), (tx "1", tx "2", tx "4")⟩]
  cst := [⟨.line, ((tx "1", tx "0", tx "0"), (tx "0.3333", tx "0", tx "0")), 0, 1, 2⟩,
    ⟨.fixed, ((tx "5", tx "6", tx "7"), zero3 textFmt), 1, 0, 1⟩,
    ⟨.fixed, ((tx "1", tx "2", tx "5"), zero3 textFmt), 1, 3, 1⟩]

theorem colored_proper : Proper colored := by
  refine ⟨by simp [colored], by decide, by decide, by unfold Tidy; decide, ?_⟩
  intro c hc
  simp only [colored, List.mem_cons, List.not_mem_nil, or_false] at hc
  rcases hc with rfl | rfl | rfl
  · exact ⟨by decide, by decide, _, rfl, by decide⟩
  · exact ⟨by decide, by decide, _, rfl, by decide⟩
  · exact ⟨by decide, by decide, _, rfl, by decide⟩

theorem colored_settled : ∀ s ∈ colored.cp, Settled s := by
  have : ∀ s ∈ colored.cp, Wrapped s := by unfold Wrapped; decide
  exact fun s hs => Or.inl (this s hs)

theorem colored_colored : ∀ s ∈ colored.cp, Colored s := by unfold Colored; decide

/-- Both ends are held; after doubling the last vertex is not. -/
example : answer colored.cst 1 3 = some (.fixed, (tx "1", tx "2", tx "5"), zero3 textFmt) ∧
    ∃ L', doubleVerts dull colored = .ok L' ∧ answer L'.cst 1 7 = none := by
  refine ⟨by decide, ?_⟩
  obtain ⟨L', h1, h2⟩ := C69_last_vertex dull colored colored_proper colored_settled colored_colored 1 _ rfl (by
    rintro c hc - ⟨h, -⟩
    revert c
    decide)
  exact ⟨L', h1, h2⟩

/-- The sample of C67 has a component without colours. -/
example : doubleVerts dull sample = .error .ub :=
  C69_no_colours dull sample sample_proper sample_settled (by decide) _ (List.mem_cons_of_mem _ (List.mem_singleton.2 rfl))
    rfl (by decide)

end Vect

end Plc
