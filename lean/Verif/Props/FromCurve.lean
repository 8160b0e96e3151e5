import Verif.Proofs.CurveShows
import Verif.Proofs.PlaneCheck

/-! # C74: the diagram of a projection -/

namespace Plc

open Plc.Core Plc.Cmp Plc.FromCurve Plc.Ok Plc.Regenerate List

variable {K : Type} [LinearOrder K]

namespace FromCurve

theorem met_pos {near : K → K → Bool} {nc : Nat} {cc : List (Crossing K)} (hS : Spread near nc cc) {c : Nat} (hc : c < nc) : met cc c ≠ 0 := by
  obtain ⟨a, s, x, h1, h2⟩ := hS.every c hc
  have hm := List.mem_of_getElem? h1
  unfold met
  split at h2
  · have : 0 < cc.countP (fun x => decide (x.upperCmp = c)) := List.countP_pos_iff.mpr ⟨x, hm, by simp [h2.1]⟩
    omega
  · have : 0 < cc.countP (fun x => decide (x.lowerCmp = c)) := List.countP_pos_iff.mpr ⟨x, hm, by simp [h2.1]⟩
    omega

theorem divide_ok {near : K → K → Bool} (qs : QSort) {nc : Nat} (v : K × K) {cc : List (Crossing K)} (hS : Spread near nc cc) :
    divide qs nc v cc = .ok (cc, (List.range nc).map (fun c => qs.sort (fun a b => decide (0 < refCmp b a)) (refs cc c))) := by
  unfold divide
  rw [if_neg, if_neg, ok_bind]
  · intro h
    obtain ⟨c, h1, h2⟩ := List.any_eq_true.mp h
    exact met_pos hS (List.mem_range.mp h1) (of_decide_eq_true h2)
  · intro h
    obtain ⟨x, h1, h2⟩ := List.any_eq_true.mp h
    obtain ⟨i, hi⟩ := List.mem_iff_getElem?.mp h1
    have a1 := hS.range (i, false) x.lowerCmp x.lowerS ⟨x, hi, by simp⟩
    have a2 := hS.range (i, true) x.upperCmp x.upperS ⟨x, hi, by simp⟩
    have := of_decide_eq_true h2
    omega

/-- The records before they are sorted and renumbered. -/
def raw (near : K → K → Bool) (qs : QSort) (nc : Nat) (cc : List (Crossing K)) : Res (List Cross × List Edge) := do
  let te ← edgesAll near (qs.sort (fun a b => decide (strandCmp near a b ≤ 0)) (strands cc)) 0
    ((List.range nc).map (fun c => qs.sort (fun a b => decide (0 < refCmp b a)) (refs cc c)))
  place te 0 (cc.map (fun x => ⟨0, 0, 0, 0, signOf x.sign⟩))

theorem raw_draws {near : K → K → Bool} (hr : ∀ a, near a a = true) (qs : QSort) {nc : Nat} {cc : List (Crossing K)} (hS : Spread near nc cc) :
    ∃ te inn cross edge, edgesAll near (qs.sort (fun a b => decide (strandCmp near a b ≤ 0)) (strands cc)) 0
        ((List.range nc).map (fun c => qs.sort (fun a b => decide (0 < refCmp b a)) (refs cc c))) = .ok te ∧
      te.length = 2 * cc.length ∧ place te 0 (cc.map (fun x => ⟨0, 0, 0, 0, signOf x.sign⟩)) = .ok (cross, edge) ∧
      raw near qs nc cc = .ok (cross, edge) ∧ Draws cc inn cross edge := by
  obtain ⟨p1, p2⟩ := sorted_strands hr hS qs
  obtain ⟨S, R, hR⟩ := rows_exist hr hS qs
  have he := edgesAll_ok hr hS p1 p2 R nc 0
  rw [← List.range_eq_range'] at he
  obtain ⟨h1, cross, edge, h2, h3⟩ := table_draws hr hS R
  have hm : (List.range nc).map (fun c => qs.sort (fun a b => decide (0 < refCmp b a)) (refs cc c)) =
      (List.range nc).map (fun c => (S c).map (fun t => (t.num, t.s))) := List.map_congr_left (fun c _ => hR c)
  refine ⟨table nc S, _, cross, edge, ?_, h1, h2, ?_, h3⟩
  · rw [hm, he]
    rfl
  · unfold raw
    rw [hm, he, ok_bind]
    exact h2

end FromCurve

/-- **C74.** Crossings of a projection which are apart from each other give a diagram: if the crossings can be drawn in the plane, the
result is a diagram which passes `pd_ok` and which shows the crossings. -/
theorem C74_from_crossings (near : K → K → Bool) (hr : ∀ a, near a a = true) (qs : QSort) (nc : Nat) (v : K × K) (cc : List (Crossing K))
    (hS : Spread near nc cc) (inn0 : Nat × Bool → Nat) (cross0 : List Cross) (edge0 : List Edge) (hD : Draws cc inn0 cross0 edge0)
    (hP : PlaneDiagram cross0 edge0) (hsmall : 4 * cc.length < 2 ^ 31) :
    ∃ caps pd σ inn out, fromCrossings near qs nc v cc = .ok (some (caps, pd)) ∧ Shows nc cc pd σ inn out ∧
      PlaneDiagram pd.cross pd.edge ∧ ∀ q, pdOk q caps pd = .ok true := by
  classical
  obtain ⟨p1, p2⟩ := sorted_strands hr hS qs
  obtain ⟨te, inn, cross, edge, h1, h2, h3, -, D⟩ := raw_draws hr qs hS
  obtain ⟨τ0, R0⟩ := draws_renamed hr hS hD D
  have hP1 : PlaneDiagram cross edge := hP.renamed R0 along_false
  have hne : cc ≠ [] := by
    rintro rfl
    exact hP1.nonempty (List.length_eq_zero_iff.mp D.len)
  have hpos : 0 < cc.length := List.length_pos_iff.mpr hne
  have hsign : ∃ x ∈ cross, x.sign ≠ .unset := by
    obtain ⟨y, y1, y2⟩ := D.sign 0 _ (List.getElem?_eq_getElem hpos)
    refine ⟨y, List.mem_of_getElem? y1, ?_⟩
    rw [y2]
    split <;> simp
  have hmv : cross.length ≤ (if cc.length > 1 then cc.length else 2) := by
    rw [D.len]
    split <;> omega
  have hsm : 2 * edge.length < 2 ^ 31 := by rw [D.elen]; omega
  obtain ⟨cross', edge', comps, faces, τ, σ, ρ, a1, a2, a3, a4, a5, a6⟩ :=
    C49_regenerate_keeps qs (if cc.length > 1 then cc.length else 2) cross edge hP1 hsign hmv hsm
  have hP2 := hP1.renamed a2 along_false
  have hT := regenerate_tidy a1 hP2 a4 a5 a6 (by rw [a2.elen]; exact hsm)
  obtain ⟨hash, b1, -⟩ := C50_hash_computed qs cross' edge' faces comps a6
  have hok : ∀ q, pdOk q (Io.capsNew (if cc.length > 1 then cc.length else 2)) ⟨hash, 0, cross', edge', comps, faces⟩ = .ok true := fun q =>
    C51_ok_complete q _ ⟨hash, 0, cross', edge', comps, faces⟩ hT (by simp only; rw [a2.len]; exact hmv)
  have hnx : ∀ a, ∃ b, ∀ c s, StrandOn cc a c s → NextStrand cc a b := by
    intro a
    by_cases h : ∃ c s, StrandOn cc a c s
    · obtain ⟨c, s, h⟩ := h
      obtain ⟨b, hb⟩ := next_exists hr hS h
      exact ⟨b, fun _ _ _ => hb⟩
    · exact ⟨a, fun c s hs => absurd ⟨c, s, hs⟩ h⟩
  choose nx hnx using hnx
  have hc := shows_comps hr hS D a2 hnx hP2.consistent a5
  refine ⟨Io.capsNew (if cc.length > 1 then cc.length else 2), ⟨hash, 0, cross', edge', comps, faces⟩, σ, fun a => τ (inn a),
    fun a => τ (inn (nx a)), ?_, ?_, hP2, hok⟩
  · unfold fromCrossings
    rw [divide_ok qs v hS, ok_bind]
    simp only
    unfold assemble
    rw [if_neg (by rw [not_double hr hS p1 p2]; simp), h1, ok_bind]
    simp only
    rw [assertC_ok (by rw [decide_eq_true_eq, h2]), ok_bind, assertC_ok, ok_bind, assertC_ok, ok_bind, h3, ok_bind]
    · simp only
      rw [a1, ok_bind]
      simp only
      rw [b1, ok_bind, assertC_ok (by rw [decide_eq_true_eq]; exact hc.1), ok_bind, hok qs, ok_bind, if_pos rfl]
    · rw [decide_eq_true_eq]
      rw [D.len] at hmv
      simp only [Io.capsNew]
      omega
    · rw [decide_eq_true_eq]
      rw [D.len] at hmv
      simp only [Io.capsNew]
      omega
  · constructor
    · show cross'.length = _
      rw [a2.len, D.len]
    · show edge'.length = _
      rw [a2.elen, D.elen]
    · intro i hi
      rw [← D.len]
      exact a2.slt i (by rw [D.len]; exact hi)
    · intro i j hi hj h
      exact a2.sinj i j (by rw [D.len]; exact hi) (by rw [D.len]; exact hj) h
    · intro i x hx
      obtain ⟨y, y1, y2⟩ := D.sign i x hx
      obtain ⟨y', z1, z2⟩ := a3 i y y1
      exact ⟨y', z1, by rw [z2, y2]⟩
    · intro i hi
      exact (shows_strands hr hS D a2 a3 hnx hP2.consistent hP2.oriented hi).1
    · intro i hi
      exact (shows_strands hr hS D a2 a3 hnx hP2.consistent hP2.oriented hi).2
    · intro a b hab
      obtain ⟨c, s, t, ha, -⟩ := id hab
      show τ (inn (nx a)) = τ (inn b)
      rw [next_unique' hr hS (hnx a c s ha) hab]
    · intro a c s ha
      show τ (inn a) < edge'.length
      rw [a2.elen]
      exact a2.tlt _ (D.inn_lt _ _ _ ha)
    · intro a b c d s t ha hb h
      exact D.inn_inj _ _ _ _ _ _ ha hb (a2.tinj _ _ (D.inn_lt _ _ _ ha) (D.inn_lt _ _ _ hb) h)
    · exact hc.1
    · exact hc.2

/-- The crossings can be drawn in at most one way, up to the numbers of the edges, and in exactly one way if they are apart from each
other. -/
theorem C74_one_drawing (near : K → K → Bool) (hr : ∀ a, near a a = true) (nc : Nat) (cc : List (Crossing K)) (hS : Spread near nc cc) :
    (∃ inn cross edge, Draws cc inn cross edge) ∧
    ∀ inn cross edge inn' cross' edge', Draws cc inn cross edge → Draws cc inn' cross' edge' →
      ∃ τ, Renamed cross edge cross' edge' τ id (fun _ => 0) (fun _ => false) := by
  refine ⟨?_, fun _ _ _ _ _ _ D D' => draws_renamed hr hS D D'⟩
  obtain ⟨-, inn, cross, edge, -, -, -, -, D⟩ := raw_draws hr insQSort hS
  exact ⟨inn, cross, edge, D⟩

/-- One positive crossing of a component with itself: the lower strand comes first. -/
theorem FromCurve.one_loop (near : K → K → Bool) (v : K × K) (h1 : near v.1 v.2 = false) (h2 : near v.2 v.1 = false) (hv : v.1 < v.2) :
    Spread near 1 [⟨0, 0, v.1, v.2, 1⟩] ∧
    Draws [⟨0, 0, v.1, v.2, 1⟩] (fun a => if a.2 then 1 else 0) [⟨0, 0, 1, 1, .pos⟩] [⟨0, 0, 0, 1⟩, ⟨0, 3, 0, 2⟩] ∧
    PlaneDiagram [⟨0, 0, 1, 1, .pos⟩] [⟨0, 0, 0, 1⟩, ⟨0, 3, 0, 2⟩] := by
  have hon : ∀ a c s, StrandOn [⟨0, 0, v.1, v.2, 1⟩] a c s ↔ c = 0 ∧ ((a = (0, false) ∧ s = v.1) ∨ (a = (0, true) ∧ s = v.2)) := by
    rintro ⟨i, u⟩ c s
    unfold StrandOn
    constructor
    · rintro ⟨x, x1, x2⟩
      have hi : i = 0 := by
        have := (List.getElem?_eq_some_iff.mp x1).1
        simpa using this
      subst hi
      simp only [List.getElem?_cons_zero, Option.some.injEq] at x1
      subst x1
      cases u
      · simp only [Bool.false_eq_true, if_false] at x2
        exact ⟨x2.1.symm, .inl ⟨rfl, x2.2.symm⟩⟩
      · simp only [if_true] at x2
        exact ⟨x2.1.symm, .inr ⟨rfl, x2.2.symm⟩⟩
    · rintro ⟨rfl, ⟨h, rfl⟩ | ⟨h, rfl⟩⟩ <;> cases h <;> exact ⟨_, rfl, by simp⟩
  have hS : Spread near 1 [⟨0, 0, v.1, v.2, 1⟩] := by
    constructor
    · intro a b c s t ha hb hab
      rcases ((hon _ _ _).mp ha).2 with ⟨rfl, rfl⟩ | ⟨rfl, rfl⟩ <;> rcases ((hon _ _ _).mp hb).2 with ⟨rfl, rfl⟩ | ⟨rfl, rfl⟩
      · exact absurd rfl hab
      · exact h1
      · exact h2
      · exact absurd rfl hab
    · intro a c s ha
      rw [((hon _ _ _).mp ha).1]
      decide
    · intro c hc
      exact ⟨(0, false), v.1, (hon _ _ _).mpr ⟨by omega, .inl ⟨rfl, rfl⟩⟩⟩
  have hnext : ∀ a b, NextStrand [⟨0, 0, v.1, v.2, 1⟩] a b → (a = (0, false) ∧ b = (0, true)) ∨ (a = (0, true) ∧ b = (0, false)) := by
    rintro a b ⟨c, s, t, ha, hb, h⟩
    have e1 : StrandOn [⟨0, 0, v.1, v.2, 1⟩] (0, true) c v.2 := (hon _ _ _).mpr ⟨((hon _ _ _).mp ha).1, .inr ⟨rfl, rfl⟩⟩
    have e2 : StrandOn [⟨0, 0, v.1, v.2, 1⟩] (0, false) c v.1 := (hon _ _ _).mpr ⟨((hon _ _ _).mp ha).1, .inl ⟨rfl, rfl⟩⟩
    rcases ((hon _ _ _).mp ha).2 with ⟨rfl, rfl⟩ | ⟨rfl, rfl⟩ <;> rcases ((hon _ _ _).mp hb).2 with ⟨rfl, rfl⟩ | ⟨rfl, rfl⟩
    · rcases h with h | h
      · exact absurd h.1 (lt_irrefl _)
      · exact absurd hv (not_lt.mpr (h _ _ e1).2)
    · exact .inl ⟨rfl, rfl⟩
    · exact .inr ⟨rfl, rfl⟩
    · rcases h with h | h
      · exact absurd h.1 (lt_irrefl _)
      · exact absurd hv (not_lt.mpr (h _ _ e2).1)
  have hD : Draws [⟨0, 0, v.1, v.2, 1⟩] (fun a => if a.2 then 1 else 0) [⟨0, 0, 1, 1, .pos⟩] [⟨0, 0, 0, 1⟩, ⟨0, 3, 0, 2⟩] := by
    constructor
    · rfl
    · rfl
    · intro a c s _
      show (if a.2 then 1 else 0) < 2
      split <;> decide
    · intro a b c d s t ha hb h
      rcases ((hon _ _ _).mp ha).2 with ⟨rfl, rfl⟩ | ⟨rfl, rfl⟩ <;> rcases ((hon _ _ _).mp hb).2 with ⟨rfl, rfl⟩ | ⟨rfl, rfl⟩ <;> simp at h ⊢
    · intro i x hx
      have hi : i = 0 := by
        have := (List.getElem?_eq_some_iff.mp hx).1
        simpa using this
      subst hi
      simp only [List.getElem?_cons_zero, Option.some.injEq] at hx
      subst hx
      exact ⟨_, rfl, rfl⟩
    · intro a b x y hab hx hy
      rcases hnext a b hab with ⟨rfl, rfl⟩ | ⟨rfl, rfl⟩ <;>
      · simp only [List.getElem?_cons_zero, Option.some.injEq] at hx hy
        subst hx hy
        rfl
    · intro a b x y hab hx hy
      rcases hnext a b hab with ⟨rfl, rfl⟩ | ⟨rfl, rfl⟩ <;>
      · simp only [List.getElem?_cons_zero, Option.some.injEq] at hx hy
        subst hx hy
        exact ⟨rfl, rfl⟩
  have hP : PlaneDiagram [⟨0, 0, 1, 1, .pos⟩] [⟨0, 0, 0, 1⟩, ⟨0, 3, 0, 2⟩] := by
    have hC : Consistent [⟨0, 0, 1, 1, .pos⟩] [⟨0, 0, 0, 1⟩, ⟨0, 3, 0, 2⟩] := by decide
    exact ⟨hC, by decide, by decide, connected_of (by decide), planeFaces_of hC 2 (by decide) (by decide +kernel)
      [(0, .pos), (0, .neg), (1, .pos)] rfl (by decide) (by decide) (by decide +kernel) (by decide +kernel)⟩
  exact ⟨hS, hD, hP⟩

/-- A curve of one component without crossings gets a loop. -/
theorem C74_no_crossings (near : K → K → Bool) (hr : ∀ a, near a a = true) (qs : QSort) (v : K × K) (h1 : near v.1 v.2 = false)
    (h2 : near v.2 v.1 = false) (hv : v.1 < v.2) :
    ∃ caps pd σ inn out, fromCrossings near qs 1 v [] = .ok (some (caps, pd)) ∧ Shows 1 [⟨0, 0, v.1, v.2, 1⟩] pd σ inn out ∧
      PlaneDiagram pd.cross pd.edge ∧ ∀ q, pdOk q caps pd = .ok true := by
  obtain ⟨hS, hD, hP⟩ := FromCurve.one_loop near v h1 h2 hv
  obtain ⟨caps, pd, σ, inn, out, r1, r2, r3, r4⟩ := C74_from_crossings near hr qs 1 v _ hS _ _ _ hD hP (by simp)
  refine ⟨caps, pd, σ, inn, out, ?_, r2, r3, r4⟩
  rw [← r1]
  unfold fromCrossings
  rw [divide_ok qs v hS]
  rfl

/-- If a link of two components or more has a component without crossings, the program ends. -/
theorem C74_missing_component (near : K → K → Bool) (qs : QSort) (nc : Nat) (v : K × K) (cc : List (Crossing K)) (hn : 2 ≤ nc)
    (hrange : ∀ a c s, StrandOn cc a c s → c < nc) (c : Nat) (hc : c < nc) (hno : ∀ a s, ¬ StrandOn cc a c s) :
    fromCrossings near qs nc v cc = .error .die := by
  unfold fromCrossings divide
  rw [if_neg, if_pos, if_neg (by omega)]
  · rfl
  · rw [List.any_eq_true]
    refine ⟨c, List.mem_range.mpr hc, ?_⟩
    rw [decide_eq_true_eq]
    unfold met
    rw [Nat.add_eq_zero_iff, List.countP_eq_zero, List.countP_eq_zero]
    constructor
    · intro x hx h
      obtain ⟨i, hi⟩ := List.mem_iff_getElem?.mp hx
      exact hno (i, false) x.lowerS ⟨x, hi, by simpa using h⟩
    · intro x hx h
      obtain ⟨i, hi⟩ := List.mem_iff_getElem?.mp hx
      exact hno (i, true) x.upperS ⟨x, hi, by simpa using h⟩
  · intro h
    obtain ⟨x, h1, h2⟩ := List.any_eq_true.mp h
    obtain ⟨i, hi⟩ := List.mem_iff_getElem?.mp h1
    have a1 := hrange (i, false) x.lowerCmp x.lowerS ⟨x, hi, by simp⟩
    have a2 := hrange (i, true) x.upperCmp x.upperS ⟨x, hi, by simp⟩
    have := of_decide_eq_true h2
    omega

namespace FromCurve

/-- Checking that crossings are apart. -/
theorem spread_of {near : K → K → Bool} {nc : Nat} {cc : List (Crossing K)}
    (h1 : ∀ x ∈ strands cc, ∀ y ∈ strands cc, x.cmp = y.cmp → (x.num, x.up) ≠ (y.num, y.up) → near x.s y.s = false)
    (h2 : ∀ x ∈ strands cc, x.cmp < nc) (h3 : ∀ c < nc, ∃ x ∈ strands cc, x.cmp = c) : Spread near nc cc := by
  constructor
  · intro a b c s t ha hb hab
    exact h1 ⟨a.1, c, s, a.2⟩ (mem_strands.mpr ha) ⟨b.1, c, t, b.2⟩ (mem_strands.mpr hb) rfl hab
  · intro a c s ha
    exact h2 ⟨a.1, c, s, a.2⟩ (mem_strands.mpr ha)
  · intro c hc
    obtain ⟨x, x1, rfl⟩ := h3 c hc
    exact ⟨_, _, mem_strands.mp x1⟩

/-- The projection of a trefoil, going once around it: under, over, under, ... -/
def trefoilCross : List (Crossing Int) := [⟨0, 0, 10, 40, 1⟩, ⟨0, 0, 50, 20, 1⟩, ⟨0, 0, 30, 60, 1⟩]

/-- A Hopf link, and the second component crosses itself. -/
def curlHopf : List (Crossing Int) := [⟨0, 1, 10, 5, 1⟩, ⟨1, 0, 40, 20, 1⟩, ⟨1, 1, 60, 70, -1⟩]

/-- Too near. -/
def near2 (a b : Int) : Bool := decide ((a - b).natAbs < 2)

theorem near2_self (a : Int) : near2 a a = true := by simp [near2]

theorem trefoil_shown (qs : QSort) : ∃ caps pd σ inn out, fromCrossings near2 qs 1 (33, 66) trefoilCross = .ok (some (caps, pd)) ∧
    Shows 1 trefoilCross pd σ inn out ∧ PlaneDiagram pd.cross pd.edge ∧ ∀ q, pdOk q caps pd = .ok true := by
  have hS : Spread near2 1 trefoilCross := spread_of (by decide +kernel) (by decide +kernel) (by decide +kernel)
  obtain ⟨-, inn, cross, edge, -, -, -, h, D⟩ := raw_draws near2_self insQSort hS
  have hc : raw near2 insQSort 1 trefoilCross = .ok ([⟨0, 4, 1, 3, .pos⟩, ⟨4, 2, 5, 1, .pos⟩, ⟨2, 0, 3, 5, .pos⟩],
      [⟨0, 0, 2, 1⟩, ⟨1, 3, 0, 2⟩, ⟨2, 0, 1, 1⟩, ⟨0, 3, 2, 2⟩, ⟨1, 0, 0, 1⟩, ⟨2, 3, 1, 2⟩]) := by decide +kernel
  rw [hc] at h
  cases h
  refine C74_from_crossings near2 near2_self qs 1 (33, 66) trefoilCross hS inn _ _ D ?_ (by decide)
  have hC : Consistent [⟨0, 4, 1, 3, .pos⟩, ⟨4, 2, 5, 1, .pos⟩, ⟨2, 0, 3, 5, .pos⟩]
      [⟨0, 0, 2, 1⟩, ⟨1, 3, 0, 2⟩, ⟨2, 0, 1, 1⟩, ⟨0, 3, 2, 2⟩, ⟨1, 0, 0, 1⟩, ⟨2, 3, 1, 2⟩] := by decide
  exact ⟨hC, by decide, by decide, connected_of (by decide), planeFaces_of hC 6 (by decide) (by decide +kernel)
    [(0, .pos), (0, .neg), (1, .pos), (1, .neg), (2, .pos)] rfl (by decide) (by decide) (by decide +kernel) (by decide +kernel)⟩

theorem curlHopf_shown (qs : QSort) : ∃ caps pd σ inn out, fromCrossings near2 qs 2 (33, 66) curlHopf = .ok (some (caps, pd)) ∧
    Shows 2 curlHopf pd σ inn out ∧ PlaneDiagram pd.cross pd.edge ∧ ∀ q, pdOk q caps pd = .ok true := by
  have hS : Spread near2 2 curlHopf := spread_of (by decide +kernel) (by decide +kernel) (by decide +kernel)
  obtain ⟨-, inn, cross, edge, -, -, -, h, D⟩ := raw_draws near2_self insQSort hS
  have hc : raw near2 insQSort 2 curlHopf = .ok ([⟨0, 3, 1, 2, .pos⟩, ⟨3, 0, 4, 1, .pos⟩, ⟨4, 5, 5, 2, .neg⟩],
      [⟨0, 0, 1, 1⟩, ⟨1, 3, 0, 2⟩, ⟨0, 3, 2, 3⟩, ⟨1, 0, 0, 1⟩, ⟨2, 0, 1, 2⟩, ⟨2, 1, 2, 2⟩]) := by decide +kernel
  rw [hc] at h
  cases h
  refine C74_from_crossings near2 near2_self qs 2 (33, 66) curlHopf hS inn _ _ D ?_ (by decide)
  have hC : Consistent [⟨0, 3, 1, 2, .pos⟩, ⟨3, 0, 4, 1, .pos⟩, ⟨4, 5, 5, 2, .neg⟩]
      [⟨0, 0, 1, 1⟩, ⟨1, 3, 0, 2⟩, ⟨0, 3, 2, 3⟩, ⟨1, 0, 0, 1⟩, ⟨2, 0, 1, 2⟩, ⟨2, 1, 2, 2⟩] := by decide
  exact ⟨hC, by decide, by decide, connected_of (by decide), planeFaces_of hC 12 (by decide) (by decide +kernel)
    [(0, .pos), (0, .neg), (1, .pos), (1, .neg), (5, .neg)] rfl (by decide) (by decide) (by decide +kernel) (by decide +kernel)⟩

end FromCurve

/-- Two strands of a component at the same parameter, if only equal parameters count as near: there is no diagram. -/
theorem C74_same_place (near : K → K → Bool) (hn : ∀ a b, near a b = true ↔ a = b) (qs : QSort) (nc : Nat) (v : K × K) (cc : List (Crossing K))
    (hrange : ∀ a c s, StrandOn cc a c s → c < nc) (hevery : ∀ c, c < nc → ∃ a s, StrandOn cc a c s)
    (a b : Nat × Bool) (c : Nat) (s : K) (ha : StrandOn cc a c s) (hb : StrandOn cc b c s) (hab : a ≠ b) :
    fromCrossings near qs nc v cc = .ok none := by
  have hdiv : divide qs nc v cc = .ok (cc, (List.range nc).map (fun c => qs.sort (fun a b => decide (0 < refCmp b a)) (refs cc c))) := by
    have hm : ∀ c, c < nc → met cc c ≠ 0 := by
      intro c hc
      obtain ⟨a, s, x, h1, h2⟩ := hevery c hc
      have hm := List.mem_of_getElem? h1
      unfold met
      split at h2
      · have : 0 < cc.countP (fun x => decide (x.upperCmp = c)) := List.countP_pos_iff.mpr ⟨x, hm, by simp [h2.1]⟩
        omega
      · have : 0 < cc.countP (fun x => decide (x.lowerCmp = c)) := List.countP_pos_iff.mpr ⟨x, hm, by simp [h2.1]⟩
        omega
    unfold divide
    rw [if_neg, if_neg, ok_bind]
    · intro h
      obtain ⟨c, h1, h2⟩ := List.any_eq_true.mp h
      exact hm c (List.mem_range.mp h1) (of_decide_eq_true h2)
    · intro h
      obtain ⟨x, h1, h2⟩ := List.any_eq_true.mp h
      obtain ⟨i, hi⟩ := List.mem_iff_getElem?.mp h1
      have a1 := hrange (i, false) x.lowerCmp x.lowerS ⟨x, hi, by simp⟩
      have a2 := hrange (i, true) x.upperCmp x.upperS ⟨x, hi, by simp⟩
      have := of_decide_eq_true h2
      omega
  have hle : ∀ x y : Strand K, strandCmp near x y ≤ 0 ↔ y.cmp < x.cmp ∨ (x.cmp = y.cmp ∧ x.s ≤ y.s) := by
    intro x y
    unfold FromCurve.strandCmp
    by_cases hc : x.cmp = y.cmp
    · rw [if_neg (by simpa using hc)]
      by_cases h : near x.s y.s = true
      · have := (hn _ _).mp h
        rw [if_pos h]
        simp [hc, this]
      · have h' : x.s ≠ y.s := fun e => h ((hn _ _).mpr e)
        rw [if_neg h]
        by_cases hl : x.s < y.s
        · simp [hl, hc, hl.le]
        · have : ¬ x.s ≤ y.s := fun e => hl (lt_of_le_of_ne e h')
          simp [hl, hc, this]
    · rw [if_pos hc]
      constructor
      · intro h
        left
        omega
      · rintro (h | ⟨h, -⟩)
        · omega
        · exact absurd h hc
  have hz : ∀ x y : Strand K, strandCmp near x y = 0 ↔ x.cmp = y.cmp ∧ x.s = y.s := by
    intro x y
    unfold FromCurve.strandCmp
    by_cases hc : x.cmp = y.cmp
    · rw [if_neg (by simpa using hc)]
      by_cases h : near x.s y.s = true
      · have := (hn _ _).mp h
        rw [if_pos h]
        simp [hc, this]
      · have h' : x.s ≠ y.s := fun e => h ((hn _ _).mpr e)
        rw [if_neg h]
        split <;> simp [h']
    · rw [if_pos hc]
      simp only [hc, false_and, iff_false]
      omega
  have hp := qs.perm (fun a b => decide (strandCmp near a b ≤ 0)) (strands cc)
  have hsort := qs.sorted (fun a b => decide (strandCmp near a b ≤ 0)) (strands cc)
    (by
      intro x y _ _
      simp only [Bool.or_eq_true, decide_eq_true_eq, hle]
      rcases lt_trichotomy x.cmp y.cmp with h | h | h
      · exact .inr (.inl h)
      · rcases le_total x.s y.s with h' | h'
        · exact .inl (.inr ⟨h, h'⟩)
        · exact .inr (.inr ⟨h.symm, h'⟩)
      · exact .inl (.inl h))
    (by
      intro x y z _ _ _
      simp only [decide_eq_true_eq, hle]
      rintro (h | ⟨h, h1⟩) (h' | ⟨h', h2⟩)
      · left; omega
      · left; omega
      · left; omega
      · right; exact ⟨by omega, h1.trans h2⟩)
  have hd : double near (qs.sort (fun a b => decide (strandCmp near a b ≤ 0)) (strands cc)) = true := by
    generalize qs.sort (fun a b => decide (strandCmp near a b ≤ 0)) (strands cc) = cs at hp hsort
    have ma : (⟨a.1, c, s, a.2⟩ : Strand K) ∈ cs := hp.mem_iff.mpr (mem_strands.mpr ha)
    have mb : (⟨b.1, c, s, b.2⟩ : Strand K) ∈ cs := hp.mem_iff.mpr (mem_strands.mpr hb)
    have hne : (⟨a.1, c, s, a.2⟩ : Strand K) ≠ ⟨b.1, c, s, b.2⟩ := by
      intro h
      simp only [Strand.mk.injEq] at h
      exact hab (Prod.ext h.1 h.2.2.2)
    have key : ∀ (l : List (Strand K)) (x y : Strand K), l.Pairwise (fun a b => decide (strandCmp near a b ≤ 0) = true) → x ∈ l → y ∈ l → x ≠ y →
        x.cmp = y.cmp → x.s = y.s → double near l = true := by
      intro l
      induction l with
      | nil => intro x y _ hx; simp at hx
      | cons z l ih =>
        intro x y hs hx hy hxy e1 e2
        cases l with
        | nil =>
          rw [List.mem_singleton] at hx hy
          exact absurd (hx.trans hy.symm) hxy
        | cons w l =>
          rw [double, Bool.or_eq_true, decide_eq_true_eq]
          rw [List.pairwise_cons] at hs
          have first : ∀ u, u ∈ w :: l → z.cmp = u.cmp → z.s = u.s → strandCmp near w z = 0 := by
            intro u hu f1 f2
            have g1 := (hle z w).mp (of_decide_eq_true (hs.1 w (by simp)))
            rcases List.mem_cons.mp hu with rfl | hu
            · exact (hz _ _).mpr ⟨f1.symm, f2.symm⟩
            · have g2 := (hle w u).mp (of_decide_eq_true ((List.pairwise_cons.mp hs.2).1 u hu))
              rw [hz]
              rcases g1 with g1 | ⟨g1, g1'⟩ <;> rcases g2 with g2 | ⟨g2, g2'⟩
              · omega
              · omega
              · omega
              · exact ⟨g1.symm, le_antisymm (by rw [f2]; exact g2') g1'⟩
          rcases List.mem_cons.mp hx with rfl | hx' <;> rcases List.mem_cons.mp hy with rfl | hy'
          · exact absurd rfl hxy
          · exact .inl (first y hy' e1 e2)
          · exact .inl (first x hx' e1.symm e2.symm)
          · exact .inr (ih x y hs.2 hx' hy' hxy e1 e2)
    exact key cs _ _ hsort ma mb hne rfl rfl
  unfold fromCrossings
  rw [hdiv, ok_bind]
  simp only
  unfold assemble
  rw [if_pos hd]

example (qs : QSort) : fromCrossings (fun a b : Int => decide (a = b)) qs 1 (33, 66) [⟨0, 0, 10, 40, 1⟩, ⟨0, 0, 50, 10, 1⟩] = .ok none :=
  C74_same_place _ (by simp) qs 1 (33, 66) _
    (by
      intro a c s h
      have h1 : ∀ t ∈ strands ([⟨0, 0, 10, 40, 1⟩, ⟨0, 0, 50, 10, 1⟩] : List (Crossing Int)), t.cmp < 1 := by decide +kernel
      exact h1 ⟨a.1, c, s, a.2⟩ (mem_strands.mpr h))
    (by
      intro c hc
      exact ⟨(0, false), 10, _, rfl, by simp; omega⟩)
    (0, false) (1, true) 0 10 ⟨_, rfl, by simp⟩ ⟨_, rfl, by simp⟩ (by decide)

/-- With a tolerance, the comparison of strands is not consistent: three strands, each of the first two at the same place as the next
one, and the third one before the first. -/
theorem C74_comparison_inconsistent : ∃ x y z : Strand Int, strandCmp near2 x y = 0 ∧ strandCmp near2 y z = 0 ∧ strandCmp near2 x z < 0 :=
  ⟨⟨0, 0, 0, false⟩, ⟨1, 0, 1, false⟩, ⟨2, 0, 2, false⟩, by decide, by decide, by decide⟩

/-- The comparison of the entries of a component never calls two entries equal, not even an entry and itself. -/
theorem C74_never_equal (a : Nat × K) : refCmp a a = 1 := by simp [refCmp]

/-- Two circles, the first one with a curl, far from each other. -/
example (qs : QSort) : fromCrossings near2 qs 2 (33, 66) [⟨0, 0, 10, 40, 1⟩] = .error .die :=
  C74_missing_component near2 qs 2 (33, 66) [⟨0, 0, 10, 40, 1⟩] (by decide)
    (by
      intro a c s h
      have h1 : ∀ t ∈ strands ([⟨0, 0, 10, 40, 1⟩] : List (Crossing Int)), t.cmp < 2 := by decide +kernel
      exact h1 ⟨a.1, c, s, a.2⟩ (mem_strands.mpr h))
    1 (by decide)
    (by
      intro a s h
      have h1 : ∀ t ∈ strands ([⟨0, 0, 10, 40, 1⟩] : List (Crossing Int)), t.cmp ≠ 1 := by decide +kernel
      exact h1 ⟨a.1, 1, s, a.2⟩ (mem_strands.mpr h) rfl)

example (qs : QSort) : ∃ caps pd σ inn out, fromCrossings near2 qs 1 (33, 66) [] = .ok (some (caps, pd)) ∧
    Shows 1 [⟨0, 0, (33 : Int), 66, 1⟩] pd σ inn out ∧ PlaneDiagram pd.cross pd.edge ∧ ∀ q, pdOk q caps pd = .ok true := by
  obtain ⟨caps, pd, σ, inn, out, h⟩ := C74_no_crossings near2 near2_self qs (33, 66) (by decide) (by decide) (by decide)
  exact ⟨caps, pd, σ, inn, out, h⟩

end Plc
