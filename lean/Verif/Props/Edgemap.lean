import Verif.Proofs.Reorient2
import Verif.Proofs.Std
import Batteries.Lean.Except

/-! # C29, C30: reversing a component; composing edge maps -/

namespace Plc

open Plc.Core Plc.Cmp Plc.PermM Plc.Faces Plc.Strands Plc.Emap List

/-! ## C29 -/

/-- **C29.** `pd_reorient_component` with the negative orientation, on a connected plane diagram whose
components are numbered as `pd_regenerate` leaves them. It returns. The result is the same diagram with
other names: edge `j` of the component becomes edge `n - j` (edge 0 stays), and exactly the edges of the
component are turned around. The sign changes exactly at crossings of this component with others. The
result is again consistent, oriented, numbered by the same component records, connected and plane, and
has fresh faces. -/
theorem C29_reorient_component (qs : QSort) (bs : BSearch) (maxfaces : Nat) (cross : List Cross)
    (edge : List Edge) (comps : List Comp) (hC : Consistent cross edge)
    (hO : Oriented cross edge) (h0 : cross ≠ []) (hsmall : 2 * edge.length < 2 ^ 31)
    (hroom : cross.length + 2 ≤ maxfaces) (hcon : Connected cross edge) (hP : PlaneFaces cross edge)
    (hN : Numbered cross edge comps) (cmp : Nat) (K : Comp) (hK : comps[cmp]? = some K) :
    ∃ (cross' : List Cross) (edge' : List Edge) (faces : List Face) (τ σ ρ : Nat → Nat),
      reorientComponent qs bs maxfaces cross edge comps cmp .neg = .ok (cross', edge', some faces) ∧
      regenFaces qs maxfaces cross' edge' = .ok faces ∧
      Renamed cross edge cross' edge' τ σ ρ (fun e => decide (e ∈ K.edge)) ∧
      (∀ (j e : Nat), K.edge[j]? = some e → K.edge[(K.edge.length - j) % K.edge.length]? = some (τ e)) ∧
      (∀ e, e ∉ K.edge → τ e = e) ∧
      (∀ (c : Nat) (x x' : Cross), cross[c]? = some x → cross'[σ c]? = some x' →
        (MeetsOther cross K.edge c → x'.sign = flipSign x.sign) ∧
        (¬ MeetsOther cross K.edge c → x'.sign = x.sign)) ∧
      Consistent cross' edge' ∧ Oriented cross' edge' ∧ Numbered cross' edge' comps ∧
      Connected cross' edge' ∧ PlaneFaces cross' edge' := by
  obtain ⟨a, ha, hal⟩ := comp_range hN (List.mem_of_getElem? hK)
  obtain ⟨cross', edge', faces, σ, ρ, h1, h2, h3, h4, h5, h6, h7⟩ :=
    reorient_ok qs bs hC hO h0 hsmall hroom hcon hP hN hK ha
  have hmem : ∀ x, x ∈ K.edge ↔ a ≤ x ∧ x < a + K.edge.length := by
    intro x
    rw [ha]; simp
  have hget : ∀ j, j < K.edge.length → K.edge[j]? = some (a + j) := by
    intro j hj
    rw [ha, List.getElem?_range' hj]; simp
  refine ⟨cross', edge', faces, _, σ, ρ, h1, h2, h3, ?_, ?_, h4, h3.consistent hC, h3.oriented hC hO h6, h7,
    h3.connected hcon, h3.plane hC hP⟩
  · intro j e he
    have hj := (List.getElem?_eq_some_iff.mp he).1
    rw [hget j hj] at he
    cases he
    rw [hget _ (Nat.mod_lt _ (by omega))]
    congr 1
    unfold around
    by_cases hj0 : j = 0
    · subst hj0
      rw [if_neg (by omega)]
      simp
    · rw [if_pos (by omega), Nat.mod_eq_of_lt (by omega)]
      omega
  · intro e he
    rw [hmem] at he
    unfold around
    rw [if_neg (by omega)]

/-- **C29, nothing is done for the positive orientation.** -/
theorem C29_reorient_positive (qs : QSort) (bs : BSearch) (maxfaces : Nat) (cross : List Cross)
    (edge : List Edge) (comps : List Comp) (cmp : Nat) (h : cmp < comps.length) (o : Or) (ho : o ≠ .neg) :
    reorientComponent qs bs maxfaces cross edge comps cmp o = .ok (cross, edge, none) := by
  unfold reorientComponent
  rw [assertC_ok (by simpa using h), ok_bind, if_neg ho]

theorem Emap.meets_renamed {cross cross' : List Cross} {edge edge' : List Edge} {K : List Nat} {τ σ ρ : Nat → Nat}
    {rev : Nat → Bool} (h : Renamed cross edge cross' edge' τ σ ρ rev) (hτ : ∀ e, e ∈ K ↔ τ e ∈ K) {c : Nat}
    (hc : c < cross.length) : MeetsOther cross' K (σ c) ↔ MeetsOther cross K c := by
  have fwd : ∀ (Q : Nat → Prop) (Q' : Nat → Prop), (∀ e, Q e ↔ Q' (τ e)) →
      ((∃ k e, slot cross' (σ c) k = some e ∧ Q' e) ↔ (∃ k e, slot cross c k = some e ∧ Q e)) := by
    intro Q Q' hQ
    constructor
    · rintro ⟨k, e, h1, h2⟩
      obtain ⟨hk, x', hx', rfl⟩ := slot_eq_some.mp h1
      obtain ⟨x2, hx2, hat⟩ := h.cross c cross[c] (List.getElem?_eq_getElem hc)
      rw [hx'] at hx2
      cases hx2
      rw [hat, ← hQ] at h2
      refine ⟨(k + ρ c) % 4, _, slot_eq_some.mpr ⟨Nat.mod_lt _ (by decide), _, List.getElem?_eq_getElem hc, rfl⟩, ?_⟩
      rwa [← at_lt]
    · rintro ⟨k, e, h1, h2⟩
      exact ⟨_, _, h.slot h1, (hQ e).mp h2⟩
  unfold MeetsOther
  rw [fwd (· ∈ K) (· ∈ K) hτ, fwd (· ∉ K) (· ∉ K) (fun e => not_congr (hτ e))]

theorem Emap.twice (qs : QSort) (bs : BSearch) {maxfaces : Nat} {cross : List Cross}
    {edge : List Edge} {comps : List Comp} (hC : Consistent cross edge)
    (hO : Oriented cross edge) (h0 : cross ≠ []) (hsmall : 2 * edge.length < 2 ^ 31)
    (hroom : cross.length + 2 ≤ maxfaces) (hcon : Connected cross edge) (hP : PlaneFaces cross edge)
    (hN : Numbered cross edge comps) {cmp : Nat} {K : Comp} (hK : comps[cmp]? = some K) :
    ∃ (cross' cross'' : List Cross) (edge' edge'' : List Edge) (faces' faces'' : List Face) (τ σ ρ : Nat → Nat),
      reorientComponent qs bs maxfaces cross edge comps cmp .neg = .ok (cross', edge', some faces') ∧
      reorientComponent qs bs maxfaces cross' edge' comps cmp .neg = .ok (cross'', edge'', some faces'') ∧
      regenFaces qs maxfaces cross'' edge'' = .ok faces'' ∧
      Renamed cross edge cross'' edge'' τ σ ρ (fun _ => false) ∧ (∀ e, τ e = e) ∧
      SignsBy (fun _ s => s) cross cross'' σ ∧ Sorted cross'' := by
  obtain ⟨a, ha, hal⟩ := comp_range hN (List.mem_of_getElem? hK)
  obtain ⟨cross', edge', faces, σ, ρ, h1, h2, h3, h4, h5, h6, h7⟩ :=
    reorient_ok qs bs hC hO h0 hsmall hroom hcon hP hN hK ha
  have hc0 : cross' ≠ [] := by
    rw [← List.length_pos_iff, h3.len]
    exact List.length_pos_iff.mpr h0
  obtain ⟨cross'', edge'', faces'', σ', ρ', g1, g2, g3, g4, g5, g6, g7⟩ :=
    reorient_ok qs bs (maxfaces := maxfaces) (h3.consistent hC) (h3.oriented hC hO h6) hc0
      (by rw [h3.elen]; exact hsmall) (by rw [h3.len]; exact hroom) (h3.connected hcon) (h3.plane hC hP) h7 hK ha
  have hmem : ∀ x, x ∈ K.edge ↔ around a K.edge.length x ∈ K.edge := by
    intro x
    have : ∀ x, x ∈ K.edge ↔ a ≤ x ∧ x < a + K.edge.length := by
      intro x
      rw [ha]; simp
    rw [this, this]
    unfold around
    split <;> omega
  have hR := h3.trans g3 hC
  have hrev : (fun e => xor (decide (e ∈ K.edge)) (decide (around a K.edge.length e ∈ K.edge))) = fun _ => false := by
    funext e
    by_cases h : e ∈ K.edge
    · simp [h, (hmem e).mp h]
    · simp [h, mt (hmem e).mpr h]
  simp only [hrev] at hR
  refine ⟨cross', cross'', edge', edge'', faces, faces'', _, _, _, h1, g1, g2, hR, fun e => around_around _ _ _, ?_, g5⟩
  intro c x x'' hx hx''
  have hc := (List.getElem?_eq_some_iff.mp hx).1
  obtain ⟨x', hx', _⟩ := h3.cross c x hx
  obtain ⟨f1, f2⟩ := h4 c x x' hx hx'
  obtain ⟨k1, k2⟩ := g4 (σ c) x' x'' hx' hx''
  have hm := meets_renamed h3 hmem hc
  by_cases h : MeetsOther cross K.edge c
  · rw [k1 (hm.mpr h), f1 h]
    cases x.sign <;> rfl
  · rw [k2 (mt hm.mp h), f2 h]

/-- **C29, twice.** Reversing the same component again gives the original diagram, with the same edge
names, orientations and signs; only crossings may have other numbers and starting places. -/
theorem C29_reorient_twice (qs : QSort) (bs : BSearch) (maxfaces : Nat) (cross : List Cross)
    (edge : List Edge) (comps : List Comp) (hC : Consistent cross edge)
    (hO : Oriented cross edge) (h0 : cross ≠ []) (hsmall : 2 * edge.length < 2 ^ 31)
    (hroom : cross.length + 2 ≤ maxfaces) (hcon : Connected cross edge) (hP : PlaneFaces cross edge)
    (hN : Numbered cross edge comps) (cmp : Nat) (K : Comp) (hK : comps[cmp]? = some K) :
    ∃ (cross' cross'' : List Cross) (edge' edge'' : List Edge) (faces' faces'' : List Face) (σ ρ : Nat → Nat),
      reorientComponent qs bs maxfaces cross edge comps cmp .neg = .ok (cross', edge', some faces') ∧
      reorientComponent qs bs maxfaces cross' edge' comps cmp .neg = .ok (cross'', edge'', some faces'') ∧
      cross''.length = cross.length ∧ edge''.length = edge.length ∧
      (∀ c, c < cross.length → σ c < cross.length) ∧
      (∀ c d, c < cross.length → d < cross.length → σ c = σ d → c = d) ∧
      (∀ (c : Nat) (x : Cross), cross[c]? = some x → ∃ x', cross''[σ c]? = some x' ∧
        (∀ k, x'.at k = x.at (k + ρ c)) ∧ x'.sign = x.sign) ∧
      (∀ (e : Nat) (r : Edge), edge[e]? = some r → edge''[e]? =
        some ⟨σ r.head, (r.headpos + 4 - ρ r.head) % 4, σ r.tail, (r.tailpos + 4 - ρ r.tail) % 4⟩) := by
  obtain ⟨cross', cross'', edge', edge'', faces', faces'', τ, σ, ρ, h1, h2, h3, h4, h5, h6, h7⟩ :=
    twice qs bs hC hO h0 hsmall hroom hcon hP hN hK
  refine ⟨cross', cross'', edge', edge'', faces', faces'', σ, ρ, h1, h2, h4.len, h4.elen, h4.slt, h4.sinj, ?_, ?_⟩
  · intro c x hx
    obtain ⟨x', g1, g2⟩ := h4.cross c x hx
    refine ⟨x', g1, fun k => ?_, h6 c x x' hx g1⟩
    rw [g2, h5]
  · intro e r hr
    have := h4.edge e r hr
    rw [h5] at this
    exact this

/-- **C29, twice, exactly.** If the crossings are in canonical order, reversing a component twice gives
back exactly the same crossing and edge records. -/
theorem C29_reorient_involution (qs : QSort) (bs : BSearch) (maxfaces : Nat) (cross : List Cross)
    (edge : List Edge) (comps : List Comp) (hC : Consistent cross edge)
    (hO : Oriented cross edge) (h0 : cross ≠ []) (hsmall : 2 * edge.length < 2 ^ 31)
    (hroom : cross.length + 2 ≤ maxfaces) (hcon : Connected cross edge) (hP : PlaneFaces cross edge)
    (hN : Numbered cross edge comps) (hcan : Canonical cross) (cmp : Nat) (K : Comp) (hK : comps[cmp]? = some K) :
    ∃ (cross' : List Cross) (edge' : List Edge) (faces' faces : List Face),
      reorientComponent qs bs maxfaces cross edge comps cmp .neg = .ok (cross', edge', some faces') ∧
      reorientComponent qs bs maxfaces cross' edge' comps cmp .neg = .ok (cross, edge, some faces) ∧
      regenFaces qs maxfaces cross edge = .ok faces := by
  obtain ⟨cross', cross'', edge', edge'', faces', faces'', τ, σ, ρ, h1, h2, h3, h4, h5, h6, h7⟩ :=
    twice qs bs hC hO h0 hsmall hroom hcon hP hN hK
  obtain ⟨rfl, rfl⟩ := canon_of_renamed hC hcan (by omega) h4 (fun e _ => h5 e) h6 h7
  exact ⟨cross', edge', faces', faces'', h1, h2, h3⟩

/-- **C29, renumbering.** `pd_renumber_component` with offset `ofs`: new edge `j` of the component is old
edge `j + ofs`, cyclically; all else stays, up to crossing numbers and starting places. -/
theorem C29_renumber_component (qs : QSort) (bs : BSearch) (maxfaces : Nat) (cross : List Cross)
    (edge : List Edge) (comps : List Comp) (hC : Consistent cross edge)
    (hO : Oriented cross edge) (h0 : cross ≠ []) (hsmall : 2 * edge.length < 2 ^ 31)
    (hroom : cross.length + 2 ≤ maxfaces) (hcon : Connected cross edge) (hP : PlaneFaces cross edge)
    (hN : Numbered cross edge comps) (cmp : Nat) (K : Comp) (hK : comps[cmp]? = some K) (ofs : Nat)
    (hofs : ofs ≠ 0) :
    ∃ (cross' : List Cross) (edge' : List Edge) (faces : List Face) (τ σ ρ : Nat → Nat),
      renumberComponent qs bs maxfaces cross edge comps cmp ofs = .ok (cross', edge', some faces) ∧
      regenFaces qs maxfaces cross' edge' = .ok faces ∧
      Renamed cross edge cross' edge' τ σ ρ (fun _ => false) ∧
      (∀ (j e e' : Nat), K.edge[j]? = some e → K.edge[(j + ofs) % K.edge.length]? = some e' → τ e' = e) ∧
      (∀ e, e < edge.length → e ∉ K.edge → τ e = e) ∧
      (∀ (c : Nat) (x x' : Cross), cross[c]? = some x → cross'[σ c]? = some x' → x'.sign = x.sign) ∧
      Consistent cross' edge' ∧ Oriented cross' edge' ∧ Numbered cross' edge' comps := by
  obtain ⟨a, ha, hal⟩ := comp_range hN (List.mem_of_getElem? hK)
  obtain ⟨cross', edge', faces, τ, σ, ρ, h1, h2, h3, h4, h5, h6, h7⟩ :=
    renumber_ok qs bs hC hO h0 hsmall hroom hcon hP hN hK ha ofs hofs
  have hmem : ∀ x, x ∈ K.edge ↔ a ≤ x ∧ x < a + K.edge.length := by
    intro x
    rw [ha]; simp
  have hget : ∀ j, j < K.edge.length → K.edge[j]? = some (a + j) := by
    intro j hj
    rw [ha, List.getElem?_range' hj]; simp
  refine ⟨cross', edge', faces, τ, σ, ρ, h1, h2, h4, ?_, ?_, h5, h4.consistent hC,
    h4.oriented hC hO (fun _ _ _ => rfl), h7⟩
  · intro j e e' he he'
    have hj := (List.getElem?_eq_some_iff.mp he).1
    rw [hget j hj] at he
    rw [hget _ (Nat.mod_lt _ (by omega))] at he'
    cases he
    cases he'
    have := h3 (a + j) (by omega)
    unfold shiftBy at this
    rwa [if_pos (by omega), Nat.add_sub_cancel_left] at this
  · intro e he hne
    have := h3 e he
    rw [hmem] at hne
    unfold shiftBy at this
    rwa [if_neg (by omega)] at this

/-! The Hopf link meets the hypotheses. -/

def hopf3 : List Cross := [⟨0, 2, 1, 3, .pos⟩, ⟨0, 3, 1, 2, .pos⟩]
def hopf3Edge : List Edge := [⟨0, 0, 1, 0⟩, ⟨1, 2, 0, 2⟩, ⟨1, 3, 0, 1⟩, ⟨0, 3, 1, 1⟩]
def hopf3Comps : List Comp := [⟨[0, 1], 65⟩, ⟨[2, 3], 66⟩]

example : Consistent hopf3 hopf3Edge ∧ Oriented hopf3 hopf3Edge := by decide

theorem Emap.hopf3_numbered : Numbered hopf3 hopf3Edge hopf3Comps where
  all := rfl
  ne := by decide
  follows := by
    have h1 : ∀ e ∈ [0, 1, 2, 3], Follows hopf3 hopf3Edge e (e + 1 - 2 * (e % 2)) := by
      intro e he
      simp only [List.mem_cons, List.not_mem_nil, or_false] at he
      rcases he with rfl | rfl | rfl | rfl <;> exact ⟨_, rfl, by decide⟩
    intro c hc j e he
    have hj := (List.getElem?_eq_some_iff.mp he).1
    simp only [hopf3Comps, List.mem_cons, List.not_mem_nil, or_false] at hc
    rcases hc with rfl | rfl <;> (match j, hj with | 0, _ => ?_ | 1, _ => ?_) <;> simp at he <;> subst he
    · exact ⟨1, rfl, h1 0 (by decide)⟩
    · exact ⟨0, rfl, h1 1 (by decide)⟩
    · exact ⟨3, rfl, h1 2 (by decide)⟩
    · exact ⟨2, rfl, h1 3 (by decide)⟩

example : Canonical hopf3 := ⟨by decide, by decide, by decide⟩

example : Connected hopf3 hopf3Edge := by
  intro c d hc hd
  have h01 : Joined hopf3Edge 0 1 := ⟨⟨0, 0, 1, 0⟩, by decide, Or.inl ⟨rfl, rfl⟩⟩
  have h10 : Joined hopf3Edge 1 0 := ⟨⟨0, 0, 1, 0⟩, by decide, Or.inr ⟨rfl, rfl⟩⟩
  have : hopf3.length = 2 := rfl
  match c, d, hc, hd with
  | 0, 0, _, _ => exact .refl
  | 0, 1, _, _ => exact .single h01
  | 1, 0, _, _ => exact .single h10
  | 1, 1, _, _ => exact .refl

theorem Emap.hopf3_two : ∀ d ∈ D hopf3Edge, (nd hopf3 hopf3Edge)^[2] d = d := by decide

example : PlaneFaces hopf3 hopf3Edge := by
  have hC : Consistent hopf3 hopf3Edge := by decide
  refine ⟨[(0, .pos), (0, .neg), (1, .pos), (1, .neg)], rfl, by decide, ?_, ?_⟩
  · have : ∀ x ∈ ([(0, .pos), (0, .neg), (1, .pos), (1, .neg)] : List Dart), ∀ y,
        Relation.ReflTransGen (Turns hopf3Edge) x y ↔
        y ∈ (List.range 2).map (fun i => (nd hopf3 hopf3Edge)^[i] x) := by
      intro x hx y
      have hD : x ∈ D hopf3Edge := by revert x; decide
      exact reach_range hC hD (by decide) (hopf3_two x hD)
    refine List.Pairwise.imp_of_mem (R := fun x y => y ∉ (List.range 2).map
      (fun i => (nd hopf3 hopf3Edge)^[i] x)) ?_ (by decide)
    intro x y hx _ h
    rwa [this x hx]
  · intro s hs
    have : ∃ r ∈ ([(0, .pos), (0, .neg), (1, .pos), (1, .neg)] : List Dart), r ∈ D hopf3Edge ∧
        s ∈ (List.range 2).map (fun i => (nd hopf3 hopf3Edge)^[i] r) := by
      revert s; decide
    obtain ⟨r, h1, h2, h3⟩ := this
    exact ⟨r, h1, (reach_range hC h2 (by decide) (hopf3_two r h2)).mpr h3⟩

/-! ## C30 -/

/-- A signed permutation: what `pd_edgemap_t` stores. -/
structure SignedPerm (n : Nat) (m : EMap) : Prop where
  map : m.perm.map ~ List.range n
  len : m.orient.length = n
  signs : ∀ o ∈ m.orient, o = .pos ∨ o = .neg

/-- What an edge map does to an edge with a direction. -/
def sends (m : EMap) (e : Nat) (o : Or) : Option (Nat × Or) :=
  match m.perm.map[e]?, m.orient[e]? with
  | some x, some q => some (x, if q = .neg then flipSign o else o)
  | _, _ => none

theorem Emap.composeOr_ok {a b : Or} (ha : a = .pos ∨ a = .neg) (hb : b = .pos ∨ b = .neg) :
    ∃ c, Iters.composeOr a b = .ok c ∧ (c = .pos ∨ c = .neg) ∧ (c = .neg ↔ ¬ (a = .neg ↔ b = .neg)) := by
  rcases ha with rfl | rfl <;> rcases hb with rfl | rfl
  · exact ⟨.pos, rfl, Or.inl rfl, by decide⟩
  · exact ⟨.neg, rfl, Or.inr rfl, by decide⟩
  · exact ⟨.neg, rfl, Or.inr rfl, by decide⟩
  · exact ⟨.pos, rfl, Or.inl rfl, by decide⟩

theorem Emap.composeLoop_ok {n : Nat} {A : EMap} (hA : SignedPerm n A) : ∀ (bs : List Nat) (os : List Or),
    bs.length = os.length → (∀ b ∈ bs, b < n) → (∀ o ∈ os, o = .pos ∨ o = .neg) →
    ∃ m o, composeLoop A bs os = .ok (m, o) ∧ m = bs.map (ap A.perm.map) ∧ o.length = os.length ∧
      (∀ q ∈ o, q = .pos ∨ q = .neg) ∧
      ∀ i (h1 : i < o.length) (h2 : i < os.length) (h3 : i < bs.length), ∃ q, A.orient[bs[i]]? = some q ∧
        (o[i] = .neg ↔ ¬ (os[i] = .neg ↔ q = .neg))
  | [], [], _, _, _ => ⟨[], [], rfl, rfl, rfl, by simp, by simp⟩
  | [], _ :: _, h, _, _ => by simp at h
  | _ :: _, [], h, _, _ => by simp at h
  | b :: bs, o :: os, h, hb, ho => by
    obtain ⟨m, q, g1, g2, g3, g4, g5⟩ := composeLoop_ok hA bs os (by simpa using h) (fun x hx => hb x (by simp [hx]))
      (fun x hx => ho x (by simp [hx]))
    have hbn := hb b (by simp)
    have hAl : A.perm.map.length = n := by simpa using hA.map.length_eq
    have h1 : b < A.perm.map.length := by omega
    have h2 : b < A.orient.length := by rw [hA.len]; exact hbn
    obtain ⟨c, c1, c2, c3⟩ := composeOr_ok (ho o (by simp)) (hA.signs A.orient[b] (List.getElem_mem h2))
    refine ⟨A.perm.map[b] :: m, c :: q, ?_, ?_, by simp [g3], ?_, ?_⟩
    · unfold composeLoop
      rw [rd_lt h1, ok_bind, rd_lt h2, ok_bind, c1, ok_bind, g1, ok_bind]
    · rw [List.map_cons, ap_lt h1, g2]
    · intro x hx
      rcases List.mem_cons.mp hx with rfl | hx
      · exact c2
      · exact g4 x hx
    · intro i i1 i2 i3
      cases i with
      | zero => exact ⟨A.orient[b], List.getElem?_eq_getElem h2, c3⟩
      | succ i => exact g5 i (by simpa using i1) (by simpa using i2) (by simpa using i3)

theorem Emap.composeE_ok {n : Nat} {A B : EMap} (hA : SignedPerm n A) (hB : SignedPerm n B) :
    ∃ C, composeE A B = .ok C ∧ SignedPerm n C ∧ C.perm.pc = 0 ∧ C.perm.map = B.perm.map.map (ap A.perm.map) ∧
      ∀ i, i < n → ∃ p q r, B.orient[i]? = some p ∧ A.orient[ap B.perm.map i]? = some q ∧ C.orient[i]? = some r ∧
        (r = .neg ↔ ¬ (p = .neg ↔ q = .neg)) := by
  have hAl : A.perm.map.length = n := by simpa using hA.map.length_eq
  have hBl : B.perm.map.length = n := by simpa using hB.map.length_eq
  obtain ⟨m, o, g1, g2, g3, g4, g5⟩ := composeLoop_ok hA B.perm.map B.orient (by rw [hB.len, hBl])
    (fun b hb => List.mem_range.mp (hB.map.mem_iff.mp hb)) hB.signs
  have hv : m ~ List.range n := by
    have := compose_valid (A := A.perm.map) (B := B.perm.map) (by rw [hAl]; exact hA.map)
      (by rw [hBl]; exact hB.map) (by rw [hAl, hBl])
    rw [g2]
    rwa [hAl] at this
  refine ⟨⟨⟨m, 0⟩, o⟩, ?_, ⟨hv, by rw [g3, hB.len], g4⟩, rfl, g2, ?_⟩
  · unfold composeE
    rw [assertC_ok (by simp [Perm.n, hAl, hBl]), ok_bind, g1, ok_bind]
  · intro i hi
    have i1 : i < o.length := by rw [g3, hB.len]; exact hi
    have i2 : i < B.orient.length := by rw [hB.len]; exact hi
    have i3 : i < B.perm.map.length := by rw [hBl]; exact hi
    obtain ⟨q, h1, h2⟩ := g5 i i1 i2 i3
    refine ⟨_, q, _, List.getElem?_eq_getElem i2, ?_, List.getElem?_eq_getElem i1, h2⟩
    rw [ap_lt i3]; exact h1

/-- **C30, composition.** On signed permutations of the same size `pd_compose_edgemaps` returns a signed
permutation; it sends an edge with a direction where `A` sends what `B` sends it to. -/
theorem C30_compose (n : Nat) (A B : EMap) (hA : SignedPerm n A) (hB : SignedPerm n B) :
    ∃ C, composeE A B = .ok C ∧ SignedPerm n C ∧
      ∀ e, e < n → ∀ o, ∃ x q, sends B e o = some (x, q) ∧ x < n ∧ sends C e o = sends A x q ∧ (sends A x q).isSome := by
  have hAl : A.perm.map.length = n := by simpa using hA.map.length_eq
  have hBl : B.perm.map.length = n := by simpa using hB.map.length_eq
  obtain ⟨C, h1, h2, _, h3, h4⟩ := composeE_ok hA hB
  refine ⟨C, h1, h2, ?_⟩
  intro e he o
  obtain ⟨p, q, r, a1, a2, a3, a4⟩ := h4 e he
  have e1 : B.perm.map[e]? = some (ap B.perm.map e) := by
    rw [ap_lt (by omega), List.getElem?_eq_getElem]
  have hx : ap B.perm.map e < n := by
    rw [ap_lt (by omega)]
    exact List.mem_range.mp (hB.map.mem_iff.mp (List.getElem_mem (by omega)))
  have e2 : A.perm.map[ap B.perm.map e]? = some (ap A.perm.map (ap B.perm.map e)) := by
    rw [ap_lt (A := A.perm.map) (by omega), List.getElem?_eq_getElem]
  have e3 : C.perm.map[e]? = some (ap A.perm.map (ap B.perm.map e)) := by
    rw [h3, List.getElem?_map, e1]; rfl
  refine ⟨_, if p = .neg then flipSign o else o, ?_, hx, ?_, ?_⟩
  · unfold sends
    rw [e1, a1]
  · unfold sends
    rw [e2, e3, a2, a3]
    simp only [Option.some.injEq, Prod.mk.injEq, true_and]
    have hff : flipSign (flipSign o) = o := by cases o <;> rfl
    by_cases hp : p = .neg <;> by_cases hq : q = .neg <;> by_cases hr : r = .neg <;>
      simp only [hp, hq, hr, if_true, if_false, hff] <;> simp [hp, hq, hr] at a4
  · unfold sends
    rw [e2, a2]
    rfl

theorem Emap.xor_assoc {r1 r2 p q s t u : Prop} (h1 : r1 ↔ ¬ (t ↔ q)) (h2 : t ↔ ¬ (p ↔ s)) (h3 : r2 ↔ ¬ (p ↔ u))
    (h4 : u ↔ ¬ (s ↔ q)) : r1 ↔ r2 := by
  rw [h1, h2, h3, h4]
  by_cases p <;> by_cases q <;> by_cases s <;> simp [*]

/-- **C30, associativity.** -/
theorem C30_associative (n : Nat) (A B C : EMap) (hA : SignedPerm n A) (hB : SignedPerm n B) (hC : SignedPerm n C) :
    ∃ D E F, composeE A B = .ok D ∧ composeE B C = .ok E ∧ composeE D C = .ok F ∧ composeE A E = .ok F := by
  obtain ⟨D, d1, d2, _, d3, d4⟩ := composeE_ok hA hB
  obtain ⟨E, e1, e2, _, e3, e4⟩ := composeE_ok hB hC
  obtain ⟨F, f1, f2, fp, f3, f4⟩ := composeE_ok d2 hC
  obtain ⟨G, g1, g2, gp, g3, g4⟩ := composeE_ok hA e2
  refine ⟨D, E, F, d1, e1, f1, ?_⟩
  rw [g1]
  congr 1
  have hBl : B.perm.map.length = n := by simpa using hB.map.length_eq
  have hCl : C.perm.map.length = n := by simpa using hC.map.length_eq
  have hDl : D.perm.map.length = n := by simpa using d2.map.length_eq
  have hcx : ∀ i, i < n → ap C.perm.map i < n := by
    intro i hi
    rw [ap_lt (by omega)]
    exact List.mem_range.mp (hC.map.mem_iff.mp (List.getElem_mem (by omega)))
  have hD : ∀ x, x < n → ap D.perm.map x = ap A.perm.map (ap B.perm.map x) := by
    intro x hx
    rw [ap_lt (by omega)]
    simp only [d3, List.getElem_map]
    rw [ap_lt (A := B.perm.map) (by omega)]
  have hE : ∀ x, x < n → ap E.perm.map x = ap B.perm.map (ap C.perm.map x) := by
    intro x hx
    have hEl : E.perm.map.length = n := by simpa using e2.map.length_eq
    rw [ap_lt (by omega)]
    simp only [e3, List.getElem_map]
    rw [ap_lt (A := C.perm.map) (by omega)]
  have hmap : G.perm.map = F.perm.map := by
    rw [g3, f3, e3, List.map_map]
    apply List.map_congr_left
    intro x hx
    rw [hD x (List.mem_range.mp (hC.map.mem_iff.mp hx))]
    rfl
  have hor : G.orient = F.orient := by
    apply List.ext_getElem?
    intro i
    by_cases hi : i < n
    · obtain ⟨p1, q1, r1, x1, x2, x3, x4⟩ := g4 i hi
      obtain ⟨p2, q2, r2, y1, y2, y3, y4⟩ := f4 i hi
      obtain ⟨p3, q3, r3, z1, z2, z3, z4⟩ := e4 i hi
      obtain ⟨p4, q4, r4, w1, w2, w3, w4⟩ := d4 (ap C.perm.map i) (hcx i hi)
      rw [x1] at z3
      rw [y1] at z1
      rw [y2] at w3
      rw [z2] at w1
      rw [hE i hi, w2] at x2
      cases z3; cases z1; cases w3; cases w1; cases x2
      rw [x3, y3]
      congr 1
      have s1 := g2.signs r1 (List.mem_of_getElem? x3)
      have s2 := f2.signs r2 (List.mem_of_getElem? y3)
      have hxor := xor_assoc x4 z4 y4 w4
      clear * - s1 s2 hxor
      rcases s1 with rfl | rfl <;> rcases s2 with rfl | rfl <;> simp_all
    · rw [List.getElem?_eq_none (by rw [g2.len]; omega), List.getElem?_eq_none (by rw [f2.len]; omega)]
  have h5 : G.perm = F.perm := by
    cases hg : G.perm; cases hf : F.perm
    simp_all
  cases G; cases F
  simp_all

/-- **C30, in place.** `pd_stareq_edgemap` leaves in `A` the map and orientations of `A * B`, and the cached
index of `A`. -/
theorem C30_stareq (A B C : EMap) (h : composeE A B = .ok C) :
    ∃ D, stareqE A B = .ok D ∧ D.perm.map = C.perm.map ∧ D.orient = C.orient ∧ D.perm.pc = A.perm.pc := by
  unfold stareqE
  rw [h, ok_bind]
  exact ⟨_, rfl, rfl, rfl, rfl⟩

/-- **C30, validity is preserved only in part.** `pd_edgemap_ok` accepts a composite of signed permutations
exactly when it has more than six edges or its permutation is the identity: the cached index of the new
permutation is never computed. The claim asks for all composites. -/
theorem C30_composite_ok_partial (n : Nat) (h1 : 1 ≤ n) (A B : EMap) (hA : SignedPerm n A) (hB : SignedPerm n B) :
    ∃ C b, composeE A B = .ok C ∧ emapOk C = .ok b ∧ (b = true ↔ (6 < n ∨ C.perm.map = List.range n)) := by
  obtain ⟨C, h2, h3, h4, _⟩ := composeE_ok hA hB
  have hCn : C.perm.n = n := by unfold Perm.n; simpa using h3.map.length_eq
  obtain ⟨b, b1, b2⟩ := C07_perm_ok_exact C.perm (by omega)
    (fun _ => by rw [h4]; exact (Nat.factorial_pos _).ne)
  have hall : C.orient.all orOk = true := by
    rw [List.all_eq_true]
    intro o hoo
    rcases h3.signs o hoo with rfl | rfl <;> rfl
  refine ⟨C, b, h2, ?_, ?_⟩
  · unfold emapOk
    rw [b1, ok_bind, hall, Bool.and_true]
  · rw [b2, hCn, h4]
    constructor
    · rintro ⟨_, h6⟩
      by_cases hn : 6 < n
      · exact Or.inl hn
      · right
        have h7 := h6 (by omega)
        rw [List.length_eq_zero_iff, List.filter_eq_nil_iff] at h7
        have hmin : ¬ List.range n < C.perm.map := by
          have := h7 (List.range n) (by rw [List.mem_permutations])
          simpa using this
        -- a permutation is never before the identity
        by_contra hne
        apply hmin
        clear h7 h6 b2 b1 hmin
        have key : ∀ (k a : Nat) (l : List Nat), l ~ List.range' a k → l ≠ List.range' a k → List.range' a k < l := by
          intro k
          induction k with
          | zero => intro a l h1 h2; simp at h1; exact absurd h1 h2
          | succ k ih =>
            intro a l hl hne
            cases l with
            | nil => simp [List.range'] at hl
            | cons x l =>
              rw [List.range'_succ] at hl hne ⊢
              have hx : x ∈ a :: List.range' (a + 1) k := hl.mem_iff.mp (by simp)
              have : a ≤ x := by
                rcases List.mem_cons.mp hx with rfl | h
                · exact le_refl _
                · simp at h; omega
              rcases Nat.lt_or_eq_of_le this with h | h
              · exact List.Lex.rel h
              · subst h
                have h1 := (List.perm_cons a).mp hl
                exact List.Lex.cons (ih (a + 1) l h1 (fun h => hne (by rw [h])))
        rw [List.range_eq_range'] at hne ⊢
        exact key n 0 _ (by rw [← List.range_eq_range']; exact h3.map) hne
    · intro h
      refine ⟨h3.map, fun h6 => ?_⟩
      rcases h with h | h
      · omega
      · rw [h, List.length_eq_zero_iff, List.filter_eq_nil_iff]
        intro q hq hlt
        rw [List.mem_permutations] at hq
        have hlt : q < List.range n := by simpa using hlt
        have key : ∀ (k a : Nat) (l : List Nat), l ~ List.range' a k → ¬ l < List.range' a k := by
          intro k
          induction k with
          | zero => intro a l h1 h2; simp at h1; subst h1; exact absurd h2 (lt_irrefl _)
          | succ k ih =>
            intro a l hl hlt
            cases l with
            | nil => simp [List.range'] at hl
            | cons x l =>
              rw [List.range'_succ] at hl hlt
              have hx : x ∈ a :: List.range' (a + 1) k := hl.mem_iff.mp (by simp)
              have : a ≤ x := by
                rcases List.mem_cons.mp hx with rfl | h
                · exact le_refl _
                · simp at h; omega
              rcases List.cons_lt_cons_iff.mp hlt with h | ⟨rfl, h⟩
              · omega
              · exact ih (x + 1) l ((List.perm_cons x).mp hl) h
        rw [List.range_eq_range'] at hlt hq
        exact key n 0 q hq hlt

/-- **C30, the negation.** Two edge maps that `pd_edgemap_ok` accepts, whose composite it rejects; the same in
place. -/
theorem C30_composite_ok_false : ∃ A B C D : EMap, emapOk A = .ok true ∧ emapOk B = .ok true ∧
    composeE A B = .ok C ∧ emapOk C = .ok false ∧ stareqE A B = .ok D ∧ emapOk D = .ok false :=
  ⟨⟨⟨[0, 1], 0⟩, [.pos, .neg]⟩, ⟨⟨[1, 0], 1⟩, [.neg, .neg]⟩, ⟨⟨[1, 0], 0⟩, [.pos, .neg]⟩,
    ⟨⟨[1, 0], 0⟩, [.pos, .neg]⟩, by decide +kernel, by decide +kernel, by decide, by decide +kernel, by decide,
    by decide +kernel⟩

example : SignedPerm 3 ⟨⟨[2, 0, 1], 4⟩, [.pos, .neg, .neg]⟩ := ⟨by decide, by decide, by decide⟩
example : composeE ⟨⟨[2, 0, 1], 4⟩, [.pos, .neg, .neg]⟩ ⟨⟨[1, 0, 2], 2⟩, [.neg, .pos, .pos]⟩ =
    .ok ⟨⟨[0, 2, 1], 0⟩, [.pos, .pos, .neg]⟩ := by decide

end Plc
