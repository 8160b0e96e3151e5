import Verif.Proofs.CoreOk
import Verif.Proofs.Std
import Verif.Spec.Examples
import Mathlib.Data.List.Rotate
import Batteries.Lean.Except

/-! # C17, C18, C20, C23: crossing and edge records -/

namespace Plc

open Plc.Core Plc.Cmp

/-! ## C17: canonical crossing order -/

/-- The edges of a crossing read in a direction: forwards, or backwards for the negative
orientation. -/
def readCross (c : Cross) (o : Or) : List Nat :=
  if o = .neg then [c.e3, c.e2, c.e1, c.e0] else [c.e0, c.e1, c.e2, c.e3]

theorem Core.edges_rotL (c : Cross) (k : Nat) : edges (rotL c k) = (edges c).rotate k := by
  have h : ∀ k, k < 4 → edges (rotL c k) = (edges c).rotate k := by
    intro k hk
    match k, hk with
    | 0, _ => rfl
    | 1, _ => rfl
    | 2, _ => rfl
    | 3, _ => rfl
  rw [← rotL_mod, h _ (Nat.mod_lt _ (by decide))]
  exact List.rotate_mod (edges c) k

theorem Core.edges_inj {a b : Cross} (h : edges a = edges b) (hs : a.sign = b.sign) : a = b := by
  cases a; cases b
  simp_all [edges]

/-- The crossing before it is rotated. -/
theorem Core.canon_eq (c : Cross) (o : Or) : ∃ d : Cross, edges d = readCross c o ∧
    d.sign = c.sign ∧ canonorderCross c o = rotL d (rdist d) := by
  refine ⟨if o = .neg then ⟨c.e3, c.e2, c.e1, c.e0, c.sign⟩ else c, ?_, ?_, rfl⟩
  · unfold readCross; split <;> rfl
  · split <;> rfl

/-- C17, the result is a rotation: `pd_canonorder_cross` rotates the crossing, read in the
asked direction, so that it begins with a smallest edge; the sign is kept. -/
theorem C17_canonorder_rotation (c : Cross) (o : Or) :
    edges (canonorderCross c o) ~r readCross c o ∧
    (canonorderCross c o).sign = c.sign ∧
    (∀ x ∈ [c.e0, c.e1, c.e2, c.e3], (canonorderCross c o).e0 ≤ x) := by
  obtain ⟨d, h1, h2, h3⟩ := Core.canon_eq c o
  rw [h3]
  refine ⟨?_, by rw [← h2]; rfl, ?_⟩
  · rw [Core.edges_rotL, h1]
    exact List.IsRotated.symm ⟨_, rfl⟩
  · intro x hx
    have hx' : x ∈ edges d := by
      rw [h1]; unfold readCross
      split
      · simp only [List.mem_cons, List.not_mem_nil, or_false] at hx ⊢; tauto
      · exact hx
    obtain ⟨k, _, rfl⟩ := edges_mem hx'
    show (rotL d (rdist d)).at 0 ≤ _
    rw [rotL_at, Nat.zero_add]
    exact (rdist_full d).2.1 k

/-- No smallest edge of the crossing faces itself across the crossing. True in particular
when the four edges are distinct. -/
def LowNotOpposite (c : Cross) : Prop :=
  ¬ (c.e0 = c.e2 ∧ c.e0 ≤ c.e1 ∧ c.e0 ≤ c.e3) ∧ ¬ (c.e1 = c.e3 ∧ c.e1 ≤ c.e0 ∧ c.e1 ≤ c.e2)

instance (c : Cross) : Decidable (LowNotOpposite c) := by unfold LowNotOpposite; infer_instance

theorem Core.low_spec {d : Cross} (h : ¬ (d.e0 = d.e2 ∧ d.e0 ≤ d.e1 ∧ d.e0 ≤ d.e3) ∧
    ¬ (d.e1 = d.e3 ∧ d.e1 ≤ d.e0 ∧ d.e1 ≤ d.e2)) {r : Nat} (hr : ∀ p, d.at r ≤ d.at p) :
    ∀ p, d.at p = d.at r → d.at (p + 2) ≠ d.at r := by
  intro p hp hq
  rw [← hp] at hr hq
  have h0 := hr 0; have h1 := hr 1; have h2 := hr 2; have h3 := hr 3
  rw [at_lt d p] at h0 h1 h2 h3 hq
  rw [at_lt d (p + 2)] at hq
  have : p % 4 = 0 ∨ p % 4 = 1 ∨ p % 4 = 2 ∨ p % 4 = 3 := by omega
  rcases this with e | e | e | e
  all_goals
    first
    | rw [e, show (p + 2) % 4 = 0 by omega] at hq
    | rw [e, show (p + 2) % 4 = 1 by omega] at hq
    | rw [e, show (p + 2) % 4 = 2 by omega] at hq
    | rw [e, show (p + 2) % 4 = 3 by omega] at hq
    rw [e] at h0 h1 h2 h3
    simp only [Cross.at, Nat.reduceMod] at h0 h1 h2 h3 hq
    omega

/-- Two rotations of one crossing become equal. -/
theorem Core.canon_unique {d d' : Cross} {k : Nat} (he : d' = rotL d k)
    (hl : ∀ r, (∀ p, d.at r ≤ d.at p) → ∀ p, d.at p = d.at r → d.at (p + 2) ≠ d.at r) :
    rotL d' (rdist d') = rotL d (rdist d) := by
  obtain ⟨a1, a2, a3⟩ := rdist_full d
  obtain ⟨b1, b2, b3⟩ := rdist_full d'
  have hl1 := hl _ a2
  have a3 := a3 hl1
  have at' : ∀ p, d'.at p = d.at (p + k) := fun p => by rw [he, rotL_at]
  have low' : d'.at (rdist d') = d.at (rdist d) := by
    apply Nat.le_antisymm
    · have := b2 (rdist d + 4 * k - k)
      rw [at' (rdist d + 4 * k - k), at_lt, at_lt d (rdist d + 4 * k - k + k),
        show (rdist d + 4 * k - k + k) % 4 = rdist d % 4 by omega, ← at_lt, ← at_lt] at this
      exact this
    · rw [at']; exact a2 _
  have b3 := b3 (by
    intro p hp
    rw [low', at'] at *
    rw [show p + 2 + k = p + k + 2 by omega]
    exact hl1 _ hp)
  rw [low', at'] at b3
  rw [at'] at low'
  -- the two starting places agree modulo 4
  have hmod : (rdist d' + k) % 4 = rdist d := by
    have hne2 := hl1 _ low'
    have hj : (rdist d' + k) % 4 < 4 := Nat.mod_lt _ (by decide)
    by_contra hcon
    have hcase : (rdist d' + k) % 4 = (rdist d + 1) % 4 ∨ (rdist d' + k) % 4 = (rdist d + 2) % 4 ∨
        (rdist d' + k) % 4 = (rdist d + 3) % 4 := by omega
    rcases hcase with h | h | h
    · apply b3
      rw [at_lt, show (rdist d' + 3 + k) % 4 = rdist d % 4 by omega, ← at_lt]
    · apply hne2
      rw [at_lt, show (rdist d' + k + 2) % 4 = rdist d % 4 by omega, ← at_lt]
    · apply a3
      rw [at_lt, ← h, ← at_lt]; exact low'
  have e2 : (k + rdist d') % 4 = rdist d := by omega
  have e3 : rotL d' (rdist d') = rotL d (k + rdist d') := by
    generalize rdist d' = j
    rw [he, rotL_add]
  rw [e3, ← rotL_mod, e2]

/-- C17, canonical form: for crossings whose smallest edge does not face itself, two
crossings become equal exactly when, read in the asked directions, one is a rotation of the
other and the signs agree. -/
theorem C17_canonorder_canonical (a b : Cross) (o o' : Or) (h : LowNotOpposite a) :
    canonorderCross a o = canonorderCross b o' ↔
      a.sign = b.sign ∧ readCross a o ~r readCross b o' := by
  obtain ⟨r1, s1, _⟩ := C17_canonorder_rotation a o
  obtain ⟨r2, s2, _⟩ := C17_canonorder_rotation b o'
  constructor
  · intro heq
    rw [heq] at r1 s1
    exact ⟨by rw [← s1, ← s2], r1.symm.trans r2⟩
  · rintro ⟨hs, hr⟩
    obtain ⟨d, d1, d2, d3⟩ := Core.canon_eq a o
    obtain ⟨d', d1', d2', d3'⟩ := Core.canon_eq b o'
    rw [d3, d3']
    obtain ⟨k, hk⟩ := hr
    symm
    apply Core.canon_unique (k := k)
    · apply Core.edges_inj
      · rw [Core.edges_rotL, d1, d1', hk]
      · show d'.sign = d.sign
        rw [d2, d2', hs]
    · intro r hr
      apply Core.low_spec _ hr
      have : (o = .neg ∧ d.e0 = a.e3 ∧ d.e1 = a.e2 ∧ d.e2 = a.e1 ∧ d.e3 = a.e0) ∨
          (d.e0 = a.e0 ∧ d.e1 = a.e1 ∧ d.e2 = a.e2 ∧ d.e3 = a.e3) := by
        unfold readCross at d1
        split at d1
        · left; simp_all [edges]
        · right; simp_all [edges]
      obtain ⟨h1, h2⟩ := h
      rcases this with ⟨_, e0, e1, e2, e3⟩ | ⟨e0, e1, e2, e3⟩ <;> rw [e0, e1, e2, e3]
      · constructor <;> omega
      · exact ⟨h1, h2⟩

/-- C17, idempotence (same hypothesis). -/
theorem C17_canonorder_idempotent (a : Cross) (o : Or) (h : LowNotOpposite a) :
    canonorderCross (canonorderCross a o) .pos = canonorderCross a o := by
  symm
  rw [C17_canonorder_canonical a _ o .pos h]
  obtain ⟨r1, s1, _⟩ := C17_canonorder_rotation a o
  exact ⟨s1.symm, r1.symm⟩

/-- C17, the hypothesis is needed: a crossing on which a smallest edge faces itself is not a
fixed point after one application. -/
theorem C17_not_idempotent_in_general : ∃ a : Cross,
    canonorderCross (canonorderCross a .pos) .pos ≠ canonorderCross a .pos :=
  ⟨⟨0, 1, 0, 0, .pos⟩, by decide⟩

-- hypotheses met: four distinct edges, and a crossing with a loop on the smallest edge
example : LowNotOpposite ⟨5, 2, 7, 3, .pos⟩ := by decide
example : LowNotOpposite ⟨2, 5, 7, 2, .neg⟩ := by decide
example : canonorderCross ⟨5, 2, 7, 3, .pos⟩ .neg = ⟨2, 5, 3, 7, .pos⟩ := by decide
example : canonorderCross ⟨2, 5, 7, 2, .neg⟩ .pos = ⟨2, 2, 5, 7, .neg⟩ := by decide

/-! ## C18: re-sorting the crossings -/

/-- C18: `pd_regenerate_crossings` renumbers the crossings by a bijection `σ` and rotates
crossing `c` by `ρ c` places, keeping its sign; what was written at a place is found at the
renamed place, edge records name the renamed places, and so agree with the crossings when
they did; crossings end up sorted and each begins with its smallest edge. -/
theorem C18_regenerate_crossings (qs : QSort) (cross : List Cross) (edge : List Edge)
    (hC : Consistent cross edge) (hsmall : edge.length ≤ 2 ^ 31) :
    ∃ (cross' : List Cross) (edge' : List Edge) (σ ρ : Nat → Nat),
      regenCrossings qs cross edge = .ok (cross', edge') ∧
      cross'.length = cross.length ∧ edge'.length = edge.length ∧
      (∀ c, c < cross.length → σ c < cross.length) ∧
      (∀ c d, c < cross.length → d < cross.length → σ c = σ d → c = d) ∧
      (∀ (c : Nat) (x : Cross), cross[c]? = some x → ∃ x', cross'[σ c]? = some x' ∧
        x'.sign = x.sign ∧ [x'.e0, x'.e1, x'.e2, x'.e3] = [x.e0, x.e1, x.e2, x.e3].rotate (ρ c)) ∧
      (∀ (e : Nat) (r : Edge), edge[e]? = some r → ∃ r', edge'[e]? = some r' ∧
        r'.head = σ r.head ∧ (r'.headpos + ρ r.head) % 4 = r.headpos ∧
        r'.tail = σ r.tail ∧ (r'.tailpos + ρ r.tail) % 4 = r.tailpos) ∧
      Consistent cross' edge' ∧ (Oriented cross edge → Oriented cross' edge') ∧
      cross'.Pairwise (fun a b =>
        ¬ ([b.e0, b.e1, b.e2, b.e3] : List Nat) < [a.e0, a.e1, a.e2, a.e3]) ∧
      (∀ c ∈ cross', c.e0 ≤ c.e1 ∧ c.e0 ≤ c.e2 ∧ c.e0 ≤ c.e3) := by
  have hb : ∀ r ∈ edge, r.head < cross.length ∧ r.tail < cross.length := by
    intro r hr
    obtain ⟨e, he, rfl⟩ := List.getElem_of_mem hr
    have hg : edge[e]? = some edge[e] := by simp [he]
    exact ⟨(slot_lt (hC.head _ _ hg)).1, (slot_lt (hC.tail _ _ hg)).1⟩
  have hsm : ∀ c ∈ cross, Small (edges c) := by
    intro c hc x hx
    obtain ⟨i, hi, rfl⟩ := List.getElem_of_mem hc
    obtain ⟨k, hk, rfl⟩ := edges_mem hx
    have := hC.slot_edge_lt (slot_of_lt hi hk)
    omega
  obtain ⟨cross', edge', σ, ρ, h1, hR, h3, h4⟩ := regen_ok qs hb hsm
  have hsm' : ∀ c ∈ cross', Small (edges c) := by
    intro c hc x hx
    obtain ⟨i, hi, rfl⟩ := List.getElem_of_mem hc
    obtain ⟨k, hk, rfl⟩ := edges_mem hx
    have := (hR.consistent hC).slot_edge_lt (slot_of_lt hi hk)
    rw [hR.elen] at this
    omega
  refine ⟨cross', edge', σ, ρ, h1, hR.len, hR.elen, hR.lt, hR.inj, ?_, ?_, hR.consistent hC,
    hR.oriented hC, ?_, ?_⟩
  · intro c x hx
    exact ⟨_, hR.cross c x hx, rfl, Core.edges_rotL x (ρ c)⟩
  · intro e r hr
    refine ⟨_, hR.edge e r hr, rfl, ?_, rfl, ?_⟩
    · have := (slot_lt (hC.head e r hr)).2
      have := hR.rho r.head
      simp only; omega
    · have := (slot_lt (hC.tail e r hr)).2
      have := hR.rho r.tail
      simp only; omega
  · rw [List.pairwise_iff_getElem] at h3 ⊢
    intro i j hi hj hij
    have h := h3 i j hi hj hij
    intro hc
    have hsw := lexU_spec (edges cross'[j]) (edges cross'[i]) rfl
      (hsm' _ (List.getElem_mem hj)) (hsm' _ (List.getElem_mem hi))
    have ord := order_of_key (P := fun c => Small (edges c)) (same := fun a b => edges a = edges b)
      edges (cmp := crossCmp) (fun a b ha hb => lexU_spec _ _ rfl ha hb) (by intros; rfl)
    have := ord.swap cross'[j] cross'[i] (hsm' _ (List.getElem_mem hj)) (hsm' _ (List.getElem_mem hi))
    have h5 : crossCmp cross'[j] cross'[i] < 0 := hsw.1.mpr hc
    omega
  · intro c hc
    exact ⟨h4 c hc 1, h4 c hc 2, h4 c hc 3⟩

/-- C18: on the 0-crossing unknot, whose only edge has no head, the function reads outside
its array of rotations. -/
theorem C18_unknot_reads_outside (qs : QSort) :
    regenCrossings qs [] [⟨UNSET_IDX, UNSET_POS, UNSET_IDX, UNSET_POS⟩] = .error .ub := by
  simp [regenCrossings, shiftEdges, rd, Bind.bind, Except.bind]

example : regenCrossings insQSort [⟨4, 1, 5, 2, .pos⟩, ⟨2, 5, 3, 0, .neg⟩, ⟨0, 3, 1, 4, .pos⟩]
    [⟨2, 0, 1, 3⟩, ⟨0, 1, 2, 2⟩, ⟨1, 0, 0, 3⟩, ⟨2, 1, 1, 2⟩, ⟨0, 0, 2, 3⟩, ⟨1, 1, 0, 2⟩] =
    .ok ([⟨0, 2, 5, 3, .neg⟩, ⟨0, 3, 1, 4, .pos⟩, ⟨1, 5, 2, 4, .pos⟩],
      [⟨1, 0, 0, 0⟩, ⟨2, 0, 1, 2⟩, ⟨0, 1, 2, 2⟩, ⟨1, 1, 0, 3⟩, ⟨2, 3, 1, 3⟩, ⟨0, 2, 2, 1⟩]) := by
  decide
example : Consistent [⟨4, 1, 5, 2, .pos⟩, ⟨2, 5, 3, 0, .neg⟩, ⟨0, 3, 1, 4, .pos⟩]
    [⟨2, 0, 1, 3⟩, ⟨0, 1, 2, 2⟩, ⟨1, 0, 0, 3⟩, ⟨2, 1, 1, 2⟩, ⟨0, 0, 2, 3⟩, ⟨1, 1, 0, 2⟩] := by
  decide

/-! ## C20: next and previous edge -/

/-- C20: on a consistent, oriented diagram `pd_next_edge` and `pd_previous_edge` succeed on
every edge, the next edge leaves the crossing where the edge arrives, at the opposite
position, and the two functions undo each other. -/
theorem C20_next_previous_inverse (cross : List Cross) (edge : List Edge)
    (hC : Consistent cross edge) (hO : Oriented cross edge) (e : Nat) (he : e < edge.length) :
    (∃ n, nextEdge cross edge e = .ok n ∧ n < edge.length ∧ prevEdge cross edge n = .ok e ∧
      edge[n]!.tail = edge[e].head ∧ edge[n]!.tailpos = (edge[e].headpos + 2) % 4) ∧
    (∃ p, prevEdge cross edge e = .ok p ∧ p < edge.length ∧ nextEdge cross edge p = .ok e ∧
      edge[p]!.head = edge[e].tail ∧ edge[p]!.headpos = (edge[e].tailpos + 2) % 4) := by
  have hr : edge[e]? = some edge[e] := by simp [he]
  constructor
  · obtain ⟨n, nr, h1, h2, h3, h4⟩ := slot_next hC hO hr
    obtain ⟨hn, hnr⟩ := List.getElem?_eq_some_iff.mp h1
    refine ⟨n, nextEdge_ok hr h1 h2 h4, hn, ?_, ?_, ?_⟩
    · apply prevEdge_ok h1 hr h2.symm
      have hs := hC.head e _ hr
      have := (slot_lt hs).2
      rw [h2, h3, show ((edge[e].headpos + 2) % 4 + 2) % 4 = edge[e].headpos by omega, hs]
    · simp [hn, hnr, h2]
    · simp [hn, hnr, h3]
  · obtain ⟨n, nr, h1, h2, h3, h4⟩ := slot_prev hC hO hr
    obtain ⟨hn, hnr⟩ := List.getElem?_eq_some_iff.mp h1
    refine ⟨n, prevEdge_ok hr h1 h2 h4, hn, ?_, ?_, ?_⟩
    · apply nextEdge_ok h1 hr h2.symm
      have hs := hC.tail e _ hr
      have := (slot_lt hs).2
      rw [h2, h3, show ((edge[e].tailpos + 2) % 4 + 2) % 4 = edge[e].tailpos by omega, hs]
    · simp [hn, hnr, h2]
    · simp [hn, hnr, h3]

/-- C20: so both are bijections of the edge numbers. -/
theorem C20_next_injective (cross : List Cross) (edge : List Edge)
    (hC : Consistent cross edge) (hO : Oriented cross edge) (e f : Nat) (he : e < edge.length)
    (hf : f < edge.length) :
    (nextEdge cross edge e = nextEdge cross edge f → e = f) ∧
    (prevEdge cross edge e = prevEdge cross edge f → e = f) := by
  obtain ⟨⟨n, h1, _, h2, _⟩, ⟨p, g1, _, g2, _⟩⟩ := C20_next_previous_inverse cross edge hC hO e he
  obtain ⟨⟨n', h1', _, h2', _⟩, ⟨p', g1', _, g2', _⟩⟩ :=
    C20_next_previous_inverse cross edge hC hO f hf
  constructor
  · intro h
    rw [h1, h1'] at h
    cases h
    rw [h2] at h2'
    exact Except.ok.inj h2'
  · intro h
    rw [g1, g1'] at h
    cases h
    rw [g2] at g2'
    exact Except.ok.inj g2'

example : (List.range 6).map (nextEdge (trefoilCross .pos) trefoilEdge) =
    [.ok 1, .ok 2, .ok 3, .ok 4, .ok 5, .ok 0] := by decide
example : nextEdge (hopfCross .pos) hopfEdge 0 = .ok 1 ∧ nextEdge (hopfCross .pos) hopfEdge 1 = .ok 0 := by
  decide

/-! ## C23: the crossing and edge checks -/

/-- C23, completeness: a consistent oriented diagram with sorted crossings, within its
allotted space, is accepted by both checks. -/
theorem C23_checks_accept (maxedges : Nat) (cross : List Cross) (edge : List Edge)
    (hC : Consistent cross edge) (hO : Oriented cross edge) (h0 : cross ≠ [])
    (hmax : edge.length ≤ maxedges) (hsmall : edge.length ≤ 2 ^ 31)
    (hsort : cross.Pairwise (fun a b =>
        ¬ ([b.e0, b.e1, b.e2, b.e3] : List Nat) < [a.e0, a.e1, a.e2, a.e3])) :
    crossOk maxedges cross edge = .ok true ∧ edgesOk cross edge = .ok true := by
  have hsm : ∀ c ∈ cross, Small (edges c) := by
    intro c hc x hx
    obtain ⟨i, hi, rfl⟩ := List.getElem_of_mem hc
    obtain ⟨k, hk, rfl⟩ := edges_mem hx
    have := hC.slot_edge_lt (slot_of_lt hi hk)
    omega
  constructor
  · unfold crossOk
    rw [if_neg (by simpa using h0)]
    obtain ⟨s', h1, h2, h3⟩ := countEdges_ok edge.length (cross.flatMap edges)
      (List.replicate maxedges 0)
      (by
        intro x hx
        rw [List.mem_flatMap] at hx
        obtain ⟨c, hc, hx⟩ := hx
        obtain ⟨i, hi, rfl⟩ := List.getElem_of_mem hc
        obtain ⟨k, hk, rfl⟩ := edges_mem hx
        exact hC.slot_edge_lt (slot_of_lt hi hk)) (by simpa using hmax)
    rw [h1, ok_bind]
    simp only
    rw [seenTwice_ok edge s' edge.length 0, ok_bind, if_pos rfl]
    · congr 1
      rw [sortedFrom_iff _ hsm]
      refine List.Pairwise.imp_of_mem ?_ hsort
      intro a b ha hb hab
      have hsw := lexU_spec (edges b) (edges a) rfl (hsm b hb) (hsm a ha)
      have ord := order_of_key (P := fun c => Small (edges c)) (same := fun a b => edges a = edges b)
        edges (cmp := crossCmp) (fun a b ha hb => lexU_spec _ _ rfl ha hb) (by intros; rfl)
      have := ord.swap b a (hsm b hb) (hsm a ha)
      by_contra hcon
      have h5 : crossCmp b a < 0 := by omega
      have h6 : edges b < edges a := hsw.1.mp h5
      exact hab h6
    · intro i _ hi
      have hi' : i < edge.length := by omega
      rw [h3 i (by simp; omega), count_two hC hi']
      have : i < maxedges := by omega
      simp [this]
  · rw [edgesOk_iff h0]
    refine ⟨hC.count, ?_⟩
    intro e r hr
    refine ⟨hC.head e r hr, hC.tail e r hr, ?_, ?_⟩
    · obtain ⟨n, nr, h1, h2, h3, h4⟩ := slot_next hC hO hr
      exact ⟨n, nr, h4, h1, h2, h3⟩
    · obtain ⟨n, nr, h1, h2, h3, h4⟩ := slot_prev hC hO hr
      exact ⟨n, nr, h4, h1, h2, h3⟩

/-- C23, soundness, partial: when both checks accept, every edge number is written in exactly
two places, the places an edge record names hold its number, and strands go straight on.
Missing: that the two places named by a record are different (see `C23_edges_ok_false`);
with that, the diagram is consistent. -/
theorem C23_checks_sound_partial (maxedges : Nat) (cross : List Cross) (edge : List Edge)
    (h0 : cross ≠ []) (hmax : edge.length ≤ maxedges)
    (h1 : crossOk maxedges cross edge = .ok true) (h2 : edgesOk cross edge = .ok true) :
    edge.length = 2 * cross.length ∧
    (∀ e, e < edge.length →
      (cross.flatMap (fun c => [c.e0, c.e1, c.e2, c.e3])).count e = 2) ∧
    (∀ (e : Nat) (r : Edge), edge[e]? = some r →
      slot cross r.head r.headpos = some e ∧ slot cross r.tail r.tailpos = some e) ∧
    Oriented cross edge ∧
    ((∀ (e : Nat) (r : Edge), edge[e]? = some r → (r.head, r.headpos) ≠ (r.tail, r.tailpos)) →
      Consistent cross edge) := by
  rw [edgesOk_iff h0] at h2
  obtain ⟨hl, hg⟩ := h2
  refine ⟨hl, ?_, fun e r hr => ⟨(hg e r hr).1, (hg e r hr).2.1⟩, ⟨?_, ?_⟩,
    fun hne => ⟨hl, fun e r hr => (hg e r hr).1, fun e r hr => (hg e r hr).2.1, hne⟩⟩
  · unfold crossOk at h1
    rw [if_neg (by simpa using h0), bind_ok_iff] at h1
    obtain ⟨o, ho, h1⟩ := h1
    cases o with
    | none => simp at h1
    | some seen =>
      simp only at h1
      rw [bind_ok_iff] at h1
      obtain ⟨b, hb, h1⟩ := h1
      cases b with
      | false => simp at h1
      | true =>
        have hs := seenTwice_sound edge seen _ _ hb (fun i x hx => (slot_lt (hg i x hx).1).2)
        obtain ⟨s', c1, c2, c3⟩ := countEdges_ok edge.length (cross.flatMap edges)
          (List.replicate maxedges 0) (countEdges_some _ _ _ _ ho) (by simpa using hmax)
        rw [ho] at c1
        cases c1
        intro e he
        have e1 := hs e (Nat.zero_le _) (by omega)
        have e2 := c3 e (by simp; omega)
        rw [e1] at e2
        have hm : e < maxedges := by omega
        simp [hm] at e2
        exact e2.symm
  · intro e r hr
    obtain ⟨n, nr, _, g2, g3, g4⟩ := (hg e r hr).2.2.1
    exact ⟨n, nr, g2, g3, g4⟩
  · intro e r hr
    obtain ⟨n, nr, _, g2, g3, g4⟩ := (hg e r hr).2.2.2
    exact ⟨n, nr, g2, g3, g4⟩

/-- C23 fails as stated: on the one-crossing diagram with edges (0,0,1,1), records giving
each edge the same place for head and tail pass both checks, although edge 0 is also written
at position 1, which no record names. -/
theorem C23_edges_ok_false : ∃ (cross : List Cross) (edge : List Edge),
    crossOk 3 cross edge = .ok true ∧ edgesOk cross edge = .ok true ∧
    slot cross 0 1 = some 0 ∧
    (∀ r ∈ edge, (r.head, r.headpos) ≠ (0, 1) ∧ (r.tail, r.tailpos) ≠ (0, 1)) ∧
    ¬ Consistent cross edge :=
  ⟨[⟨0, 0, 1, 1, .pos⟩], [⟨0, 0, 0, 0⟩, ⟨0, 2, 0, 2⟩], by decide⟩

example : crossOk 9 (trefoilCross .pos) trefoilEdge = .ok true ∧
    edgesOk (trefoilCross .pos) trefoilEdge = .ok true := by decide
example : crossOk 9 [⟨0, 3, 1, 4, .pos⟩, ⟨2, 5, 3, 0, .pos⟩, ⟨1, 4, 5, 2, .pos⟩] trefoilEdge = .ok false := by
  decide

end Plc
