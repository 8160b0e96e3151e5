import Verif.Proofs.Comps
import Verif.Spec.Examples
import Mathlib.Logic.Relation
import Batteries.Lean.Except

/-! # C21: components -/

namespace Plc

open Plc.Comps Plc.Core Plc.Cmp

/-- Going straight on from edge `e` leads to edge `e'`: it is written opposite to the head of
`e`. -/
def Follows (cross : List Cross) (edge : List Edge) (e e' : Nat) : Prop :=
  ∃ r, edge[e]? = some r ∧ slot cross r.head ((r.headpos + 2) % 4) = some e'

theorem Comps.follows_iff {cross : List Cross} {edge : List Edge} (hC : Consistent cross edge)
    (e e' : Nat) : Follows cross edge e e' ↔ e < edge.length ∧ nx cross edge e = e' := by
  constructor
  · rintro ⟨r, h1, h2⟩
    obtain ⟨hlt, rfl⟩ := List.getElem?_eq_some_iff.mp h1
    refine ⟨hlt, ?_⟩
    unfold nx
    rw [getElem!_pos edge e hlt]
    exact Places.eslot_of_slot (p := Places.turn 2 (Places.hd edge[e])) h2
  · rintro ⟨hlt, rfl⟩
    refine ⟨edge[e], List.getElem?_eq_getElem hlt, ?_⟩
    have := Places.slot_eslot (Places.turn_mem 2 (Places.hd_mem hC hlt).1)
    unfold nx
    rw [getElem!_pos edge e hlt] at *
    exact this

/-- No more than `k` edges lie pairwise on different strands. -/
def AtMostStrands (cross : List Cross) (edge : List Edge) (k : Nat) : Prop :=
  ∀ es : List Nat, (∀ e ∈ es, e < edge.length) →
    es.Pairwise (fun x y => ¬ Relation.ReflTransGen (Follows cross edge) x y) → es.length ≤ k

/-- **C21.** On a consistent and oriented diagram with sorted crossings and at most
`MAXCOMPONENTS` strands, `pd_regenerate_comps` returns, whatever `qsort` does with ties. The
result is the same diagram with edges renamed by `τ`, crossings by `σ`, and crossing `c`
rotated by `ρ c`. The components list every edge exactly once, in consecutive order; along
each of them edges follow each other, cyclically; longest components come first; tags are
`A`, `B`, .... -/
theorem C21_regenerate_comps_partial (qs : QSort) (maxedges maxcomps : Nat) (cross : List Cross)
    (edge : List Edge) (hC : Consistent cross edge) (hO : Oriented cross edge) (h0 : cross ≠ [])
    (hmax : edge.length ≤ maxedges) (hsmall : edge.length < 2 ^ 31)
    (hsort : cross.Pairwise (fun a b =>
        ¬ ([b.e0, b.e1, b.e2, b.e3] : List Nat) < [a.e0, a.e1, a.e2, a.e3]))
    (hK : AtMostStrands cross edge maxcomps) :
    ∃ (cross' : List Cross) (edge' : List Edge) (comps : List Comp) (τ σ ρ : Nat → Nat),
      regenComps qs maxedges maxcomps cross edge = .ok (cross', edge', comps) ∧
      -- components
      comps.flatMap (·.edge) = List.range edge.length ∧
      comps.Pairwise (fun a b => b.edge.length ≤ a.edge.length) ∧
      (∀ c ∈ comps, c.edge ≠ []) ∧
      (∀ c ∈ comps, ∀ (j e : Nat), c.edge[j]? = some e →
        ∃ e', c.edge[(j + 1) % c.edge.length]? = some e' ∧ Follows cross' edge' e e') ∧
      comps.map (·.tag) = List.range' 65 comps.length ∧
      -- still a good diagram
      Consistent cross' edge' ∧ Oriented cross' edge' ∧
      cross'.Pairwise (fun a b =>
        ¬ ([b.e0, b.e1, b.e2, b.e3] : List Nat) < [a.e0, a.e1, a.e2, a.e3]) ∧
      -- the same one
      cross'.length = cross.length ∧ edge'.length = edge.length ∧
      (∀ c, c < cross.length → σ c < cross.length) ∧
      (∀ c d, c < cross.length → d < cross.length → σ c = σ d → c = d) ∧
      (∀ e, e < edge.length → τ e < edge.length) ∧
      (∀ e f, e < edge.length → f < edge.length → τ e = τ f → e = f) ∧
      (∀ (c : Nat) (x : Cross), cross[c]? = some x → ∃ x', cross'[σ c]? = some x' ∧
        x'.sign = x.sign ∧
        [x'.e0, x'.e1, x'.e2, x'.e3] = ([x.e0, x.e1, x.e2, x.e3].map τ).rotate (ρ c)) ∧
      (∀ (e : Nat) (r : Edge), edge[e]? = some r → ∃ r', edge'[τ e]? = some r' ∧
        r'.head = σ r.head ∧ (r'.headpos + ρ r.head) % 4 = r.headpos ∧
        r'.tail = σ r.tail ∧ (r'.tailpos + ρ r.tail) % 4 = r.tailpos) := by
  have hI := injOn_nx hC hO
  obtain ⟨cross', edge', comps, F, σ, ρ, edge1, r1, hF, hl, he1, hR, s1, s2, c1, c2, c3, c4, c5⟩ :=
    regenComps_ok qs hC hO h0 hmax hsmall hsort (by
      intro starts h1 h2
      apply hK starts h1
      refine List.Pairwise.imp_of_mem ?_ h2
      intro x y hx hy hxy hr
      apply hxy
      have hx' := Finset.mem_range.mpr (h1 x hx)
      rw [hI.mem_cyc hx']
      clear hxy hy
      induction hr with
      | refl => exact ⟨0, rfl⟩
      | tail _ hs ih =>
        obtain ⟨k, hk⟩ := ih
        rw [follows_iff hC] at hs
        refine ⟨k + 1, ?_⟩
        rw [Function.iterate_succ_apply', hk]
        exact hs.2)
  have hC1 := rename_consistent hC hF hl he1
  have hO1 := rename_oriented (cross := cross) hO hF hl he1
  have hC' := hR.consistent hC1
  have hO' := hR.oriented hC1 hO1
  have hn : (cross.map (renameC (fun e => F.idxOf e))).length = cross.length := List.length_map _
  refine ⟨cross', edge', comps, fun e => F.idxOf e, σ, ρ, r1, c1, c2, c4, ?_, c3, hC', hO', ?_,
    by rw [hR.len, hn], by rw [hR.elen, hl], ?_, ?_, ?_, ?_, ?_, ?_⟩
  · intro c hc j e hje
    obtain ⟨f, f1, f2⟩ := c5 c hc j e hje
    refine ⟨_, f2, ?_⟩
    have hfl : f < edge.length := (F_mem hF).mp (List.mem_of_getElem? f1)
    have g1 : edge1[e]? = some edge[f] := by
      rw [he1 e f f1]; exact List.getElem?_eq_getElem hfl
    have hh := slot_lt (hC1.head e _ g1)
    refine ⟨_, hR.edge e _ g1, ?_⟩
    have hs := hR.slot (c := edge[f].head) (k := (edge[f].headpos + 2) % 4) hh.1 (Nat.mod_lt _ (by decide))
    have hrho := hR.rho edge[f].head
    have : ((edge[f].headpos + 2) % 4 + 4 - ρ edge[f].head) % 4 =
        ((edge[f].headpos + 4 - ρ edge[f].head) % 4 + 2) % 4 := by
      have := hh.2
      omega
    rw [this] at hs
    refine Eq.trans hs ?_
    rw [slot_rename]
    obtain ⟨r, hr1, hr2⟩ := (follows_iff hC f (nx cross edge f)).mpr ⟨hfl, rfl⟩
    rw [List.getElem?_eq_getElem hfl] at hr1
    cases hr1
    rw [hr2, Option.map_some]
  · refine List.Pairwise.imp_of_mem ?_ s1
    intro a b ha hb hab
    have hsm : ∀ c ∈ cross', Small (edges c) := by
      intro c hc x hx
      obtain ⟨i, hi, rfl⟩ := List.getElem_of_mem hc
      obtain ⟨k, hk, rfl⟩ := edges_mem hx
      have := hC'.slot_edge_lt (slot_of_lt hi hk)
      rw [hR.elen, hl] at this
      omega
    intro hlt
    have hk := (lexU_spec (edges b) (edges a) rfl (hsm b hb) (hsm a ha)).1.mpr hlt
    have ho := (order_of_key (P := fun c => Small (edges c)) (same := fun a b => edges a = edges b)
      edges (cmp := crossCmp) (fun a b ha hb => lexU_spec _ _ rfl ha hb) (by intros; rfl)).swap b a
      (hsm b hb) (hsm a ha)
    have : crossCmp b a < 0 := hk
    omega
  · intro c hc; have := hR.lt c (by rw [hn]; exact hc); rwa [hn] at this
  · intro c d hc hd; exact hR.inj c d (by rw [hn]; exact hc) (by rw [hn]; exact hd)
  · intro e he; exact (F_idx hF he).1
  · intro e f he hf h
    have a := (F_idx hF he).2
    have b := (F_idx hF hf).2
    simp only at h
    rw [h, b] at a
    cases a
    rfl
  · intro c x hx
    have := hR.cross c (renameC (fun e => F.idxOf e) x) (by rw [List.getElem?_map, hx]; rfl)
    refine ⟨_, this, rfl, ?_⟩
    have := edges_rotL (renameC (fun e => F.idxOf e) x) (ρ c)
    exact this
  · intro e r hr
    have g1 := edge1_idx hF he1 hr
    refine ⟨_, hR.edge _ _ g1, rfl, ?_, rfl, ?_⟩
    · have := (slot_lt (hC.head e r hr)).2
      have := hR.rho r.head
      simp only
      omega
    · have := (slot_lt (hC.tail e r hr)).2
      have := hR.rho r.tail
      simp only
      omega

/-- Five separate loops, each with one kink. -/
def fiveKinks : List Cross :=
  [⟨0, 0, 1, 1, .pos⟩, ⟨2, 2, 3, 3, .pos⟩, ⟨4, 4, 5, 5, .pos⟩, ⟨6, 6, 7, 7, .pos⟩, ⟨8, 8, 9, 9, .pos⟩]
def fiveKinksEdge : List Edge :=
  [⟨0, 0, 0, 1⟩, ⟨0, 3, 0, 2⟩, ⟨1, 0, 1, 1⟩, ⟨1, 3, 1, 2⟩, ⟨2, 0, 2, 1⟩, ⟨2, 3, 2, 2⟩,
    ⟨3, 0, 3, 1⟩, ⟨3, 3, 3, 2⟩, ⟨4, 0, 4, 1⟩, ⟨4, 3, 4, 2⟩]

/-- C21 needs the bound on the number of components: a diagram with 5 crossings gets
`MAXEDGES = 11` and `MAXCOMPONENTS = 5/2 + 2 = 4` (pdcode.c 45-79), and five separate loops with
a kink each make the function write behind the component array, because the test
`ncomps > MAXCOMPONENTS` comes one too late. -/
theorem C21_regenerate_comps_false :
    Consistent fiveKinks fiveKinksEdge ∧ Oriented fiveKinks fiveKinksEdge ∧
    fiveKinks.Pairwise (fun a b =>
        ¬ ([b.e0, b.e1, b.e2, b.e3] : List Nat) < [a.e0, a.e1, a.e2, a.e3]) ∧
    ∀ qs, regenComps qs 11 (5 / 2 + 2) fiveKinks fiveKinksEdge = .error .ub := by
  refine ⟨by decide, by decide, by decide, fun qs => rfl⟩

/-- A Hopf link whose two components use edges 0, 2 and 1, 3. -/
def hopf2 : List Cross := [⟨0, 1, 2, 3, .pos⟩, ⟨0, 3, 2, 1, .pos⟩]
def hopf2Edge : List Edge := [⟨0, 0, 1, 0⟩, ⟨1, 3, 0, 1⟩, ⟨1, 2, 0, 2⟩, ⟨0, 3, 1, 1⟩]

example : Consistent hopf2 hopf2Edge ∧ Oriented hopf2 hopf2Edge ∧ hopf2.Pairwise (fun a b =>
    ¬ ([b.e0, b.e1, b.e2, b.e3] : List Nat) < [a.e0, a.e1, a.e2, a.e3]) := by decide

theorem hopf2_strands : AtMostStrands hopf2 hopf2Edge 2 := by
  intro es h1 h2
  have h0 : ∀ x y, x < 4 → y < 4 → x % 2 = y % 2 → Relation.ReflTransGen (Follows hopf2 hopf2Edge) x y := by
    have f : ∀ x, x < 4 → Follows hopf2 hopf2Edge x ((x + 2) % 4) := by
      intro x hx
      match x, hx with
      | 0, _ => exact ⟨_, rfl, by decide⟩
      | 1, _ => exact ⟨_, rfl, by decide⟩
      | 2, _ => exact ⟨_, rfl, by decide⟩
      | 3, _ => exact ⟨_, rfl, by decide⟩
    intro x y hx hy h
    by_cases hxy : x = y
    · subst hxy; exact .refl
    · have : y = (x + 2) % 4 := by omega
      rw [this]
      exact .single (f x hx)
  have h3 : (es.map (· % 2)).Nodup := by
    unfold List.Nodup
    rw [List.pairwise_map]
    refine List.Pairwise.imp_of_mem ?_ h2
    intro a b ha hb hab e
    exact hab (h0 a b (h1 a ha) (h1 b hb) e)
  have h4 : es.map (· % 2) ⊆ List.range 2 := by
    intro x hx
    obtain ⟨y, _, rfl⟩ := List.mem_map.mp hx
    exact List.mem_range.mpr (Nat.mod_lt _ (by decide))
  have := (h3.subperm h4).length_le
  simpa using this

example : regenComps insQSort 5 3 hopf2 hopf2Edge =
    .ok ([⟨0, 2, 1, 3, .pos⟩, ⟨0, 3, 1, 2, .pos⟩],
      [⟨0, 0, 1, 0⟩, ⟨1, 2, 0, 2⟩, ⟨1, 3, 0, 1⟩, ⟨0, 3, 1, 1⟩], [⟨[0, 1], 65⟩, ⟨[2, 3], 66⟩]) := by decide

end Plc
