import Verif.Proofs.SplitRaw
import Verif.Proofs.CompBound

/-! A piece of a diagram is a diagram. -/

namespace Plc.Split

open Plc.Core Plc.Cmp Plc.Buffers Plc.Moves Plc.BigonDel Plc.Comps Plc.PermM List

theorem touch_symm {cross : List Cross} {a b : Nat} (h : Touch cross a b) : Touch cross b a := by
  obtain ⟨c, p, q, h1, h2⟩ := h
  exact ⟨c, q, p, h2, h1⟩

theorem linked_symm {cross : List Cross} {a b : Nat} (h : Linked cross a b) : Linked cross b a := by
  induction h with
  | refl => exact .refl
  | tail _ hbc ih => exact (Relation.ReflTransGen.single (touch_symm hbc)).trans ih

/-- A connected piece with crossings: the edges with `lab` are all edges linked to some edge which is not a circle by itself. -/
structure Whole (cross : List Cross) (edge : List Edge) (lab : Nat → Prop) : Prop where
  closed : ∀ a b, Linked cross a b → lab a → lab b
  joint : ∀ a b, a < edge.length → b < edge.length → lab a → lab b → Linked cross a b
  some : ∃ (e : Nat) (r : Edge), edge[e]? = some r ∧ r ≠ freeEdge ∧ lab e

namespace Whole

variable {cross : List Cross} {edge : List Edge} {lab : Nat → Prop}

theorem not_free (W : Whole cross edge lab) (h : Loose cross edge) {e : Nat} {r : Edge} (hr : edge[e]? = .some r) (hl : lab e) :
    r ≠ freeEdge := by
  obtain ⟨a, q, h1, h2, h3⟩ := W.some
  have := W.joint a e (List.getElem?_eq_some_iff.mp h1).1 (List.getElem?_eq_some_iff.mp hr).1 h3 hl
  rcases Relation.ReflTransGen.cases_tail this with h4 | ⟨x, -, c, p, q, -, h6⟩
  · subst h4
    rw [h1] at hr
    cases hr
    exact h2
  · obtain ⟨r', s1, s2, -⟩ := free_no_slot h h6
    rw [hr] at s1
    cases s1
    exact s2

theorem at_cross (W : Whole cross edge lab) {c p q a b : Nat} (h1 : slot cross c p = .some a) (h2 : slot cross c q = .some b)
    (h : lab a) : lab b := W.closed a b (.single ⟨c, p, q, h1, h2⟩) h

end Whole

section

variable {cross : List Cross} {edge : List Edge} {lab : Nat → Prop}

/-- The places where edges of a piece end. -/
def places (edge : List Edge) (F : List Nat) : List (Nat × Nat) :=
  F.flatMap (fun e => [((edge[e]!).head, (edge[e]!).headpos), ((edge[e]!).tail, (edge[e]!).tailpos)])

theorem mem_places (W : Whole cross edge lab) (h : Loose cross edge) {F : List Nat} (hm : ∀ e, e ∈ F ↔ e < edge.length ∧ lab e) {c k : Nat} :
    (c, k) ∈ places edge F ↔ ∃ e, slot cross c k = some e ∧ lab e := by
  unfold places
  rw [List.mem_flatMap]
  constructor
  · rintro ⟨e, he, hx⟩
    obtain ⟨e1, e2⟩ := (hm e).mp he
    have hr := get_bang e1
    obtain ⟨a, b, -⟩ := h.ends e _ hr (W.not_free h hr e2)
    simp only [List.mem_cons, Prod.mk.injEq, List.not_mem_nil, or_false] at hx
    rcases hx with ⟨rfl, rfl⟩ | ⟨rfl, rfl⟩
    · exact ⟨e, a, e2⟩
    · exact ⟨e, b, e2⟩
  · rintro ⟨e, he, hl⟩
    obtain ⟨r, r1, r2⟩ := h.slots c k e he
    have e1 := (List.getElem?_eq_some_iff.mp r1).1
    refine ⟨e, (hm e).mpr ⟨e1, hl⟩, ?_⟩
    rw [get_bang e1] at r1
    cases r1
    simp only [List.mem_cons, Prod.mk.injEq, List.not_mem_nil, or_false]
    tauto

theorem places_nodup (W : Whole cross edge lab) (h : Loose cross edge) {F : List Nat} (hm : ∀ e, e ∈ F ↔ e < edge.length ∧ lab e)
    (hF : F.Nodup) : (places edge F).Nodup := by
  unfold places
  have hs : ∀ e ∈ F, slot cross (edge[e]!).head (edge[e]!).headpos = some e ∧ slot cross (edge[e]!).tail (edge[e]!).tailpos = some e ∧
      ((edge[e]!).head, (edge[e]!).headpos) ≠ ((edge[e]!).tail, (edge[e]!).tailpos) := by
    intro e he
    obtain ⟨e1, e2⟩ := (hm e).mp he
    have hr := get_bang e1
    exact h.ends e _ hr (W.not_free h hr e2)
  rw [List.nodup_flatMap]
  refine ⟨?_, hF.imp_of_mem ?_⟩
  · intro e he
    obtain ⟨-, -, c⟩ := hs e he
    simpa using c
  · intro a b ha hb hab x hx hy
    have sl : ∀ e ∈ F, x ∈ [((edge[e]!).head, (edge[e]!).headpos), ((edge[e]!).tail, (edge[e]!).tailpos)] →
        slot cross x.1 x.2 = some e := by
      intro e he hx
      obtain ⟨s1, s2, -⟩ := hs e he
      simp only [List.mem_cons, List.not_mem_nil, or_false] at hx
      rcases hx with rfl | rfl
      · exact s1
      · exact s2
    have q1 := sl a ha hx
    have q2 := sl b hb hy
    rw [q1] at q2
    exact hab (Option.some.inj q2)

theorem places_fst (edge : List Edge) (F : List Nat) :
    (F.map (fun e => edge[e]!)).flatMap (fun r => [r.head, r.tail]) = (places edge F).map Prod.fst := by
  unfold places
  rw [List.flatMap_map, List.map_flatMap]
  rfl

/-- Four edges end at each crossing. -/
theorem ends_count (W : Whole cross edge lab) (h : Loose cross edge) {F : List Nat} (hm : ∀ e, e ∈ F ↔ e < edge.length ∧ lab e)
    (hF : F.Nodup) : (∀ c, c ∈ (F.map (fun e => edge[e]!)).flatMap (fun r => [r.head, r.tail]) ↔ ∃ k e, slot cross c k = some e ∧ lab e) ∧
    (∀ c ∈ (F.map (fun e => edge[e]!)).flatMap (fun r => [r.head, r.tail]),
      ((F.map (fun e => edge[e]!)).flatMap (fun r => [r.head, r.tail])).count c = 4) ∧
    ((F.map (fun e => edge[e]!)).flatMap (fun r => [r.head, r.tail])).length = 2 * F.length := by
  rw [places_fst]
  have hmem : ∀ c, c ∈ (places edge F).map Prod.fst ↔ ∃ k e, slot cross c k = some e ∧ lab e := by
    intro c
    rw [List.mem_map]
    constructor
    · rintro ⟨⟨c', k⟩, hk, rfl⟩
      obtain ⟨e, he⟩ := (mem_places W h hm).mp hk
      exact ⟨k, e, he⟩
    · rintro ⟨k, e, he⟩
      exact ⟨(c, k), (mem_places W h hm).mpr ⟨e, he⟩, rfl⟩
  refine ⟨hmem, ?_, ?_⟩
  · intro c hc
    obtain ⟨k, e, he, hl⟩ := (hmem c).mp hc
    have hcl := (slot_lt he).1
    rw [List.count_eq_countP, List.countP_map, List.countP_eq_length_filter]
    have hp : ((places edge F).filter ((fun x => x == c) ∘ Prod.fst)).Perm [(c, 0), (c, 1), (c, 2), (c, 3)] := by
      rw [List.perm_ext_iff_of_nodup ((places_nodup W h hm hF).filter _) (by simp)]
      rintro ⟨d, j⟩
      rw [List.mem_filter, mem_places W h hm]
      simp only [Function.comp_apply, beq_iff_eq, List.mem_cons, Prod.mk.injEq, List.not_mem_nil, or_false]
      constructor
      · rintro ⟨⟨x, hx, -⟩, rfl⟩
        have := (slot_lt hx).2
        omega
      · intro hd
        have hdc : d = c := by tauto
        subst hdc
        have hj : j < 4 := by omega
        have := slot_of_lt hcl hj
        exact ⟨⟨_, this, W.at_cross he this hl⟩, rfl⟩
    rw [hp.length_eq]
    rfl
  · rw [List.length_map]
    unfold places
    rw [List.length_flatMap]
    simp
    omega

/-- Positions in a list, from another one. -/
theorem getD_spec {F : List Nat} {f : Nat} (hf : f < F.length) : F[f]? = some (F.getD f 0) := by
  rw [List.getD_eq_getElem?_getD, List.getElem?_eq_getElem hf]
  rfl

/-- The copied records are the piece. -/
theorem raw_erased (W : Whole cross edge lab) (h : Loose cross edge) {F cs new num : List Nat} {cross1 : List Cross}
    (hm : ∀ e, e ∈ F ↔ e < edge.length ∧ lab e) (hF : F.Nodup)
    (hcs : ∀ c, c ∈ cs ↔ ∃ k e, slot cross c k = some e ∧ lab e) (hcn : cs.Nodup)
    (hnew : ∀ (j e : Nat), F[j]? = some e → new[e]? = some j) (hnum : ∀ (j c : Nat), cs[j]? = some c → num[c]? = some j)
    (hlen : cross1.length = cs.length)
    (hx : ∀ (j : Nat) (x' : Cross), cross1[j]? = some x' → ∃ c x, cs[j]? = some c ∧ cross[c]? = some x ∧ x'.sign = x.sign ∧
        ∀ k, new[x.at k]? = some (x'.at k)) {X G : List Nat}
    (hX : ∀ c, c ∈ X ↔ c < cross.length ∧ ¬ ∃ k e, slot cross c k = some e ∧ lab e)
    (hG : ∀ e, e ∈ G ↔ e < edge.length ∧ ¬ lab e) :
    Erased cross edge X G [] cross1
      ((F.map (fun e => edge[e]!)).map (fun e => { e with head := ap num e.head, tail := ap num e.tail }))
      (fun f => F.getD f 0) (fun d => cs.getD d 0) (fun _ => 0) where
  slt d hd := by
    rw [hlen] at hd
    have := (hcs _).mp (List.mem_of_getElem? (getD_spec hd))
    obtain ⟨k, e, he, hl⟩ := this
    refine ⟨(slot_lt he).1, fun hc => ?_⟩
    exact ((hX _).mp hc).2 ⟨k, e, he, hl⟩
  sinj d d' hd hd' he := by
    rw [hlen] at hd hd'
    have a := getD_spec hd
    have b := getD_spec hd'
    rw [he] at a
    exact (List.getElem?_inj hd hcn).mp (a.trans b.symm)
  sonto c hc hx := by
    by_cases hs : ∃ k e, slot cross c k = some e ∧ lab e
    · obtain ⟨d, hd⟩ := List.mem_iff_getElem?.mp ((hcs c).mpr hs)
      have hl := (List.getElem?_eq_some_iff.mp hd).1
      refine ⟨d, by rw [hlen]; exact hl, ?_⟩
      rw [getD_spec hl] at hd
      exact Option.some.inj hd
    · exact absurd ((hX c).mpr ⟨hc, hs⟩) hx
  tlt f hf := by
    simp only [List.length_map] at hf
    obtain ⟨e1, e2⟩ := (hm _).mp (List.mem_of_getElem? (getD_spec hf))
    exact ⟨e1, fun hc => ((hG _).mp hc).2 e2⟩
  tinj f f' hf hf' he := by
    simp only [List.length_map] at hf hf'
    have a := getD_spec hf
    have b := getD_spec hf'
    rw [he] at a
    exact (List.getElem?_inj hf hF).mp (a.trans b.symm)
  tonto e he hg := by
    have hl : lab e := by
      by_contra hl
      exact hg ((hG e).mpr ⟨he, hl⟩)
    obtain ⟨f, hf⟩ := List.mem_iff_getElem?.mp ((hm e).mpr ⟨he, hl⟩)
    have hl := (List.getElem?_eq_some_iff.mp hf).1
    refine ⟨f, by simpa using hl, ?_⟩
    rw [getD_spec hl] at hf
    exact Option.some.inj hf
  cross d x' hd := by
    obtain ⟨c, x, h1, h2, h3, h4⟩ := hx d x' hd
    have hl := (List.getElem?_eq_some_iff.mp h1).1
    rw [getD_spec hl] at h1
    cases h1
    refine ⟨x, h2, h3, fun k => ?_⟩
    obtain ⟨p, a, p1, p2⟩ := (hcs _).mp (List.mem_of_getElem? (getD_spec hl))
    have hc := (List.getElem?_eq_some_iff.mp h2).1
    have hs : slot cross (cs.getD d 0) (k % 4) = some (x.at k) := by
      rw [slot_of_lt hc (Nat.mod_lt _ (by decide)), Cross.at_mod]
      rw [List.getElem?_eq_getElem hc] at h2
      rw [Option.some.inj h2]
    have hlab := W.at_cross p1 hs p2
    obtain ⟨r, r1, -⟩ := h.slots _ _ _ hs
    obtain ⟨f, hf⟩ := List.mem_iff_getElem?.mp ((hm _).mpr ⟨(List.getElem?_eq_some_iff.mp r1).1, hlab⟩)
    have := hnew f _ hf
    rw [h4 k] at this
    cases this
    have hfl := (List.getElem?_eq_some_iff.mp hf).1
    refine ⟨by simpa using hfl, ?_⟩
    rw [getD_spec hfl] at hf
    exact Option.some.inj hf
  edge f r' hr := by
    have hf : f < F.length := by
      have := (List.getElem?_eq_some_iff.mp hr).1
      simpa using this
    have hg := getD_spec hf
    obtain ⟨e1, e2⟩ := (hm _).mp (List.mem_of_getElem? hg)
    rw [List.getElem?_map, List.getElem?_map, hg] at hr
    simp only [Option.map_some, Option.some.injEq] at hr
    subst hr
    have hrr := get_bang e1
    obtain ⟨a, b, -⟩ := h.ends _ _ hrr (W.not_free h hrr e2)
    have key : ∀ c k, slot cross c k = some (F.getD f 0) → ap num c < cross1.length ∧ cs.getD (ap num c) 0 = c := by
      intro c k hk
      obtain ⟨d, hd⟩ := List.mem_iff_getElem?.mp ((hcs c).mpr ⟨k, _, hk, e2⟩)
      have := hnum d c hd
      have hdl := (List.getElem?_eq_some_iff.mp hd).1
      have e : ap num c = d := by
        unfold ap
        rw [List.getD_eq_getElem?_getD, this]
        rfl
      rw [e, hlen]
      rw [getD_spec hdl] at hd
      exact ⟨hdl, Option.some.inj hd⟩
    obtain ⟨k1, k2⟩ := key _ _ a
    obtain ⟨k3, k4⟩ := key _ _ b
    have p1 := (slot_lt a).2
    have p2 := (slot_lt b).2
    refine ⟨k1, p1, k3, p2, _, _, hrr, hrr, k4, ?_, k2, ?_⟩
    · simp only
      omega
    · simp only
      omega

end
end Plc.Split
