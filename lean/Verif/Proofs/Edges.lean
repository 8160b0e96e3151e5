import Verif.Model.Edges
import Verif.Proofs.CoreOk
import Verif.Proofs.Places

namespace Plc.Edges

open Plc.Core Plc.Places Plc.Orbit

/-! ### The initial records -/

theorem hits_mem (e : Nat) : ∀ (cross : List Cross) (i : Nat) (p : Nat × Nat),
    p ∈ hitsFrom e cross i ↔ i ≤ p.1 ∧ slot cross (p.1 - i) p.2 = some e
  | [], i, p => by simp [hitsFrom, slot]
  | c :: l, i, p => by
    unfold hitsFrom
    rw [List.mem_append, hits_mem e l (i + 1) p, List.mem_map]
    obtain ⟨a, b⟩ := p
    simp only [List.mem_filter, decide_eq_true_eq]
    constructor
    · rintro (⟨j, ⟨h1, h2⟩, h3⟩ | ⟨h1, h2⟩)
      · rw [Prod.mk.injEq] at h3
        obtain ⟨rfl, rfl⟩ := h3
        refine ⟨Nat.le_refl _, ?_⟩
        rw [Nat.sub_self, slot_eq_some]
        refine ⟨?_, c, by simp, h2⟩
        simp only [List.mem_cons, List.not_mem_nil, or_false] at h1
        omega
      · refine ⟨by omega, ?_⟩
        rw [slot_eq_some] at h2 ⊢
        rw [show a - i = a - (i + 1) + 1 by omega]
        exact ⟨h2.1, by simpa using h2.2⟩
    · rintro ⟨h1, h2⟩
      by_cases ha : a = i
      · left
        subst ha
        rw [Nat.sub_self, slot_eq_some] at h2
        obtain ⟨h3, cr, h4, h5⟩ := h2
        simp at h4
        subst h4
        refine ⟨b, ⟨?_, h5⟩, rfl⟩
        simp only [List.mem_cons, List.not_mem_nil, or_false]
        omega
      · right
        refine ⟨by omega, ?_⟩
        rw [slot_eq_some] at h2 ⊢
        rw [show a - i = a - (i + 1) + 1 by omega] at h2
        exact ⟨h2.1, by simpa using h2.2⟩

theorem hits_nodup (e : Nat) : ∀ (cross : List Cross) (i : Nat), (hitsFrom e cross i).Nodup
  | [], _ => by simp [hitsFrom]
  | c :: l, i => by
    unfold hitsFrom
    rw [List.nodup_append]
    refine ⟨?_, hits_nodup e l (i + 1), ?_⟩
    · apply List.Nodup.map
      · intro a b h; simpa using h
      · apply List.Nodup.filter; decide
    · intro x hx y hy
      rw [List.mem_map] at hx
      obtain ⟨j, _, rfl⟩ := hx
      rw [hits_mem] at hy
      rintro rfl
      have := hy.1
      simp only at this
      omega

theorem hits_length (e : Nat) : ∀ (cross : List Cross) (i : Nat),
    (hitsFrom e cross i).length = (cross.flatMap Cmp.edges).count e
  | [], _ => rfl
  | c :: l, i => by
    unfold hitsFrom
    rw [List.length_append, List.length_map, hits_length e l (i + 1), List.flatMap_cons,
      List.count_append]
    congr 1
    simp only [Cmp.edges, List.count_cons, List.count_nil, List.filter_cons, List.filter_nil, Cross.at,
      Nat.reduceMod, decide_eq_true_eq, beq_iff_eq]
    split <;> split <;> split <;> split <;> rfl

/-- Every edge number below `2n` is written twice. -/
def Twice (cross : List Cross) : Prop :=
  ∀ e, e < 2 * cross.length → (cross.flatMap Cmp.edges).count e = 2

theorem findEdge_ok {cross : List Cross} {e : Nat} (h : (cross.flatMap Cmp.edges).count e = 2) :
    ∃ p q, findEdge cross e = .ok (p, q) ∧ p ≠ q ∧ slot cross p.1 p.2 = some e ∧
      slot cross q.1 q.2 = some e := by
  have hl := hits_length e cross 0
  have hn := hits_nodup e cross 0
  have hm := hits_mem e cross 0
  unfold findEdge
  match hh : hitsFrom e cross 0 with
  | [] => rw [hh, h] at hl; simp at hl
  | [_] => rw [hh, h] at hl; simp at hl
  | p :: q :: l =>
    rw [hh] at hn hm
    refine ⟨p, q, rfl, ?_, ?_, ?_⟩
    · simp only [List.nodup_cons, List.mem_cons, not_or] at hn
      exact hn.1.1
    · have := ((hm p).mp (by simp)).2
      simpa using this
    · have := ((hm q).mp (by simp)).2
      simpa using this

theorem initEdges_ok {cross : List Cross} (hT : Twice cross) : ∀ (r e : Nat),
    e + r = 2 * cross.length →
    ∃ l, initEdges cross r e = .ok l ∧ l.length = r ∧
      ∀ (i : Nat) (x : Edge), l[i]? = some x → slot cross x.head x.headpos = some (e + i) ∧
        slot cross x.tail x.tailpos = some (e + i) ∧ (x.head, x.headpos) ≠ (x.tail, x.tailpos)
  | 0, e, _ => ⟨[], rfl, rfl, by simp⟩
  | r + 1, e, h => by
    obtain ⟨p, q, h1, h2, h3, h4⟩ := findEdge_ok (hT e (by omega))
    obtain ⟨l, g1, g2, g3⟩ := initEdges_ok hT r (e + 1) (by omega)
    refine ⟨_, by unfold initEdges; rw [h1, ok_bind]; simp only; rw [g1, ok_bind], by simp [g2], ?_⟩
    intro i x hx
    cases i with
    | zero =>
      simp at hx
      subst hx
      exact ⟨h3, h4, h2⟩
    | succ i =>
      rw [show e + (i + 1) = e + 1 + i by omega]
      exact g3 i x (by simpa using hx)

theorem init_consistent {cross : List Cross} (hT : Twice cross) :
    ∃ E0, initEdges cross (2 * cross.length) 0 = .ok E0 ∧ Consistent cross E0 := by
  obtain ⟨l, h1, h2, h3⟩ := initEdges_ok hT (2 * cross.length) 0 (by omega)
  refine ⟨l, h1, h2, ?_, ?_, ?_⟩
  · intro e r hr; simpa using (h3 e r hr).1
  · intro e r hr; simpa using (h3 e r hr).2.1
  · intro e r hr; exact (h3 e r hr).2.2

/-! ### Marks -/

/-- The mark array describes the set `U` of used places. -/
def Marks (n : Nat) (cm : List Mark) (U : Finset (Nat × Nat)) : Prop :=
  cm.length = n ∧ ∀ c, c < n → ∃ m, cm[c]? = some m ∧
    m.used = [decide ((c, 0) ∈ U), decide ((c, 1) ∈ U), decide ((c, 2) ∈ U), decide ((c, 3) ∈ U)] ∧
    m.num = m.used.count true

theorem marks_new (n : Nat) : Marks n (crossmarkNew n) ∅ := by
  refine ⟨by simp [crossmarkNew], ?_⟩
  intro c hc
  exact ⟨⟨List.replicate 4 false, 0⟩, by simp [crossmarkNew, hc], by simp [List.replicate], by simp⟩

theorem count_set_true : ∀ (l : List Bool) (k : Nat), l[k]? = some false →
    (l.set k true).count true = l.count true + 1
  | [], k, h => by simp at h
  | b :: l, 0, h => by
    simp at h
    subst h
    simp
  | b :: l, k + 1, h => by
    have := count_set_true l k (by simpa using h)
    simp only [List.set_cons_succ, List.count_cons, this]
    omega

theorem markPlace_ok {n : Nat} {cm : List Mark} {U : Finset (Nat × Nat)} (h : Marks n cm U) {c k : Nat}
    (hc : c < n) (hk : k < 4) (hu : (c, k) ∉ U) :
    ∃ cm', markPlace cm c k = .ok cm' ∧ Marks n cm' (insert (c, k) U) := by
  obtain ⟨hl, hm⟩ := h
  obtain ⟨m, h1, h2, h3⟩ := hm c hc
  have hul : m.used.length = 4 := by rw [h2]; rfl
  refine ⟨cm.set c ⟨m.used.set k true, m.num + 1⟩, ?_, ?_, ?_⟩
  · unfold markPlace
    rw [rd_ok h1, ok_bind, wr_lt (by omega), ok_bind, wr_lt (by omega)]
  · simpa using hl
  · intro d hd
    by_cases hdc : d = c
    · subst hdc
      refine ⟨⟨m.used.set k true, m.num + 1⟩, by simp [hl, hd], ?_, ?_⟩
      · simp only [h2]
        match k, hk with
        | 0, _ => simp
        | 1, _ => simp
        | 2, _ => simp
        | 3, _ => simp
      · simp only
        rw [count_set_true, h3]
        rw [h2]
        match k, hk with
        | 0, _ => simpa using hu
        | 1, _ => simpa using hu
        | 2, _ => simpa using hu
        | 3, _ => simpa using hu
    · obtain ⟨m', g1, g2, g3⟩ := hm d hd
      refine ⟨m', ?_, ?_, g3⟩
      · rw [List.getElem?_set_ne (by omega)]; exact g1
      · rw [g2]
        have : ∀ j, ((d, j) ∈ insert (c, k) U) = ((d, j) ∈ U) := by
          intro j; simp [hdc]
        simp only [this]

theorem findUnusedPos_spec : ∀ (l : List Bool) (j : Nat),
    (∀ k, findUnusedPos l j = some k → j ≤ k ∧ l[k - j]? = some false) ∧
    (findUnusedPos l j = none → ∀ b ∈ l, b = true)
  | [], j => by simp [findUnusedPos]
  | u :: l, j => by
    have ih := findUnusedPos_spec l (j + 1)
    unfold findUnusedPos
    cases u with
    | true =>
      simp only [if_true]
      refine ⟨?_, ?_⟩
      · intro k hk
        have := ih.1 k hk
        refine ⟨by omega, ?_⟩
        rw [show k - j = k - (j + 1) + 1 by omega]
        simpa using this.2
      · intro h b hb
        rw [List.mem_cons] at hb
        rcases hb with rfl | hb
        · rfl
        · exact ih.2 h b hb
    | false =>
      simp only [Bool.false_eq_true, if_false]
      refine ⟨?_, by simp⟩
      intro k hk
      simp at hk
      subst hk
      simp

/-- Either an unused place is found, or all are used. -/
theorem findUnusedCross_spec : ∀ (cm : List Mark) (i : Nat),
    (∀ m ∈ cm, m.used.length = 4 ∧ m.num = m.used.count true) →
    (∀ p, findUnusedCross cm i = some p → i ≤ p.1 ∧ ∃ m, cm[p.1 - i]? = some m ∧
      m.used[p.2]? = some false) ∧
    (findUnusedCross cm i = none → ∀ m ∈ cm, ∀ b ∈ m.used, b = true)
  | [], i, _ => by simp [findUnusedCross]
  | m :: l, i, h => by
    have ih := findUnusedCross_spec l (i + 1) (fun x hx => h x (by simp [hx]))
    have hm := h m (by simp)
    have hup := findUnusedPos_spec m.used 0
    have next : (∀ p, findUnusedCross l (i + 1) = some p → i ≤ p.1 ∧ ∃ m', (m :: l)[p.1 - i]? = some m' ∧
        m'.used[p.2]? = some false) := by
      intro p hp
      obtain ⟨h1, m', h2, h3⟩ := ih.1 p hp
      refine ⟨by omega, m', ?_, h3⟩
      rw [show p.1 - i = p.1 - (i + 1) + 1 by omega]
      simpa using h2
    unfold findUnusedCross
    by_cases h4 : m.num = 4
    · rw [if_neg (by simp [h4])]
      refine ⟨next, ?_⟩
      intro hn x hx b hb
      rw [List.mem_cons] at hx
      rcases hx with rfl | hx
      · have hc : x.used.count true = x.used.length := by rw [← hm.2, hm.1, h4]
        rw [List.count_eq_length] at hc
        exact (hc b hb).symm
      · exact ih.2 hn x hx b hb
    · rw [if_pos h4]
      split
      · rename_i j hj
        refine ⟨?_, by simp⟩
        intro p hp
        simp at hp
        subst hp
        have := hup.1 j hj
        simp only [Nat.sub_zero, Nat.sub_self, List.getElem?_cons_zero, Option.some.injEq] at *
        exact ⟨Nat.le_refl _, m, rfl, this.2⟩
      · rename_i hj
        refine ⟨next, ?_⟩
        intro hn x hx b hb
        rw [List.mem_cons] at hx
        rcases hx with rfl | hx
        · exact hup.2 hj b hb
        · exact ih.2 hn x hx b hb

theorem marks_find {cross : List Cross} {cm : List Mark} {U : Finset (Nat × Nat)}
    (h : Marks cross.length cm U) :
    (∀ p, findUnusedCross cm 0 = some p → p ∈ P cross ∧ p ∉ U) ∧
    (findUnusedCross cm 0 = none → ∀ p ∈ P cross, p ∈ U) := by
  obtain ⟨hl, hm⟩ := h
  have hall : ∀ m ∈ cm, m.used.length = 4 ∧ m.num = m.used.count true := by
    intro m hm'
    obtain ⟨i, hi, rfl⟩ := List.getElem_of_mem hm'
    obtain ⟨m2, h1, h2, h3⟩ := hm i (by omega)
    rw [List.getElem?_eq_getElem hi] at h1
    cases h1
    exact ⟨by rw [h2]; rfl, h3⟩
  have hs := findUnusedCross_spec cm 0 hall
  constructor
  · intro p hp
    obtain ⟨_, m, h1, h2⟩ := hs.1 p hp
    rw [Nat.sub_zero] at h1
    have hlt := (List.getElem?_eq_some_iff.mp h1).1
    obtain ⟨m', g1, g2, _⟩ := hm p.1 (by omega)
    rw [h1] at g1
    cases g1
    have hk : p.2 < 4 := by
      have := (List.getElem?_eq_some_iff.mp h2).1
      rw [g2] at this
      simpa using this
    refine ⟨mem_P.mpr ⟨by omega, hk⟩, ?_⟩
    rw [g2] at h2
    obtain ⟨c, k⟩ := p
    simp only at h2 hk
    match k, hk with
    | 0, _ => simpa using h2
    | 1, _ => simpa using h2
    | 2, _ => simpa using h2
    | 3, _ => simpa using h2
  · intro hn p hp
    rw [mem_P] at hp
    obtain ⟨m', g1, g2, _⟩ := hm p.1 hp.1
    have := hs.2 hn m' (List.mem_of_getElem? g1)
    rw [g2] at this
    obtain ⟨c, k⟩ := p
    simp only at hp this
    obtain ⟨hc, hk⟩ := hp
    simp only [List.mem_cons, List.not_mem_nil, or_false] at this
    match k, hk with
    | 0, _ => simpa using this (decide ((c, 0) ∈ U)) (by simp)
    | 1, _ => simpa using this (decide ((c, 1) ∈ U)) (by simp)
    | 2, _ => simpa using this (decide ((c, 2) ∈ U)) (by simp)
    | 3, _ => simpa using this (decide ((c, 3) ∈ U)) (by simp)

/-! ### One component -/

theorem rd_bang {α : Type} [Inhabited α] {l : List α} {i : Nat} (h : i < l.length) :
    rd l i = .ok l[i]! := by
  rw [rd_lt h, getElem!_pos l i h]

theorem set_bang {α : Type} [Inhabited α] {l : List α} {i : Nat} (x : α) (h : i < l.length) (e : Nat) :
    (l.set i x)[e]! = if e = i then x else l[e]! := by
  split
  · rename_i he
    subst he
    rw [getElem!_pos _ _ (by simpa using h)]
    simp
  · rename_i he
    simp only [List.getElem!_eq_getElem?_getD]
    rw [List.getElem?_set_ne (by omega)]

section

variable {cross : List Cross} {E0 : List Edge} (hC : Consistent cross E0)

/-- `E` is `E0` with some edges reversed. -/
def Good (cross : List Cross) (E0 E : List Edge) : Prop :=
  E.length = E0.length ∧ ∀ e, e < E0.length → hd E[e]! ∈ P cross ∧
    eslot cross (hd E[e]!) = e ∧ tl E[e]! = oth cross E0 (hd E[e]!)

include hC

theorem good_self : Good cross E0 E0 :=
  ⟨rfl, fun _ he => ⟨(hd_mem hC he).1, (hd_mem hC he).2, (oth_hd hC he).symm⟩⟩

theorem Good.consistent {E : List Edge} (h : Good cross E0 E) : Consistent cross E := by
  have key : ∀ (e : Nat) (r : Edge), E[e]? = some r → e < E0.length ∧ E[e]! = r := by
    intro e r hr
    obtain ⟨hlt, rfl⟩ := List.getElem?_eq_some_iff.mp hr
    exact ⟨by rw [← h.1]; exact hlt, by simp [hlt]⟩
  refine ⟨by rw [h.1, hC.count], ?_, ?_, ?_⟩
  · intro e r hr
    obtain ⟨he, rfl⟩ := key e r hr
    obtain ⟨h1, h2, _⟩ := h.2 e he
    have := slot_eslot h1
    rw [h2] at this
    exact this
  · intro e r hr
    obtain ⟨he, rfl⟩ := key e r hr
    obtain ⟨h1, h2, h3⟩ := h.2 e he
    have := slot_eslot (oth_mem hC h1)
    rw [eslot_oth hC h1, h2, ← h3] at this
    exact this
  · intro e r hr
    obtain ⟨he, rfl⟩ := key e r hr
    obtain ⟨h1, h2, h3⟩ := h.2 e he
    intro heq
    have : hd E[e]! = tl E[e]! := heq
    rw [h3] at this
    exact oth_ne hC h1 this.symm

/-- The step along a component, as a map of places. -/
local notation "φ" => (fun p => oth cross E0 (turn 2 p))

theorem nextCompEdge_ok {E : List Edge} (hG : Good cross E0 E) {h : Nat × Nat} (hh : h ∈ P cross)
    (hE : hd E[eslot cross h]! = h) :
    ∃ o, nextCompEdge cross E (eslot cross h) = .ok (eslot cross (φ h), o) ∧
      ((o = .pos ∧ tl E[eslot cross (φ h)]! = turn 2 h ∧ hd E[eslot cross (φ h)]! = φ h) ∨
       (o = .neg ∧ hd E[eslot cross (φ h)]! = turn 2 h ∧ tl E[eslot cross (φ h)]! = φ h)) := by
  have hlt := eslot_lt hC hh
  have ht := turn_mem 2 hh
  have hs := slot_eslot ht
  have es : eslot cross (φ h) = eslot cross (turn 2 h) := eslot_oth hC ht
  have hnlt := eslot_lt hC ht
  have hh' := mem_P.mp hh
  have e1 : E[eslot cross h]!.head = h.1 := congrArg Prod.fst hE
  have e2 : E[eslot cross h]!.headpos = h.2 := congrArg Prod.snd hE
  have r1 : rd E (eslot cross h) = .ok E[eslot cross h]! := 
    rd_bang (by rw [hG.1]; exact hlt)
  have r2 : rd E (eslot cross (turn 2 h)) = .ok E[eslot cross (turn 2 h)]! := 
    rd_bang (by rw [hG.1]; exact hnlt)
  have r3 : rd cross h.1 = .ok cross[h.1] := rd_lt hh'.1
  have r4 : cross[h.1].rdPos ((h.2 + 2) % 4) = .ok (eslot cross (turn 2 h)) := by
    rw [Cross.rdPos_lt (Nat.mod_lt _ (by decide))]
    congr 1
    rw [mem_P] at ht
    have := slot_of_lt (cross := cross) ht.1 ht.2
    exact (eslot_of_slot this).symm
  obtain ⟨g1, g2, g3⟩ := hG.2 _ hnlt
  have hte : turn 2 h = (h.1, (h.2 + 2) % 4) := rfl
  have run : nextCompEdge cross E (eslot cross h) =
      if h.1 = E[eslot cross (turn 2 h)]!.tail ∧ (h.2 + 2) % 4 = E[eslot cross (turn 2 h)]!.tailpos then
        .ok (eslot cross (turn 2 h), .pos)
      else if h.1 = E[eslot cross (turn 2 h)]!.head ∧ (h.2 + 2) % 4 = E[eslot cross (turn 2 h)]!.headpos then
        .ok (eslot cross (turn 2 h), .neg)
      else .error .die := by
    unfold nextCompEdge
    rw [assertC_ok (by simpa [hG.1] using hlt), ok_bind, r1, ok_bind, e1, e2, r3, ok_bind, r4, ok_bind,
      r2, ok_bind]
  rw [run, es]
  rcases same_edge hC g1 ht g2 with e | e
  · -- the place is the head of the next edge
    refine ⟨.neg, ?_, Or.inr ⟨rfl, e.symm, ?_⟩⟩
    · rw [if_neg, if_pos]
      · have := e.symm
        rw [hte] at this
        exact ⟨(congrArg Prod.fst this).symm, (congrArg Prod.snd this).symm⟩
      · rintro ⟨a, b⟩
        have : tl E[eslot cross (turn 2 h)]! = turn 2 h := by
          rw [hte] at *; unfold tl; rw [← a, ← b]
        rw [g3, ← e] at this
        exact oth_ne hC ht this
    · rw [g3, ← e]
  · refine ⟨.pos, ?_, Or.inl ⟨rfl, g3.trans e.symm, ?_⟩⟩
    · rw [if_pos]
      rw [← g3] at e
      rw [hte] at e
      exact ⟨congrArg Prod.fst e, congrArg Prod.snd e⟩
    · have := congrArg (oth cross E0) e
      rw [oth_oth hC g1] at this
      exact this.symm

/-- Places visited up to step `j` of the walk starting with head `h`. -/
def W (cross : List Cross) (E0 : List Edge) (h : Nat × Nat) (j : Nat) : Finset (Nat × Nat) :=
  (Finset.range (j + 1)).biUnion (fun i =>
    {(fun p => oth cross E0 (turn 2 p))^[i] h, oth cross E0 ((fun p => oth cross E0 (turn 2 p))^[i] h)})

omit hC in
theorem mem_W {h p : Nat × Nat} {j : Nat} : p ∈ W cross E0 h j ↔
    ∃ i, i ≤ j ∧ (p = φ^[i] h ∨ p = oth cross E0 (φ^[i] h)) := by
  simp only [W, Finset.mem_biUnion, Finset.mem_range, Finset.mem_insert, Finset.mem_singleton]
  constructor
  · rintro ⟨i, h1, h2⟩; exact ⟨i, by omega, h2⟩
  · rintro ⟨i, h1, h2⟩; exact ⟨i, by omega, h2⟩

/-- Different steps before the walk closes use different edges. -/
theorem walk_edges_inj {h : Nat × Nat} (hh : h ∈ P cross) {i j : Nat} (hi : i < per φ h)
    (hj : j < per φ h) (he : eslot cross (φ^[i] h) = eslot cross (φ^[j] h)) : i = j := by
  have hI := injOn_turn hC 2
  have key : ∀ i j, i ≤ j → eslot cross (φ^[i] h) = eslot cross (φ^[j] h) → φ^[i] h = φ^[j] h := by
    intro i j hij he
    rcases same_edge hC (hI.iterate_mem hh i) (hI.iterate_mem hh j) he with e | e
    · exact e.symm
    · exfalso
      have := no_reversal hC (j - i) (φ^[i] h) (hI.iterate_mem hh i)
      rw [← Function.iterate_add_apply, show j - i + i = j by omega] at this
      exact this e
  rcases Nat.le_total i j with hij | hij
  · exact iterate_inj_lt hi hj (key i j hij he)
  · exact iterate_inj_lt hi hj (key j i hij he.symm).symm

theorem per_le_edges {h : Nat × Nat} (hh : h ∈ P cross) : per φ h ≤ E0.length := by
  have hI := injOn_turn hC 2
  have := Finset.card_le_card_of_injOn (s := Finset.range (per φ h)) (t := Finset.range E0.length)
    (fun i => eslot cross (φ^[i] h))
    (fun i _ => by
      rw [Finset.mem_coe, Finset.mem_range]; exact eslot_lt hC (hI.iterate_mem hh i))
    (fun i hi j hj he => by
      rw [Finset.mem_coe, Finset.mem_range] at hi hj
      exact walk_edges_inj hC hh hi hj he)
  simpa using this

/-- State of the walk after step `j`. -/
structure Inv (cross : List Cross) (E0 Ein : List Edge) (U : Finset (Nat × Nat)) (h : Nat × Nat)
    (j : Nat) (E : List Edge) (cm : List Mark) : Prop where
  good : Good cross E0 E
  seen : ∀ i, i ≤ j → hd E[eslot cross ((fun p => oth cross E0 (turn 2 p))^[i] h)]! =
    (fun p => oth cross E0 (turn 2 p))^[i] h
  other : ∀ e, (∀ i, i ≤ j → eslot cross ((fun p => oth cross E0 (turn 2 p))^[i] h) ≠ e) → E[e]! = Ein[e]!
  marks : Marks cross.length cm (U ∪ W cross E0 h j)

theorem markEdge_ok {n : Nat} {cm : List Mark} {U : Finset (Nat × Nat)} (hn : n = cross.length)
    (h : Marks n cm U) {p : Nat × Nat} {r : Edge} (hp : p ∈ P cross) (h1 : hd r = p)
    (h2 : tl r = oth cross E0 p) (u1 : p ∉ U) (u2 : oth cross E0 p ∉ U) :
    ∃ cm', markEdge cm r = .ok cm' ∧ Marks n cm' (insert (oth cross E0 p) (insert p U)) := by
  subst hn
  have hp' := mem_P.mp hp
  have ho' := mem_P.mp (oth_mem hC hp)
  obtain ⟨cm1, a1, a2⟩ := markPlace_ok h hp'.1 hp'.2 u1
  obtain ⟨cm2, b1, b2⟩ := markPlace_ok a2 ho'.1 ho'.2 (by
    rw [Finset.mem_insert, not_or]
    exact ⟨oth_ne hC hp, u2⟩)
  refine ⟨cm2, ?_, b2⟩
  unfold markEdge
  have e1 : r.head = p.1 := congrArg Prod.fst h1
  have e2 : r.headpos = p.2 := congrArg Prod.snd h1
  have e3 : r.tail = (oth cross E0 p).1 := congrArg Prod.fst h2
  have e4 : r.tailpos = (oth cross E0 p).2 := congrArg Prod.snd h2
  rw [e1, e2, e3, e4, a1, ok_bind, b1]

/-- The walk along a component closes after its period, with all its edges directed along
it and all its places marked. -/
theorem walk_ok {Ein : List Edge} {U : Finset (Nat × Nat)} {h : Nat × Nat} (hh : h ∈ P cross)
    (hU : ∀ i, φ^[i] h ∉ U ∧ oth cross E0 (φ^[i] h) ∉ U) :
    ∀ (k r j : Nat) (E : List Edge) (cm : List Mark) (o : Or),
      j + 1 + k = per φ h → r + j = E0.length → Inv cross E0 Ein U h j E cm →
      ((o = .pos ∧ tl E[eslot cross (φ^[j + 1] h)]! = turn 2 (φ^[j] h) ∧
          hd E[eslot cross (φ^[j + 1] h)]! = φ^[j + 1] h) ∨
       (o = .neg ∧ hd E[eslot cross (φ^[j + 1] h)]! = turn 2 (φ^[j] h) ∧
          tl E[eslot cross (φ^[j + 1] h)]! = φ^[j + 1] h)) →
      ∃ E' cm', walkEdges cross (eslot cross h) r (eslot cross (φ^[j + 1] h)) o E cm = .ok (E', cm') ∧
        Inv cross E0 Ein U h (per φ h - 1) E' cm' := by
  have hI := injOn_turn hC 2
  intro k
  induction k with
  | zero =>
    intro r j E cm o hk _ hinv _
    have e : φ^[j + 1] h = h := by
      rw [show j + 1 = per φ h by omega]; exact iterate_per _ _
    refine ⟨E, cm, ?_, ?_⟩
    · rw [e]
      cases r <;> unfold walkEdges <;> rw [if_pos rfl]
    · rw [show per φ h - 1 = j by omega]; exact hinv
  | succ k ih =>
    intro r j E cm o hk hr hinv ho
    have hpl := per_le_edges hC hh
    obtain ⟨r, rfl⟩ : ∃ r', r = r' + 1 := ⟨r - 1, by omega⟩
    have hj1 : j + 1 < per φ h := by omega
    have hne : eslot cross (φ^[j + 1] h) ≠ eslot cross h := by
      intro e
      have := walk_edges_inj hC hh hj1 (by omega : 0 < per φ h) e
      omega
    have hm := hI.iterate_mem hh (j + 1)
    have hlt := eslot_lt hC hm
    obtain ⟨g1, g2, g3⟩ := hinv.good.2 _ hlt
    -- the new record
    have hnew : ∃ x', orientedEdge E[eslot cross (φ^[j + 1] h)]! o = .ok x' ∧ hd x' = φ^[j + 1] h ∧
        tl x' = oth cross E0 (φ^[j + 1] h) := by
      rcases ho with ⟨rfl, h1, h2⟩ | ⟨rfl, h1, h2⟩
      · exact ⟨_, rfl, h2, by rw [g3, h2]⟩
      · refine ⟨_, rfl, h2, ?_⟩
        show hd E[eslot cross (φ^[j + 1] h)]! = _
        rw [h1, Function.iterate_succ_apply', oth_oth hC (turn_mem 2 (hI.iterate_mem hh j))]
    obtain ⟨x', x1, x2, x3⟩ := hnew
    have hfresh : ∀ i, i ≤ j → eslot cross (φ^[i] h) ≠ eslot cross (φ^[j + 1] h) := by
      intro i hi e
      have := walk_edges_inj hC hh (by omega : i < per φ h) hj1 e
      omega
    obtain ⟨cm1, m1, m2⟩ := markEdge_ok hC rfl hinv.marks hm x2 x3
      (by
        rw [Finset.mem_union, not_or]
        refine ⟨(hU (j + 1)).1, ?_⟩
        rw [mem_W]
        rintro ⟨i, hi, e | e⟩
        · exact hfresh i hi (by rw [e])
        · exact hfresh i hi (by rw [e, eslot_oth hC (hI.iterate_mem hh i)]))
      (by
        rw [Finset.mem_union, not_or]
        refine ⟨(hU (j + 1)).2, ?_⟩
        rw [mem_W]
        rintro ⟨i, hi, e | e⟩
        · exact hfresh i hi (by rw [← e, eslot_oth hC hm])
        · have := congrArg (eslot cross) e
          rw [eslot_oth hC hm, eslot_oth hC (hI.iterate_mem hh i)] at this
          exact hfresh i hi this.symm)
    have hElt : eslot cross (φ^[j + 1] h) < E.length := by rw [hinv.good.1]; exact hlt
    have hvisit : visit (eslot cross (φ^[j + 1] h)) o E cm =
        .ok (E.set (eslot cross (φ^[j + 1] h)) x', cm1) := by
      unfold visit
      rw [rd_bang hElt, ok_bind, x1, ok_bind, wr_lt hElt, ok_bind, m1, ok_bind]
    have hset : ∀ e, (E.set (eslot cross (φ^[j + 1] h)) x')[e]! =
        if e = eslot cross (φ^[j + 1] h) then x' else E[e]! := set_bang x' hElt
    have hinv' : Inv cross E0 Ein U h (j + 1) (E.set (eslot cross (φ^[j + 1] h)) x') cm1 := by
      refine ⟨⟨by simpa using hinv.good.1, ?_⟩, ?_, ?_, ?_⟩
      · intro e he
        rw [hset]
        split
        · rename_i hee
          rw [x2, x3]
          exact ⟨hm, hee.symm, rfl⟩
        · exact hinv.good.2 e he
      · intro i hi
        rw [hset]
        by_cases hij : i = j + 1
        · subst hij; rw [if_pos rfl, x2]
        · rw [if_neg (hfresh i (by omega))]; exact hinv.seen i (by omega)
      · intro e he
        rw [hset, if_neg (fun hh => he (j + 1) (Nat.le_refl _) hh.symm)]
        exact hinv.other e (fun i hi => he i (by omega))
      · convert m2 using 1
        ext p
        simp only [Finset.mem_union, Finset.mem_insert, mem_W]
        constructor
        · rintro (hp | ⟨i, hi, hp⟩)
          · tauto
          · by_cases hij : i = j + 1
            · subst hij; tauto
            · exact Or.inr (Or.inr (Or.inr ⟨i, by omega, hp⟩))
        · rintro (hp | hp | hp | ⟨i, hi, hp⟩)
          · exact Or.inr ⟨j + 1, Nat.le_refl _, Or.inr hp⟩
          · exact Or.inr ⟨j + 1, Nat.le_refl _, Or.inl hp⟩
          · exact Or.inl hp
          · exact Or.inr ⟨i, by omega, hp⟩
    obtain ⟨o', n1, n2⟩ := nextCompEdge_ok hC hinv'.good hm (hinv'.seen (j + 1) (Nat.le_refl _))
    have es : φ (φ^[j + 1] h) = φ^[j + 1 + 1] h :=
      (Function.iterate_succ_apply' φ (j + 1) h).symm
    unfold walkEdges
    rw [if_neg hne, hvisit, ok_bind]
    simp only
    rw [n1, ok_bind]
    simp only
    have es' : oth cross E0 (turn 2 (φ^[j + 1] h)) = φ^[j + 1 + 1] h := es
    simp only [es'] at n2 ⊢
    exact ih r (j + 1) _ _ o' (by omega) (by omega) hinv' n2

/-! ### All components -/

omit hC in
theorem mem_W_all {h p : Nat × Nat} (hh : h ∈ P cross) (hI : InjOn φ (P cross)) :
    p ∈ W cross E0 h (per φ h - 1) ↔ ∃ i, p = φ^[i] h ∨ p = oth cross E0 (φ^[i] h) := by
  rw [mem_W]
  constructor
  · rintro ⟨i, _, h2⟩; exact ⟨i, h2⟩
  · rintro ⟨i, h2⟩
    have hp := hI.per_pos hh
    refine ⟨i % per φ h, by have := Nat.mod_lt i hp; omega, ?_⟩
    rw [iterate_mod_per]
    exact h2

/-- What is known between components. -/
structure Outer (cross : List Cross) (E0 : List Edge) (U : Finset (Nat × Nat)) (E : List Edge)
    (cm : List Mark) : Prop where
  good : Good cross E0 E
  marks : Marks cross.length cm U
  sub : U ⊆ P cross
  oth_closed : ∀ p ∈ U, oth cross E0 p ∈ U
  turn_closed : ∀ p ∈ U, turn 2 p ∈ U
  through : ∀ p ∈ U, (hd E[eslot cross p]! = p ↔ hd E[eslot cross (turn 2 p)]! ≠ turn 2 p)

theorem oneComp_ok {U : Finset (Nat × Nat)} {E : List Edge} {cm : List Mark}
    (hO : Outer cross E0 U E cm) {q : Nat × Nat} (hq : q ∈ P cross) (hqU : q ∉ U) :
    ∃ E' cm' U', oneComp cross q.1 q.2 E cm = .ok (E', cm') ∧ Outer cross E0 U' E' cm' ∧
      ((∀ p ∈ P cross, oth cross E0 p ≠ turn 2 p) → U.card + 4 ≤ U'.card) := by
  have hI := injOn_turn hC 2
  have hs := eslot_lt hC hq
  have hq' := mem_P.mp hq
  have hElen := hO.good.1
  obtain ⟨g1, g2, g3⟩ := hO.good.2 _ hs
  obtain ⟨h, hh0⟩ : ∃ h, h = hd E[eslot cross q]! := ⟨_, rfl⟩
  have hh : h ∈ P cross := by rw [hh0]; exact g1
  have hes : eslot cross h = eslot cross q := by rw [hh0]; exact g2
  have hhU : h ∉ U := by
    intro hu
    rcases same_edge hC hh hq hes with e | e
    · exact hqU (by rw [e]; exact hu)
    · exact hqU (by rw [e]; exact hO.oth_closed _ hu)
  have back : ∀ p ∈ P cross, φ p ∈ U → p ∈ U := by
    intro p hp hu
    have := hO.oth_closed _ hu
    simp only at this
    rw [oth_oth hC (turn_mem 2 hp)] at this
    have := hO.turn_closed _ this
    rwa [turn_turn hp 2 2 (by decide)] at this
  have hU1 : ∀ i, φ^[i] h ∉ U := by
    intro i
    induction i with
    | zero => exact hhU
    | succ i ih =>
      rw [Function.iterate_succ_apply']
      exact fun hu => ih (back _ (hI.iterate_mem hh i) hu)
  have hU : ∀ i, φ^[i] h ∉ U ∧ oth cross E0 (φ^[i] h) ∉ U := by
    intro i
    refine ⟨hU1 i, fun hu => hU1 i ?_⟩
    have := hO.oth_closed _ hu
    rwa [oth_oth hC (hI.iterate_mem hh i)] at this
  obtain ⟨cm1, m1, m2⟩ := markEdge_ok hC rfl hO.marks hh hh0.symm (by rw [hh0]; exact g3) (hU 0).1 (hU 0).2
  have hE0 : hd E[eslot cross h]! = h := by rw [hes]; exact hh0.symm
  obtain ⟨o, n1, n2⟩ := nextCompEdge_ok hC hO.good hh hE0
  have hinv : Inv cross E0 E U h 0 E cm1 := by
    refine ⟨hO.good, ?_, fun _ _ => rfl, ?_⟩
    · intro i hi
      obtain rfl : i = 0 := by omega
      exact hE0
    · convert m2 using 1
      ext p
      simp only [Finset.mem_union, Finset.mem_insert, mem_W]
      constructor
      · rintro (hp | ⟨i, hi, hp⟩)
        · tauto
        · obtain rfl : i = 0 := by omega
          simp only [Function.iterate_zero, id_eq] at hp
          tauto
      · rintro (hp | hp | hp)
        · exact Or.inr ⟨0, Nat.le_refl _, Or.inr hp⟩
        · exact Or.inr ⟨0, Nat.le_refl _, Or.inl hp⟩
        · exact Or.inl hp
  have hpp := hI.per_pos hh
  obtain ⟨E', cm', w1, w2⟩ := walk_ok hC (Ein := E) hh hU (per φ h - 1) E0.length 0 E cm1 o (by omega)
    (by omega) hinv n2
  have seen : ∀ i, hd E'[eslot cross (φ^[i] h)]! = φ^[i] h := by
    intro i
    have := w2.seen (i % per φ h) (by have := Nat.mod_lt i hpp; omega)
    rwa [iterate_mod_per] at this
  have succ : ∀ i, φ^[i + 1] h = oth cross E0 (turn 2 (φ^[i] h)) := fun i =>
    Function.iterate_succ_apply' φ i h
  have pred : ∀ i, ∃ j, φ^[i] h = oth cross E0 (turn 2 (φ^[j] h)) := by
    intro i
    refine ⟨i + per φ h - 1, ?_⟩
    rw [← succ, show i + per φ h - 1 + 1 = i + per φ h by omega, Function.iterate_add_apply, iterate_per]
  have tt : ∀ i, turn 2 (turn 2 (φ^[i] h)) = φ^[i] h := fun i =>
    turn_turn (hI.iterate_mem hh i) 2 2 (by decide)
  have oturn : ∀ i, turn 2 (φ^[i] h) = oth cross E0 (φ^[i + 1] h) := by
    intro i
    rw [succ, oth_oth hC (turn_mem 2 (hI.iterate_mem hh i))]
  refine ⟨E', cm', U ∪ W cross E0 h (per φ h - 1), ?_, ?_, ?_⟩
  · unfold oneComp
    have r1 : cross[q.1].rdPos q.2 = .ok (eslot cross q) := by
      rw [Cross.rdPos_lt hq'.2]
      congr 1
      exact (eslot_of_slot (slot_of_lt hq'.1 hq'.2)).symm
    rw [rd_lt hq'.1, ok_bind, r1, ok_bind, rd_bang (by omega), ok_bind, m1, ok_bind, ← hes, n1, ok_bind]
    simp only
    rw [hElen]
    exact w1
  · refine ⟨w2.good, w2.marks, ?_, ?_, ?_, ?_⟩
    · intro p hp
      rw [Finset.mem_union, mem_W] at hp
      rcases hp with hp | ⟨i, _, rfl | rfl⟩
      · exact hO.sub hp
      · exact hI.iterate_mem hh i
      · exact oth_mem hC (hI.iterate_mem hh i)
    · intro p hp
      rw [Finset.mem_union, mem_W_all hh hI] at hp ⊢
      rcases hp with hp | ⟨i, rfl | rfl⟩
      · exact Or.inl (hO.oth_closed _ hp)
      · exact Or.inr ⟨i, Or.inr rfl⟩
      · exact Or.inr ⟨i, Or.inl (oth_oth hC (hI.iterate_mem hh i))⟩
    · intro p hp
      rw [Finset.mem_union, mem_W_all hh hI] at hp ⊢
      rcases hp with hp | ⟨i, rfl | rfl⟩
      · exact Or.inl (hO.turn_closed _ hp)
      · exact Or.inr ⟨i + 1, Or.inr (oturn i)⟩
      · obtain ⟨j, hj⟩ := pred i
        refine Or.inr ⟨j, Or.inl ?_⟩
        rw [hj, oth_oth hC (turn_mem 2 (hI.iterate_mem hh j)), tt]
    · intro p hp
      rw [Finset.mem_union, mem_W_all hh hI] at hp
      rcases hp with hp | ⟨i, rfl | rfl⟩
      · have fixed : ∀ x ∈ U, E'[eslot cross x]! = E[eslot cross x]! := by
          intro x hx
          apply w2.other
          intro i _ he
          rcases same_edge hC (hI.iterate_mem hh i) (hO.sub hx) he with e | e
          · exact (hU i).1 (by rw [← e]; exact hx)
          · exact (hU i).2 (by rw [← e]; exact hx)
        rw [fixed p hp, fixed _ (hO.turn_closed p hp)]
        exact hO.through p hp
      · refine iff_of_true (seen i) ?_
        rw [oturn, eslot_oth hC (hI.iterate_mem hh (i + 1)), seen]
        exact (oth_ne hC (hI.iterate_mem hh (i + 1))).symm
      · refine iff_of_false ?_ ?_
        · rw [eslot_oth hC (hI.iterate_mem hh i), seen]
          exact (oth_ne hC (hI.iterate_mem hh i)).symm
        · obtain ⟨j, hj⟩ := pred i
          rw [hj, oth_oth hC (turn_mem 2 (hI.iterate_mem hh j)), tt, seen]
          exact fun hc => hc rfl
  · intro hF
    have hth := turn_mem 2 hh
    have hsub : U ∪ ({h, oth cross E0 h, turn 2 h, oth cross E0 (turn 2 h)} : Finset _) ⊆
        U ∪ W cross E0 h (per φ h - 1) := by
      intro p hp
      rw [Finset.mem_union] at hp ⊢
      rcases hp with hp | hp
      · exact Or.inl hp
      · right
        rw [mem_W_all hh hI]
        simp only [Finset.mem_insert, Finset.mem_singleton] at hp
        rcases hp with rfl | rfl | rfl | rfl
        · exact ⟨0, Or.inl rfl⟩
        · exact ⟨0, Or.inr rfl⟩
        · exact ⟨1, Or.inr (oturn 0)⟩
        · exact ⟨1, Or.inl rfl⟩
    refine Nat.le_trans ?_ (Finset.card_le_card hsub)
    have c4 : ({h, oth cross E0 h, turn 2 h, oth cross E0 (turn 2 h)} : Finset _).card = 4 := by
      have a1 := oth_ne hC hh
      have a2 := oth_ne hC hth
      have a3 := turn_ne hh 2 (by decide)
      have a4 := hF h hh
      have a5 : oth cross E0 (turn 2 h) ≠ h := by
        intro e
        apply a4
        have := congrArg (oth cross E0) e
        rw [oth_oth hC hth] at this
        exact this.symm
      have a6 : oth cross E0 h ≠ oth cross E0 (turn 2 h) := by
        intro e
        have := congrArg (oth cross E0) e
        rw [oth_oth hC hh, oth_oth hC hth] at this
        exact a3 this.symm
      rw [Finset.card_insert_of_notMem, Finset.card_insert_of_notMem, Finset.card_insert_of_notMem,
        Finset.card_singleton]
      · simp only [Finset.mem_singleton]; exact fun e => a2 e.symm
      · simp only [Finset.mem_insert, Finset.mem_singleton, not_or]; exact ⟨a4, a6⟩
      · simp only [Finset.mem_insert, Finset.mem_singleton, not_or]
        exact ⟨fun e => a1 e.symm, fun e => a3 e.symm, fun e => a5 e.symm⟩
    rw [Finset.card_union_of_disjoint, c4]
    rw [Finset.disjoint_right]
    intro p hp
    simp only [Finset.mem_insert, Finset.mem_singleton] at hp
    rcases hp with rfl | rfl | rfl | rfl
    · exact (hU 0).1
    · exact (hU 0).2
    · have := (hU 1).2; rw [← oturn 0] at this; exact this
    · exact (hU 1).1

theorem Outer.final {U : Finset (Nat × Nat)} {E : List Edge} {cm : List Mark}
    (hO : Outer cross E0 U E cm) (hall : ∀ p ∈ P cross, p ∈ U) :
    Consistent cross E ∧ ∀ (e : Nat) (r : Edge), E[e]? = some r → EdgeGood cross E e r := by
  have hC' := hO.good.consistent hC
  refine ⟨hC', ?_⟩
  intro e r hr
  have he : e < E.length := (List.getElem?_eq_some_iff.mp hr).1
  have hr' : r = E[e]! := by
    rw [getElem!_pos E e he]
    exact (List.getElem?_eq_some_iff.mp hr).2.symm
  have gt : ∀ x, x < E.length → E[x]? = some E[x]! := by
    intro x hx; rw [getElem!_pos E x hx]; exact List.getElem?_eq_getElem hx
  refine ⟨hC'.head e r hr, hC'.tail e r hr, ?_, ?_⟩
  · obtain ⟨p1, p2⟩ := hd_mem hC' he
    have hth := turn_mem 2 p1
    have hlt := eslot_lt hC' hth
    have := (hO.through _ (hall _ p1)).mp (by rw [p2])
    refine ⟨eslot cross (turn 2 (hd E[e]!)), E[eslot cross (turn 2 (hd E[e]!))]!, ?_, gt _ hlt, ?_⟩
    · have := slot_eslot hth
      rw [hr']; exact this
    · have key : tl E[eslot cross (turn 2 (hd E[e]!))]! = turn 2 (hd E[e]!) := by
        rcases ends_at hC' hth with h1 | h1
        · exact absurd h1 this
        · exact h1
      rw [hr']
      exact ⟨congrArg Prod.fst key, congrArg Prod.snd key⟩
  · obtain ⟨p1, p2⟩ := tl_mem hC' he
    have hth := turn_mem 2 p1
    have hlt := eslot_lt hC' hth
    have hnot : ¬ hd E[eslot cross (tl E[e]!)]! = tl E[e]! := by rw [p2]; exact hd_ne_tl hC' he
    have := (not_congr (hO.through _ (hall _ p1))).mp hnot
    rw [not_not] at this
    refine ⟨eslot cross (turn 2 (tl E[e]!)), E[eslot cross (turn 2 (tl E[e]!))]!, ?_, gt _ hlt, ?_⟩
    · have := slot_eslot hth
      rw [hr']; exact this
    · rw [hr']
      exact ⟨congrArg Prod.fst this, congrArg Prod.snd this⟩

omit hC in
theorem card_P : (P cross).card = 4 * cross.length := by
  rw [P, Finset.card_product, Finset.card_range, Finset.card_range, Nat.mul_comm]

theorem compLoop_ok : ∀ (r : Nat) (U : Finset (Nat × Nat)) (E : List Edge) (cm : List Mark),
    r ≤ cross.length → Outer cross E0 U E cm →
    ((∀ p ∈ P cross, oth cross E0 p ≠ turn 2 p) → 4 * (cross.length - r) ≤ U.card) →
    (∃ E', compLoop cross r E cm = .ok E' ∧ Consistent cross E' ∧
      ∀ (e : Nat) (x : Edge), E'[e]? = some x → EdgeGood cross E' e x) ∨
    (compLoop cross r E cm = .error .die ∧ ¬ ∀ p ∈ P cross, oth cross E0 p ≠ turn 2 p)
  | 0, U, E, cm, _, hO, hcard => by
    have hf := marks_find hO.marks
    unfold compLoop
    match hm : findUnusedCross cm 0 with
    | none => exact Or.inl ⟨E, rfl, hO.final hC (hf.2 hm)⟩
    | some (i, j) =>
      right
      obtain ⟨h1, h2⟩ := hf.1 _ hm
      obtain ⟨E', cm', U', g1, _, _⟩ := oneComp_ok hC hO h1 h2
      simp only at g1 ⊢
      rw [g1, ok_bind]
      refine ⟨rfl, ?_⟩
      intro hF
      have := hcard hF
      have e := Finset.eq_of_subset_of_card_le hO.sub (by rw [card_P]; omega)
      rw [e] at h2
      exact h2 h1
  | r + 1, U, E, cm, hr, hO, hcard => by
    have hf := marks_find hO.marks
    unfold compLoop
    match hm : findUnusedCross cm 0 with
    | none => exact Or.inl ⟨E, rfl, hO.final hC (hf.2 hm)⟩
    | some (i, j) =>
      obtain ⟨h1, h2⟩ := hf.1 _ hm
      obtain ⟨E', cm', U', g1, g2, g3⟩ := oneComp_ok hC hO h1 h2
      simp only at g1 ⊢
      rw [g1, ok_bind]
      exact compLoop_ok r U' E' cm' (by omega) g2 (fun hF => by have := hcard hF; have := g3 hF; omega)

theorem outer_init : Outer cross E0 ∅ E0 (crossmarkNew cross.length) :=
  ⟨good_self hC, marks_new _, by simp, by simp, by simp, by simp⟩

end

/-- On any list of crossings using every edge number twice, `pd_regenerate_edges` either gives
a good diagram, or stops the program, which only happens if an edge meets itself across a
crossing. -/
theorem regenEdges_cases {cross : List Cross} (h0 : cross ≠ []) (hT : Twice cross) :
    (∃ E, regenEdges cross = .ok E ∧ Consistent cross E ∧ Oriented cross E) ∨
    (regenEdges cross = .error .die ∧
      ∃ c k e, k < 4 ∧ slot cross c k = some e ∧ slot cross c ((k + 2) % 4) = some e) := by
  obtain ⟨E0, h1, hC⟩ := init_consistent hT
  unfold regenEdges
  rw [h1, ok_bind]
  rcases compLoop_ok hC cross.length ∅ E0 (crossmarkNew cross.length) (Nat.le_refl _) (outer_init hC)
    (fun _ => by simp) with ⟨E, g1, g2, g3⟩ | ⟨g1, g2⟩
  · left
    have := (edgesOk_iff (edge := E) h0).mpr ⟨g2.count, g3⟩
    refine ⟨E, ?_, g2, ?_, ?_⟩
    · rw [g1, ok_bind, this, ok_bind, assertC_ok rfl, ok_bind]
    · intro e r hr
      obtain ⟨_, _, ⟨n, nr, _, a, b⟩, _⟩ := g3 e r hr
      exact ⟨n, nr, a, b⟩
    · intro e r hr
      obtain ⟨_, _, _, ⟨n, nr, _, a, b⟩⟩ := g3 e r hr
      exact ⟨n, nr, a, b⟩
  · right
    rw [g1]
    refine ⟨rfl, ?_⟩
    push Not at g2
    obtain ⟨p, hp, he⟩ := g2
    refine ⟨p.1, p.2, eslot cross p, (mem_P.mp hp).2, slot_eslot hp, ?_⟩
    have h3 := slot_eslot (turn_mem 2 hp)
    rw [← he, eslot_oth hC hp, he] at h3
    exact h3

end Plc.Edges
