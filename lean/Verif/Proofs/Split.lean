import Verif.Spec.Split
import Verif.Model.Split
import Verif.Proofs.Core
import Mathlib.Data.List.Count

namespace Plc.Split

open Plc.Core List

variable {cross : List Cross} {edge : List Edge}

theorem loose_of_consistent (h : Consistent cross edge) : Loose cross edge where
  ends e r he _ := ⟨h.head e r he, h.tail e r he, h.ends_ne e r he⟩
  slots _ _ _ hs := h.slots hs

theorem isFree_iff (r : Edge) : isFree r = true ↔ r = freeEdge := by
  cases r
  simp only [isFree, freeEdge, Bool.and_eq_true, decide_eq_true_eq, Edge.mk.injEq]
  tauto

/-- The edge `j` is next to an end of `e`, on one of its sides. -/
def Nbr (cross : List Cross) (edge : List Edge) (e j : Nat) : Prop :=
  ∃ r, edge[e]? = some r ∧ r ≠ freeEdge ∧
    (slot cross r.head ((r.headpos + 1) % 4) = some j ∨ slot cross r.head ((r.headpos + 3) % 4) = some j ∨
     slot cross r.tail ((r.tailpos + 1) % 4) = some j ∨ slot cross r.tail ((r.tailpos + 3) % 4) = some j)

theorem free_no_slot (h : Loose cross edge) {c k e : Nat} (hs : slot cross c k = some e) :
    ∃ r, edge[e]? = some r ∧ r ≠ freeEdge ∧ ((r.head = c ∧ r.headpos = k) ∨ (r.tail = c ∧ r.tailpos = k)) := by
  obtain ⟨r, h1, h2⟩ := h.slots c k e hs
  refine ⟨r, h1, ?_, h2⟩
  rintro rfl
  have := (slot_lt hs).2
  rcases h2 with ⟨_, h2⟩ | ⟨_, h2⟩ <;> simp only [freeEdge, UNSET_POS] at h2 <;> omega

theorem nbr_of_slots (h : Loose cross edge) {c p q e j : Nat} (he : slot cross c p = some e) (hj : slot cross c q = some j)
    (hpq : q = (p + 1) % 4 ∨ q = (p + 3) % 4) : Nbr cross edge e j := by
  obtain ⟨r, h1, h2, h3⟩ := free_no_slot h he
  refine ⟨r, h1, h2, ?_⟩
  rcases h3 with ⟨rfl, rfl⟩ | ⟨rfl, rfl⟩ <;> rcases hpq with rfl | rfl
  · exact Or.inl hj
  · exact Or.inr (Or.inl hj)
  · exact Or.inr (Or.inr (Or.inl hj))
  · exact Or.inr (Or.inr (Or.inr hj))

/-- Where neighbours meet. -/
theorem nbr_slots (h : Loose cross edge) {e j : Nat} (hn : Nbr cross edge e j) :
    ∃ c p q, slot cross c p = some e ∧ slot cross c q = some j ∧ (q = (p + 1) % 4 ∨ q = (p + 3) % 4) := by
  obtain ⟨r, h1, h2, h3⟩ := hn
  obtain ⟨a, b, _⟩ := h.ends e r h1 h2
  rcases h3 with h3 | h3 | h3 | h3
  · exact ⟨_, _, _, a, h3, Or.inl rfl⟩
  · exact ⟨_, _, _, a, h3, Or.inr rfl⟩
  · exact ⟨_, _, _, b, h3, Or.inl rfl⟩
  · exact ⟨_, _, _, b, h3, Or.inr rfl⟩

theorem nbr_symm (h : Loose cross edge) {e j : Nat} (hn : Nbr cross edge e j) : Nbr cross edge j e := by
  obtain ⟨c, p, q, h1, h2, h3⟩ := nbr_slots h hn
  have := (slot_lt h1).2
  exact nbr_of_slots h h2 h1 (by omega)

theorem nbr_lt (h : Loose cross edge) {e j : Nat} (hn : Nbr cross edge e j) : e < edge.length ∧ j < edge.length := by
  obtain ⟨c, p, q, h1, h2, h3⟩ := nbr_slots h hn
  obtain ⟨r, r1, _⟩ := h.slots _ _ _ h1
  obtain ⟨s, s1, _⟩ := h.slots _ _ _ h2
  exact ⟨(List.getElem?_eq_some_iff.mp r1).1, (List.getElem?_eq_some_iff.mp s1).1⟩

/-- Reaching through neighbours is the same as reaching through crossings. -/
theorem linked_iff (h : Loose cross edge) (e f : Nat) :
    Relation.ReflTransGen (Nbr cross edge) e f ↔ Linked cross e f := by
  constructor
  · intro hr
    refine Relation.ReflTransGen.mono ?_ _ _ hr
    intro a b hab
    obtain ⟨c, p, q, h1, h2, _⟩ := nbr_slots h hab
    exact ⟨c, p, q, h1, h2⟩
  · intro hr
    induction hr with
    | refl => exact .refl
    | tail _ hab ih =>
      obtain ⟨c, p, q, h1, h2⟩ := hab
      refine ih.trans ?_
      have hp := (slot_lt h1).2
      have hq := (slot_lt h2).2
      by_cases hpq : p = q
      · subst hpq
        rw [h1] at h2
        cases h2
        exact .refl
      by_cases hadj : q = (p + 1) % 4 ∨ q = (p + 3) % 4
      · exact .single (nbr_of_slots h h1 h2 hadj)
      · have hm : slot cross c ((p + 1) % 4) = some _ := slot_of_lt (slot_lt h1).1 (by omega)
        exact (Relation.ReflTransGen.single (nbr_of_slots h h1 hm (Or.inl rfl))).tail
          (nbr_of_slots h hm h2 (by omega))

theorem incident_ok (h : Loose cross edge) {e : Nat} {r : Edge} (he : edge[e]? = some r) (hf : r ≠ freeEdge) :
    ∃ inc, incident cross r = .ok inc ∧ ∀ j, j ∈ inc ↔ Nbr cross edge e j := by
  obtain ⟨a, b, _⟩ := h.ends e r he hf
  have ha := slot_lt a
  have hb := slot_lt b
  have sl : ∀ c p, (hc : c < cross.length) → slot cross c (p % 4) = some (cross[c].at p) := by
    intro c p hc
    rw [slot_of_lt hc (Nat.mod_lt _ (by decide)), Cross.at_mod]
  unfold incident
  rw [assertC_ok (by simpa using ha.1), ok_bind, assertC_ok (by simpa using hb.1), ok_bind, rd_lt ha.1, ok_bind,
    rd_lt hb.1, ok_bind]
  refine ⟨_, rfl, ?_⟩
  intro j
  unfold Nbr
  constructor
  · intro hj
    refine ⟨r, he, hf, ?_⟩
    simp only [List.mem_cons, List.not_mem_nil, or_false] at hj
    rw [sl _ _ ha.1, sl _ _ ha.1, sl _ _ hb.1, sl _ _ hb.1]
    simp only [Option.some.injEq]
    tauto
  · rintro ⟨r', h1, _, h3⟩
    rw [he] at h1
    cases h1
    rw [sl _ _ ha.1, sl _ _ ha.1, sl _ _ hb.1, sl _ _ hb.1] at h3
    simp only [Option.some.injEq] at h3
    simp only [List.mem_cons, List.not_mem_nil, or_false]
    tauto

/-- What spreading a label from `e` does: set labels stay, new labels are the label of `e` and are on edges
linked to it, and all neighbours of `S` and of newly labelled edges are labelled. -/
structure Spread (cross : List Cross) (edge : List Edge) (e : Nat) (S : Nat → Prop) (code code' : List Nat) : Prop where
  len : code'.length = code.length
  keep : ∀ i : Nat, code[i]? ≠ some UNSET_IDX → code'[i]? = code[i]?
  new : ∀ i : Nat, code[i]? = some UNSET_IDX → code'[i]? ≠ some UNSET_IDX →
    code'[i]? = code[e]? ∧ Relation.ReflTransGen (Nbr cross edge) e i
  closed : ∀ i j : Nat, (S i ∨ (code[i]? = some UNSET_IDX ∧ code'[i]? ≠ some UNSET_IDX ∧ Nbr cross edge i j)) →
    Nbr cross edge i j → code'[j]? ≠ some UNSET_IDX

theorem count_set {l : List Nat} {i k : Nat} (h : l[i]? = some UNSET_IDX) (hk : k ≠ UNSET_IDX) :
    (l.set i k).count UNSET_IDX + 1 = l.count UNSET_IDX := by
  obtain ⟨hi, he⟩ := List.getElem?_eq_some_iff.mp h
  rw [List.count_set hi, he]
  have hpos : 0 < l.count UNSET_IDX := List.count_pos_iff.mpr (he ▸ List.getElem_mem hi)
  have : ¬ (k == UNSET_IDX) = true := by simpa using hk
  simp only [this, beq_self_eq_true, if_true]
  simp
  omega

theorem spread_ok (h : Loose cross edge) {f e k : Nat} (he : e < edge.length) (hk : k ≠ UNSET_IDX)
    (ih : ∀ (code : List Nat) (i : Nat), code.length = edge.length → i < edge.length → code[i]? = some k →
      code.count UNSET_IDX < f →
      ∃ code', worker cross edge f code i = .ok code' ∧ Spread cross edge i (fun x => x = i) code code') :
    ∀ (inc : List Nat) (code : List Nat), code.length = edge.length → code[e]? = some k →
      (∀ j ∈ inc, Nbr cross edge e j) → code.count UNSET_IDX ≤ f →
      ∃ code', spread (worker cross edge f) e inc code = .ok code' ∧
        Spread cross edge e (fun _ => False) code code' ∧ ∀ j ∈ inc, code'[j]? ≠ some UNSET_IDX
  | [], code, hl, hc, _, _ => by
    refine ⟨code, rfl, ⟨rfl, fun _ _ => rfl, ?_, ?_⟩, by simp⟩
    · intro i h1 h2; exact absurd h1 h2
    · rintro i j (h1 | ⟨h1, h2, _⟩)
      · exact h1.elim
      · exact absurd h1 h2
  | j :: inc, code, hl, hc, hn, hcount => by
    have hnj := hn j (by simp)
    have hj := (nbr_lt h hnj).2
    have hjl : j < code.length := by omega
    unfold spread
    rw [rd_lt hjl, ok_bind]
    by_cases hu : code[j] = UNSET_IDX
    · rw [if_pos hu, rd_eq_ok.mpr hc, ok_bind, wr_lt hjl, ok_bind]
      have hju : code[j]? = some UNSET_IDX := by rw [List.getElem?_eq_getElem hjl, hu]
      have hcs := count_set hju hk
      have hej : e ≠ j := by
        rintro rfl
        rw [hc] at hju
        exact hk (Option.some.inj hju)
      obtain ⟨code1, w1, w2⟩ := ih (code.set j k) j (by simpa using hl) hj
        (by rw [List.getElem?_set_self hjl]) (by omega)
      rw [w1, ok_bind]
      have hc1e : code1[e]? = some k := by
        have hne : (code.set j k)[e]? ≠ some UNSET_IDX := by
          rw [List.getElem?_set_ne (Ne.symm hej), hc]
          intro h'; exact hk (Option.some.inj h')
        rw [w2.keep e hne, List.getElem?_set_ne (Ne.symm hej), hc]
      have hmono : ∀ i : Nat, code1[i]? = some UNSET_IDX → code[i]? = some UNSET_IDX := by
        intro i hi
        by_contra hne
        have hij : i ≠ j := by rintro rfl; exact hne hju
        have hne' : (code.set j k)[i]? ≠ some UNSET_IDX := by
          rw [List.getElem?_set_ne (Ne.symm hij)]; exact hne
        rw [w2.keep i hne', List.getElem?_set_ne (Ne.symm hij)] at hi
        exact hne hi
      have hcount1 : code1.count UNSET_IDX ≤ f := by
        have hle : code1.count UNSET_IDX ≤ (code.set j k).count UNSET_IDX := by
          have hlen := w2.len
          have key : ∀ (a b : List Nat), a.length = b.length → (∀ i : Nat, a[i]? = some UNSET_IDX → b[i]? = some UNSET_IDX) →
              a.count UNSET_IDX ≤ b.count UNSET_IDX := by
            intro a
            induction a with
            | nil => intro b _ _; simp
            | cons x a iha =>
              intro b hb hi
              cases b with
              | nil => simp at hb
              | cons y b =>
                have := iha b (by simpa using hb) (fun i hh => by
                  have := hi (i + 1) (by simpa using hh)
                  simpa using this)
                by_cases hx : x = UNSET_IDX
                · have hy : y = UNSET_IDX := by
                    have := hi 0 (by simp [hx])
                    simpa using this
                  rw [hx, hy, List.count_cons_self, List.count_cons_self]
                  omega
                · rw [List.count_cons_of_ne hx]
                  have : b.count UNSET_IDX ≤ (y :: b).count UNSET_IDX := List.count_le_count_cons
                  omega
          apply key _ _ hlen
          intro i hi
          by_contra hne
          rw [w2.keep i hne] at hi
          exact hne hi
        omega
      obtain ⟨code2, s1, s2, s3⟩ := spread_ok h he hk ih inc code1 (by rw [w2.len]; simpa using hl) hc1e
        (fun x hx => hn x (by simp [hx])) hcount1
      have hset : ∀ i : Nat, code1[i]? ≠ some UNSET_IDX → code2[i]? ≠ some UNSET_IDX := by
        intro i hi
        rw [s2.keep i hi]; exact hi
      have hj1 : code1[j]? = some k := by
        have : (code.set j k)[j]? ≠ some UNSET_IDX := by
          rw [List.getElem?_set_self hjl]
          intro h'; exact hk (Option.some.inj h')
        rw [w2.keep j this, List.getElem?_set_self hjl]
      refine ⟨code2, s1, ⟨?_, ?_, ?_, ?_⟩, ?_⟩
      · rw [s2.len, w2.len]; simp
      · intro i hi
        have hij : i ≠ j := by rintro rfl; exact hi hju
        have h1 : (code.set j k)[i]? ≠ some UNSET_IDX := by
          rw [List.getElem?_set_ne (Ne.symm hij)]; exact hi
        have h2 : code1[i]? = code[i]? := by
          rw [w2.keep i h1, List.getElem?_set_ne (Ne.symm hij)]
        rw [s2.keep i (by rw [h2]; exact hi), h2]
      · intro i h1 h2
        rw [hc]
        by_cases hi1 : code1[i]? = some UNSET_IDX
        · obtain ⟨a, b⟩ := s2.new i hi1 h2
          rw [a, hc1e]
          exact ⟨rfl, b⟩
        · rw [s2.keep i hi1]
          by_cases hij : i = j
          · subst hij
            rw [hj1]
            exact ⟨rfl, .single hnj⟩
          · obtain ⟨a, b⟩ := w2.new i (by rw [List.getElem?_set_ne (Ne.symm hij)]; exact h1) hi1
            rw [a, List.getElem?_set_self hjl]
            exact ⟨rfl, (Relation.ReflTransGen.single hnj).trans b⟩
      · rintro i x (h1 | ⟨h1, h2, _⟩) hx
        · exact h1.elim
        · by_cases hi1 : code1[i]? = some UNSET_IDX
          · exact s2.closed i x (Or.inr ⟨hi1, h2, hx⟩) hx
          · apply hset
            by_cases hij : i = j
            · exact w2.closed i x (Or.inl hij) hx
            · exact w2.closed i x (Or.inr ⟨by rw [List.getElem?_set_ne (Ne.symm hij)]; exact h1, hi1, hx⟩) hx
      · intro x hx
        rcases List.mem_cons.mp hx with rfl | hx
        · apply hset
          rw [hj1]
          intro h'; exact hk (Option.some.inj h')
        · exact s3 x hx
    · rw [if_neg hu]
      obtain ⟨code2, s1, s2, s3⟩ := spread_ok h he hk ih inc code hl hc (fun x hx => hn x (by simp [hx])) hcount
      refine ⟨code2, s1, s2, ?_⟩
      intro x hx
      rcases List.mem_cons.mp hx with rfl | hx
      · have hne : code[x]? ≠ some UNSET_IDX := by
          rw [List.getElem?_eq_getElem hjl]
          intro h'; exact hu (Option.some.inj h')
        rw [s2.keep x hne]; exact hne
      · exact s3 x hx

theorem worker_ok (h : Loose cross edge) {k : Nat} (hk : k ≠ UNSET_IDX) : ∀ (f : Nat) (code : List Nat) (i : Nat),
    code.length = edge.length → i < edge.length → code[i]? = some k → code.count UNSET_IDX < f →
    ∃ code', worker cross edge f code i = .ok code' ∧ Spread cross edge i (fun x => x = i) code code'
  | 0, _, _, _, _, _, hf => by omega
  | f + 1, code, i, hl, hi, hc, hf => by
    unfold worker
    rw [rd_lt hi, ok_bind]
    have hr : edge[i]? = some edge[i] := by simp [hi]
    by_cases hfree : edge[i] = freeEdge
    · rw [if_pos ((isFree_iff _).mpr hfree)]
      refine ⟨code, rfl, ⟨rfl, fun _ _ => rfl, ?_, ?_⟩⟩
      · intro x h1 h2; exact absurd h1 h2
      · rintro x j (h1 | ⟨h1, h2, _⟩) hx
        · subst h1
          obtain ⟨r, r1, r2, _⟩ := hx
          rw [hr] at r1
          cases r1
          exact absurd hfree r2
        · exact absurd h1 h2
    · rw [if_neg (fun hh => hfree ((isFree_iff _).mp hh))]
      obtain ⟨inc, i1, i2⟩ := incident_ok h hr hfree
      rw [i1, ok_bind]
      obtain ⟨code', s1, s2, s3⟩ := spread_ok h hi hk (worker_ok h hk f) inc code hl hc
        (fun j hj => (i2 j).mp hj) (by omega)
      refine ⟨code', s1, ⟨s2.len, s2.keep, s2.new, ?_⟩⟩
      rintro x j (h1 | h1) hx
      · subst h1
        exact s3 j ((i2 j).mpr hx)
      · exact s2.closed x j (Or.inr h1) hx

/-- What holds in the numbering loop before edge `i`: the `n` labels given so far are used, each on a set of edges
closed under being neighbours and linked to each other. -/
structure LInv (cross : List Cross) (edge : List Edge) (i : Nat) (code : List Nat) (n : Nat) : Prop where
  len : code.length = edge.length
  small : ∀ a : Nat, ∀ k, code[a]? = some k → k = UNSET_IDX ∨ k < n
  done : ∀ a : Nat, a < i → code[a]? ≠ some UNSET_IDX
  closed : ∀ a b : Nat, Nbr cross edge a b → code[a]? ≠ some UNSET_IDX → code[b]? = code[a]?
  linked : ∀ a b : Nat, a < edge.length → b < edge.length → code[a]? ≠ some UNSET_IDX → code[a]? = code[b]? →
    Relation.ReflTransGen (Nbr cross edge) a b
  used : ∀ k, k < n → ∃ a : Nat, code[a]? = some k
  bound : n ≤ i

theorem rtg_symm (h : Loose cross edge) {a b : Nat} (hr : Relation.ReflTransGen (Nbr cross edge) a b) :
    Relation.ReflTransGen (Nbr cross edge) b a := by
  induction hr with
  | refl => exact .refl
  | tail _ hbc ih => exact (Relation.ReflTransGen.single (nbr_symm h hbc)).trans ih

theorem labelLoop_ok (h : Loose cross edge) (hsm : edge.length ≤ UNSET_IDX) : ∀ (r i : Nat) (code : List Nat) (n : Nat),
    i + r = edge.length → LInv cross edge i code n →
    ∃ code' n', labelLoop cross edge r i code n = .ok (code', n') ∧ LInv cross edge edge.length code' n'
  | 0, i, code, n, hi, hI => ⟨code, n, rfl, by rw [← hi]; exact hI⟩
  | r + 1, i, code, n, hi, hI => by
    have hil : i < edge.length := by omega
    have hcl : i < code.length := by rw [hI.len]; exact hil
    unfold labelLoop
    rw [rd_lt hcl, ok_bind]
    by_cases hu : code[i] = UNSET_IDX
    · have hiu : code[i]? = some UNSET_IDX := by rw [List.getElem?_eq_getElem hcl, hu]
      have hn : n ≠ UNSET_IDX := by
        have := hI.bound
        omega
      rw [if_pos hu, wr_lt hcl, ok_bind]
      have hcs := count_set hiu hn
      obtain ⟨code', w1, w2⟩ := worker_ok h hn edge.length (code.set i n) i (by simpa using hI.len) hil
        (by rw [List.getElem?_set_self hcl]) (by
          have : code.count UNSET_IDX ≤ code.length := List.count_le_length
          rw [hI.len] at this
          omega)
      rw [w1, ok_bind]
      -- labels after the step
      have hold : ∀ a : Nat, code[a]? ≠ some UNSET_IDX → code'[a]? = code[a]? := by
        intro a ha
        have hai : a ≠ i := by rintro rfl; exact ha hiu
        rw [w2.keep a (by rw [List.getElem?_set_ne (Ne.symm hai)]; exact ha), List.getElem?_set_ne (Ne.symm hai)]
      have hi' : code'[i]? = some n := by
        rw [w2.keep i (by rw [List.getElem?_set_self hcl]; intro h'; exact hn (Option.some.inj h')),
          List.getElem?_set_self hcl]
      have hnew : ∀ a : Nat, code[a]? = some UNSET_IDX → code'[a]? ≠ some UNSET_IDX →
          code'[a]? = some n ∧ Relation.ReflTransGen (Nbr cross edge) i a := by
        intro a h1 h2
        by_cases hai : a = i
        · subst hai; exact ⟨hi', .refl⟩
        · obtain ⟨x, y⟩ := w2.new a (by rw [List.getElem?_set_ne (Ne.symm hai)]; exact h1) h2
          rw [x, List.getElem?_set_self hcl]
          exact ⟨rfl, y⟩
      have hlt : ∀ a : Nat, code[a]? ≠ some UNSET_IDX → a < edge.length → ∃ k, code[a]? = some k ∧ k < n := by
        intro a ha hal
        have : code[a]? = some (code[a]'(by rw [hI.len]; exact hal)) := by simp
        rcases hI.small a _ this with h1 | h1
        · rw [h1] at this; exact absurd this ha
        · exact ⟨_, this, h1⟩
      have hset : ∀ a : Nat, a < edge.length → code'[a]? = some n → code[a]? = some UNSET_IDX := by
        intro a hal ha
        by_contra hne
        rw [hold a hne] at ha
        obtain ⟨k, k1, k2⟩ := hlt a hne hal
        rw [k1] at ha
        cases ha
        omega
      refine labelLoop_ok h hsm r (i + 1) code' (n + 1) (by omega) ⟨?_, ?_, ?_, ?_, ?_, ?_, ?_⟩
      · rw [w2.len]; simpa using hI.len
      · intro a k hk
        by_cases ha : code[a]? = some UNSET_IDX
        · by_cases ha' : code'[a]? = some UNSET_IDX
          · rw [ha'] at hk; cases hk; exact Or.inl rfl
          · obtain ⟨x, _⟩ := hnew a ha ha'
            rw [x] at hk; cases hk; right; omega
        · rw [hold a ha] at hk
          rcases hI.small a k hk with h1 | h1
          · exact Or.inl h1
          · right; omega
      · intro a ha
        rcases Nat.lt_or_ge a i with h1 | h1
        · have := hI.done a h1
          rw [hold a this]; exact this
        · have : a = i := by omega
          subst this
          rw [hi']; intro h'; exact hn (Option.some.inj h')
      · intro a b hab ha
        have hbl := nbr_lt h hab
        by_cases hao : code[a]? = some UNSET_IDX
        · obtain ⟨x, _⟩ := hnew a hao ha
          have hb' : code'[b]? ≠ some UNSET_IDX := by
            by_cases hai : a = i
            · exact w2.closed a b (Or.inl hai) hab
            · exact w2.closed a b (Or.inr ⟨by rw [List.getElem?_set_ne (Ne.symm hai)]; exact hao, ha, hab⟩) hab
          have hbo : code[b]? = some UNSET_IDX := by
            by_contra hne
            have := hI.closed b a (nbr_symm h hab) hne
            rw [hao] at this
            exact hne this.symm
          rw [x, (hnew b hbo hb').1]
        · have := hI.closed a b hab hao
          rw [hold a hao, hold b (by rw [this]; exact hao), this]
      · intro a b hal hbl ha hab
        by_cases hao : code[a]? = some UNSET_IDX
        · obtain ⟨x, y⟩ := hnew a hao ha
          rw [x] at hab
          have hbo := hset b hbl hab.symm
          have hb' : code'[b]? ≠ some UNSET_IDX := by
            rw [← hab]; intro h'; exact hn (Option.some.inj h')
          exact (rtg_symm h y).trans (hnew b hbo hb').2
        · rw [hold a hao] at hab
          obtain ⟨k, k1, k2⟩ := hlt a hao hal
          have hbo : code[b]? ≠ some UNSET_IDX := by
            intro hbo
            have hb' : code'[b]? ≠ some UNSET_IDX := by rw [← hab]; exact hao
            rw [(hnew b hbo hb').1, k1] at hab
            cases hab
            omega
          rw [hold b hbo] at hab
          exact hI.linked a b hal hbl hao hab
      · intro k hk
        rcases Nat.lt_or_ge k n with h1 | h1
        · obtain ⟨a, ha⟩ := hI.used k h1
          refine ⟨a, ?_⟩
          rw [hold a ?_, ha]
          rw [ha]
          have := hI.bound
          intro h'
          have := Option.some.inj h'
          omega
        · have : k = n := by omega
          subst this
          exact ⟨i, hi'⟩
      · have := hI.bound; omega
    · rw [if_neg hu]
      refine labelLoop_ok h hsm r (i + 1) code n (by omega) ⟨hI.len, hI.small, ?_, hI.closed, hI.linked, hI.used, ?_⟩
      · intro a ha
        rcases Nat.lt_or_ge a i with h1 | h1
        · exact hI.done a h1
        · have : a = i := by omega
          subst this
          rw [List.getElem?_eq_getElem hcl]
          intro h'; exact hu (Option.some.inj h')
      · have := hI.bound; omega

theorem labels_ok (h : Loose cross edge) (hsm : edge.length ≤ UNSET_IDX) :
    ∃ code n, labels cross edge = .ok (code, n) ∧ LInv cross edge edge.length code n := by
  unfold labels
  refine labelLoop_ok h hsm edge.length 0 _ 0 (by omega) ⟨by simp, ?_, by simp, ?_, ?_, by simp, by omega⟩
  · intro a k hk
    left
    exact (List.eq_of_mem_replicate (List.mem_of_getElem? hk))
  · intro a b hab ha
    exfalso
    exact ha (by simp [(nbr_lt h hab).1])
  · intro a b ha _ hne
    exfalso
    exact hne (by simp [ha])

end Plc.Split
