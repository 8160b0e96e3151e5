import Verif.Model.ConnectSum
import Verif.Proofs.StrandCount
import Verif.Proofs.Moves
import Verif.Proofs.Neat
import Verif.Props.Regenerate

/-! Connected sum. -/

namespace Plc.ConnectSum

open Plc.Core Plc.Cmp Plc.Places Plc.Moves Plc.Planar

/-! ### Writing into a buffer -/

/-- The values of a list of pairs are written at their positions. -/
def scatter {α : Type} (l : List (Nat × α)) (buf : List α) : List α := l.foldl (fun b p => b.set p.1 p.2) buf

theorem scatter_len {α : Type} (l : List (Nat × α)) : ∀ buf : List α, (scatter l buf).length = buf.length := by
  induction l with
  | nil => exact fun _ => rfl
  | cons p l ih =>
    intro buf
    change (scatter l (buf.set p.1 p.2)).length = _
    rw [ih, List.length_set]

theorem scatter_other {α : Type} (l : List (Nat × α)) : ∀ (buf : List α) (k : Nat), k ∉ l.map Prod.fst → (scatter l buf)[k]? = buf[k]? := by
  induction l with
  | nil => exact fun _ _ _ => rfl
  | cons p l ih =>
    intro buf k hk
    simp only [List.map_cons, List.mem_cons, not_or] at hk
    change (scatter l (buf.set p.1 p.2))[k]? = _
    rw [ih _ k hk.2, List.getElem?_set_ne (Ne.symm hk.1)]

theorem scatter_get {α : Type} (l : List (Nat × α)) : ∀ (buf : List α), (l.map Prod.fst).Nodup → ∀ p ∈ l, p.1 < buf.length →
    (scatter l buf)[p.1]? = some p.2 := by
  induction l with
  | nil => intro _ _ p hp; simp at hp
  | cons q l ih =>
    intro buf hn p hp hlt
    simp only [List.map_cons, List.nodup_cons] at hn
    change (scatter l (buf.set q.1 q.2))[p.1]? = _
    rcases List.mem_cons.mp hp with rfl | hp
    · rw [scatter_other l _ _ hn.1]
      simp [hlt]
    · exact ih _ hn.2 p hp (by simpa using hlt)

theorem assign_eq : ∀ (l : List Nat) (n : Nat) (t : List Nat), (∀ e ∈ l, e < t.length) →
    assign l n t = .ok (scatter (l.zip (List.range' n l.length)) t) := by
  intro l
  induction l with
  | nil => exact fun _ _ _ => rfl
  | cons e l ih =>
    intro n t h
    unfold assign
    rw [wr_lt (h e (by simp)), ok_bind, ih (n + 1) _ (fun x hx => by rw [List.length_set]; exact h x (by simp [hx]))]
    rfl

/-- The numbers `n`, `n + 1`, ... are assigned to the edges of a list. -/
def Numbered (t : List Nat) (l : List Nat) (n : Nat) : Prop := ∀ i e, l[i]? = some e → t[e]? = some (n + i)

theorem assign_ok {l : List Nat} {t : List Nat} (n : Nat) (hn : l.Nodup) (h : ∀ e ∈ l, e < t.length) :
    ∃ t', assign l n t = .ok t' ∧ t'.length = t.length ∧ Numbered t' l n ∧ ∀ e, e ∉ l → t'[e]? = t[e]? := by
  have keys : (l.zip (List.range' n l.length)).map Prod.fst = l := List.map_fst_zip (by simp)
  refine ⟨_, assign_eq l n t h, scatter_len _ _, ?_, ?_⟩
  · intro i e hi
    have hlt := (List.getElem?_eq_some_iff.mp hi).1
    have hm : (e, n + i) ∈ l.zip (List.range' n l.length) := by
      apply List.mem_of_getElem? (i := i)
      rw [List.getElem?_zip_eq_some]
      exact ⟨hi, by rw [List.getElem?_range' hlt]; simp⟩
    exact scatter_get _ _ (by rw [keys]; exact hn) _ hm (h e (List.mem_of_getElem? hi))
  · intro e he
    exact scatter_other _ _ _ (by rw [keys]; exact he)

/-- A table is a rearrangement of the numbers it gives. -/
theorem table_perm {t L V : List Nat} (hL : L.Perm (List.range t.length)) (hV : V.length = L.length)
    (h : ∀ i e : Nat, L[i]? = some e → t[e]? = V[i]?) : t.Perm V := by
  have h1 : t = (List.range t.length).map (fun e => t[e]!) := by
    apply List.ext_getElem?
    intro i
    rcases Nat.lt_or_ge i t.length with hi | hi
    · rw [List.getElem?_map, List.getElem?_range hi]
      simp [hi]
    · rw [List.getElem?_eq_none hi, List.getElem?_eq_none (by simpa using hi)]
  have h2 : L.map (fun e => t[e]!) = V := by
    apply List.ext_getElem?
    intro i
    rw [List.getElem?_map]
    cases hi : L[i]? with
    | none =>
      rw [List.getElem?_eq_none_iff] at hi
      rw [List.getElem?_eq_none (by omega)]
      rfl
    | some e =>
      have := h i e hi
      have hlt : i < V.length := by rw [hV]; exact (List.getElem?_eq_some_iff.mp hi).1
      rw [List.getElem?_eq_getElem hlt] at this ⊢
      simp [this]
  rw [h1, ← h2]
  exact (hL.map _).symm

theorem numbered_get {t l : List Nat} {n : Nat} (h : Numbered t l n) {i e : Nat} (hi : l[i]? = some e) :
    t[e]? = (List.range' n l.length)[i]? := by
  rw [h i e hi, List.getElem?_range' (List.getElem?_eq_some_iff.mp hi).1]
  simp

theorem others_perm {comps : List Comp} {j : Nat} {k : Comp} (hj : comps[j]? = some k) :
    (k.edge ++ others comps j).Perm (comps.flatMap (·.edge)) := by
  obtain ⟨hlt, rfl⟩ := List.getElem?_eq_some_iff.mp hj
  have := List.getElem_cons_eraseIdx_perm hlt
  have h2 := this.flatMap_right (fun c : Comp => c.edge)
  rw [List.flatMap_cons] at h2
  exact h2

/-- The table for the first diagram. -/
theorem tableA_ok {comps : List Comp} {j : Nat} {k : Comp} {m pos : Nat} (gap : Nat) (hj : comps[j]? = some k)
    (hall : (comps.flatMap (·.edge)).Perm (List.range m)) (hpos : pos < k.edge.length) :
    ∃ tt, tableA m comps k j pos gap = .ok tt ∧ tt.length = m ∧
      tt.Perm (List.range' 0 (pos + 1) ++ List.range' (pos + 1 + gap) (k.edge.length - (pos + 1)) ++
        List.range' (k.edge.length + gap) (m - k.edge.length)) ∧
      ∀ i e, k.edge[i]? = some e → i ≤ pos → tt[e]? = some i := by
  have hp := (others_perm hj).trans hall
  have hlen : k.edge.length + (others comps j).length = m := by simpa using hp.length_eq
  have hnd : (k.edge ++ others comps j).Nodup := hp.nodup_iff.mpr List.nodup_range
  have hlt : ∀ e, e ∈ k.edge ∨ e ∈ others comps j → e < m := by
    intro e he
    rw [← List.mem_range, ← hp.mem_iff, List.mem_append]
    exact he
  rw [List.nodup_append] at hnd
  obtain ⟨n1, n2, n3⟩ := hnd
  have hsplit := List.take_append_drop (pos + 1) k.edge
  have n4 := n1
  rw [← hsplit, List.nodup_append] at n4
  obtain ⟨m1, m2, m3⟩ := n4
  have mt : ∀ {e}, e ∈ k.edge.take (pos + 1) → e ∈ k.edge := fun h => List.mem_of_mem_take h
  have md : ∀ {e}, e ∈ k.edge.drop (pos + 1) → e ∈ k.edge := fun h => List.mem_of_mem_drop h
  obtain ⟨t1, a1, a2, a3, a4⟩ := assign_ok (t := List.replicate m UNSET_IDX) 0 m1 (fun e he => by
    rw [List.length_replicate]; exact hlt e (.inl (mt he)))
  rw [List.length_replicate] at a2
  obtain ⟨t2, b1, b2, b3, b4⟩ := assign_ok (t := t1) (pos + 1 + gap) m2 (fun e he => by
    rw [a2]; exact hlt e (.inl (md he)))
  obtain ⟨t3, c1, c2, c3, c4⟩ := assign_ok (t := t2) (k.edge.length + gap) n2 (fun e he => by
    rw [b2, a2]; exact hlt e (.inr he))
  have f1 : Numbered t3 (k.edge.take (pos + 1)) 0 := by
    intro i e hi
    have he := List.mem_of_getElem? hi
    rw [c4 e (fun q => n3 e (mt he) e q rfl), b4 e (fun q => m3 e he e q rfl)]
    exact a3 i e hi
  have f2 : Numbered t3 (k.edge.drop (pos + 1)) (pos + 1 + gap) := by
    intro i e hi
    have he := List.mem_of_getElem? hi
    rw [c4 e (fun q => n3 e (md he) e q rfl)]
    exact b3 i e hi
  refine ⟨t3, ?_, by rw [c2, b2, a2], ?_, ?_⟩
  · unfold tableA
    rw [a1, ok_bind, b1, ok_bind, c1]
  · have htl : (k.edge.take (pos + 1)).length = pos + 1 := by rw [List.length_take]; omega
    have hdl : (k.edge.drop (pos + 1)).length = k.edge.length - (pos + 1) := by rw [List.length_drop]
    have ol : (others comps j).length = m - k.edge.length := by omega
    refine table_perm (L := k.edge.take (pos + 1) ++ k.edge.drop (pos + 1) ++ others comps j) ?_ ?_ ?_
    · rw [hsplit, c2, b2, a2]
      exact hp
    · simp only [List.length_append, List.length_range', htl, hdl, ol]
    · intro i e hi
      rw [show List.range' 0 (pos + 1) = List.range' 0 (k.edge.take (pos + 1)).length by rw [htl],
        show List.range' (pos + 1 + gap) (k.edge.length - (pos + 1)) =
          List.range' (pos + 1 + gap) (k.edge.drop (pos + 1)).length by rw [hdl], ← ol]
      rcases Nat.lt_or_ge i k.edge.length with h1 | h1
      · rw [List.getElem?_append_left (by rw [hsplit]; exact h1)] at hi
        rw [List.getElem?_append_left (by rw [List.length_append, List.length_range', List.length_range', htl, hdl]; omega)]
        rcases Nat.lt_or_ge i (k.edge.take (pos + 1)).length with h2 | h2
        · rw [List.getElem?_append_left h2] at hi
          rw [List.getElem?_append_left (by rw [List.length_range']; exact h2)]
          exact numbered_get f1 hi
        · rw [List.getElem?_append_right h2] at hi
          rw [List.getElem?_append_right (by rw [List.length_range']; exact h2), List.length_range']
          exact numbered_get f2 hi
      · have h2 : (k.edge.take (pos + 1) ++ k.edge.drop (pos + 1)).length ≤ i := by rw [hsplit]; exact h1
        rw [List.getElem?_append_right h2] at hi
        rw [List.getElem?_append_right (by
          rw [List.length_append] at h2
          rw [List.length_append, List.length_range', List.length_range']; exact h2),
          List.length_append, List.length_range', List.length_range', ← List.length_append]
        exact numbered_get c3 hi
  · intro i e hi hle
    have : (k.edge.take (pos + 1))[i]? = some e := by
      rw [List.getElem?_take_of_lt (by omega)]
      exact hi
    have := f1 i e this
    rwa [Nat.zero_add] at this

/-- The table for the second diagram. -/
theorem tableB_ok {comps : List Comp} {j : Nat} {k : Comp} {m pos : Nat} (start nA : Nat) (hj : comps[j]? = some k)
    (hall : (comps.flatMap (·.edge)).Perm (List.range m)) :
    ∃ tt, tableB m comps k j pos start nA = .ok tt ∧ tt.length = m ∧
      tt.Perm (List.range' start k.edge.length ++ List.range' (nA + k.edge.length) (m - k.edge.length)) := by
  have hp := (others_perm hj).trans hall
  have hlen : k.edge.length + (others comps j).length = m := by simpa using hp.length_eq
  have hsplit := List.take_append_drop (pos + 1) k.edge
  have hrot : (k.edge.drop (pos + 1) ++ k.edge.take (pos + 1)).Perm k.edge := by
    conv_rhs => rw [← hsplit]
    exact List.perm_append_comm
  have hp2 := (hrot.append_right (others comps j)).trans hp
  have hnd := hp2.nodup_iff.mpr List.nodup_range
  have hlt : ∀ e, e ∈ k.edge.drop (pos + 1) ++ k.edge.take (pos + 1) ∨ e ∈ others comps j → e < m := by
    intro e he
    rw [← List.mem_range, ← hp2.mem_iff, List.mem_append]
    exact he
  have hrl := hrot.length_eq
  unfold tableB
  generalize k.edge.drop (pos + 1) ++ k.edge.take (pos + 1) = R at *
  rw [List.nodup_append] at hnd
  obtain ⟨n1, n2, n3⟩ := hnd
  obtain ⟨t1, a1, a2, a3, a4⟩ := assign_ok (t := List.replicate m UNSET_IDX) start n1 (fun e he => by
    rw [List.length_replicate]; exact hlt e (.inl he))
  rw [List.length_replicate] at a2
  obtain ⟨t3, c1, c2, c3, c4⟩ := assign_ok (t := t1) (nA + k.edge.length) n2 (fun e he => by
    rw [a2]; exact hlt e (.inr he))
  have f1 : Numbered t3 R start := by
    intro i e hi
    have he := List.mem_of_getElem? hi
    rw [c4 e (fun q => n3 e he e q rfl)]
    exact a3 i e hi
  refine ⟨t3, ?_, by rw [c2, a2], ?_⟩
  · rw [a1, ok_bind, c1]
  · have ol : (others comps j).length = m - k.edge.length := by omega
    refine table_perm (L := R ++ others comps j) ?_ ?_ ?_
    · rw [c2, a2]
      exact hp2
    · simp only [List.length_append, List.length_range', hrl, ol]
    · intro i e hi
      rw [← ol, show List.range' start k.edge.length = List.range' start R.length by rw [hrl]]
      rcases Nat.lt_or_ge i R.length with h1 | h1
      · rw [List.getElem?_append_left h1] at hi
        rw [List.getElem?_append_left (by rw [List.length_range']; exact h1)]
        exact numbered_get f1 hi
      · rw [List.getElem?_append_right h1] at hi
        rw [List.getElem?_append_right (by rw [List.length_range']; exact h1), List.length_range']
        exact numbered_get c3 hi

/-- Together the tables give every number once. -/
theorem tables_perm {p gap rest mA mB : Nat} {ttA ttB : List Nat} {kA : Nat} (hp : p + 1 ≤ kA) (hrest : rest = kA - (p + 1))
    (hkA : kA ≤ mA) (hkB : gap ≤ mB)
    (hA : ttA.Perm (List.range' 0 (p + 1) ++ List.range' (p + 1 + gap) rest ++ List.range' (kA + gap) (mA - kA)))
    (hB : ttB.Perm (List.range' (1 + p) gap ++ List.range' (mA + gap) (mB - gap))) :
    (ttA ++ ttB).Perm (List.range (mA + mB)) := by
  refine (hA.append hB).trans ?_
  have h1 : List.range (mA + mB) = List.range' 0 (p + 1) ++ List.range' (1 + p) gap ++ List.range' (p + 1 + gap) rest ++
      List.range' (kA + gap) (mA - kA) ++ List.range' (mA + gap) (mB - gap) := by
    rw [List.range_eq_range']
    have e1 := List.range'_append_1 (s := 0) (m := p + 1) (n := gap)
    rw [show 0 + (p + 1) = 1 + p by omega] at e1
    rw [e1]
    have e2 := List.range'_append_1 (s := 0) (m := p + 1 + gap) (n := rest)
    rw [show 0 + (p + 1 + gap) = p + 1 + gap by omega] at e2
    rw [e2]
    have e3 := List.range'_append_1 (s := 0) (m := p + 1 + gap + rest) (n := mA - kA)
    rw [show 0 + (p + 1 + gap + rest) = kA + gap by omega] at e3
    rw [e3]
    have e4 := List.range'_append_1 (s := 0) (m := p + 1 + gap + rest + (mA - kA)) (n := mB - gap)
    rw [show 0 + (p + 1 + gap + rest + (mA - kA)) = mA + gap by omega] at e4
    rw [e4]
    congr 1
    omega
  rw [h1]
  rw [← Multiset.coe_eq_coe]
  simp only [← Multiset.coe_add]
  abel

/-! ### Copying the records -/

def mapCross (tt : List Nat) (x : Cross) : Cross := ⟨tt[x.e0]!, tt[x.e1]!, tt[x.e2]!, tt[x.e3]!, x.sign⟩

def mapEdge (ct : List Nat) (r : Edge) : Edge := ⟨ct[r.head]!, r.headpos, ct[r.tail]!, r.tailpos⟩

theorem mapCross_at (tt : List Nat) (x : Cross) (k : Nat) : (mapCross tt x).at k = tt[x.at k]! := by
  unfold Cross.at mapCross
  split <;> rfl

theorem rd_bang {l : List Nat} {i : Nat} (h : i < l.length) : rd l i = .ok l[i]! := by
  rw [rd_lt h, getElem!_pos l i h]

theorem copyCross_ok {tt : List Nat} {x : Cross} (h : ∀ k, x.at k < tt.length) : copyCross tt x = .ok (mapCross tt x) := by
  unfold copyCross
  rw [rd_bang (show x.e0 < tt.length from h 0), ok_bind, rd_bang (show x.e1 < tt.length from h 1), ok_bind,
    rd_bang (show x.e2 < tt.length from h 2), ok_bind, rd_bang (show x.e3 < tt.length from h 3), ok_bind]
  rfl

theorem copyCrosses_eq {tt ct : List Nat} : ∀ (l : List Cross) (i : Nat) (buf : List Cross),
    (∀ x ∈ l, ∀ k, x.at k < tt.length) → i + l.length ≤ ct.length → (∀ c ∈ ct, c < buf.length) →
    copyCrosses tt ct l i buf = .ok (scatter ((l.zipIdx i).map (fun q => (ct[q.2]!, mapCross tt q.1))) buf) := by
  intro l
  induction l with
  | nil => intros; rfl
  | cons x l ih =>
    intro i buf h1 h2 h3
    rw [List.length_cons] at h2
    have hi : i < ct.length := by omega
    unfold copyCrosses
    rw [rd_bang hi, ok_bind, copyCross_ok (h1 x (by simp)), ok_bind,
      wr_lt (h3 _ (by rw [getElem!_pos ct i hi]; exact List.getElem_mem hi)), ok_bind,
      ih (i + 1) _ (fun y hy => h1 y (by simp [hy])) (by omega) (fun c hc => by rw [List.length_set]; exact h3 c hc)]
    rfl

theorem copyEdges_eq {tt ct : List Nat} : ∀ (l : List Edge) (i : Nat) (buf : List Edge),
    (∀ r ∈ l, r.head < ct.length ∧ r.tail < ct.length) → i + l.length ≤ tt.length → (∀ c ∈ tt, c < buf.length) →
    copyEdges tt ct l i buf = .ok (scatter ((l.zipIdx i).map (fun q => (tt[q.2]!, mapEdge ct q.1))) buf) := by
  intro l
  induction l with
  | nil => intros; rfl
  | cons r l ih =>
    intro i buf h1 h2 h3
    rw [List.length_cons] at h2
    have hi : i < tt.length := by omega
    unfold copyEdges
    rw [rd_bang hi, ok_bind, rd_bang (h1 r (by simp)).1, ok_bind, rd_bang (h1 r (by simp)).2, ok_bind,
      wr_lt (h3 _ (by rw [getElem!_pos tt i hi]; exact List.getElem_mem hi)), ok_bind,
      ih (i + 1) _ (fun y hy => h1 y (by simp [hy])) (by omega) (fun c hc => by rw [List.length_set]; exact h3 c hc)]
    rfl

/-- Writing one value for each position in a list of positions. -/
theorem scatter_all {α β : Type} (g : α → β) {src : List α} {pos : List Nat} {buf : List β} (hlen : pos.length = src.length)
    (hnd : pos.Nodup) (hlt : ∀ c ∈ pos, c < buf.length) :
    (∀ (i : Nat) (x : α) (c : Nat), src[i]? = some x → pos[i]? = some c →
      (scatter ((src.zipIdx 0).map (fun q => (pos[q.2]!, g q.1))) buf)[c]? = some (g x)) ∧
    ∀ c : Nat, c ∉ pos → (scatter ((src.zipIdx 0).map (fun q => (pos[q.2]!, g q.1))) buf)[c]? = buf[c]? := by
  have keys : ((src.zipIdx 0).map (fun q => (pos[q.2]!, g q.1))).map Prod.fst = pos := by
    apply List.ext_getElem?
    intro i
    rw [List.map_map, List.getElem?_map, List.getElem?_zipIdx]
    rcases Nat.lt_or_ge i src.length with hi | hi
    · rw [List.getElem?_eq_getElem hi]
      simp [hlen, hi]
    · rw [List.getElem?_eq_none hi, List.getElem?_eq_none (by omega)]
      rfl
  constructor
  · intro i x c h1 h2
    have hm : (c, g x) ∈ (src.zipIdx 0).map (fun q => (pos[q.2]!, g q.1)) := by
      apply List.mem_of_getElem? (i := i)
      rw [List.getElem?_map, List.getElem?_zipIdx, h1]
      simp only [Option.map_some, Nat.zero_add]
      rw [getElem!_pos pos i (List.getElem?_eq_some_iff.mp h2).1, (List.getElem?_eq_some_iff.mp h2).2]
    exact scatter_get _ _ (by rw [keys]; exact hnd) _ hm (hlt c (List.mem_of_getElem? h2))
  · intro c hc
    exact scatter_other _ _ _ (by rw [keys]; exact hc)

theorem copyCrosses_ok {tt ct : List Nat} {src buf : List Cross} (hsrc : ∀ x ∈ src, ∀ k, x.at k < tt.length)
    (hlen : ct.length = src.length) (hnd : ct.Nodup) (hlt : ∀ c ∈ ct, c < buf.length) :
    ∃ buf', copyCrosses tt ct src 0 buf = .ok buf' ∧ buf'.length = buf.length ∧
      (∀ (i : Nat) (x : Cross) (c : Nat), src[i]? = some x → ct[i]? = some c → buf'[c]? = some (mapCross tt x)) ∧
      ∀ c : Nat, c ∉ ct → buf'[c]? = buf[c]? := by
  obtain ⟨h1, h2⟩ := scatter_all (mapCross tt) hlen hnd hlt
  exact ⟨_, copyCrosses_eq src 0 buf hsrc (by omega) hlt, scatter_len _ _, h1, h2⟩

theorem copyEdges_ok {tt ct : List Nat} {src buf : List Edge} (hsrc : ∀ r ∈ src, r.head < ct.length ∧ r.tail < ct.length)
    (hlen : tt.length = src.length) (hnd : tt.Nodup) (hlt : ∀ c ∈ tt, c < buf.length) :
    ∃ buf', copyEdges tt ct src 0 buf = .ok buf' ∧ buf'.length = buf.length ∧
      (∀ (i : Nat) (r : Edge) (c : Nat), src[i]? = some r → tt[i]? = some c → buf'[c]? = some (mapEdge ct r)) ∧
      ∀ c : Nat, c ∉ tt → buf'[c]? = buf[c]? := by
  obtain ⟨h1, h2⟩ := scatter_all (mapEdge ct) hlen hnd hlt
  exact ⟨_, copyEdges_eq src 0 buf hsrc (by omega) hlt, scatter_len _ _, h1, h2⟩

/-! ### Exchanging the heads -/

theorem exchange_ok {cross : List Cross} {edge : List Edge} {i j : Nat} (hC : Consistent cross edge) (hi : i < edge.length)
    (hj : j < edge.length) (hij : i ≠ j) :
    ∃ cross' edge', exchange cross edge i j = .ok (cross', edge') ∧ HeadsSwapped cross edge i j cross' edge' := by
  have gi := List.getElem?_eq_getElem hi
  have gj := List.getElem?_eq_getElem hj
  have si := slot_lt (hC.head i _ gi)
  have sj := slot_lt (hC.head j _ gj)
  have hne : (edge[i].head, edge[i].headpos) ≠ (edge[j].head, edge[j].headpos) := by
    intro h
    have h1 := hC.head i _ gi
    have h2 := hC.head j _ gj
    simp only [Prod.mk.injEq] at h
    rw [h.1, h.2, h2] at h1
    exact hij (Option.some.inj h1).symm
  obtain ⟨c1, a1, a2, a3⟩ := setSlot_ok sj.1 sj.2 i
  obtain ⟨c2, b1, b2, b3⟩ := setSlot_ok (cross := c1) (by rw [a2]; exact si.1) si.2 j
  refine ⟨c2, (edge.set j ⟨edge[i].head, edge[i].headpos, edge[j].tail, edge[j].tailpos⟩).set i
    ⟨edge[j].head, edge[j].headpos, edge[i].tail, edge[i].tailpos⟩, ?_, ?_⟩
  · unfold exchange
    rw [rd_lt hi, ok_bind, rd_lt hj, ok_bind, wr_lt hj, ok_bind, wr_lt (by rw [List.length_set]; exact hi), ok_bind, a1, ok_bind, b1, ok_bind]
  · refine ⟨by rw [b2, a2], by simp, ?_, ?_⟩
    · intro c x hx
      obtain ⟨x1, d1, d2, d3⟩ := a3 c x hx
      obtain ⟨x2, e1, e2, e3⟩ := b3 c x1 d1
      refine ⟨x2, e1, by rw [e2, d2], ?_⟩
      intro k hk
      refine ⟨_, _, gi, gj, ?_⟩
      rw [e3, d3, Nat.mod_eq_of_lt hk]
      simp only [Prod.mk.injEq]
    · intro e r hr
      by_cases h1 : e = i
      · subst h1
        rw [gi] at hr
        cases hr
        exact ⟨_, by rw [if_pos rfl]; exact gj, by simp [hi]⟩
      · by_cases h2 : e = j
        · subst h2
          rw [gj] at hr
          cases hr
          refine ⟨_, by rw [if_neg h1, if_pos rfl]; exact gi, ?_⟩
          rw [List.getElem?_set_ne (Ne.symm h1)]
          simp [hj]
        · refine ⟨r, by rw [if_neg h1, if_neg h2]; exact hr, ?_⟩
          rw [List.getElem?_set_ne (Ne.symm h1), List.getElem?_set_ne (Ne.symm h2), hr]

/-- Exchanging heads after renaming is renaming after exchanging heads. -/
theorem swapped_renamed {cross cross' cross1 cross1' : List Cross} {edge edge' edge1 edge1' : List Edge} {i j : Nat} {τ : Nat → Nat}
    (hR : Renamed cross edge cross1 edge1 τ id (fun _ => 0) (fun _ => false)) (hC : Consistent cross edge)
    (hi : i < edge.length) (hj : j < edge.length) (h : HeadsSwapped cross edge i j cross' edge')
    (h1 : HeadsSwapped cross1 edge1 (τ i) (τ j) cross1' edge1') :
    Renamed cross' edge' cross1' edge1' τ id (fun _ => 0) (fun _ => false) ∧
      (SameSigns cross cross1 id → SameSigns cross' cross1' id) := by
  have keep : ∀ e r, edge[e]? = some r → edge1[τ e]? = some r := by
    intro e r hr
    have := hR.edge e r hr
    have k1 := (slot_lt (hC.head e r hr)).2
    have k2 := (slot_lt (hC.tail e r hr)).2
    unfold moveEdge at this
    simp only [Bool.false_eq_true, if_false, id, Nat.sub_zero, Nat.add_mod_right] at this
    rw [Nat.mod_eq_of_lt k1, Nat.mod_eq_of_lt k2] at this
    exact this
  have hC' := h.consistent hC hi hj
  refine ⟨⟨by rw [h1.len, h.len, hR.len], by rw [h1.elen, h.elen, hR.elen], by rw [h.len]; exact hR.slt,
    by rw [h.len]; exact hR.sinj, by rw [h.elen]; exact hR.tlt, by rw [h.elen]; exact hR.tinj, hR.rho, ?_, ?_⟩, ?_⟩
  · intro c x' hx'
    have hc : c < cross.length := by rw [← h.len]; exact (List.getElem?_eq_some_iff.mp hx').1
    obtain ⟨y', p1, p2, p3⟩ := h.slots c _ (List.getElem?_eq_getElem hc)
    rw [hx'] at p1
    cases p1
    obtain ⟨x1, q1, q2⟩ := hR.cross c _ (List.getElem?_eq_getElem hc)
    obtain ⟨x1', r1, r2, r3⟩ := h1.slots c x1 q1
    refine ⟨x1', r1, ?_⟩
    intro k
    rw [Nat.add_zero, at_lt x1', at_lt x']
    have hk := Nat.mod_lt k (show 0 < 4 by decide)
    obtain ⟨ri, rj, s1, s2, s3⟩ := p3 _ hk
    obtain ⟨ri', rj', t1, t2, t3⟩ := r3 _ hk
    rw [keep i ri s1] at t1
    rw [keep j rj s2] at t2
    cases t1
    cases t2
    rw [s3, t3]
    split
    · rfl
    · split
      · rfl
      · rw [q2, Nat.add_zero]
  · intro e r' hr'
    have he : e < edge.length := by rw [← h.elen]; exact (List.getElem?_eq_some_iff.mp hr').1
    obtain ⟨t, p1, p2⟩ := h.ends e _ (List.getElem?_eq_getElem he)
    obtain ⟨t', q1, q2⟩ := h1.ends (τ e) _ (keep e _ (List.getElem?_eq_getElem he))
    have : (if τ e = τ i then τ j else if τ e = τ j then τ i else τ e) = τ (if e = i then j else if e = j then i else e) := by
      by_cases g1 : e = i
      · subst g1; simp
      · rw [if_neg (fun q => g1 (hR.tinj _ _ he hi q)), if_neg g1]
        by_cases g2 : e = j
        · subst g2; simp
        · rw [if_neg (fun q => g2 (hR.tinj _ _ he hj q)), if_neg g2]
    rw [this, keep _ _ p1] at q1
    cases q1
    rw [hr'] at p2
    cases p2
    rw [q2]
    have k1 := (slot_lt (hC'.head e _ hr')).2
    have k2 := (slot_lt (hC'.tail e _ hr')).2
    unfold moveEdge
    simp only [Bool.false_eq_true, if_false, id, Nat.sub_zero, Nat.add_mod_right]
    simp only at k1 k2
    rw [Nat.mod_eq_of_lt k1, Nat.mod_eq_of_lt k2]
  · intro hs c x' hx'
    have hc : c < cross.length := by rw [← h.len]; exact (List.getElem?_eq_some_iff.mp hx').1
    obtain ⟨y', p1, p2, p3⟩ := h.slots c _ (List.getElem?_eq_getElem hc)
    rw [hx'] at p1
    cases p1
    obtain ⟨x1, q1, q2⟩ := hs c _ (List.getElem?_eq_getElem hc)
    obtain ⟨x1', r1, r2, r3⟩ := h1.slots c x1 q1
    exact ⟨x1', r1, by rw [r2, q2, p2]⟩

/-! ### The records of the sum -/

theorem findPos_get (e : Nat) : ∀ (l : List Nat) (i q : Nat), Strands.findPos e l i = some q → ∃ p, q = i + p ∧ l[p]? = some e := by
  intro l
  induction l with
  | nil => intro i q h; simp [Strands.findPos] at h
  | cons x l ih =>
    intro i q h
    unfold Strands.findPos at h
    by_cases hx : x = e
    · rw [if_pos hx, Option.some.injEq] at h
      exact ⟨0, by omega, by simp [hx]⟩
    · rw [if_neg hx] at h
      obtain ⟨p, h1, h2⟩ := ih _ _ h
      exact ⟨p + 1, by omega, by simpa using h2⟩

theorem findComp_get (e : Nat) : ∀ (l : List Comp) (i : Nat), (∃ c ∈ l, e ∈ c.edge) →
    ∃ (j p : Nat) (c : Comp), Strands.findComp e l i = .ok (i + j, p) ∧ l[j]? = some c ∧ c.edge[p]? = some e := by
  intro l
  induction l with
  | nil => intro i h; simp at h
  | cons c l ih =>
    intro i h
    unfold Strands.findComp
    by_cases hc : e ∈ c.edge
    · obtain ⟨p, hp⟩ := (Strands.findPos_spec e c.edge 0).1 hc
      rw [hp]
      obtain ⟨p', h1, h2⟩ := findPos_get _ _ _ _ hp
      exact ⟨0, p, c, rfl, rfl, by rw [h1, Nat.zero_add]; exact h2⟩
    · rw [(Strands.findPos_spec e c.edge 0).2 hc]
      obtain ⟨j, p, c', h1, h2, h3⟩ := ih (i + 1) (by
        obtain ⟨d, hd, he⟩ := h
        rcases List.mem_cons.mp hd with rfl | hd
        · exact absurd he hc
        · exact ⟨d, hd, he⟩)
      exact ⟨j + 1, p, c', by rw [h1, Nat.add_assoc, Nat.add_comm 1], by simpa using h2, h3⟩

theorem compAndPos_get {m : Nat} {comps : List Comp} (hall : (comps.flatMap (·.edge)).Perm (List.range m)) {e : Nat} (he : e < m) :
    ∃ (j p : Nat) (k : Comp), Strands.compAndPos m comps e = .ok (j, p) ∧ comps[j]? = some k ∧ k.edge[p]? = some e := by
  have h1 : e ∈ comps.flatMap (·.edge) := hall.mem_iff.mpr (List.mem_range.mpr he)
  rw [List.mem_flatMap] at h1
  obtain ⟨j, p, k, a1, a2, a3⟩ := findComp_get e comps 0 h1
  refine ⟨j, p, k, ?_, a2, a3⟩
  unfold Strands.compAndPos
  rw [assertC_ok (by simpa using he), ok_bind, a1, Nat.zero_add]

theorem comp_le {m : Nat} {comps : List Comp} (hall : (comps.flatMap (·.edge)).Perm (List.range m)) {j : Nat} {k : Comp}
    (hj : comps[j]? = some k) : k.edge.length ≤ m := by
  have := ((others_perm hj).trans hall).length_eq
  rw [List.length_append, List.length_range] at this
  omega

/-- Sorting a rearrangement of the first numbers. -/
theorem sort_range (qs : QSort) {l : List Nat} {n : Nat} (h : l.Perm (List.range n)) :
    qs.sort (fun x y => decide (Buffers.idxCmp x y ≤ 0)) l = List.range n := by
  have hle : ∀ a b : Nat, (decide (Buffers.idxCmp a b ≤ 0)) = true ↔ a ≤ b := by
    intro a b
    rw [decide_eq_true_iff]
    unfold Buffers.idxCmp
    split_ifs <;> omega
  have hs := qs.sorted (fun x y => decide (Buffers.idxCmp x y ≤ 0)) l (by
    intro a b _ _
    rw [Bool.or_eq_true, hle, hle]
    omega) (by
    intro a b c _ _ _
    rw [hle, hle, hle]
    omega)
  have hp := (qs.perm (fun x y => decide (Buffers.idxCmp x y ≤ 0)) l).trans h
  refine List.Perm.eq_of_pairwise (le := (· ≤ ·)) (fun a b _ _ h1 h2 => Nat.le_antisymm h1 h2) (hs.imp (fun h => (hle _ _).mp h)) ?_ hp
  exact List.pairwise_le_range

/-- Before the heads are exchanged, the records are those of the two diagrams beside each other. -/
theorem raw_ok (qs : QSort) {caps : Io.Caps} {pdA pdB : Io.Pd} {a b : Nat} (cA : Consistent pdA.cross pdA.edge)
    (cB : Consistent pdB.cross pdB.edge) (kA : (pdA.comp.flatMap (·.edge)).Perm (List.range pdA.edge.length))
    (kB : (pdB.comp.flatMap (·.edge)).Perm (List.range pdB.edge.length)) (ha : a < pdA.edge.length) (hb : b < pdB.edge.length)
    (hv : pdA.cross.length + pdB.cross.length ≤ caps.verts) (he : pdA.edge.length + pdB.edge.length ≤ caps.edges)
    (hs : pdA.edge.length + pdB.edge.length ≤ UNSET_IDX) :
    ∃ τ C0 E0, Renamed (besideCross pdA.cross pdA.edge.length pdB.cross) (besideEdge pdA.edge pdA.cross.length pdB.edge) C0 E0
        τ id (fun _ => 0) (fun _ => false) ∧
      SameSigns (besideCross pdA.cross pdA.edge.length pdB.cross) C0 id ∧
      raw qs caps pdA a pdB b = exchange C0 E0 (τ a) (τ (pdA.edge.length + b)) := by
  obtain ⟨jA, pA, KA, a1, a2, a3⟩ := compAndPos_get kA ha
  obtain ⟨jB, pB, KB, b1, b2, b3⟩ := compAndPos_get kB hb
  have hpA := (List.getElem?_eq_some_iff.mp a3).1
  obtain ⟨ttA, t1, t2, t3, t4⟩ := tableA_ok KB.edge.length a2 kA hpA
  obtain ⟨ttB, u1, u2, u3⟩ := tableB_ok (pos := pB) (1 + pA) pdA.edge.length b2 kB
  have hperm := tables_perm (kA := KA.edge.length) (p := pA) (by omega) rfl (comp_le kA a2) (comp_le kB b2) t3 u3
  have hnd : (ttA ++ ttB).Nodup := hperm.nodup_iff.mpr List.nodup_range
  have hlt : ∀ e ∈ ttA ++ ttB, e < pdA.edge.length + pdB.edge.length := by
    intro e h
    exact List.mem_range.mp (hperm.mem_iff.mp h)
  have hnd2 := List.nodup_append.mp hnd
  have slA : ∀ x ∈ pdA.cross, ∀ k, x.at k < ttA.length := by
    intro x hx k
    obtain ⟨c, hc⟩ := List.mem_iff_getElem?.mp hx
    rw [t2]
    exact cA.slot_edge_lt (at_eq_slot hc)
  have slB : ∀ x ∈ pdB.cross, ∀ k, x.at k < ttB.length := by
    intro x hx k
    obtain ⟨c, hc⟩ := List.mem_iff_getElem?.mp hx
    rw [u2]
    exact cB.slot_edge_lt (at_eq_slot hc)
  have enA : ∀ r ∈ pdA.edge, r.head < pdA.cross.length ∧ r.tail < pdA.cross.length := by
    intro r hr
    obtain ⟨e, he⟩ := List.mem_iff_getElem?.mp hr
    exact ⟨(slot_lt (cA.head e r he)).1, (slot_lt (cA.tail e r he)).1⟩
  have enB : ∀ r ∈ pdB.edge, r.head < pdB.cross.length ∧ r.tail < pdB.cross.length := by
    intro r hr
    obtain ⟨e, he⟩ := List.mem_iff_getElem?.mp hr
    exact ⟨(slot_lt (cB.head e r he)).1, (slot_lt (cB.tail e r he)).1⟩
  obtain ⟨X1, x1, x2, x3, x4⟩ := copyCrosses_ok (tt := ttA) (ct := List.range pdA.cross.length) (src := pdA.cross)
    (buf := List.replicate caps.verts zeroCross) slA (by simp) List.nodup_range (by
      intro c hc
      rw [List.mem_range] at hc
      rw [List.length_replicate]
      omega)
  rw [List.length_replicate] at x2
  obtain ⟨X2, y1, y2, y3, y4⟩ := copyCrosses_ok (tt := ttB) (ct := List.range' pdA.cross.length pdB.cross.length) (src := pdB.cross)
    (buf := X1) slB (by simp) List.nodup_range' (by
      intro c hc
      rw [List.mem_range'_1] at hc
      omega)
  obtain ⟨Y1, z1, z2, z3, z4⟩ := copyEdges_ok (tt := ttA) (ct := List.range pdA.cross.length) (src := pdA.edge)
    (buf := List.replicate caps.edges zeroEdge) (by simpa using enA) t2 hnd2.1 (by
      intro c hc
      rw [List.length_replicate]
      have := hlt c (by simp [hc])
      omega)
  rw [List.length_replicate] at z2
  obtain ⟨Y2, w1, w2, w3, w4⟩ := copyEdges_ok (tt := ttB) (ct := List.range' pdA.cross.length pdB.cross.length) (src := pdB.edge)
    (buf := Y1) (by simpa using enB) u2 hnd2.2.1 (by
      intro c hc
      have := hlt c (by simp [hc])
      omega)
  -- the renaming of edges
  have τA : ∀ {e}, e < pdA.edge.length → (ttA ++ ttB)[e]? = some ttA[e]! := by
    intro e h
    rw [List.getElem?_append_left (by omega)]
    simp [t2, h]
  have τB : ∀ {e}, e < pdB.edge.length → (ttA ++ ttB)[pdA.edge.length + e]? = some ttB[e]! := by
    intro e h
    rw [List.getElem?_append_right (by omega), t2, Nat.add_sub_cancel_left]
    simp [u2, h]
  have bang : ∀ {e v : Nat}, (ttA ++ ttB)[e]? = some v → (ttA ++ ttB)[e]! = v := by
    intro e v h
    obtain ⟨h1, h2⟩ := List.getElem?_eq_some_iff.mp h
    rw [getElem!_pos _ e h1, h2]
  have hlen : (ttA ++ ttB).length = pdA.edge.length + pdB.edge.length := by rw [List.length_append, t2, u2]
  have ctA : ∀ {c}, c < pdA.cross.length → (List.range pdA.cross.length)[c]! = c := by
    intro c h
    simp [h]
  have ctB : ∀ {c}, c < pdB.cross.length → (List.range' pdA.cross.length pdB.cross.length)[c]! = c + pdA.cross.length := by
    intro c h
    rw [getElem!_pos _ c (by simpa using h)]
    simp
    omega
  -- the records that are kept
  have crA : ∀ (c : Nat) (x : Cross), pdA.cross[c]? = some x → (X2.take (pdA.cross.length + pdB.cross.length))[c]? = some (mapCross ttA x) := by
    intro c x hx
    have hc := (List.getElem?_eq_some_iff.mp hx).1
    rw [List.getElem?_take_of_lt (by omega), y4 c (by rw [List.mem_range'_1]; omega)]
    exact x3 c x c hx (List.getElem?_range hc)
  have crB : ∀ (c : Nat) (x : Cross), pdB.cross[c]? = some x →
      (X2.take (pdA.cross.length + pdB.cross.length))[pdA.cross.length + c]? = some (mapCross ttB x) := by
    intro c x hx
    have hc := (List.getElem?_eq_some_iff.mp hx).1
    rw [List.getElem?_take_of_lt (by omega)]
    exact y3 c x _ hx (by rw [List.getElem?_range' hc]; simp)
  have egA : ∀ (e : Nat) (r : Edge), pdA.edge[e]? = some r →
      (Y2.take (pdA.edge.length + pdB.edge.length))[ttA[e]!]? = some (mapEdge (List.range pdA.cross.length) r) := by
    intro e r hr
    have hc := (List.getElem?_eq_some_iff.mp hr).1
    have hm : ttA[e]? = some ttA[e]! := by simp [t2, hc]
    have hmem := List.mem_of_getElem? hm
    rw [List.getElem?_take_of_lt (hlt _ (List.mem_append_left _ hmem)), w4 _ (fun q => hnd2.2.2 _ hmem _ q rfl)]
    exact z3 e r _ hr hm
  have egB : ∀ (e : Nat) (r : Edge), pdB.edge[e]? = some r → (Y2.take (pdA.edge.length + pdB.edge.length))[ttB[e]!]? =
      some (mapEdge (List.range' pdA.cross.length pdB.cross.length) r) := by
    intro e r hr
    have hc := (List.getElem?_eq_some_iff.mp hr).1
    have hm : ttB[e]? = some ttB[e]! := by simp [u2, hc]
    have hmem := List.mem_of_getElem? hm
    rw [List.getElem?_take_of_lt (hlt _ (List.mem_append_right _ hmem))]
    exact w3 e r _ hr hm
  refine ⟨fun e => (ttA ++ ttB)[e]!, X2.take (pdA.cross.length + pdB.cross.length), Y2.take (pdA.edge.length + pdB.edge.length),
    ⟨?_, ?_, ?_, ?_, ?_, ?_, fun _ => by decide, ?_, ?_⟩, ?_, ?_⟩
  · rw [List.length_take, Beside.cross_len, y2, x2]
    omega
  · rw [List.length_take, Beside.edge_len, w2, z2]
    omega
  · exact fun c hc => hc
  · exact fun c d _ _ h => h
  · intro e h
    rw [Beside.edge_len] at h ⊢
    rw [getElem!_pos _ e (by rw [hlen]; exact h)]
    exact hlt _ (List.getElem_mem _)
  · intro e f h1 h2 h
    rw [Beside.edge_len, ← hlen] at h1 h2
    rw [getElem!_pos _ e h1, getElem!_pos _ f h2] at h
    exact (List.Nodup.getElem_inj_iff hnd).mp h
  · intro c x hx
    have hc := (List.getElem?_eq_some_iff.mp hx).1
    rw [Beside.cross_len] at hc
    rcases Nat.lt_or_ge c pdA.cross.length with h | h
    · rw [Beside.cross_left h] at hx
      refine ⟨_, crA c x hx, fun k => ?_⟩
      rw [mapCross_at, Nat.add_zero]
      exact (bang (τA (by rw [← t2]; exact slA x (List.mem_of_getElem? hx) k))).symm
    · obtain ⟨d, rfl⟩ := Nat.exists_eq_add_of_le h
      rw [Beside.cross_right] at hx
      obtain ⟨y, q1, rfl⟩ := Option.map_eq_some_iff.mp hx
      refine ⟨_, crB d y q1, fun k => ?_⟩
      rw [mapCross_at, Nat.add_zero, Beside.shift_at, Nat.add_comm (y.at k)]
      exact (bang (τB (by rw [← u2]; exact slB y (List.mem_of_getElem? q1) k))).symm
  · intro e r hr
    have hh : r.headpos < 4 ∧ r.tailpos < 4 := by
      have hU := Beside.consistent cA cB
      exact ⟨(slot_lt (hU.head e r hr)).2, (slot_lt (hU.tail e r hr)).2⟩
    unfold moveEdge
    simp only [Bool.false_eq_true, if_false, id, Nat.sub_zero, Nat.add_mod_right]
    rw [Nat.mod_eq_of_lt hh.1, Nat.mod_eq_of_lt hh.2]
    rcases Beside.edge_cases hr with h | ⟨f, s, rfl, h, rfl⟩
    · have hc := (List.getElem?_eq_some_iff.mp h).1
      rw [bang (τA hc), egA e r h]
      unfold mapEdge
      have := enA r (List.mem_of_getElem? h)
      rw [ctA this.1, ctA this.2]
    · have hc := (List.getElem?_eq_some_iff.mp h).1
      rw [bang (τB hc), egB f s h]
      unfold mapEdge shiftEdge
      have := enB s (List.mem_of_getElem? h)
      rw [ctB this.1, ctB this.2]
  · intro c x hx
    have hc := (List.getElem?_eq_some_iff.mp hx).1
    rw [Beside.cross_len] at hc
    rcases Nat.lt_or_ge c pdA.cross.length with h | h
    · rw [Beside.cross_left h] at hx
      exact ⟨_, crA c x hx, rfl⟩
    · obtain ⟨d, rfl⟩ := Nat.exists_eq_add_of_le h
      rw [Beside.cross_right] at hx
      obtain ⟨y, q1, rfl⟩ := Option.map_eq_some_iff.mp hx
      exact ⟨_, crB d y q1, rfl⟩
  · have unset : ∀ tt : List Nat, (∀ e ∈ tt, e < pdA.edge.length + pdB.edge.length) →
        tt.all (fun e => decide (e ≠ UNSET_IDX)) = true := by
      intro tt h
      rw [List.all_eq_true]
      intro e he
      have := h e he
      rw [decide_eq_true_iff]
      omega
    unfold raw
    rw [a1, ok_bind]
    simp only
    rw [b1, ok_bind]
    simp only
    rw [rd_eq_ok.mpr a2, ok_bind, rd_eq_ok.mpr b2, ok_bind, t1, ok_bind, u1, ok_bind,
      assertC_ok (unset ttA (fun e h => hlt e (by simp [h]))), ok_bind, assertC_ok (unset ttB (fun e h => hlt e (by simp [h]))), ok_bind,
      assertC_ok (by rw [sort_range qs hperm]; simp), ok_bind, x1, ok_bind, y1, ok_bind, z1, ok_bind, w1, ok_bind,
      rd_bang (by omega), ok_bind, rd_bang (by omega), ok_bind, bang (τA ha), bang (τB hb)]

end Plc.ConnectSum
