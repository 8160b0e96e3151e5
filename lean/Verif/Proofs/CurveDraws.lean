import Verif.Proofs.CurvePlace
import Verif.Props.Regenerate

/-! The records drawn by `assemble_pdcode` show the crossings, and there is only one such diagram. -/

namespace Plc.FromCurve

open Plc.Core Plc.Cmp Plc.Moves Plc.Buffers List

/-- Where a strand comes in and goes out, by the sign of the crossing. -/
def ip (u : Bool) (s : Int) : Nat := if u then (if 0 < s then 3 else 1) else 0

def op (u : Bool) (s : Int) : Nat := if u then (if 0 < s then 1 else 3) else 2

theorem ip_eq (u : Bool) (s : Int) : inPos u (signOf s) = ip u s := by
  unfold inPos ip signOf
  by_cases h : 0 < s <;> simp [h]

theorem op_eq (u : Bool) (s : Int) : outPos u (signOf s) = op u s := by
  unfold outPos op signOf
  by_cases h : 0 < s <;> simp [h]

theorem ip_lt (u : Bool) (s : Int) : ip u s < 4 := by rw [← ip_eq]; exact inPos_lt _ _

theorem op_lt (u : Bool) (s : Int) : op u s < 4 := by rw [← op_eq]; exact outPos_lt _ _

theorem op_ip (u : Bool) (s : Int) : op u s = (ip u s + 2) % 4 := by
  unfold ip op
  by_cases h : 0 < s <;> cases u <;> simp [h]

theorem ip_or_op {k : Nat} (hk : k < 4) (s : Int) : ∃ u, k = ip u s ∨ k = op u s := by
  unfold ip op
  by_cases h : 0 < s <;> (have : k = 0 ∨ k = 1 ∨ k = 2 ∨ k = 3 := by omega) <;> rcases this with rfl | rfl | rfl | rfl
  · exact ⟨false, by simp⟩
  · exact ⟨true, by simp [h]⟩
  · exact ⟨false, by simp⟩
  · exact ⟨true, by simp [h]⟩
  · exact ⟨false, by simp⟩
  · exact ⟨true, by simp [h]⟩
  · exact ⟨false, by simp⟩
  · exact ⟨true, by simp [h]⟩

variable {K : Type} [LinearOrder K] {near : K → K → Bool}

section

variable {nc : Nat} {cc : List (Crossing K)} (hr : ∀ a, near a a = true) (hS : Spread near nc cc)

theorem strandOn_lt {a : Nat × Bool} {c : Nat} {s : K} (h : StrandOn cc a c s) : a.1 < cc.length := by
  obtain ⟨x, x1, -⟩ := h
  exact (List.getElem?_eq_some_iff.mp x1).1

theorem strandOn_of_lt {i : Nat} (h : i < cc.length) (u : Bool) : ∃ c s, StrandOn cc (i, u) c s := by
  cases u
  · exact ⟨cc[i].lowerCmp, cc[i].lowerS, cc[i], List.getElem?_eq_getElem h, by simp⟩
  · exact ⟨cc[i].upperCmp, cc[i].upperS, cc[i], List.getElem?_eq_getElem h, by simp⟩

include hr hS in
theorem next_exists {a : Nat × Bool} {c : Nat} {s : K} (h : StrandOn cc a c s) : ∃ b, NextStrand cc a b := by
  obtain ⟨S, R, -⟩ := rows_exist hr hS insQSort
  have : (⟨a.1, c, s, a.2⟩ : Strand K) ∈ (table nc S).map Prod.snd := (table_snd hS R).mem_iff.mpr (mem_strands.mpr h)
  obtain ⟨⟨x, y⟩, hp, hy⟩ := List.mem_map.mp this
  simp only at hy
  subst hy
  exact ⟨_, table_next R hp⟩

include hr hS in
theorem prev_exists {a : Nat × Bool} {c : Nat} {s : K} (h : StrandOn cc a c s) : ∃ b, NextStrand cc b a := by
  obtain ⟨S, R, -⟩ := rows_exist hr hS insQSort
  have : (⟨a.1, c, s, a.2⟩ : Strand K) ∈ (table nc S).map Prod.fst := (table_fst hS R).mem_iff.mpr (mem_strands.mpr h)
  obtain ⟨⟨x, y⟩, hp, hy⟩ := List.mem_map.mp this
  simp only at hy
  subst hy
  exact ⟨_, table_next R hp⟩

/-- The sign of crossing `d`. -/
def sgnOf (cc : List (Crossing K)) (d : Nat) : Or := ((cc[d]?).map (fun x => signOf x.sign)).getD .pos

theorem sgnOf_eq {d : Nat} {x : Crossing K} (h : cc[d]? = some x) : sgnOf cc d = signOf x.sign := by
  unfold sgnOf
  rw [h]
  rfl

/-- The number of the edge which ends at a strand. -/
def innOf (te : List (Strand K × Strand K)) (a : Nat × Bool) : Nat :=
  te.findIdx (fun p => decide ((p.1.num, p.1.up) = a))

theorem innOf_eq {te : List (Strand K × Strand K)} (hnd : (te.map (fun p => (p.1.num, p.1.up))).Nodup) {j : Nat} {h t : Strand K}
    (hj : te[j]? = some (h, t)) : innOf te (h.num, h.up) = j := by
  obtain ⟨jl, je⟩ := List.getElem?_eq_some_iff.mp hj
  unfold innOf
  rw [List.findIdx_eq jl]
  refine ⟨by rw [je]; simp, ?_⟩
  intro i hi
  rw [decide_eq_false_iff_not]
  intro heq
  have := List.pairwise_iff_getElem.mp hnd i j (by simp; omega) (by simpa using jl) hi
  apply this
  rw [List.getElem_map, List.getElem_map, je]
  exact heq

include hr hS in
theorem table_draws {S : Nat → List (Strand K)} (R : Rows cc S) :
    (table nc S).length = 2 * cc.length ∧ ∃ cross edge,
      place (table nc S) 0 (cc.map (fun x => ⟨0, 0, 0, 0, signOf x.sign⟩)) = .ok (cross, edge) ∧
      Draws cc (innOf (table nc S)) cross edge := by
  have pf := table_fst hS R
  have ps := table_snd hS R
  have nf : ((table nc S).map (fun p => (p.1.num, p.1.up))).Nodup := by
    have := (pf.map (fun t => (t.num, t.up))).nodup_iff.mpr strands_nodup_key
    rw [List.map_map] at this
    exact this
  have ns : ((table nc S).map (fun p => (p.2.num, p.2.up))).Nodup := by
    have := (ps.map (fun t => (t.num, t.up))).nodup_iff.mpr strands_nodup_key
    rw [List.map_map] at this
    exact this
  have hlen : (table nc S).length = 2 * cc.length := by
    have := pf.length_eq
    rw [List.length_map, strands_length] at this
    exact this
  refine ⟨hlen, ?_⟩
  have hmem : ∀ p ∈ table nc S, p.1 ∈ strands cc ∧ p.2 ∈ strands cc := fun p hp =>
    ⟨pf.mem_iff.mp (List.mem_map_of_mem hp), ps.mem_iff.mp (List.mem_map_of_mem hp)⟩
  obtain ⟨cross, a1, a2, a3, a4⟩ := place_ok (sgnOf cc) (table nc S) 0 (cc.map (fun x => ⟨0, 0, 0, 0, signOf x.sign⟩))
    (by
      intro d x hx
      rw [List.getElem?_map, Option.map_eq_some_iff] at hx
      obtain ⟨y, y1, rfl⟩ := hx
      rw [sgnOf_eq y1])
    (by
      intro p hp
      rw [List.length_map]
      exact ⟨strandOn_lt (mem_strands.mp (hmem p hp).1), strandOn_lt (mem_strands.mp (hmem p hp).2)⟩)
    (spots_nodup _ nf ns)
  have find : ∀ b c s, StrandOn cc b c s → ∃ (j : Nat) (h t : Strand K), (table nc S)[j]? = some (h, t) ∧ (h.num, h.up) = b := by
    intro b c s hb
    have : (⟨b.1, c, s, b.2⟩ : Strand K) ∈ (table nc S).map Prod.fst := pf.mem_iff.mpr (mem_strands.mpr hb)
    obtain ⟨⟨x, y⟩, hp, hy⟩ := List.mem_map.mp this
    simp only at hy
    subst hy
    obtain ⟨j, hj⟩ := List.mem_iff_getElem?.mp hp
    exact ⟨j, _, y, hj, rfl⟩
  refine ⟨cross, _, a1, ?_⟩
  constructor
  · rw [a2, List.length_map]
  · rw [List.length_map, hlen]
  · intro a c s ha
    obtain ⟨j, h, t, h1, h2⟩ := find a c s ha
    rw [← h2, innOf_eq nf h1, List.length_map]
    exact (List.getElem?_eq_some_iff.mp h1).1
  · intro a b c d s t ha hb hab
    obtain ⟨j, h, t, h1, h2⟩ := find a c s ha
    obtain ⟨j', h', t', h1', h2'⟩ := find b d _ hb
    rw [← h2, ← h2', innOf_eq nf h1, innOf_eq nf h1'] at hab
    subst hab
    rw [h1] at h1'
    cases h1'
    rw [← h2, ← h2']
  · intro i x hx
    obtain ⟨x', x1, x2, -⟩ := a3 i ⟨0, 0, 0, 0, signOf x.sign⟩ (by rw [List.getElem?_map, hx]; rfl)
    exact ⟨x', x1, by rw [x2]; rfl⟩
  · intro a b x y hab hx hy
    obtain ⟨c, s, t, ha, hb, -⟩ := id hab
    obtain ⟨j, h, t, h1, h2⟩ := find b _ _ hb
    have hn := table_next R (List.mem_of_getElem? h1)
    rw [h2] at hn
    have h3 := next_unique hr hS hn hab
    have e1 : b.1 = h.num := by rw [← h2]
    have e2 : b.2 = h.up := by rw [← h2]
    have e3 : a.1 = t.num := by rw [← h3]
    have e4 : a.2 = t.up := by rw [← h3]
    rw [← h2, innOf_eq nf h1, List.getElem?_map, h1, Option.map_some]
    simp only
    rw [← e1, ← e2, ← e3, ← e4, sgnOf_eq hx, sgnOf_eq hy, ip_eq, op_eq]
    rfl
  · intro a b x y hab hx hy
    obtain ⟨c, s, t, ha, hb, -⟩ := id hab
    obtain ⟨j, h, t, h1, h2⟩ := find b _ _ hb
    have hn := table_next R (List.mem_of_getElem? h1)
    rw [h2] at hn
    have h3 := next_unique hr hS hn hab
    have e1 : b.1 = h.num := by rw [← h2]
    have e2 : b.2 = h.up := by rw [← h2]
    have e3 : a.1 = t.num := by rw [← h3]
    have e4 : a.2 = t.up := by rw [← h3]
    obtain ⟨z1, z2⟩ := a4 j h t h1
    rw [← e1, ← e2, sgnOf_eq hy, ip_eq, Nat.zero_add] at z1
    rw [← e3, ← e4, sgnOf_eq hx, op_eq, Nat.zero_add] at z2
    have : innOf (table nc S) b = j := by rw [← h2, innOf_eq nf h1]
    rw [this]
    exact ⟨z1, z2⟩

/-- Every edge ends at a strand. -/
theorem _root_.Plc.Draws.onto {inn : Nat × Bool → Nat} {cross : List Cross} {edge : List Edge} (D : Draws cc inn cross edge) {e : Nat} (he : e < edge.length) :
    ∃ a c s, StrandOn cc a c s ∧ inn a = e := by
  have h1 : ((strands cc).map (fun t => inn (t.num, t.up))).Nodup := by
    unfold List.Nodup
    rw [List.pairwise_map]
    refine (strands_nodup (cc := cc)).imp_of_mem ?_
    intro a b ha hb hab h
    exact hab (strand_ext ha hb (D.inn_inj _ _ _ _ _ _ (mem_strands.mp ha) (mem_strands.mp hb) h))
  have h2 : (strands cc).map (fun t => inn (t.num, t.up)) ⊆ List.range edge.length := by
    intro i hi
    obtain ⟨t, ht, rfl⟩ := List.mem_map.mp hi
    exact List.mem_range.mpr (D.inn_lt _ _ _ (mem_strands.mp ht))
  have h3 := (List.subperm_of_subset h1 h2).perm_of_length_le (by rw [List.length_range, List.length_map, strands_length, D.elen])
  obtain ⟨t, ht, hte⟩ := List.mem_map.mp (h3.mem_iff.mpr (List.mem_range.mpr he))
  exact ⟨_, _, _, mem_strands.mp ht, hte⟩

include hr hS in
/-- What is written at a place. -/
theorem place_cases {i k : Nat} (hi : i < cc.length) (hk : k < 4) : ∃ b c s, StrandOn cc b c s ∧
    ∀ {inn : Nat × Bool → Nat} {cross : List Cross} {edge : List Edge}, Draws cc inn cross edge → slot cross i k = some (inn b) := by
  obtain ⟨u, hu⟩ := ip_or_op hk cc[i].sign
  obtain ⟨c, s, hs⟩ := strandOn_of_lt hi u
  have hx := List.getElem?_eq_getElem hi
  rcases hu with hu | hu
  · refine ⟨(i, u), c, s, hs, ?_⟩
    intro inn cross edge D
    obtain ⟨a, ha⟩ := prev_exists hr hS hs
    obtain ⟨c1, s1, t1, h1, -⟩ := id ha
    have := (D.slots a (i, u) _ _ ha (List.getElem?_eq_getElem (strandOn_lt h1)) hx).1
    rw [hu]
    exact this
  · obtain ⟨b, hb⟩ := next_exists hr hS hs
    obtain ⟨c1, s1, t1, -, h1, -⟩ := id hb
    refine ⟨b, _, _, h1, ?_⟩
    intro inn cross edge D
    have := (D.slots (i, u) b _ _ hb hx (List.getElem?_eq_getElem (strandOn_lt h1))).2
    rw [hu]
    exact this

include hr hS in
/-- There is only one diagram showing the crossings, up to the numbers of edges. -/
theorem draws_renamed {inn inn' : Nat × Bool → Nat} {cross cross' : List Cross} {edge edge' : List Edge} (D : Draws cc inn cross edge)
    (D' : Draws cc inn' cross' edge') : ∃ τ, Renamed cross edge cross' edge' τ id (fun _ => 0) (fun _ => false) := by
  classical
  have hon : ∀ e, ∃ a, e < edge.length → (∃ c s, StrandOn cc a c s) ∧ inn a = e := by
    intro e
    by_cases he : e < edge.length
    · obtain ⟨a, c, s, h1, h2⟩ := D.onto he
      exact ⟨a, fun _ => ⟨⟨c, s, h1⟩, h2⟩⟩
    · exact ⟨(0, false), fun h => absurd h he⟩
  choose key hkey using hon
  have hk : ∀ a c s, StrandOn cc a c s → key (inn a) = a := by
    intro a c s ha
    obtain ⟨⟨c', s', h1⟩, h2⟩ := hkey _ (D.inn_lt a c s ha)
    exact D.inn_inj _ _ _ _ _ _ h1 ha h2
  refine ⟨fun e => inn' (key e), ?_⟩
  constructor
  · rw [D.len, D'.len]
  · rw [D.elen, D'.elen]
  · exact fun c hc => hc
  · exact fun c d _ _ h => h
  · intro e he
    obtain ⟨⟨c, s, h1⟩, -⟩ := hkey e he
    rw [D.elen, ← D'.elen]
    exact D'.inn_lt _ _ _ h1
  · intro e f he hf h
    obtain ⟨⟨c, s, h1⟩, h2⟩ := hkey e he
    obtain ⟨⟨c', s', h1'⟩, h2'⟩ := hkey f hf
    rw [← h2, ← h2', D'.inn_inj _ _ _ _ _ _ h1 h1' h]
  · intro c; decide
  · intro c x hx
    have hc : c < cc.length := by rw [← D.len]; exact (List.getElem?_eq_some_iff.mp hx).1
    have hc' : c < cross'.length := by rw [D'.len]; exact hc
    refine ⟨cross'[c], List.getElem?_eq_getElem hc', ?_⟩
    intro k
    obtain ⟨b, d, s, hb, hsl⟩ := place_cases hr hS hc (Nat.mod_lt k (show 4 > 0 by decide))
    have e1 := hsl D
    have e2 := hsl D'
    rw [at_eq_slot hx] at e1
    rw [at_eq_slot (List.getElem?_eq_getElem hc')] at e2
    rw [Option.some.injEq] at e1 e2
    rw [e2, Nat.add_zero]
    show inn' b = inn' (key (x.at k))
    rw [e1, hk b d s hb]
  · intro e r he
    have hlt := (List.getElem?_eq_some_iff.mp he).1
    obtain ⟨b, c, s, hb, rfl⟩ := D.onto hlt
    obtain ⟨a, ha⟩ := prev_exists hr hS hb
    obtain ⟨c1, s1, t1, h1, -⟩ := id ha
    have la := strandOn_lt h1
    have lb := strandOn_lt hb
    have ga := List.getElem?_eq_getElem la
    have gb := List.getElem?_eq_getElem lb
    have e1 := D.edges a b _ _ ha ga gb
    have e2 := D'.edges a b _ _ ha ga gb
    rw [hk b c s hb, e2]
    rw [he] at e1
    simp only [Option.some.injEq] at e1
    subst e1
    have i1 := ip_lt b.2 cc[b.1].sign
    have i2 := op_lt a.2 cc[a.1].sign
    unfold ip at i1
    unfold op at i2
    unfold moveEdge
    simp only [id, Bool.false_eq_true, if_false, Nat.sub_zero, Nat.add_mod_right]
    rw [Nat.mod_eq_of_lt i1, Nat.mod_eq_of_lt i2]

end

end Plc.FromCurve
