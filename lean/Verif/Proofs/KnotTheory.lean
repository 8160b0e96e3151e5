import Verif.Spec.KnotTheory
import Verif.Proofs.Regenerate
import Verif.Proofs.Io

/-! # Reading and writing KnotTheory codes -/

namespace Plc.KT

open Plc.Core Plc.Cmp Plc.Io Plc.Strands

section
variable {cross : List Cross} {edge : List Edge}

/-- The records in `buf` are right at the places in `S`. -/
def Fits (edge : List Edge) (S : Nat → Nat → Prop) (buf : List Edge) : Prop :=
  ∀ (e : Nat) (r : Edge), edge[e]? = some r → ∃ b, buf[e]? = some b ∧
    (S r.head r.headpos → b.head = r.head ∧ b.headpos = r.headpos) ∧
    (S r.tail r.tailpos → b.tail = r.tail ∧ b.tailpos = r.tailpos)

theorem setHead_fits (hC : Consistent cross edge) {S : Nat → Nat → Prop} {buf : List Edge} {e c k : Nat} {r : Edge}
    (he : edge[e]? = some r) (h1 : r.head = c) (h2 : r.headpos = k) (h : Fits edge S buf) :
    ∃ buf', setHead buf e c k = .ok buf' ∧ buf'.length = buf.length ∧
      Fits edge (fun c' k' => S c' k' ∨ (c' = c ∧ k' = k)) buf' := by
  obtain ⟨b, hb, hb1, hb2⟩ := h e r he
  obtain ⟨hlt, hbe⟩ := List.getElem?_eq_some_iff.mp hb
  refine ⟨buf.set e { b with head := c, headpos := k }, ?_, by simp, ?_⟩
  · unfold setHead
    rw [rd_ok hb, ok_bind, wr_lt hlt]
  · intro f s hs
    obtain ⟨d, hd, hd1, hd2⟩ := h f s hs
    by_cases hfe : e = f
    · subst hfe
      rw [he] at hs
      cases hs
      refine ⟨_, List.getElem?_set_self hlt, ?_, ?_⟩
      · intro _; exact ⟨h1.symm, h2.symm⟩
      · simp only
        rintro (hS | ⟨ht, hk⟩)
        · exact hb2 hS
        · exact absurd (by rw [h1, h2, ht, hk]) (hC.ends_ne e r he)
    · refine ⟨d, by rw [List.getElem?_set_ne hfe]; exact hd, ?_, ?_⟩
      · rintro (hS | ⟨hh, hk⟩)
        · exact hd1 hS
        · have a := hC.head e r he
          have b := hC.head f s hs
          rw [h1, h2] at a
          rw [hh, hk, a] at b
          exact absurd (Option.some.inj b) hfe
      · rintro (hS | ⟨hh, hk⟩)
        · exact hd2 hS
        · have a := hC.head e r he
          have b := hC.tail f s hs
          rw [h1, h2] at a
          rw [hh, hk, a] at b
          exact absurd (Option.some.inj b) hfe

theorem setTail_fits (hC : Consistent cross edge) {S : Nat → Nat → Prop} {buf : List Edge} {e c k : Nat} {r : Edge}
    (he : edge[e]? = some r) (h1 : r.tail = c) (h2 : r.tailpos = k) (h : Fits edge S buf) :
    ∃ buf', setTail buf e c k = .ok buf' ∧ buf'.length = buf.length ∧
      Fits edge (fun c' k' => S c' k' ∨ (c' = c ∧ k' = k)) buf' := by
  obtain ⟨b, hb, hb1, hb2⟩ := h e r he
  obtain ⟨hlt, hbe⟩ := List.getElem?_eq_some_iff.mp hb
  refine ⟨buf.set e { b with tail := c, tailpos := k }, ?_, by simp, ?_⟩
  · unfold setTail
    rw [rd_ok hb, ok_bind, wr_lt hlt]
  · intro f s hs
    obtain ⟨d, hd, hd1, hd2⟩ := h f s hs
    by_cases hfe : e = f
    · subst hfe
      rw [he] at hs
      cases hs
      refine ⟨_, List.getElem?_set_self hlt, ?_, ?_⟩
      · simp only
        rintro (hS | ⟨ht, hk⟩)
        · exact hb1 hS
        · exact absurd (by rw [h1, h2, ht, hk]) (hC.ends_ne e r he)
      · intro _; exact ⟨h1.symm, h2.symm⟩
    · refine ⟨d, by rw [List.getElem?_set_ne hfe]; exact hd, ?_, ?_⟩
      · rintro (hS | ⟨hh, hk⟩)
        · exact hd1 hS
        · have a := hC.tail e r he
          have b := hC.head f s hs
          rw [h1, h2] at a
          rw [hh, hk, a] at b
          exact absurd (Option.some.inj b) hfe
      · rintro (hS | ⟨hh, hk⟩)
        · exact hd2 hS
        · have a := hC.tail e r he
          have b := hC.tail f s hs
          rw [h1, h2] at a
          rw [hh, hk, a] at b
          exact absurd (Option.some.inj b) hfe

theorem comesIn_at {c k : Nat} {x : Cross} (hx : cross[c]? = some x) (hk : k < 4) (h : ComesIn cross edge c k) :
    ∃ r, edge[x.at k]? = some r ∧ r.head = c ∧ r.headpos = k := by
  obtain ⟨e, r, a1, a2, a3⟩ := h
  obtain ⟨hlt, rfl⟩ := List.getElem?_eq_some_iff.mp hx
  rw [slot_of_lt hlt hk] at a1
  cases a1
  exact ⟨r, a2, a3⟩

theorem goesOut_at {c k : Nat} {x : Cross} (hx : cross[c]? = some x) (hk : k < 4) (h : GoesOut cross edge c k) :
    ∃ r, edge[x.at k]? = some r ∧ r.tail = c ∧ r.tailpos = k := by
  obtain ⟨e, r, a1, a2, a3⟩ := h
  obtain ⟨hlt, rfl⟩ := List.getElem?_eq_some_iff.mp hx
  rw [slot_of_lt hlt hk] at a1
  cases a1
  exact ⟨r, a2, a3⟩

theorem follows_at {c k : Nat} {x : Cross} (hx : cross[c]? = some x) (hk : k < 4) (h : ComesIn cross edge c k) :
    Follows cross edge (x.at k) (x.at (k + 2)) := by
  obtain ⟨r, h1, h2, h3⟩ := comesIn_at hx hk h
  obtain ⟨hlt, rfl⟩ := List.getElem?_eq_some_iff.mp hx
  refine ⟨r, h1, ?_⟩
  rw [h2, h3, slot_of_lt hlt (Nat.mod_lt _ (by decide)), Cross.at_mod]

theorem usub_one (x : Nat) (hx : x < 4294967295) : usub (x + 1) 1 = x := by
  unfold usub
  rw [show x + 1 + 4294967296 - 1 = x + 4294967296 from by omega, Nat.add_mod_right, Nat.mod_eq_of_lt (by omega)]

theorem usub_ge {x y : Nat} (h : y ≤ x) (hx : x < 4294967296) : usub x y = x - y := by
  unfold usub
  rw [show x + 4294967296 - y = (x - y) + 4294967296 from by omega, Nat.add_mod_right, Nat.mod_eq_of_lt (by omega)]

theorem usub_lt {x y : Nat} (h : x < y) (_ : y < 4294967296) : usub x y = x + 4294967296 - y := by
  unfold usub
  rw [Nat.mod_eq_of_lt (by omega)]

/-- One crossing is read as meant. -/
theorem scanCross_ok {l : List Quad} (h : CodeOf l cross edge) (hsmall : edge.length < 2 ^ 31) {cr : Nat} {q : Quad}
    (hq : l[cr]? = some q) {buf : List Edge} (hF : Fits edge (fun c _ => c < cr) buf) :
    ∃ x buf', cross[cr]? = some x ∧ scanCross cr q buf = .ok (x, buf') ∧ buf'.length = buf.length ∧
      Fits edge (fun c _ => c < cr + 1) buf' := by
  have hC := h.plane.consistent
  have hO := h.plane.oriented
  obtain ⟨x, hx, rfl⟩ := h.quad cr q hq
  have hlt := (List.getElem?_eq_some_iff.mp hx).1
  have hin0 := h.under cr hlt
  have hout2 : GoesOut cross edge cr 2 := in_opp hC hO hin0
  obtain ⟨r0, a0, a1, a2⟩ := comesIn_at hx (by decide) hin0
  obtain ⟨r2, b0, b1, b2⟩ := goesOut_at hx (by decide) hout2
  have lt : ∀ k, k < 4 → x.at k < edge.length := by
    intro k hk
    obtain ⟨_, rfl⟩ := List.getElem?_eq_some_iff.mp hx
    exact hC.slot_edge_lt (slot_of_lt hlt hk)
  have l0 : x.e0 < edge.length := lt 0 (by decide)
  have l1 : x.e1 < edge.length := lt 1 (by decide)
  have l2 : x.e2 < edge.length := lt 2 (by decide)
  have l3 : x.e3 < edge.length := lt 3 (by decide)
  change edge[x.e0]? = _ at a0
  change edge[x.e2]? = _ at b0
  obtain ⟨buf1, s1, n1, f1⟩ := setHead_fits hC a0 a1 a2 hF
  obtain ⟨buf2, s2, n2, f2⟩ := setTail_fits hC b0 b1 b2 f1
  have fin : ∀ {S : Nat → Nat → Prop} {b : List Edge}, Fits edge S b →
      (∀ c k, k < 4 → (c < cr + 1) → S c k) → Fits edge (fun c _ => c < cr + 1) b := by
    intro S b hf hS e r hr
    obtain ⟨d, d1, d2, d3⟩ := hf e r hr
    refine ⟨d, d1, fun hc => d2 (hS _ _ ?_ hc), fun hc => d3 (hS _ _ ?_ hc)⟩
    · exact (slot_lt (hC.head e r hr)).2
    · exact (slot_lt (hC.tail e r hr)).2
  have u0 := usub_one x.e0 (by omega)
  have u1 := usub_one x.e1 (by omega)
  have u2 := usub_one x.e2 (by omega)
  have u3 := usub_one x.e3 (by omega)
  have hsc : scanCross cr ⟨x.e0 + 1, x.e1 + 1, x.e2 + 1, x.e3 + 1⟩ buf = scanOver cr x.e0 x.e1 x.e2 x.e3 buf2 := by
    unfold scanCross
    rw [u0, u1, u2, u3]
    unfold scanEdges
    rw [s1, ok_bind, s2, ok_bind]
  rw [hsc]
  unfold scanOver
  rcases in_or_out hC hlt (show 1 < 4 by decide) with hi | ho
  · have hout : GoesOut cross edge cr 3 := in_opp hC hO hi
    have hf := h.order _ _ (follows_at hx (by decide) hi)
    change x.e3 = x.e1 + 1 ∨ x.e3 + 2 ≤ x.e1 at hf
    obtain ⟨r1, c0, c1, c2⟩ := comesIn_at hx (by decide) hi
    obtain ⟨r3, d0, d1, d2⟩ := goesOut_at hx (by decide) hout
    change edge[x.e1]? = _ at c0
    change edge[x.e3]? = _ at d0
    obtain ⟨buf3, s3, n3, f3⟩ := setHead_fits hC c0 c1 c2 f2
    obtain ⟨buf4, s4, n4, f4⟩ := setTail_fits hC d0 d1 d2 f3
    have h13 : over13 buf2 cr x.e1 x.e3 = .ok buf4 := by
      unfold over13
      rw [s3, ok_bind, s4]
    have hsg := h.neg cr x hx hi
    refine ⟨x, buf4, hx, ?_, by omega, fin f4 (by intro c k hk hc; omega)⟩
    have hxe : x = ⟨x.e0, x.e1, x.e2, x.e3, .neg⟩ := by
      rw [← hsg]
    rw [h13, ok_bind]
    rcases hf with hf | hf
    · rw [if_pos (by rw [usub_ge (by omega) (by omega)]; omega), ← hxe]
    · rw [if_neg (by rw [usub_lt (by omega) (by omega)]; omega), if_neg (by rw [usub_ge (by omega) (by omega)]; omega),
        if_pos (by omega), ← hxe]
  · have hin : ComesIn cross edge cr 3 := out_opp hC hO ho
    have hf := h.order _ _ (follows_at hx (by decide) hin)
    change x.e1 = x.e3 + 1 ∨ x.e1 + 2 ≤ x.e3 at hf
    obtain ⟨r1, c0, c1, c2⟩ := comesIn_at hx (by decide) hin
    obtain ⟨r3, d0, d1, d2⟩ := goesOut_at hx (by decide) ho
    change edge[x.e3]? = _ at c0
    change edge[x.e1]? = _ at d0
    obtain ⟨buf3, s3, n3, f3⟩ := setHead_fits hC c0 c1 c2 f2
    obtain ⟨buf4, s4, n4, f4⟩ := setTail_fits hC d0 d1 d2 f3
    have h31 : over31 buf2 cr x.e1 x.e3 = .ok buf4 := by
      unfold over31
      rw [s3, ok_bind, s4]
    have hsg := h.pos cr x hx hin
    refine ⟨x, buf4, hx, ?_, by omega, fin f4 (by intro c k hk hc; omega)⟩
    have hxe : x = ⟨x.e0, x.e1, x.e2, x.e3, .pos⟩ := by
      rw [← hsg]
    rw [h31, ok_bind]
    rcases hf with hf | hf
    · rw [if_neg (by rw [usub_lt (by omega) (by omega)]; omega), if_pos (by rw [usub_ge (by omega) (by omega)]; omega), ← hxe]
    · rw [if_neg (by rw [usub_ge (by omega) (by omega)]; omega), if_neg (by rw [usub_lt (by omega) (by omega)]; omega),
        if_neg (by omega), ← hxe]

theorem scanAll_ok {l : List Quad} (h : CodeOf l cross edge) (hsmall : edge.length < 2 ^ 31) :
    ∀ (m : List Quad) (cr : Nat) (buf : List Edge), l.drop cr = m → Fits edge (fun c _ => c < cr) buf →
    ∃ buf', scanAll cr m buf = .ok (cross.drop cr, buf') ∧ buf'.length = buf.length ∧
      Fits edge (fun c _ => c < cr + m.length) buf' := by
  intro m
  induction m with
  | nil =>
    intro cr buf hm hF
    have hle : l.length ≤ cr := by
      have := congrArg List.length hm
      simp at this
      omega
    refine ⟨buf, ?_, rfl, hF⟩
    rw [scanAll, List.drop_eq_nil_of_le (by rw [← h.len]; exact hle)]
  | cons q m ih =>
    intro cr buf hm hF
    have hq : l[cr]? = some q := by
      have := congrArg (fun z => z[0]?) hm
      simpa using this
    obtain ⟨x, b1, hx, s1, n1, f1⟩ := scanCross_ok h hsmall hq hF
    have hm' : l.drop (cr + 1) = m := by
      rw [← List.drop_drop, hm]
      rfl
    obtain ⟨b2, s2, n2, f2⟩ := ih (cr + 1) b1 hm' f1
    obtain ⟨hlt, rfl⟩ := List.getElem?_eq_some_iff.mp hx
    refine ⟨b2, ?_, by omega, ?_⟩
    · rw [scanAll, s1, ok_bind]
      simp only
      rw [s2, ok_bind]
      simp only
      rw [← List.drop_eq_getElem_cons hlt]
    · intro e r hr
      obtain ⟨b, g1, g2, g3⟩ := f2 e r hr
      refine ⟨b, g1, ?_, ?_⟩ <;> simp only [List.length_cons] <;> intro hc
      · exact g2 (by omega)
      · exact g3 (by omega)

/-- The scan recovers the edge records. -/
theorem scan_ok {l : List Quad} (h : CodeOf l cross edge) (hsmall : edge.length < 2 ^ 31) {buf : List Edge}
    (hb : edge.length ≤ buf.length) :
    ∃ buf', scanAll 0 l buf = .ok (cross, buf') ∧ buf'.take edge.length = edge ∧ edge.length ≤ buf'.length := by
  obtain ⟨buf', h1, h2, h3⟩ := scanAll_ok h hsmall l 0 buf rfl (by
    intro e r hr
    have := (List.getElem?_eq_some_iff.mp hr).1
    exact ⟨_, List.getElem?_eq_getElem (by omega), fun hc => by omega, fun hc => by omega⟩)
  refine ⟨buf', h1, ?_, by omega⟩
  apply List.ext_getElem?
  intro e
  by_cases he : e < edge.length
  · have hr := List.getElem?_eq_getElem he
    obtain ⟨b, g1, g2, g3⟩ := h3 e _ hr
    rw [List.getElem?_take_of_lt he, g1, hr]
    have a := slot_lt (h.plane.consistent.head e _ hr)
    have c := slot_lt (h.plane.consistent.tail e _ hr)
    have := h.len
    obtain ⟨p1, p2⟩ := g2 (by omega)
    obtain ⟨p3, p4⟩ := g3 (by omega)
    obtain ⟨_, _, _, _⟩ := b
    simp only at p1 p2 p3 p4
    rw [p1, p2, p3, p4]
  · rw [List.getElem?_eq_none (by simp; omega), List.getElem?_eq_none (by omega)]

/-- Two crossings do not have the same two opposite edges. -/
theorem no_common {l : List Quad} (h : CodeOf l cross edge) {a b p q : Nat} {x y : Cross} (hab : a ≠ b)
    (hx : cross[a]? = some x) (hy : cross[b]? = some y) (hp : p < 4) (hq : q < 4) (h1 : y.at p = x.at q)
    (h2 : y.at (p + 2) = x.at (q + 2)) : False := by
  have hC := h.plane.consistent
  have hO := h.plane.oriented
  have ha := (List.getElem?_eq_some_iff.mp hx).1
  have hb := (List.getElem?_eq_some_iff.mp hy).1
  have back : ∀ (z : Cross) (k : Nat), z.at ((k + 2) % 4 + 2) = z.at k := by
    intro z k
    rw [← Cross.at_mod z ((k + 2) % 4 + 2), ← Cross.at_mod z k]
    congr 1
    omega
  have two : ∀ {c k : Nat} {z : Cross}, cross[c]? = some z → c < cross.length → k < 4 →
      (∃ r, edge[z.at k]? = some r ∧ r.head = c) ∧ Follows cross edge (z.at k) (z.at (k + 2)) ∨
      (∃ r, edge[z.at (k + 2)]? = some r ∧ r.head = c) ∧ Follows cross edge (z.at (k + 2)) (z.at k) := by
    intro c k z hz hc hk
    rcases in_or_out hC hc hk with hi | ho
    · left
      obtain ⟨r, g1, g2, _⟩ := comesIn_at hz hk hi
      exact ⟨⟨r, g1, g2⟩, follows_at hz hk hi⟩
    · right
      have hi := out_opp hC hO ho
      have hk' : (k + 2) % 4 < 4 := Nat.mod_lt _ (by decide)
      obtain ⟨r, g1, g2, _⟩ := comesIn_at hz hk' hi
      have hf := follows_at hz hk' hi
      rw [back, Cross.at_mod] at hf
      rw [Cross.at_mod] at g1
      exact ⟨⟨r, g1, g2⟩, hf⟩
  rcases two hx ha hq with ⟨⟨r, r1, r2⟩, hf⟩ | ⟨⟨r, r1, r2⟩, hf⟩ <;>
    rcases two hy hb hp with ⟨⟨s, s1, s2⟩, hg⟩ | ⟨⟨s, s1, s2⟩, hg⟩
  · rw [h1, r1] at s1
    cases s1
    exact hab (r2.symm.trans s2)
  · rw [h1, h2] at hg
    have := h.order _ _ hf
    have := h.order _ _ hg
    omega
  · rw [h1, h2] at hg
    have := h.order _ _ hf
    have := h.order _ _ hg
    omega
  · rw [h2, r1] at s1
    cases s1
    exact hab (r2.symm.trans s2)

theorem rules_opp : ∀ r ∈ rules, ∃ p, p < 4 ∧ ∃ q, q < 4 ∧ (p, q) ∈ r.same ∧ ((p + 2) % 4, (q + 2) % 4) ∈ r.same := by
  intro r hr
  simp only [rules, List.mem_cons, List.not_mem_nil, or_false] at hr
  rcases hr with rfl | rfl | rfl | rfl | rfl | rfl | rfl | rfl | rfl | rfl | rfl | rfl
  · exact ⟨2, by decide, 0, by decide, by decide, by decide⟩
  · exact ⟨2, by decide, 0, by decide, by decide, by decide⟩
  · exact ⟨3, by decide, 1, by decide, by decide, by decide⟩
  · exact ⟨3, by decide, 1, by decide, by decide, by decide⟩
  · exact ⟨2, by decide, 3, by decide, by decide, by decide⟩
  · exact ⟨2, by decide, 1, by decide, by decide, by decide⟩
  · exact ⟨3, by decide, 2, by decide, by decide, by decide⟩
  · exact ⟨0, by decide, 3, by decide, by decide, by decide⟩
  · exact ⟨3, by decide, 0, by decide, by decide, by decide⟩
  · exact ⟨1, by decide, 0, by decide, by decide, by decide⟩
  · exact ⟨1, by decide, 0, by decide, by decide, by decide⟩
  · exact ⟨3, by decide, 0, by decide, by decide, by decide⟩

theorem applyRules_id {l : List Quad} (h : CodeOf l cross edge) (n : Nat) (buf : List Edge) {a b : Nat} (hab : a ≠ b)
    (ha : a < cross.length) (hb : b < cross.length) : ∀ (m : List Rule), (∀ r ∈ m, r ∈ rules) →
    applyRules n a b m (cross, buf) = .ok (cross, buf) := by
  intro m
  induction m with
  | nil => intro _; rfl
  | cons r m ih =>
    intro hm
    have hno : applyRule n a b (cross, buf) r = .ok (cross, buf) := by
      unfold applyRule
      rw [rd_lt ha, ok_bind, rd_lt hb, ok_bind, if_neg]
      intro hall
      rw [List.all_eq_true] at hall
      obtain ⟨p, hp, q, hq, m1, m2⟩ := rules_opp r (hm r List.mem_cons_self)
      have e1 := of_decide_eq_true (hall _ m1)
      have e2 := of_decide_eq_true (hall _ m2)
      simp only [Cross.at_mod] at e1 e2
      exact no_common h hab (List.getElem?_eq_getElem ha) (List.getElem?_eq_getElem hb) hp hq e1 e2
    rw [applyRules, hno, ok_bind]
    exact ih fun r hr => hm r (List.mem_cons_of_mem _ hr)

theorem pairs_lt {n : Nat} {p : Nat × Nat} (hp : p ∈ pairs n) : p.1 < n ∧ p.2 < n ∧ p.1 ≠ p.2 := by
  unfold pairs at hp
  simp only [List.mem_flatMap, List.mem_range, List.mem_map, List.mem_range'_1] at hp
  obtain ⟨a, ha, b, hb, rfl⟩ := hp
  simp only
  omega

theorem pairLoop_id {l : List Quad} (h : CodeOf l cross edge) (n : Nat) (buf : List Edge) : ∀ (m : List (Nat × Nat)),
    (∀ p ∈ m, p ∈ pairs cross.length) → pairLoop n m (cross, buf) = .ok (cross, buf) := by
  intro m
  induction m with
  | nil => intro _; rfl
  | cons p m ih =>
    intro hm
    obtain ⟨h1, h2, h3⟩ := pairs_lt (hm p List.mem_cons_self)
    rw [pairLoop, applyRules_id h n buf h3 h1 h2 rules (fun _ hr => hr), ok_bind]
    exact ih fun r hr => hm r (List.mem_cons_of_mem _ hr)

end

/-! ## Text -/

/-- The numbers fit in an `int`. -/
def SmallQuad (q : Quad) : Prop := q.a < 2 ^ 31 ∧ q.b < 2 ^ 31 ∧ q.c < 2 ^ 31 ∧ q.d < 2 ^ 31

theorem scanf_quad {q : Quad} (hq : SmallQuad q) (r : List Char) :
    scanf fX (writeQuad q ++ r) = ([.num q.a, .num q.b, .num q.c, .num q.d], r) := by
  obtain ⟨h1, h2, h3, h4⟩ := hq
  have hw : writeQuad q ++ r = 'X' :: '[' :: (dec q.a ++ ',' :: (dec q.b ++ ',' :: (dec q.c ++ ',' ::
      (dec q.d ++ ']' :: r)))) := by
    simp only [writeQuad, List.append_assoc]
    rfl
  rw [hw, fX, scanf_lit, scanf_lit, scanf_ws, skip_dec, scanf_lu _ (small_le (by omega)) (noDig_cons (by decide)), scanf_lit,
    scanf_ws, skip_dec, scanf_lu _ (small_le (by omega)) (noDig_cons (by decide)), scanf_lit, scanf_ws, skip_dec,
    scanf_lu _ (small_le (by omega)) (noDig_cons (by decide)), scanf_lit, scanf_ws, skip_dec,
    scanf_lu _ (small_le (by omega)) (noDig_cons (by decide)), scanf_ws, skip_cons _ (by decide), scanf_lit, scanf_nil]

theorem readQuad_ok {pre : List Dir} {inp : List Char} {q : Quad} (hq : SmallQuad q) (r : List Char)
    (hp : scanf (pre ++ fX) inp = scanf fX (writeQuad q ++ r)) :
    readQuad pre inp = .ok (some (q, r)) := by
  unfold readQuad
  rw [hp, scanf_quad hq]
  obtain ⟨h1, h2, h3, h4⟩ := hq
  simp only
  rw [idx_lt (by omega), idx_lt (by omega), idx_lt (by omega), idx_lt (by omega)]

theorem skip_quad (q : Quad) (r : List Char) : skip (writeQuad q ++ r) = writeQuad q ++ r := by
  have hw : writeQuad q ++ r = 'X' :: ('[' :: (dec q.a ++ ',' :: (dec q.b ++ ',' :: (dec q.c ++ ',' ::
      (dec q.d ++ ']' :: r))))) := by
    simp only [writeQuad, List.append_assoc]
    rfl
  rw [hw, skip_cons _ (by decide)]

/-- The crossings after the first, each with a comma before it. -/
def more (l : List Quad) : List Char := l.flatMap fun q => ',' :: writeQuad q

theorem readQuads_ok : ∀ (l : List Quad) (f used : Nat), (∀ q ∈ l, SmallQuad q) → l.length < f → used + l.length ≤ 9990 →
    readQuads f used (more l ++ str "]\n") = .ok (some (l, str "\n")) := by
  intro l
  induction l with
  | nil =>
    intro f used _ hf _
    obtain ⟨f, rfl⟩ : ∃ g, f = g + 1 := ⟨f - 1, by simp at hf; omega⟩
    rfl
  | cons q l ih =>
    intro f used hs hf hu
    simp only [List.length_cons] at hf hu
    obtain ⟨f, rfl⟩ : ∃ g, f = g + 1 := ⟨f - 1, by omega⟩
    have hm : more (q :: l) ++ str "]\n" = ',' :: (writeQuad q ++ (more l ++ str "]\n")) := by
      simp [more]
    rw [hm, readQuads]
    simp only
    have hq : readQuad [.ws] (writeQuad q ++ (more l ++ str "]\n")) = .ok (some (q, more l ++ str "]\n")) := by
      apply readQuad_ok (hs q List.mem_cons_self)
      rw [List.cons_append, List.nil_append, scanf_ws, skip_quad]
    rw [bind_step hq, if_neg (by omega), bind_step (ih f (used + 1) (fun q hq => hs q (List.mem_cons_of_mem _ hq)) (by omega) (by omega))]
    rfl

/-- The text for a list of crossings. -/
def text : List Quad → List Char
  | [] => str "PD[]\n"
  | q :: l => str "PD[" ++ writeQuad q ++ more l ++ str "]\n"

theorem writeQuads_ok {cross : List Cross} {edge : List Edge} : ∀ (l : List Quad) (c : Nat),
    (∀ (i : Nat) (q : Quad), l[i]? = some q → quadOf cross edge (c + i) = .ok q) →
    writeQuads cross edge l.length c = .ok (match l with | [] => [] | q :: m => writeQuad q ++ more m) := by
  intro l
  induction l with
  | nil => intro c _; rfl
  | cons q l ih =>
    intro c h
    rw [List.length_cons, writeQuads, show quadOf cross edge c = .ok q from h 0 q rfl, ok_bind, ih (c + 1) (by
      intro i q hq
      have := h (i + 1) q (by simpa using hq)
      rwa [← Nat.add_assoc, Nat.add_right_comm] at this), ok_bind]
    cases l with
    | nil => simp [more]
    | cons p m =>
      simp only [more, List.length_cons, Nat.add_one_ne_zero, if_false, List.flatMap_cons, List.cons_append, List.append_assoc]
      rfl

theorem writeKT_ok {cross : List Cross} {edge : List Edge} {l : List Quad} (hl : l.length = cross.length)
    (h : ∀ (c : Nat) (q : Quad), l[c]? = some q → quadOf cross edge c = .ok q) : writeKT cross edge = .ok (text l) := by
  unfold writeKT
  rw [← hl, writeQuads_ok l 0 (by intro i q hq; rw [Nat.zero_add]; exact h i q hq), ok_bind]
  cases l with
  | nil => rfl
  | cons q l => simp only [text, List.append_assoc]

theorem more_length (l : List Quad) : l.length ≤ (more l).length := by
  induction l with
  | nil => simp
  | cons q l ih =>
    have : more (q :: l) = ',' :: (writeQuad q ++ more l) := by simp [more]
    rw [this]
    simp only [List.length_cons, List.length_append]
    omega

theorem readKT_text (qs : QSort) (ok : Whole → Bool) {l : List Quad} (h0 : l ≠ []) (hs : ∀ q ∈ l, SmallQuad q)
    (hn : l.length ≤ 9990) : readKT qs ok (text l) = readCode qs ok l := by
  cases l with
  | nil => exact absurd rfl h0
  | cons q l =>
    have ht : text (q :: l) = 'P' :: 'D' :: '[' :: (writeQuad q ++ (more l ++ str "]\n")) := by
      simp only [text, List.append_assoc]
      rfl
    have hq : readQuad [.ws, .lit 'P', .lit 'D', .ws, .lit '[', .ws] (text (q :: l)) =
        .ok (some (q, more l ++ str "]\n")) := by
      apply readQuad_ok (hs q List.mem_cons_self)
      rw [ht]
      simp only [List.cons_append, List.nil_append]
      rw [scanf_ws, skip_cons _ (by decide), scanf_lit, scanf_lit, scanf_ws, skip_cons _ (by decide), scanf_lit, scanf_ws, skip_quad]
    unfold readKT
    rw [bind_step hq]
    rw [bind_step (readQuads_ok l _ 1 (fun q hq => hs q (List.mem_cons_of_mem _ hq)) (by
      rw [ht]
      have := more_length l
      simp only [List.length_cons, List.length_append]
      omega) (by simp only [List.length_cons] at hn; omega))]
    rfl

end Plc.KT
