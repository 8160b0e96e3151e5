import Verif.Model.Ewing
import Verif.Proofs.Io
import Verif.Props.Strands
import Verif.Proofs.Std
import Verif.Spec.Examples

/-! # C42: crossing codes of Ewing and Millett -/

namespace Plc

open Plc.Strands Plc.Ewing Plc.Io

/-- The overstrand leaves crossing `c` at place `o`: both strands leave at `o` and at the place a quarter
turn counterclockwise (positive crossing) or clockwise (negative crossing) from there, seen from the
overstrand. -/
def OverLeaves (cross : List Cross) (edge : List Edge) (c o : Nat) : Prop :=
  o < 4 ∧ GoesOut cross edge c o ∧ ∃ x, cross[c]? = some x ∧ GoesOut cross edge c ((o + if x.sign = .neg then 3 else 1) % 4)

/-- The edge at place `k` of `c` has its other end at place `k'` of `c'`. -/
def OtherEnd (edge : List Edge) (c k c' k' : Nat) : Prop :=
  ∃ r ∈ edge, (r.head = c ∧ r.headpos = k ∧ r.tail = c' ∧ r.tailpos = k') ∨
    (r.tail = c ∧ r.tailpos = k ∧ r.head = c' ∧ r.headpos = k')

/-- The positions a, b, c, d. -/
def letter : Nat → Char
  | 0 => 'a'
  | 1 => 'b'
  | 2 => 'c'
  | _ => 'd'

namespace Ewing

variable {cross : List Cross} {edge : List Edge}

/-- Where the overstrand leaves. -/
def oo (cross : List Cross) (edge : List Edge) (c : Nat) : Nat :=
  match overUnder cross edge c with
  | .ok u => u.overOut
  | .error _ => 0

theorem ou (hC : Consistent cross edge) (hO : Oriented cross edge) {c : Nat} {x : Cross} (hx : cross[c]? = some x)
    (hs : x.sign ≠ .unset) : ∃ u, overUnder cross edge c = .ok u ∧ oo cross edge c < 4 ∧ u.overOut = oo cross edge c ∧
      u.overIn = (oo cross edge c + 2) % 4 ∧
      u.underOut = (oo cross edge c + if x.sign = .pos then 1 else 3) % 4 ∧
      u.underIn = (oo cross edge c + if x.sign = .pos then 3 else 1) % 4 ∧
      GoesOut cross edge c (oo cross edge c) ∧ ComesIn cross edge c u.overIn ∧
      GoesOut cross edge c u.underOut ∧ ComesIn cross edge c u.underIn := by
  obtain ⟨u, u1, u2, u3, u4, u5, u6, u7, u8, u9, u10⟩ := C26_overunder cross edge hC hO c x hx
  have : oo cross edge c = u.overOut := by rw [oo, u1]
  rw [this]
  refine ⟨u, u1, by omega, rfl, by omega, ?_, ?_, u7, u6, u9, u8⟩
  · cases hsg : x.sign with
    | unset => exact absurd hsg hs
    | pos => rw [hsg] at u10; simpa using u10
    | neg => rw [hsg] at u10; simpa using u10
  · cases hsg : x.sign with
    | unset => exact absurd hsg hs
    | pos => rw [hsg] at u10; simp only [reduceCtorEq, if_false] at u10; simp only [if_true]; omega
    | neg => rw [hsg] at u10; simp only [if_true] at u10; simp only [reduceCtorEq, if_false]; omega

theorem at_in {c k : Nat} {x : Cross} (hx : cross[c]? = some x) (hk : k < 4) (h : ComesIn cross edge c k) :
    ∃ r, edge[x.at k]? = some r ∧ r.head = c ∧ r.headpos = k := by
  obtain ⟨e, r, a1, a2, a3⟩ := h
  obtain ⟨hlt, rfl⟩ := List.getElem?_eq_some_iff.mp hx
  rw [slot_of_lt hlt hk] at a1
  cases a1
  exact ⟨r, a2, a3⟩

theorem at_out {c k : Nat} {x : Cross} (hx : cross[c]? = some x) (hk : k < 4) (h : GoesOut cross edge c k) :
    ∃ r, edge[x.at k]? = some r ∧ r.tail = c ∧ r.tailpos = k := by
  obtain ⟨e, r, a1, a2, a3⟩ := h
  obtain ⟨hlt, rfl⟩ := List.getElem?_eq_some_iff.mp hx
  rw [slot_of_lt hlt hk] at a1
  cases a1
  exact ⟨r, a2, a3⟩

theorem rdPos_ok {x : Cross} {k : Nat} (h : k < 4) : x.rdPos k = .ok (x.at k) := by
  unfold Cross.rdPos
  rw [if_pos h]

theorem head_ok (hC : Consistent cross edge) (hO : Oriented cross edge) (hs : ∀ x ∈ cross, x.sign ≠ .unset) {e : Nat}
    {r : Edge} (hr : edge[e]? = some r) :
    ∃ y, y < 4 ∧ headLetter cross edge e = .ok (letter y) ∧ r.headpos = (oo cross edge r.head + 4 - y) % 4 := by
  have hsl := hC.head e r hr
  obtain ⟨hlt, hk4⟩ := slot_lt hsl
  have hx := List.getElem?_eq_getElem hlt
  have hse := slot_of_lt hlt hk4
  rw [hsl] at hse
  have hat := Option.some.inj hse
  obtain ⟨u, u1, u2, u3, u4, u5, u6, u7, u8, u9, u10⟩ := ou hC hO hx (hs _ (List.getElem_mem hlt))
  have ho4 : u.overIn < 4 := by omega
  have hu4 : u.underIn < 4 := by omega
  obtain ⟨r1, a1, a2, a3⟩ := at_in hx ho4 u8
  obtain ⟨r2, b1, b2, b3⟩ := at_in hx hu4 u10
  have run : headLetter cross edge e =
      (if cross[r.head].at u.overIn = e then .ok 'c'
      else if cross[r.head].at u.underIn = e then .ok (if cross[r.head].sign = .pos then 'b' else 'd')
      else .error .die) := by
    unfold headLetter overstrandPos understrandPos
    rw [rd_ok hr, ok_bind, u1, ok_bind, ok_bind]
    simp only
    rw [ok_bind, ok_bind]
    simp only
    rw [rd_lt hlt, ok_bind, rdPos_ok ho4, ok_bind, rdPos_ok hu4, ok_bind]
  by_cases h1 : cross[r.head].at u.overIn = e
  · rw [h1, hr] at a1
    cases a1
    refine ⟨2, by decide, ?_, by omega⟩
    rw [run, if_pos h1]
    rfl
  · by_cases h2 : cross[r.head].at u.underIn = e
    · rw [h2, hr] at b1
      cases b1
      cases hsg : cross[r.head].sign with
      | unset => exact absurd hsg (hs _ (List.getElem_mem hlt))
      | pos =>
        rw [hsg] at u6
        simp only [if_true] at u6
        refine ⟨1, by decide, ?_, by omega⟩
        rw [run, if_neg h1, if_pos h2, hsg]
        rfl
      | neg =>
        rw [hsg] at u6
        simp only [reduceCtorEq, if_false] at u6
        refine ⟨3, by decide, ?_, by omega⟩
        rw [run, if_neg h1, if_pos h2, hsg]
        rfl
    · exfalso
      -- the head is at one of the two places where edges come in
      have hin : ComesIn cross edge r.head r.headpos := ⟨e, r, hsl, hr, rfl, rfl⟩
      have hk : r.headpos = oo cross edge r.head ∨ r.headpos = u.overIn ∨ r.headpos = u.underOut ∨ r.headpos = u.underIn := by
        cases hsg : cross[r.head].sign with
        | unset => exact absurd hsg (hs _ (List.getElem_mem hlt))
        | pos =>
          rw [hsg] at u6 u5
          simp only [if_true] at u6 u5
          omega
        | neg =>
          rw [hsg] at u6 u5
          simp only [reduceCtorEq, if_false] at u6 u5
          omega
      rcases hk with hk | hk | hk | hk
      · rw [hk] at hin; exact not_both hC hin u7
      · rw [hk] at hat; exact h1 hat.symm
      · rw [hk] at hin; exact not_both hC hin u9
      · rw [hk] at hat; exact h2 hat.symm

theorem tail_ok (hC : Consistent cross edge) (hO : Oriented cross edge) (hs : ∀ x ∈ cross, x.sign ≠ .unset) {e : Nat}
    {r : Edge} (hr : edge[e]? = some r) :
    ∃ y, y < 4 ∧ tailLetter cross edge e = .ok (letter y) ∧ r.tailpos = (oo cross edge r.tail + 4 - y) % 4 := by
  have hsl := hC.tail e r hr
  obtain ⟨hlt, hk4⟩ := slot_lt hsl
  have hx := List.getElem?_eq_getElem hlt
  have hse := slot_of_lt hlt hk4
  rw [hsl] at hse
  have hat := Option.some.inj hse
  obtain ⟨u, u1, u2, u3, u4, u5, u6, u7, u8, u9, u10⟩ := ou hC hO hx (hs _ (List.getElem_mem hlt))
  have ho4 : u.overOut < 4 := by omega
  have hu4 : u.underOut < 4 := by omega
  rw [← u3] at u7
  obtain ⟨r1, a1, a2, a3⟩ := at_out hx ho4 u7
  obtain ⟨r2, b1, b2, b3⟩ := at_out hx hu4 u9
  have run : tailLetter cross edge e =
      (if cross[r.tail].at u.overOut = e then .ok 'a'
      else if cross[r.tail].at u.underOut = e then .ok (if cross[r.tail].sign = .pos then 'd' else 'b')
      else .error .die) := by
    unfold tailLetter overstrandPos understrandPos
    rw [rd_ok hr, ok_bind, u1, ok_bind, ok_bind]
    simp only
    rw [ok_bind, ok_bind]
    simp only
    rw [rd_lt hlt, ok_bind, rdPos_ok ho4, ok_bind, rdPos_ok hu4, ok_bind]
  by_cases h1 : cross[r.tail].at u.overOut = e
  · rw [h1, hr] at a1
    cases a1
    refine ⟨0, by decide, ?_, by omega⟩
    rw [run, if_pos h1]
    rfl
  · by_cases h2 : cross[r.tail].at u.underOut = e
    · rw [h2, hr] at b1
      cases b1
      cases hsg : cross[r.tail].sign with
      | unset => exact absurd hsg (hs _ (List.getElem_mem hlt))
      | pos =>
        rw [hsg] at u5
        simp only [if_true] at u5
        refine ⟨3, by decide, ?_, by omega⟩
        rw [run, if_neg h1, if_pos h2, hsg]
        rfl
      | neg =>
        rw [hsg] at u5
        simp only [reduceCtorEq, if_false] at u5
        refine ⟨1, by decide, ?_, by omega⟩
        rw [run, if_neg h1, if_pos h2, hsg]
        rfl
    · exfalso
      have hin : GoesOut cross edge r.tail r.tailpos := ⟨e, r, hsl, hr, rfl, rfl⟩
      have hk : r.tailpos = u.overOut ∨ r.tailpos = u.overIn ∨ r.tailpos = u.underOut ∨ r.tailpos = u.underIn := by
        cases hsg : cross[r.tail].sign with
        | unset => exact absurd hsg (hs _ (List.getElem_mem hlt))
        | pos =>
          rw [hsg] at u6 u5
          simp only [if_true] at u6 u5
          omega
        | neg =>
          rw [hsg] at u6 u5
          simp only [reduceCtorEq, if_false] at u6 u5
          omega
      rcases hk with hk | hk | hk | hk
      · rw [hk] at hat; exact h1 hat.symm
      · rw [hk] at hin; exact not_both hC u8 hin
      · rw [hk] at hat; exact h2 hat.symm
      · rw [hk] at hin; exact not_both hC u10 hin

/-- The entry for an edge that goes out at a place. -/
theorem leadsTo_ok (hC : Consistent cross edge) (hO : Oriented cross edge) (hs : ∀ x ∈ cross, x.sign ≠ .unset) {c k : Nat}
    {x : Cross} (hx : cross[c]? = some x) (hk : k < 4) (h : GoesOut cross edge c k) :
    ∃ j y, j < cross.length ∧ y < 4 ∧ leadsTo cross edge (x.at k) = .ok (j + 1, letter y) ∧
      OtherEnd edge c k j ((oo cross edge j + 4 - y) % 4) := by
  obtain ⟨r, h1, h2, h3⟩ := at_out hx hk h
  obtain ⟨y, y1, y2, y3⟩ := head_ok hC hO hs h1
  obtain ⟨z, z1, z2, z3⟩ := tail_ok hC hO hs h1
  refine ⟨r.head, y, (slot_lt (hC.head _ r h1)).1, y1, ?_, r, List.mem_of_getElem? h1, Or.inr ⟨h2, h3, rfl, y3⟩⟩
  unfold leadsTo positions
  rw [rd_ok h1, ok_bind, assertC_ok (by simpa using (List.getElem?_eq_some_iff.mp h1).1), ok_bind, y2, ok_bind, z2, ok_bind, ok_bind]

theorem comesFrom_ok (hC : Consistent cross edge) (hO : Oriented cross edge) (hs : ∀ x ∈ cross, x.sign ≠ .unset) {c k : Nat}
    {x : Cross} (hx : cross[c]? = some x) (hk : k < 4) (h : ComesIn cross edge c k) :
    ∃ j y, j < cross.length ∧ y < 4 ∧ comesFrom cross edge (x.at k) = .ok (j + 1, letter y) ∧
      OtherEnd edge c k j ((oo cross edge j + 4 - y) % 4) := by
  obtain ⟨r, h1, h2, h3⟩ := at_in hx hk h
  obtain ⟨y, y1, y2, y3⟩ := head_ok hC hO hs h1
  obtain ⟨z, z1, z2, z3⟩ := tail_ok hC hO hs h1
  refine ⟨r.tail, z, (slot_lt (hC.tail _ r h1)).1, z1, ?_, r, List.mem_of_getElem? h1, Or.inl ⟨h2, h3, rfl, z3⟩⟩
  unfold comesFrom positions
  rw [rd_ok h1, ok_bind, assertC_ok (by simpa using (List.getElem?_eq_some_iff.mp h1).1), ok_bind, y2, ok_bind, z2, ok_bind, ok_bind]

/-- The four entries of a crossing. -/
def Right (cross : List Cross) (edge : List Edge) (o : Nat → Nat) (c : Nat) (l : List (Nat × Char)) : Prop :=
  l.length = 4 ∧ ∀ x, x < 4 → ∃ j y, j < cross.length ∧ y < 4 ∧ l[x]? = some (j + 1, letter y) ∧
    OtherEnd edge c ((o c + 4 - x) % 4) j ((o j + 4 - y) % 4)

theorem entries_ok (hC : Consistent cross edge) (hO : Oriented cross edge) (hs : ∀ x ∈ cross, x.sign ≠ .unset) {c : Nat}
    (hc : c < cross.length) : ∃ l, entries cross edge c = .ok l ∧ Right cross edge (oo cross edge) c l := by
  have hx := List.getElem?_eq_getElem hc
  obtain ⟨u, u1, u2, u3, u4, u5, u6, u7, u8, u9, u10⟩ := ou hC hO hx (hs _ (List.getElem_mem hc))
  have h1 : u.overIn < 4 := by omega
  have h2 : u.overOut < 4 := by omega
  have h3 : u.underIn < 4 := by omega
  have h4 : u.underOut < 4 := by omega
  rw [← u3] at u7
  obtain ⟨ja, ya, a1, a2, a3, a4⟩ := leadsTo_ok hC hO hs hx h2 u7
  obtain ⟨jc, yc, c1, c2, c3, c4⟩ := comesFrom_ok hC hO hs hx h1 u8
  obtain ⟨ji, yi, i1, i2, i3, i4⟩ := comesFrom_ok hC hO hs hx h3 u10
  obtain ⟨jo, yo, o1, o2, o3, o4⟩ := leadsTo_ok hC hO hs hx h4 u9
  have hov : overstrand cross edge c = .ok (cross[c].at u.overIn, cross[c].at u.overOut) := by
    unfold overstrand overstrandPos
    rw [u1, ok_bind, ok_bind]
    simp only
    rw [rd_lt hc, ok_bind, rdPos_ok h1, ok_bind, rdPos_ok h2, ok_bind]
  have hun : understrand cross edge c = .ok (cross[c].at u.underIn, cross[c].at u.underOut) := by
    unfold understrand understrandPos
    rw [u1, ok_bind, ok_bind]
    simp only
    rw [rd_lt hc, ok_bind, rdPos_ok h3, ok_bind, rdPos_ok h4, ok_bind]
  have pl : ∀ k x, k < 4 → x < 4 → k = (oo cross edge c + 4 - x) % 4 → ∀ j y,
      OtherEnd edge c k j ((oo cross edge j + 4 - y) % 4) →
      OtherEnd edge c ((oo cross edge c + 4 - x) % 4) j ((oo cross edge j + 4 - y) % 4) := by
    intro k x _ _ h j y ho
    rwa [← h]
  unfold entries
  rw [rd_lt hc, ok_bind, hov, ok_bind]
  simp only
  rw [a3, ok_bind, c3, ok_bind, hun]
  cases hsg : cross[c].sign with
  | unset => exact absurd hsg (hs _ (List.getElem_mem hc))
  | pos =>
    rw [hsg] at u6 u5
    simp only [if_true] at u6 u5
    rw [if_pos rfl, ok_bind]
    simp only
    rw [i3, ok_bind, o3, ok_bind]
    refine ⟨_, rfl, rfl, ?_⟩
    intro x hx4
    match x, hx4 with
    | 0, _ => exact ⟨ja, ya, a1, a2, rfl, pl _ 0 h2 (by decide) (by omega) _ _ a4⟩
    | 1, _ => exact ⟨ji, yi, i1, i2, rfl, pl _ 1 h3 (by decide) (by omega) _ _ i4⟩
    | 2, _ => exact ⟨jc, yc, c1, c2, rfl, pl _ 2 h1 (by decide) (by omega) _ _ c4⟩
    | 3, _ => exact ⟨jo, yo, o1, o2, rfl, pl _ 3 h4 (by decide) (by omega) _ _ o4⟩
  | neg =>
    rw [hsg] at u6 u5
    simp only [reduceCtorEq, if_false] at u6 u5
    rw [if_neg (by decide), ok_bind]
    simp only
    rw [o3, ok_bind, i3, ok_bind]
    refine ⟨_, rfl, rfl, ?_⟩
    intro x hx4
    match x, hx4 with
    | 0, _ => exact ⟨ja, ya, a1, a2, rfl, pl _ 0 h2 (by decide) (by omega) _ _ a4⟩
    | 1, _ => exact ⟨jo, yo, o1, o2, rfl, pl _ 1 h4 (by decide) (by omega) _ _ o4⟩
    | 2, _ => exact ⟨jc, yc, c1, c2, rfl, pl _ 2 h1 (by decide) (by omega) _ _ c4⟩
    | 3, _ => exact ⟨ji, yi, i1, i2, rfl, pl _ 3 h3 (by decide) (by omega) _ _ i4⟩

/-! ## The text -/

theorem digitsF_length : ∀ (d f n : Nat) (acc : List Char), n < 10 ^ (d + 1) →
    (digitsF f n acc).length ≤ acc.length + d + 1 := by
  intro d
  induction d with
  | zero =>
    intro f n acc hn
    cases f with
    | zero => simp [digitsF] <;> omega
    | succ f =>
      rw [digitsF, if_pos (by omega)]
      simp
  | succ d ih =>
    intro f n acc hn
    cases f with
    | zero => simp [digitsF] <;> omega
    | succ f =>
      rw [digitsF]
      split
      · simp <;> omega
      · have := ih f (n / 10) (Char.ofNat (48 + n % 10) :: acc) (by
          rw [Nat.pow_succ] at hn
          omega)
        simp only [List.length_cons] at this
        omega

theorem dec_length {n : Nat} (h : n < 10 ^ 10) : (dec n).length ≤ 10 := by
  have := digitsF_length 9 (n + 1) n [] h
  simpa [dec] using this

theorem line_length {c : Nat} {s : Or} {l : List (Nat × Char)} (hc : c + 1 < 10 ^ 10) (hl : l.length = 4)
    (h : ∀ p ∈ l, p.1 < 10 ^ 10) : (line c s l).length ≤ 56 := by
  match l, hl with
  | [p, q, r, t], _ =>
    have h0 := dec_length hc
    have h1 := dec_length (h p (by simp))
    have h2 := dec_length (h q (by simp))
    have h3 := dec_length (h r (by simp))
    have h4 := dec_length (h t (by simp))
    have : (str "\n").length = 1 := rfl
    simp only [line, List.flatMap_cons, List.flatMap_nil, List.length_append, List.length_cons, List.length_nil, this]
    omega

/-- The lines of the code. -/
def allLines (cross : List Cross) (code : List (List (Nat × Char))) : List Char :=
  (cross.zip code).zipIdx.flatMap fun p => line p.2 p.1.1.sign p.1.2

theorem lines_ok {code : List (List (Nat × Char))} (hn : cross.length < 2 ^ 31) (hl : code.length = cross.length)
    (he : ∀ (c : Nat) (l : List (Nat × Char)), code[c]? = some l → entries cross edge c = .ok l ∧ l.length = 4 ∧
      ∀ p ∈ l, p.1 ≤ cross.length) : ∀ (k c used : Nat), c + k = cross.length → used ≤ 56 * c →
    ∃ t, lines cross edge k c used = .ok t ∧ t = (((cross.zip code).drop c).zipIdx c).flatMap (fun p => line p.2 p.1.1.sign p.1.2) ∧
      t.length ≤ 56 * k := by
  intro k
  induction k with
  | zero =>
    intro c used hc hu
    refine ⟨[], rfl, ?_, by simp⟩
    rw [List.drop_eq_nil_of_le (by simp; omega)]
    rfl
  | succ k ih =>
    intro c used hc hu
    have hlt : c < cross.length := by omega
    have hlt' : c < code.length := by omega
    obtain ⟨e1, e2, e3⟩ := he c _ (List.getElem?_eq_getElem hlt')
    have hp : (2 : Nat) ^ 31 < 10 ^ 10 := by decide
    have hlen := line_length (c := c) (s := cross[c].sign) (by omega) e2 (fun p hp => by have := e3 p hp; omega)
    obtain ⟨t, t1, t2, t3⟩ := ih (c + 1) (used + (line c cross[c].sign code[c]).length) (by omega) (by omega)
    refine ⟨line c cross[c].sign code[c] ++ t, ?_, ?_, ?_⟩
    · rw [lines, rd_lt hlt, ok_bind, e1, ok_bind]
      simp only
      rw [if_neg (by omega), t1, ok_bind]
    · have hz : c < (cross.zip code).length := by simp; omega
      rw [List.drop_eq_getElem_cons hz, List.zipIdx_cons, List.flatMap_cons, ← t2]
      simp
    · simp only [List.length_append]
      omega

end Ewing

/-- **C42.** For every consistent, oriented, signed diagram with at least one crossing, the code written is
made from entries with these two properties. First, position `x` of crossing `i` is the place `x` quarter turns
clockwise from where the overstrand leaves, and its entry names the other end of the edge there. Second, the
code is reciprocal: if position `x` of crossing `i` leads to position `y` of `j`, then position `y` of `j`
leads to position `x` of `i`. -/
theorem C42_reciprocal (cross : List Cross) (edge : List Edge) (hC : Consistent cross edge) (hO : Oriented cross edge)
    (hs : ∀ x ∈ cross, x.sign ≠ .unset) (h0 : cross ≠ []) (hn : cross.length < 2 ^ 31) :
    ∃ (code : List (List (Nat × Char))) (o : Nat → Nat),
      toCcode cross edge = .ok (allLines cross code ++ str "\n\n") ∧ code.length = cross.length ∧
      (∀ c, c < cross.length → OverLeaves cross edge c (o c)) ∧
      (∀ (i : Nat) (l : List (Nat × Char)), code[i]? = some l → l.length = 4 ∧ ∀ x, x < 4 →
        ∃ j y, j < cross.length ∧ y < 4 ∧ l[x]? = some (j + 1, letter y) ∧
          OtherEnd edge i ((o i + 4 - x) % 4) j ((o j + 4 - y) % 4) ∧
          ∃ m, code[j]? = some m ∧ m[y]? = some (i + 1, letter x)) := by
  have hex : ∀ c, ∃ l, c < cross.length → entries cross edge c = .ok l ∧ Right cross edge (oo cross edge) c l := by
    intro c
    by_cases hc : c < cross.length
    · obtain ⟨l, hl⟩ := entries_ok hC hO hs hc
      exact ⟨l, fun _ => hl⟩
    · exact ⟨[], fun h => absurd h hc⟩
  choose f hf using hex
  have hget : ∀ (c : Nat) (l : List (Nat × Char)), ((List.range cross.length).map f)[c]? = some l →
      c < cross.length ∧ l = f c := by
    intro c l hl
    simp only [List.getElem?_map, Option.map_eq_some_iff] at hl
    obtain ⟨d, h1, h2⟩ := hl
    rw [List.getElem?_eq_some_iff] at h1
    obtain ⟨h3, h4⟩ := h1
    simp at h3 h4
    subst h4
    exact ⟨h3, h2.symm⟩
  have hl4 : ((List.range cross.length).map f).length = cross.length := by simp
  refine ⟨(List.range cross.length).map f, oo cross edge, ?_, hl4, ?_, ?_⟩
  · obtain ⟨t, t1, t2, t3⟩ := lines_ok (edge := edge) hn hl4 (by
      intro c l hl
      obtain ⟨h1, rfl⟩ := hget c l hl
      obtain ⟨a, b, d⟩ := hf c h1
      refine ⟨a, b, ?_⟩
      intro p hp
      obtain ⟨x, hx, rfl⟩ := List.getElem_of_mem hp
      obtain ⟨j, y, j1, _, j2, _⟩ := d x (by omega)
      rw [List.getElem?_eq_getElem hx] at j2
      rw [Option.some.inj j2]
      simp only
      omega) cross.length 0 0 (by omega) (by omega)
    have hpos : 0 < cross.length := List.length_pos_of_ne_nil h0
    unfold toCcode
    rw [t1, ok_bind, if_pos (by omega), t2]
    rfl
  · intro c hc
    have hx := List.getElem?_eq_getElem hc
    have hsg := hs _ (List.getElem_mem hc)
    obtain ⟨u, u1, u2, u3, u4, u5, u6, u7, u8, u9, u10⟩ := ou hC hO hx hsg
    refine ⟨u2, u7, _, hx, ?_⟩
    cases hg : cross[c].sign with
    | unset => exact absurd hg hsg
    | pos => rw [hg] at u5; simp only [if_true] at u5; simp only [reduceCtorEq, if_false]; rw [← u5]; exact u9
    | neg => rw [hg] at u5; simp only [reduceCtorEq, if_false] at u5; simp only [if_true]; rw [← u5]; exact u9
  · intro i l hl
    obtain ⟨h1, rfl⟩ := hget i l hl
    obtain ⟨_, b, d⟩ := hf i h1
    refine ⟨b, ?_⟩
    intro x hx
    obtain ⟨j, y, j1, y1, e1, e2⟩ := d x hx
    refine ⟨j, y, j1, y1, e1, e2, f j, by simp [j1], ?_⟩
    obtain ⟨_, b', d'⟩ := hf j j1
    obtain ⟨i', x', i1, x1, g1, g2⟩ := d' y y1
    rw [g1]
    -- the other end of the other end
    obtain ⟨c1, c2⟩ : i' = i ∧ (oo cross edge i' + 4 - x') % 4 = (oo cross edge i + 4 - x) % 4 := by
      obtain ⟨r, hr, hr'⟩ := e2
      obtain ⟨s, hsm, hs'⟩ := g2
      obtain ⟨e, he, rfl⟩ := List.getElem_of_mem hr
      obtain ⟨g, hg, rfl⟩ := List.getElem_of_mem hsm
      have q1 := hC.head e _ (List.getElem?_eq_getElem he)
      have q2 := hC.tail e _ (List.getElem?_eq_getElem he)
      have q3 := hC.head g _ (List.getElem?_eq_getElem hg)
      have q4 := hC.tail g _ (List.getElem?_eq_getElem hg)
      have q5 := hC.ends_ne e _ (List.getElem?_eq_getElem he)
      rcases hr' with ⟨a1, a2, a3, a4⟩ | ⟨a1, a2, a3, a4⟩ <;> rcases hs' with ⟨b1, b2, b3, b4⟩ | ⟨b1, b2, b3, b4⟩
      · rw [a3, a4] at q2
        rw [b1, b2, q2] at q3
        obtain rfl := Option.some.inj q3
        exact absurd (by rw [b1, b2, a3, a4]) q5
      · rw [a3, a4] at q2
        rw [b1, b2, q2] at q4
        obtain rfl := Option.some.inj q4
        exact ⟨b3.symm.trans a1, b4.symm.trans a2⟩
      · rw [a3, a4] at q1
        rw [b1, b2, q1] at q3
        obtain rfl := Option.some.inj q3
        exact ⟨b3.symm.trans a1, b4.symm.trans a2⟩
      · rw [a3, a4] at q1
        rw [b1, b2, q1] at q4
        obtain rfl := Option.some.inj q4
        exact absurd (by rw [b1, b2, a3, a4]) q5
    subst c1
    obtain ⟨u, _, u2, _⟩ := ou hC hO (List.getElem?_eq_getElem h1) (hs _ (List.getElem_mem h1))
    have : x' = x := by omega
    rw [this]

/-! ### The string determines the code -/

theorem Ewing.dec_inj {a b : Nat} {r s : List Char} (ha : a ≤ ulongMax) (hb : b ≤ ulongMax) (hr : NoDig r) (hs : NoDig s)
    (h : dec a ++ r = dec b ++ s) : a = b ∧ r = s := by
  have h1 := scanNum_dec ha hr
  rw [h, scanNum_dec hb hs] at h1
  simpa [eq_comm] using h1

/-- Four entries with numbers of crossings and letters. -/
def Ewing.Entries (l : List (Nat × Char)) : Prop :=
  l.length = 4 ∧ ∀ p ∈ l, p.1 < 2 ^ 32 ∧ isDig p.2 = false

theorem Ewing.entries_inj : ∀ (l l' : List (Nat × Char)) (r r' : List Char), l.length = l'.length →
    (∀ p ∈ l, p.1 < 2 ^ 32 ∧ isDig p.2 = false) → (∀ p ∈ l', p.1 < 2 ^ 32 ∧ isDig p.2 = false) →
    (l.flatMap fun p => dec p.1 ++ [p.2]) ++ r = (l'.flatMap fun p => dec p.1 ++ [p.2]) ++ r' → l = l' ∧ r = r'
  | [], [], _, _, _, _, _, h => ⟨rfl, h⟩
  | (a, x) :: l, (b, y) :: l', r, r', hl, h1, h2, h => by
    have ha := h1 (a, x) (by simp)
    have hb := h2 (b, y) (by simp)
    simp only [List.flatMap_cons, List.append_assoc, List.singleton_append] at h
    obtain ⟨e1, e2⟩ := dec_inj (by have := ha.1; unfold ulongMax; simp only at this; omega)
      (by have := hb.1; unfold ulongMax; simp only at this; omega)
      (by intro c t hc; cases hc; exact ha.2) (by intro c t hc; cases hc; exact hb.2) h
    obtain ⟨e3, e4⟩ := List.cons.inj e2
    obtain ⟨e5, e6⟩ := entries_inj l l' r r' (by simpa using hl) (fun p hp => h1 p (by simp [hp]))
      (fun p hp => h2 p (by simp [hp])) e4
    exact ⟨by rw [e1, e3, e5], e6⟩

theorem Ewing.line_inj {c : Nat} {s s' : Or} {l l' : List (Nat × Char)} {r r' : List Char}
    (hs : s ≠ .unset) (hs' : s' ≠ .unset) (hl : Entries l) (hl' : Entries l')
    (h : line c s l ++ r = line c s' l' ++ r') : s = s' ∧ l = l' ∧ r = r' := by
  unfold line at h
  simp only [List.append_assoc] at h
  have h := List.append_cancel_left h
  simp only [List.singleton_append] at h
  obtain ⟨e1, e2⟩ := List.cons.inj h
  obtain ⟨e3, e4⟩ := entries_inj l l' _ _ (by rw [hl.1, hl'.1]) hl.2 hl'.2 e2
  refine ⟨?_, e3, List.append_cancel_left e4⟩
  cases s <;> cases s' <;> simp at e1 hs hs' ⊢

theorem Ewing.lines_head {q : Cross × List (Nat × Char)} {b : List (Cross × List (Nat × Char))} {c : Nat}
    (h : str "\n\n" = (((q :: b).zipIdx c).flatMap fun p => line p.2 p.1.1.sign p.1.2) ++ str "\n\n") : False := by
  simp only [List.zipIdx_cons, List.flatMap_cons, line, List.append_assoc] at h
  obtain ⟨d, t, h1, h2⟩ := digitsF_head (c + 1 + 1) (c + 1) ([if q.1.sign = .pos then '+' else '-'] ++ ((q.2.flatMap fun p => dec p.1 ++ [p.2]) ++
    (str "\n" ++ (((b.zipIdx (c + 1)).flatMap fun p => line p.2 p.1.1.sign p.1.2) ++ str "\n\n")))) (by omega)
  rw [← dec_append] at h1
  simp only [line, List.append_assoc] at h1
  rw [h1] at h
  have : d = '\n' := (List.cons.inj h).1.symm
  rw [this] at h2
  simp [isDig] at h2

theorem Ewing.lines_inj : ∀ (a b : List (Cross × List (Nat × Char))) (c : Nat), c + a.length < 2 ^ 31 →
    c + b.length < 2 ^ 31 → (∀ p ∈ a, p.1.sign ≠ .unset ∧ Entries p.2) → (∀ p ∈ b, p.1.sign ≠ .unset ∧ Entries p.2) →
    ((a.zipIdx c).flatMap fun p => line p.2 p.1.1.sign p.1.2) ++ str "\n\n" =
      ((b.zipIdx c).flatMap fun p => line p.2 p.1.1.sign p.1.2) ++ str "\n\n" →
    a.map (fun p => (p.1.sign, p.2)) = b.map (fun p => (p.1.sign, p.2))
  | [], [], _, _, _, _, _, _ => rfl
  | [], q :: b, c, _, _, _, _, h => (lines_head h).elim
  | p :: a, [], c, _, _, _, _, h => (lines_head h.symm).elim
  | p :: a, q :: b, c, h1, h2, h3, h4, h => by
    simp only [List.zipIdx_cons, List.flatMap_cons, List.append_assoc, List.length_cons] at h h1 h2
    have hp := h3 p (by simp)
    have hq := h4 q (by simp)
    obtain ⟨e1, e2, e3⟩ := line_inj hp.1 hq.1 hp.2 hq.2 h
    have := lines_inj a b (c + 1) (by omega) (by omega) (fun x hx => h3 x (by simp [hx])) (fun x hx => h4 x (by simp [hx])) e3
    simp only [List.map_cons, e1, e2, this]

/-- What the entries of a crossing code say about a diagram: see `C42_reciprocal`. -/
def Describes (cross : List Cross) (edge : List Edge) (code : List (List (Nat × Char))) (o : Nat → Nat) : Prop :=
  code.length = cross.length ∧ (∀ c, c < cross.length → OverLeaves cross edge c (o c)) ∧
    ∀ (i : Nat) (l : List (Nat × Char)), code[i]? = some l → l.length = 4 ∧ ∀ x, x < 4 →
      ∃ j y, j < cross.length ∧ y < 4 ∧ l[x]? = some (j + 1, letter y) ∧
        OtherEnd edge i ((o i + 4 - x) % 4) j ((o j + 4 - y) % 4)

/-- **C42.** Nothing is lost: when two signed diagrams are written as the same string, their crossings have
the same signs, and the same entries describe both. -/
theorem C42_faithful (cross cross' : List Cross) (edge edge' : List Edge) (hC : Consistent cross edge)
    (hO : Oriented cross edge) (hs : ∀ x ∈ cross, x.sign ≠ .unset) (h0 : cross ≠ []) (hn : cross.length < 2 ^ 31)
    (hC' : Consistent cross' edge') (hO' : Oriented cross' edge') (hs' : ∀ x ∈ cross', x.sign ≠ .unset)
    (h0' : cross' ≠ []) (hn' : cross'.length < 2 ^ 31) (h : toCcode cross edge = toCcode cross' edge') :
    cross.map (·.sign) = cross'.map (·.sign) ∧
      ∃ code o o', Describes cross edge code o ∧ Describes cross' edge' code o' := by
  obtain ⟨code, o, a1, a2, a3, a4⟩ := C42_reciprocal cross edge hC hO hs h0 hn
  obtain ⟨code', o', b1, b2, b3, b4⟩ := C42_reciprocal cross' edge' hC' hO' hs' h0' hn'
  have key : ∀ (cross : List Cross) (edge : List Edge) (code : List (List (Nat × Char))) (o : Nat → Nat),
      (∀ x ∈ cross, x.sign ≠ .unset) → cross.length < 2 ^ 31 →
      (∀ (i : Nat) (l : List (Nat × Char)), code[i]? = some l → l.length = 4 ∧ ∀ x, x < 4 →
        ∃ j y, j < cross.length ∧ y < 4 ∧ l[x]? = some (j + 1, letter y) ∧
          OtherEnd edge i ((o i + 4 - x) % 4) j ((o j + 4 - y) % 4) ∧
          ∃ m, code[j]? = some m ∧ m[y]? = some (i + 1, letter x)) →
      ∀ p ∈ cross.zip code, p.1.sign ≠ .unset ∧ Entries p.2 := by
    intro cross edge code o hs hn h4 p hp
    have hp' := List.of_mem_zip (a := p.1) (b := p.2) hp
    refine ⟨hs _ hp'.1, ?_⟩
    obtain ⟨i, hi, he⟩ := List.getElem_of_mem hp'.2
    obtain ⟨l4, hl⟩ := h4 i p.2 (by rw [List.getElem?_eq_getElem hi, he])
    refine ⟨l4, ?_⟩
    intro q hq
    obtain ⟨x, hx, rfl⟩ := List.getElem_of_mem hq
    obtain ⟨j, y, j1, y1, e1, -⟩ := hl x (by omega)
    rw [List.getElem?_eq_getElem hx] at e1
    rw [Option.some.inj e1]
    refine ⟨by simp only; omega, ?_⟩
    have : ∀ y, y < 4 → isDig (letter y) = false := by decide
    exact this y y1
  rw [a1, b1] at h
  have h' := lines_inj (cross.zip code) (cross'.zip code') 0 (by rw [List.length_zip]; omega)
    (by rw [List.length_zip]; omega) (key cross edge code o hs hn a4) (key cross' edge' code' o' hs' hn' b4)
    (Except.ok.inj h)
  have e1 := congrArg (List.map Prod.fst) h'
  have e2 := congrArg (List.map Prod.snd) h'
  simp only [List.map_map] at e1 e2
  have f1 : ∀ (c : List Cross) (d : List (List (Nat × Char))), d.length = c.length →
      (c.zip d).map (Prod.fst ∘ fun p => (p.1.sign, p.2)) = c.map (·.sign) := by
    intro c d hd
    conv_rhs => rw [← List.map_fst_zip (l₁ := c) (l₂ := d) hd.ge, List.map_map]
    rfl
  have f2 : ∀ (c : List Cross) (d : List (List (Nat × Char))), d.length = c.length →
      (c.zip d).map (Prod.snd ∘ fun p => (p.1.sign, p.2)) = d := by
    intro c d hd
    conv_rhs => rw [← List.map_snd_zip (l₁ := c) (l₂ := d) hd.le]
    rfl
  rw [f1 _ _ a2, f1 _ _ b2] at e1
  rw [f2 _ _ a2, f2 _ _ b2] at e2
  subst e2
  refine ⟨e1, code, o, o', ⟨a2, a3, ?_⟩, ⟨b2, b3, ?_⟩⟩
  · intro i l hl
    obtain ⟨h1, h2⟩ := a4 i l hl
    refine ⟨h1, fun x hx => ?_⟩
    obtain ⟨j, y, c1, c2, c3, c4, -⟩ := h2 x hx
    exact ⟨j, y, c1, c2, c3, c4⟩
  · intro i l hl
    obtain ⟨h1, h2⟩ := b4 i l hl
    refine ⟨h1, fun x hx => ?_⟩
    obtain ⟨j, y, c1, c2, c3, c4, -⟩ := h2 x hx
    exact ⟨j, y, c1, c2, c3, c4⟩

/-- The hypotheses hold for the trefoil. -/
example : Consistent (trefoilCross .pos) trefoilEdge ∧ Oriented (trefoilCross .pos) trefoilEdge ∧
    (∀ x ∈ (trefoilCross .pos), x.sign ≠ .unset) ∧ (trefoilCross .pos) ≠ [] := by decide

example : (toCcode (trefoilCross .pos) trefoilEdge).map String.ofList =
    .ok "1+3b2a2d3c\n2+1b3a3d1c\n3+2b1a1d2c\n\n\n" := by decide +kernel

/-- Without crossings there is no string: the buffer has no room for it. -/
theorem C42_no_crossings (edge : List Edge) : toCcode [] edge = .error .ub := rfl

end Plc
