import Verif.Proofs.CurveDraws
import Verif.Props.Strands
import Verif.Props.Ok

/-! The diagram which `pd_regenerate` makes of the records still shows the crossings. -/

namespace Plc.FromCurve

open Plc.Core Plc.Cmp Plc.Moves Plc.Buffers Plc.Strands List

variable {K : Type} [LinearOrder K] {near : K → K → Bool} {nc : Nat} {cc : List (Crossing K)}

section

variable (hr : ∀ a, near a a = true) (hS : Spread near nc cc)
  {inn : Nat × Bool → Nat} {cross cross' : List Cross} {edge edge' : List Edge} {τ σ ρ : Nat → Nat} {nx : Nat × Bool → Nat × Bool}
  (D : Draws cc inn cross edge) (hR : Renamed cross edge cross' edge' τ σ ρ (fun _ => false))
  (hsg : SameSigns cross cross' σ)
  (hnx : ∀ a c s, StrandOn cc a c s → NextStrand cc a (nx a))

include hr hS D hR hnx in
/-- Where the edges of a strand are after renaming. -/
theorem moved {i : Nat} (hi : i < cc.length) (u : Bool) :
    (∃ r : Edge, edge'[τ (inn (i, u))]? = some r ∧ r.head = σ i ∧ r.headpos = (ip u cc[i].sign + 4 - ρ i) % 4) ∧
    (∃ r : Edge, edge'[τ (inn (nx (i, u)))]? = some r ∧ r.tail = σ i ∧ r.tailpos = (op u cc[i].sign + 4 - ρ i) % 4) := by
  obtain ⟨c, s, hs⟩ := strandOn_of_lt hi u
  have hx := List.getElem?_eq_getElem hi
  constructor
  · obtain ⟨a, ha⟩ := prev_exists hr hS hs
    obtain ⟨c1, s1, t1, h1, -⟩ := id ha
    have := hR.edge _ _ (D.edges a (i, u) _ _ ha (List.getElem?_eq_getElem (strandOn_lt h1)) hx)
    refine ⟨_, this, ?_⟩
    unfold moveEdge
    simp only [Bool.false_eq_true, if_false]
    exact ⟨trivial, rfl⟩
  · have hb := hnx _ _ _ hs
    obtain ⟨c1, s1, t1, -, h1, -⟩ := id hb
    have := hR.edge _ _ (D.edges (i, u) _ _ _ hb hx (List.getElem?_eq_getElem (strandOn_lt h1)))
    refine ⟨_, this, ?_⟩
    unfold moveEdge
    simp only [Bool.false_eq_true, if_false]
    exact ⟨trivial, rfl⟩

theorem turn_ip {u : Bool} {s : Int} {r : Nat} (hr : r < 4) : (op u s + 4 - r) % 4 = ((ip u s + 4 - r) % 4 + 2) % 4 := by
  have h1 := ip_lt u s
  rw [op_ip]
  omega

theorem turn_key {oi oo ui uo r : Nat} {s : Int} (h1 : oi < 4) (h2 : ui < 4) (hr : r < 4) (h5 : (oi + 2) % 4 = oo) (h6 : (ui + 2) % 4 = uo)
    (h8 : uo = (oo + if (if 0 < s then Or.pos else Or.neg) = .neg then 3 else 1) % 4)
    (n1 : oi ≠ ((ip true s + 4 - r) % 4 + 2) % 4) (n2 : oi ≠ ((ip false s + 4 - r) % 4 + 2) % 4)
    (n3 : ui ≠ ((ip true s + 4 - r) % 4 + 2) % 4) (n4 : ui ≠ ((ip false s + 4 - r) % 4 + 2) % 4) :
    oi = (ip true s + 4 - r) % 4 ∧ ui = (ip false s + 4 - r) % 4 := by
  have : r = 0 ∨ r = 1 ∨ r = 2 ∨ r = 3 := by omega
  by_cases hp : 0 < s
  · rw [if_pos hp, if_neg (by decide)] at h8
    simp only [ip, hp, if_true, Bool.false_eq_true, if_false] at n1 n2 n3 n4 ⊢
    rcases this with rfl | rfl | rfl | rfl <;> norm_num at n1 n2 n3 n4 ⊢ <;> omega
  · rw [if_neg hp, if_pos rfl] at h8
    simp only [ip, hp, if_true, Bool.false_eq_true, if_false] at n1 n2 n3 n4 ⊢
    rcases this with rfl | rfl | rfl | rfl <;> norm_num at n1 n2 n3 n4 ⊢ <;> omega

include hr hS D hR hnx hsg in
theorem shows_strands (hC : Consistent cross' edge') (hO : Oriented cross' edge') {i : Nat} (hi : i < cc.length) :
    overstrand cross' edge' (σ i) = .ok (τ (inn (i, true)), τ (inn (nx (i, true)))) ∧
    understrand cross' edge' (σ i) = .ok (τ (inn (i, false)), τ (inn (nx (i, false)))) := by
  have hcl : i < cross.length := by rw [D.len]; exact hi
  have hlt : σ i < cross'.length := by rw [hR.len]; exact hR.slt i hcl
  obtain ⟨oi, oo, ui, uo, a, b, c, d, -, -, h3, h4, h5, h6, a1, b1, c1, d1, ⟨ra, ra1, ra2, ra3⟩, ⟨rb, rb1, rb2, rb3⟩, ⟨rc, rc1, rc2, rc3⟩,
    ⟨rd, rd1, rd2, rd3⟩, h7⟩ := C26_strands cross' edge' hC hO (σ i) hlt
  have hρ := hR.rho i
  obtain ⟨⟨r1, p1, p2, p3⟩, ⟨r2, q1, q2, q3⟩⟩ := moved hr hS D hR hnx hi true
  obtain ⟨⟨r3, s1, s2, s3⟩, ⟨r4, t1, t2, t3⟩⟩ := moved hr hS D hR hnx hi false
  have p4 := hC.head _ _ p1
  have q4 := hC.tail _ _ q1
  have s4 := hC.head _ _ s1
  have t4 := hC.tail _ _ t1
  rw [p2] at p4
  rw [q2] at q4
  rw [s2] at s4
  rw [t2] at t4
  have oilt := (slot_lt a1).2
  have uilt := (slot_lt c1).2
  -- an incoming place is not an outgoing one
  have hio : ∀ {k e e' : Nat} {r r' : Edge}, slot cross' (σ i) k = some e → edge'[e]? = some r → r.head = σ i → r.headpos = k →
      edge'[e']? = some r' → r'.tail = σ i → r'.tailpos = k → slot cross' (σ i) k = some e' → False := by
    intro k e e' r r' x1 x2 x3 x4 y1 y2 y3 y4
    rw [x1] at y4
    cases y4
    rw [x2] at y1
    cases y1
    exact hC.ends_ne _ _ x2 (by rw [x3, x4, y2, y3])
  have n1 : oi ≠ r2.tailpos := fun h => hio a1 ra1 ra2 ra3 q1 q2 h.symm (by rw [h]; exact q4)
  have n2 : oi ≠ r4.tailpos := fun h => hio a1 ra1 ra2 ra3 t1 t2 h.symm (by rw [h]; exact t4)
  have n3 : ui ≠ r2.tailpos := fun h => hio c1 rc1 rc2 rc3 q1 q2 h.symm (by rw [h]; exact q4)
  have n4 : ui ≠ r4.tailpos := fun h => hio c1 rc1 rc2 rc3 t1 t2 h.symm (by rw [h]; exact t4)
  rw [q3, turn_ip hρ] at n1 n3
  rw [t3, turn_ip hρ] at n2 n4
  obtain ⟨y, y1, y2⟩ := D.sign i _ (List.getElem?_eq_getElem hi)
  obtain ⟨y', z1, z2⟩ := hsg i y y1
  have h8 := h7 y' z1
  rw [z2, y2] at h8
  have key : oi = r1.headpos ∧ ui = r3.headpos := by
    rw [p3, s3]
    exact turn_key oilt uilt hρ h5 h6 h8 n1 n2 n3 n4
  have e1 : a = τ (inn (i, true)) := by
    rw [← key.1, a1] at p4
    exact Option.some.inj p4
  have e2 : c = τ (inn (i, false)) := by
    rw [← key.2, c1] at s4
    exact Option.some.inj s4
  have e3 : b = τ (inn (nx (i, true))) := by
    rw [q3, turn_ip hρ, ← p3, ← key.1, h5, b1] at q4
    exact Option.some.inj q4
  have e4 : d = τ (inn (nx (i, false))) := by
    rw [t3, turn_ip hρ, ← s3, ← key.2, h6, d1] at t4
    exact Option.some.inj t4
  rw [h3, h4, e1, e2, e3, e4]
  exact ⟨rfl, rfl⟩

include hr hS D hR hnx in
/-- Going on from the edge which ends at a strand leads to the edge which ends at the next strand. -/
theorem follows_next (hC : Consistent cross' edge') {a : Nat × Bool} {c e : Nat} {s : K} (ha : StrandOn cc a c s)
    (h : Follows cross' edge' (τ (inn a)) e) : e = τ (inn (nx a)) := by
  obtain ⟨i, u⟩ := a
  have hi : i < cc.length := strandOn_lt ha
  obtain ⟨⟨r1, p1, p2, p3⟩, ⟨r2, q1, q2, q3⟩⟩ := moved hr hS D hR hnx hi u
  have q4 := hC.tail _ _ q1
  obtain ⟨r, e1, e2⟩ := h
  rw [p1] at e1
  cases e1
  rw [q2, q3, turn_ip (hR.rho i), ← p2, ← p3, e2] at q4
  exact Option.some.inj q4

theorem nextStrand_cmp {a b : Nat × Bool} {c : Nat} {s : K} (h : NextStrand cc a b) (ha : StrandOn cc a c s) : ∃ t, StrandOn cc b c t := by
  obtain ⟨c1, s1, t1, h1, h2, -⟩ := h
  obtain ⟨rfl, -⟩ := strandOn_unique ha h1
  exact ⟨t1, h2⟩

include hr hS in
/-- A set of strands closed under going on which has one strand of a component has all of them. -/
theorem reach {T : Nat × Bool → Prop} (hT : ∀ a b, T a → NextStrand cc a b → T b) {a b : Nat × Bool} {c : Nat} {s t : K} (ha : StrandOn cc a c s)
    (hb : StrandOn cc b c t) (h : T a) : T b := by
  obtain ⟨S, R, -⟩ := rows_exist hr hS insQSort
  have ma : (⟨a.1, c, s, a.2⟩ : Strand K) ∈ S c := (R.mem c _).mpr ⟨mem_strands.mpr ha, rfl⟩
  have mb : (⟨b.1, c, t, b.2⟩ : Strand K) ∈ S c := (R.mem c _).mpr ⟨mem_strands.mpr hb, rfl⟩
  obtain ⟨i, hi⟩ := List.mem_iff_getElem?.mp ma
  obtain ⟨j, hj⟩ := List.mem_iff_getElem?.mp mb
  have hc := hS.range _ _ _ ha
  have hrow : ∀ (j : Nat) (h t : Strand K), (row (S c))[j]? = some (h, t) → NextStrand cc (t.num, t.up) (h.num, h.up) := by
    intro j h t hj
    refine table_next (nc := nc) R ?_
    unfold table
    exact List.mem_flatMap.mpr ⟨c, List.mem_range.mpr hc, List.mem_of_getElem? hj⟩
  have hlr : (row (S c)).length = (S c).length := by
    have := congrArg List.length (row_fst (S c))
    rwa [List.length_map] at this
  have up : ∀ (m i : Nat) (x y : Strand K), (S c)[i]? = some x → (S c)[i + m]? = some y → T (x.num, x.up) → T (y.num, y.up) := by
    intro m
    induction m with
    | zero =>
      intro i x y hx hy h
      rw [Nat.add_zero, hx] at hy
      cases hy
      exact h
    | succ m ih =>
      intro i x y hx hy h
      have hl : i + 1 < (row (S c)).length := by
        rw [hlr]
        have := (List.getElem?_eq_some_iff.mp hy).1
        omega
      obtain ⟨p, hp⟩ : ∃ p, (row (S c))[i + 1]? = some p := ⟨_, List.getElem?_eq_getElem hl⟩
      obtain ⟨z, w⟩ := p
      obtain ⟨r1, r2⟩ := row_get hp
      rcases r2 with ⟨k, hk, r2⟩ | ⟨hk, -⟩
      · have : k = i := by omega
        subst this
        rw [hx] at r2
        cases r2
        exact ih (k + 1) z y r1 (by rw [← hy]; congr 1; omega) (hT _ _ h (hrow _ _ _ hp))
      · omega
  have il := (List.getElem?_eq_some_iff.mp hi).1
  have jl := (List.getElem?_eq_some_iff.mp hj).1
  -- to the last strand, to the first one, to `b`
  obtain ⟨z, hz⟩ : ∃ z, (S c)[(S c).length - 1]? = some z := ⟨_, List.getElem?_eq_getElem (by omega)⟩
  have h1 : T (z.num, z.up) := up ((S c).length - 1 - i) i _ z hi (by rw [← hz]; congr 1; omega) h
  obtain ⟨p, hp⟩ : ∃ p, (row (S c))[0]? = some p := ⟨_, List.getElem?_eq_getElem (by rw [hlr]; omega)⟩
  obtain ⟨w, w'⟩ := p
  obtain ⟨r1, r2⟩ := row_get hp
  rcases r2 with ⟨k, hk, -⟩ | ⟨-, r2⟩
  · omega
  · rw [List.getLast?_eq_getElem?, hz] at r2
    cases r2
    exact up j 0 w _ r1 (by rw [← hj]; congr 1; omega) (hT _ _ h1 (hrow _ _ _ hp))

include hr hS D hR hnx in
/-- The component records are the components of the list. -/
theorem shows_comps {comps : List Comp} (hC : Consistent cross' edge') (hG : GoodComps cross' edge' comps) :
    comps.length = nc ∧ ∀ c, c < nc → ∃ k ∈ comps, ∀ a d s, StrandOn cc a d s → (τ (inn a) ∈ k.edge ↔ d = c) := by
  classical
  have el : edge'.length = edge.length := hR.elen
  -- every edge of the diagram ends at a strand
  have onto : ∀ e, e < edge'.length → ∃ a c s, StrandOn cc a c s ∧ τ (inn a) = e := by
    intro e he
    have h1 : ((List.range edge.length).map τ).Nodup := by
      unfold List.Nodup
      rw [List.pairwise_map]
      refine List.nodup_range.imp_of_mem ?_
      intro x y hx hy hxy h
      exact hxy (hR.tinj x y (List.mem_range.mp hx) (List.mem_range.mp hy) h)
    have h2 : (List.range edge.length).map τ ⊆ List.range edge.length := by
      intro x hx
      obtain ⟨y, hy, rfl⟩ := List.mem_map.mp hx
      exact List.mem_range.mpr (hR.tlt y (List.mem_range.mp hy))
    have h3 := (List.subperm_of_subset h1 h2).perm_of_length_le (by simp)
    obtain ⟨y, hy, rfl⟩ := List.mem_map.mp (h3.mem_iff.mpr (List.mem_range.mpr (by rw [← el]; exact he)))
    obtain ⟨a, c, s, ha, rfl⟩ := D.onto (List.mem_range.mp hy)
    exact ⟨a, c, s, ha, rfl⟩
  have inj : ∀ a b c d s t, StrandOn cc a c s → StrandOn cc b d t → τ (inn a) = τ (inn b) → a = b := by
    intro a b c d s t ha hb h
    exact D.inn_inj _ _ _ _ _ _ ha hb (hR.tinj _ _ (D.inn_lt _ _ _ ha) (D.inn_lt _ _ _ hb) h)
  have elt : ∀ k ∈ comps, ∀ e ∈ k.edge, e < edge'.length := by
    intro k hk e he
    have : e ∈ comps.flatMap (·.edge) := List.mem_flatMap.mpr ⟨k, hk, he⟩
    rw [hG.all] at this
    exact List.mem_range.mp this
  -- going on stays in the record
  have closed : ∀ k ∈ comps, ∀ a c s, StrandOn cc a c s → τ (inn a) ∈ k.edge → τ (inn (nx a)) ∈ k.edge := by
    intro k hk a c s ha h
    obtain ⟨j, hj⟩ := List.mem_iff_getElem?.mp h
    obtain ⟨e', e1, e2⟩ := hG.follow k hk j _ hj
    rw [follows_next hr hS D hR hnx hC ha e2] at e1
    exact List.mem_of_getElem? e1
  -- a record which has one strand of a component has all of them and no others
  have whole : ∀ k ∈ comps, ∀ a c s, StrandOn cc a c s → τ (inn a) ∈ k.edge → ∀ b d t, StrandOn cc b d t → (τ (inn b) ∈ k.edge ↔ d = c) := by
    intro k hk a c s ha h b d t hb
    have back : ∀ b t, StrandOn cc b c t → τ (inn b) ∈ k.edge := by
      intro b t hb
      refine (reach hr hS (T := fun a => (∃ c s, StrandOn cc a c s) ∧ τ (inn a) ∈ k.edge) ?_ ha hb ⟨⟨c, s, ha⟩, h⟩).2
      rintro x y ⟨⟨c1, s1, h1⟩, h2⟩ hxy
      have := closed k hk x c1 s1 h1 h2
      rw [next_unique' hr hS (hnx x c1 s1 h1) hxy] at this
      obtain ⟨t', ht'⟩ := nextStrand_cmp hxy h1
      exact ⟨⟨c1, t', ht'⟩, this⟩
    constructor
    · intro hbk
      -- going on from the first entry, every entry is on component `c`
      obtain ⟨j, hj⟩ := List.mem_iff_getElem?.mp h
      obtain ⟨m, hm⟩ := List.mem_iff_getElem?.mp hbk
      have jl := (List.getElem?_eq_some_iff.mp hj).1
      have ml := (List.getElem?_eq_some_iff.mp hm).1
      have step : ∀ n, ∃ b t, StrandOn cc b c t ∧ k.edge[(j + n) % k.edge.length]? = some (τ (inn b)) := by
        intro n
        induction n with
        | zero => exact ⟨a, s, ha, by rw [Nat.add_zero, Nat.mod_eq_of_lt jl]; exact hj⟩
        | succ n ih =>
          obtain ⟨b1, t1, g1, g2⟩ := ih
          obtain ⟨e', e1, e2⟩ := hG.follow k hk _ _ g2
          rw [follows_next hr hS D hR hnx hC g1 e2] at e1
          obtain ⟨t2, g3⟩ := nextStrand_cmp (hnx _ _ _ g1) g1
          refine ⟨_, t2, g3, ?_⟩
          rw [← e1]
          congr 1
          rw [Nat.mod_add_mod]
          rfl
      obtain ⟨b1, t1, g1, g2⟩ := step (k.edge.length - j + m)
      rw [show (j + (k.edge.length - j + m)) = m + k.edge.length by omega, Nat.add_mod_right, Nat.mod_eq_of_lt ml, hm, Option.some.injEq] at g2
      have := inj _ _ _ _ _ _ hb g1 g2
      subst this
      exact (strandOn_unique hb g1).1
    · rintro rfl
      exact back b t hb
  have cmp : ∀ k ∈ comps, ∃ c, c < nc ∧ ∀ a d s, StrandOn cc a d s → (τ (inn a) ∈ k.edge ↔ d = c) := by
    intro k hk
    obtain ⟨e, he⟩ := List.exists_mem_of_ne_nil _ (hG.nonempty k hk)
    obtain ⟨a, c, s, ha, rfl⟩ := onto e (elt k hk e he)
    exact ⟨c, hS.range _ _ _ ha, whole k hk a c s ha he⟩
  have every : ∀ c, c < nc → ∃ k ∈ comps, ∀ a d s, StrandOn cc a d s → (τ (inn a) ∈ k.edge ↔ d = c) := by
    intro c hc
    obtain ⟨a, s, ha⟩ := hS.every c hc
    have : τ (inn a) ∈ comps.flatMap (·.edge) := by
      rw [hG.all, List.mem_range, el]
      exact hR.tlt _ (D.inn_lt _ _ _ ha)
    obtain ⟨k, hk, he⟩ := List.mem_flatMap.mp this
    exact ⟨k, hk, whole k hk a c s ha he⟩
  refine ⟨?_, every⟩
  -- counting
  let g : Comp → Nat := fun k => if h : ∃ c, c < nc ∧ ∀ a d s, StrandOn cc a d s → (τ (inn a) ∈ k.edge ↔ d = c) then h.choose else 0
  have hg : ∀ k ∈ comps, g k < nc ∧ ∀ a d s, StrandOn cc a d s → (τ (inn a) ∈ k.edge ↔ d = g k) := by
    intro k hk
    have h := cmp k hk
    simp only [g]
    rw [dif_pos h]
    exact h.choose_spec
  have hnd : (comps.map g).Nodup := by
    unfold List.Nodup
    rw [List.pairwise_map]
    have hnd : (comps.flatMap (·.edge)).Nodup := by rw [hG.all]; exact List.nodup_range
    rw [List.nodup_flatMap] at hnd
    refine hnd.2.imp_of_mem ?_
    intro x y hx hy hxy h
    obtain ⟨h1, h2⟩ := hg x hx
    obtain ⟨h3, h4⟩ := hg y hy
    obtain ⟨a, s, ha⟩ := hS.every _ h1
    exact hxy ((h2 a _ s ha).mpr rfl) ((h4 a _ s ha).mpr h)
  have hp : (comps.map g).Perm (List.range nc) := by
    rw [List.perm_ext_iff_of_nodup hnd List.nodup_range]
    intro c
    rw [List.mem_map, List.mem_range]
    constructor
    · rintro ⟨k, hk, rfl⟩
      exact (hg k hk).1
    · intro hc
      obtain ⟨k, hk, h⟩ := every c hc
      refine ⟨k, hk, ?_⟩
      obtain ⟨a, s, ha⟩ := hS.every c hc
      exact (((hg k hk).2 a c s ha).mp ((h a c s ha).mpr rfl)).symm
  have := hp.length_eq
  rwa [List.length_map, List.length_range] at this

end

end Plc.FromCurve
