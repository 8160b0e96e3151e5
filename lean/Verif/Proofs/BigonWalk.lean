import Verif.Proofs.BigonCases
import Verif.Proofs.ConnectSum

/-! Telling apart the components on the two sides of a bigon. -/

namespace Plc

open Plc.Core Plc.Cmp Plc.Places Plc.Faces Plc.Buffers Plc.Moves Plc.Comps Plc.Planar Plc.BigonDel Plc.Isotopy Plc.Ok List

/-- A label that goes along strands is the same everywhere on a component. -/
theorem lab_const {cross : List Cross} {edge : List Edge} (hC : Consistent cross edge) {comps : List Comp}
    (hK : GoodComps cross edge (retag comps)) {lab : Nat → Prop} (hlab : ∀ e, e < edge.length → (lab (nx cross edge e) ↔ lab e))
    {c : Comp} (hc : c ∈ comps) {e e' : Nat} (he : e ∈ c.edge) (he' : e' ∈ c.edge) : lab e ↔ lab e' := by
  obtain ⟨-, -, h3, h4⟩ := goodComps_of_retag hK
  have key : ∀ (j e : Nat), c.edge[j]? = some e → (lab e ↔ lab c.edge[0]!) := by
    intro j
    induction j with
    | zero =>
      intro e h
      obtain ⟨hl, rfl⟩ := List.getElem?_eq_some_iff.mp h
      rw [getElem!_pos c.edge 0 hl]
    | succ j ih =>
      intro e h
      have hl := (List.getElem?_eq_some_iff.mp h).1
      obtain ⟨y, q1, q2⟩ := h4 c hc j _ (List.getElem?_eq_getElem (by omega))
      rw [Nat.mod_eq_of_lt hl, h] at q1
      cases q1
      obtain ⟨r1, r2⟩ := (follows_iff hC _ _).mp q2
      rw [← r2, hlab _ r1]
      exact ih _ (List.getElem?_eq_getElem (by omega))
  obtain ⟨j, hj⟩ := List.mem_iff_getElem?.mp he
  obtain ⟨j', hj'⟩ := List.mem_iff_getElem?.mp he'
  rw [key j e hj, key j' e' hj']

/-- What a mark says about an edge. -/
def Fit (lab : Nat → Prop) : Mark → Nat → Prop
  | .a _, e => lab e
  | .b _, e => ¬ lab e
  | .unknown, _ => True

/-- A component which has been walked. -/
def Walked (m : Mark) : Prop := m = .a true ∨ m = .b true

/-- The edge on the right at the end of an edge. -/
abbrev rightOf (cross : List Cross) (edge : List Edge) (e : Nat) : Nat := eslot cross (turn 1 (hd edge[e]!))

/-- What is true of the marks after each step. -/
structure Inv (pd : Io.Pd) (s : Site) (lab : Nat → Prop) (st : List Mark) : Prop where
  len : st.length = pd.comp.length
  fits : ∀ (i : Nat) (c : Comp) (m : Mark), pd.comp[i]? = some c → st[i]? = some m → ∀ e ∈ c.edge, Fit lab m e
  seeds : ∀ e, (e = s.a0 ∨ e = s.b0) → ∀ (i : Nat) (c : Comp), pd.comp[i]? = some c → e ∈ c.edge → st[i]? ≠ some .unknown
  nb : ∀ (i : Nat) (c : Comp) (m : Mark), pd.comp[i]? = some c → st[i]? = some m → Walked m → ∀ e ∈ c.edge,
    (hd pd.edge[e]!).1 ≠ s.c0 → (hd pd.edge[e]!).1 ≠ s.c1 → ∀ (j : Nat) (d : Comp), pd.comp[j]? = some d →
      rightOf pd.cross pd.edge e ∈ d.edge → st[j]? ≠ some .unknown

section

variable {pd : Io.Pd} (hN : Neat pd)

include hN

theorem comp_of {e : Nat} (he : e < pd.edge.length) : ∃ (j p : Nat) (c : Comp), Strands.compAndPos pd.edge.length pd.comp e = .ok (j, p) ∧
    pd.comp[j]? = some c ∧ e ∈ c.edge := by
  obtain ⟨h1, -⟩ := goodComps_of_retag hN.tidy.goodComps
  obtain ⟨j, p, c, q1, q2, q3⟩ := ConnectSum.compAndPos_get (comps := pd.comp) (by rw [h1]) he
  exact ⟨j, p, c, q1, q2, List.mem_of_getElem? q3⟩

theorem comp_lt {c : Comp} (hc : c ∈ pd.comp) {e : Nat} (he : e ∈ c.edge) : e < pd.edge.length := by
  obtain ⟨h1, -⟩ := goodComps_of_retag hN.tidy.goodComps
  have : e ∈ pd.comp.flatMap (·.edge) := List.mem_flatMap.mpr ⟨c, hc, he⟩
  rw [h1] at this
  exact List.mem_range.mp this

theorem rightOf_lab {s : Site} {lab : Nat → Prop} (S : Separates pd.cross pd.edge s.c0 s.c1 lab) {e : Nat} (he : e < pd.edge.length)
    (h0 : (hd pd.edge[e]!).1 ≠ s.c0) (h1 : (hd pd.edge[e]!).1 ≠ s.c1) :
    rightOf pd.cross pd.edge e < pd.edge.length ∧ (lab (rightOf pd.cross pd.edge e) ↔ lab e) ∧
      ∃ u, u < pd.edge.length ∧ u ≠ e ∧ (hd pd.edge[u]!).1 = (hd pd.edge[e]!).1 ∧
        (rightOf pd.cross pd.edge e = u ∨ rightOf pd.cross pd.edge e = nx pd.cross pd.edge u) := by
  have hP := hN.tidy.plane
  have hC := hP.consistent
  have hO := hP.oriented
  have hp := (hd_mem hC he).1
  obtain ⟨x, u, hx, hu, hne, hx1, hu1⟩ := LensAt.other_in hC hO (mem_P.mp hp).1
  have : ∃ v, v < pd.edge.length ∧ v ≠ e ∧ (hd pd.edge[v]!).1 = (hd pd.edge[e]!).1 := by
    by_cases q : x = e
    · exact ⟨u, hu, fun q' => hne (q.trans q'.symm), hu1⟩
    · exact ⟨x, hx, q, hx1⟩
  obtain ⟨v, hv, hve, hvh⟩ := this
  refine ⟨eslot_lt hC (turn_mem 1 hp), ?_⟩
  have hat := S.at_ e v he hv hvh.symm h0 h1
  rcases two_in hC hO he hv (Ne.symm hve) hvh.symm with r | r
  · have := LensAt.right_in hC hv r
    unfold rightOf
    rw [this]
    exact ⟨hat.symm, v, hv, hve, hvh, .inl rfl⟩
  · have := LensAt.right_out hC hO hv r
    unfold rightOf
    rw [this]
    exact ⟨(S.along v hv).trans hat.symm, v, hv, hve, hvh, .inr rfl⟩

end

/-- A component which has not been walked. -/
def Todo (st : List Mark) (i : Nat) : Prop := ¬ ∃ m, st[i]? = some m ∧ Walked m

/-- Marks grow: what has a mark keeps it, what has none may get `m`. -/
structure Grows (m : Mark) (st st' : List Mark) : Prop where
  len : st'.length = st.length
  keep : ∀ (i : Nat) (x : Mark), st[i]? = some x → x ≠ .unknown → st'[i]? = some x
  new : ∀ i : Nat, st[i]? = some .unknown → st'[i]? = some .unknown ∨ st'[i]? = some m

theorem Grows.refl (m : Mark) (st : List Mark) : Grows m st st := ⟨rfl, fun _ _ h _ => h, fun _ h => .inl h⟩

theorem Grows.known {m : Mark} (hm : m ≠ .unknown) {st st' : List Mark} (h : Grows m st st') {i : Nat} (hi : st[i]? ≠ some .unknown) :
    st'[i]? ≠ some .unknown := by
  intro q
  have hl : i < st.length := by rw [← h.len]; exact (List.getElem?_eq_some_iff.mp q).1
  have hx := List.getElem?_eq_getElem hl
  by_cases e : st[i] = .unknown
  · rw [hx, e] at hi
    exact hi rfl
  · rw [h.keep i _ hx e] at q
    exact e (Option.some.inj q)

section

variable {pd : Io.Pd} (hN : Neat pd) {s : Site} {lab : Nat → Prop} (S : Separates pd.cross pd.edge s.c0 s.c1 lab)

include hN S

theorem markLoop_ok {m : Mark} (hm : m ≠ .unknown) : ∀ (l : List Nat) (st : List Mark), st.length = pd.comp.length →
    (∀ (i : Nat) (c : Comp) (m : Mark), pd.comp[i]? = some c → st[i]? = some m → ∀ e ∈ c.edge, Fit lab m e) →
    (∀ e ∈ l, e < pd.edge.length ∧ ∀ e', (lab e' ↔ lab e) → Fit lab m e') →
    ∃ st', markLoop pd s.c0 s.c1 m l st = .ok st' ∧ Grows m st st' ∧
      (∀ (i : Nat) (c : Comp) (m : Mark), pd.comp[i]? = some c → st'[i]? = some m → ∀ e ∈ c.edge, Fit lab m e) ∧
      ∀ e ∈ l, (hd pd.edge[e]!).1 ≠ s.c0 → (hd pd.edge[e]!).1 ≠ s.c1 → ∀ (j : Nat) (d : Comp), pd.comp[j]? = some d →
        rightOf pd.cross pd.edge e ∈ d.edge → st'[j]? ≠ some .unknown := by
  have hP := hN.tidy.plane
  have hC := hP.consistent
  intro l
  induction l with
  | nil =>
    intro st h1 h2 _
    exact ⟨st, rfl, .refl _ _, h2, fun _ h => absurd h List.not_mem_nil⟩
  | cons e l ih =>
    intro st h1 h2 h3
    obtain ⟨he, hfit⟩ := h3 e List.mem_cons_self
    have h3' := fun e' he' => h3 e' (List.mem_cons_of_mem _ he')
    unfold markLoop
    rw [rd_ok (bang he), ok_bind]
    by_cases hh : (pd.edge[e]!).head ≠ s.c0 ∧ (pd.edge[e]!).head ≠ s.c1
    · rw [if_pos hh]
      obtain ⟨q1, q2, u, -⟩ := rightOf_lab hN S he hh.1 hh.2
      have hlt := (mem_P.mp (hd_mem hC he).1).1
      have hlt' : (pd.edge[e]!).head < pd.cross.length := hlt
      rw [rd_lt hlt', ok_bind]
      have hpos : (pd.cross[(pd.edge[e]!).head]).rdPos (((pd.edge[e]!).headpos + 1) % 4) = .ok (rightOf pd.cross pd.edge e) := by
        have h1 := slot_eslot (turn_mem 1 (hd_mem hC he).1)
        have h2 : (turn 1 (hd pd.edge[e]!)).2 = ((pd.edge[e]!).headpos + 1) % 4 := rfl
        have h3 : (turn 1 (hd pd.edge[e]!)).1 = (pd.edge[e]!).head := rfl
        rw [h2, h3, slot_of_lt hlt' (Nat.mod_lt _ (by decide)), Option.some.injEq] at h1
        rw [Cross.rdPos_lt (Nat.mod_lt _ (by decide)), h1]
      rw [hpos, ok_bind]
      obtain ⟨k, p, d, r1, r2, r3⟩ := comp_of hN q1
      rw [r1, ok_bind]
      simp only
      have hk : k < st.length := by rw [h1]; exact (List.getElem?_eq_some_iff.mp r2).1
      rw [rd_lt hk, ok_bind]
      have huniq : ∀ (j : Nat) (d' : Comp), pd.comp[j]? = some d' → rightOf pd.cross pd.edge e ∈ d'.edge → j = k :=
        fun j d' g1 g2 => comp_unique hN.tidy.goodComps g1 r2 g2 r3
      by_cases hun : st[k] = .unknown
      · rw [if_pos hun, wr_lt hk, ok_bind]
        have hg : Grows m st (st.set k m) := by
          refine ⟨by simp, ?_, ?_⟩
          · intro i x hx hne
            rw [List.getElem?_set]
            by_cases q : k = i
            · subst q
              rw [List.getElem?_eq_getElem hk] at hx
              exact absurd ((Option.some.inj hx).symm.trans hun) hne
            · rw [if_neg q]; exact hx
          · intro i hx
            rw [List.getElem?_set]
            by_cases q : k = i
            · subst q
              rw [if_pos rfl, if_pos hk]
              exact .inr rfl
            · rw [if_neg q]; exact .inl hx
        obtain ⟨st', g1, g2, g3, g4⟩ := ih (st.set k m) (by simpa using h1) (by
          intro i c m' hc hm' e' he'
          rw [List.getElem?_set] at hm'
          by_cases q : k = i
          · subst q
            rw [if_pos rfl, if_pos hk] at hm'
            cases hm'
            rw [r2] at hc
            cases hc
            refine hfit e' ?_
            rw [lab_const hC hN.tidy.goodComps S.along (List.mem_of_getElem? r2) he' r3, q2]
          · rw [if_neg q] at hm'
            exact h2 i c m' hc hm' e' he') h3'
        refine ⟨st', g1, ⟨by rw [g2.len, hg.len], ?_, ?_⟩, g3, ?_⟩
        · intro i x hx hne
          exact g2.keep i x (hg.keep i x hx hne) hne
        · intro i hx
          rcases hg.new i hx with q | q
          · exact g2.new i q
          · exact .inr (g2.keep i m q hm)
        · intro e' he' n0 n1 j d' gj gd
          rcases List.mem_cons.mp he' with rfl | he'
          · have := huniq j d' gj gd
            subst this
            rw [g2.keep j m (by rw [List.getElem?_set, if_pos rfl, if_pos hk]) hm]
            exact fun q => hm (Option.some.inj q)
          · exact g4 e' he' n0 n1 j d' gj gd
      · rw [if_neg hun]
        obtain ⟨st', g1, g2, g3, g4⟩ := ih st h1 h2 h3'
        refine ⟨st', g1, g2, g3, ?_⟩
        intro e' he' n0 n1 j d' gj gd
        rcases List.mem_cons.mp he' with rfl | he'
        · have := huniq j d' gj gd
          subst this
          rw [g2.keep j _ (List.getElem?_eq_getElem hk) hun]
          exact fun q => hun (Option.some.inj q)
        · exact g4 e' he' n0 n1 j d' gj gd
    · rw [if_neg hh]
      obtain ⟨st', g1, g2, g3, g4⟩ := ih st h1 h2 h3'
      refine ⟨st', g1, g2, g3, ?_⟩
      intro e' he' n0 n1 j d' gj gd
      rcases List.mem_cons.mp he' with rfl | he'
      · exact absurd ⟨n0, n1⟩ hh
      · exact g4 e' he' n0 n1 j d' gj gd

/-- Walking one component. -/
theorem walk_one {st : List Mark} (I : Inv pd s lab st) {i : Nat} {k : Comp} (hk : pd.comp[i]? = some k) {m m' : Mark}
    (hm : (m = .a false ∧ m' = .a true) ∨ (m = .b false ∧ m' = .b true)) (hi : st[i]? = some m) :
    ∃ st1 st2, markLoop pd s.c0 s.c1 m k.edge st = .ok st1 ∧ wr st1 i m' = .ok st2 ∧ Inv pd s lab st2 ∧
      st2[i]? = some m' ∧ ∀ (j : Nat) (x : Mark), j ≠ i → st[j]? = some x → x ≠ .unknown → st2[j]? = some x := by
  have hne : m ≠ .unknown := by rcases hm with ⟨rfl, -⟩ | ⟨rfl, -⟩ <;> decide
  have hne' : m' ≠ .unknown := by rcases hm with ⟨-, rfl⟩ | ⟨-, rfl⟩ <;> decide
  have hfit : ∀ e, Fit lab m' e ↔ Fit lab m e := by
    intro e
    rcases hm with ⟨rfl, rfl⟩ | ⟨rfl, rfl⟩ <;> exact Iff.rfl
  have hsame : ∀ e e', (lab e' ↔ lab e) → (Fit lab m e → Fit lab m e') := by
    intro e e' h
    rcases hm with ⟨rfl, -⟩ | ⟨rfl, -⟩ <;> simp only [Fit] <;> rw [h] <;> exact id
  obtain ⟨st1, g1, g2, g3, g4⟩ := markLoop_ok hN S hne k.edge st I.len I.fits (fun e he =>
    ⟨comp_lt hN (List.mem_of_getElem? hk) he, fun e' h => hsame e e' h (I.fits i k m hk hi e he)⟩)
  have hil : i < st1.length := by rw [g2.len]; exact (List.getElem?_eq_some_iff.mp hi).1
  have hset : ∀ j : Nat, (st1.set i m')[j]? = if i = j then some m' else st1[j]? := by
    intro j
    rw [List.getElem?_set]
    by_cases q : i = j
    · subst q
      rw [if_pos rfl, if_pos rfl, if_pos hil]
    · rw [if_neg q, if_neg q]
  have hknown : ∀ j : Nat, st1[j]? ≠ some .unknown → (st1.set i m')[j]? ≠ some .unknown := by
    intro j hj
    rw [hset]
    split
    · exact fun q => hne' (Option.some.inj q)
    · exact hj
  refine ⟨st1, st1.set i m', g1, wr_lt hil, ⟨by simp [g2.len, I.len], ?_, ?_, ?_⟩, by rw [hset, if_pos rfl], ?_⟩
  · intro j c x hc hx e he
    rw [hset] at hx
    split at hx
    · next q =>
      subst q
      cases hx
      rw [hk] at hc
      cases hc
      exact (hfit e).mpr (I.fits i k m hk hi e he)
    · exact g3 j c x hc hx e he
  · intro e he j c hc hec
    exact hknown j (g2.known hne (I.seeds e he j c hc hec))
  · intro j c x hc hx hw e he n0 n1 j' d hd' hin
    rw [hset] at hx
    split at hx
    · next q =>
      subst q
      rw [hk] at hc
      cases hc
      exact hknown j' (g4 e he n0 n1 j' d hd' hin)
    · have hxn : x ≠ .unknown := by rcases hw with rfl | rfl <;> decide
      have hst : st[j]? = some x := by
        have hl : j < st.length := by rw [← g2.len]; exact (List.getElem?_eq_some_iff.mp hx).1
        have hy := List.getElem?_eq_getElem hl
        by_cases e : st[j] = .unknown
        · rw [e] at hy
          rcases g2.new j hy with q | q
          · rw [q] at hx
            exact absurd (Option.some.inj hx).symm hxn
          · rw [q] at hx
            have hmx := Option.some.inj hx
            rcases hm with ⟨rfl, -⟩ | ⟨rfl, -⟩ <;> rcases hw with rfl | rfl <;> simp at hmx
        · rw [← hx, g2.keep j _ hy e]
          exact hy
      exact hknown j' (g2.known hne (I.nb j c x hc hst hw e he n0 n1 j' d hd' hin))
  · intro j x hji hx hne
    rw [hset, if_neg (Ne.symm hji)]
    exact g2.keep j x hx hne

theorem pass_ok : ∀ (l pre : List Comp) (st : List Mark), pd.comp = pre ++ l → Inv pd s lab st →
    ∃ st', pass pd s.c0 s.c1 l pre.length st = .ok st' ∧ Inv pd s lab st' ∧
      (∀ (j : Nat) (x : Mark), st[j]? = some x → Walked x → st'[j]? = some x) ∧
      ∀ j : Nat, pre.length ≤ j → (st[j]? = some (.a false) ∨ st[j]? = some (.b false)) → ∃ y, st'[j]? = some y ∧ Walked y := by
  intro l
  induction l with
  | nil =>
    intro pre st h I
    refine ⟨st, rfl, I, fun _ _ h _ => h, ?_⟩
    intro j hj hst
    have : j < st.length := by
      rcases hst with q | q <;> exact (List.getElem?_eq_some_iff.mp q).1
    rw [I.len, h] at this
    simp at this
    omega
  | cons k l ih =>
    intro pre st h I
    have hk : pd.comp[pre.length]? = some k := by rw [h]; simp
    have hil : pre.length < st.length := by rw [I.len]; exact (List.getElem?_eq_some_iff.mp hk).1
    have hi := List.getElem?_eq_getElem hil
    have h' : pd.comp = (pre ++ [k]) ++ l := by rw [h]; simp
    have hl : (pre ++ [k]).length = pre.length + 1 := by simp
    have step : ∀ (m m' : Mark), ((m = .a false ∧ m' = .a true) ∨ (m = .b false ∧ m' = .b true)) → st[pre.length]? = some m →
        ∃ st1 st2 st', markLoop pd s.c0 s.c1 m k.edge st = .ok st1 ∧ wr st1 pre.length m' = .ok st2 ∧
          pass pd s.c0 s.c1 l (pre.length + 1) st2 = .ok st' ∧ Inv pd s lab st' ∧
          (∀ (j : Nat) (x : Mark), st[j]? = some x → Walked x → st'[j]? = some x) ∧
          ∀ j : Nat, pre.length ≤ j → (st[j]? = some (.a false) ∨ st[j]? = some (.b false)) → ∃ y, st'[j]? = some y ∧ Walked y := by
      intro m m' hm hst
      obtain ⟨st1, st2, g1, g2, g3, g4, g5⟩ := walk_one hN S I hk hm hst
      obtain ⟨st', f1, f2, f3, f4⟩ := ih (pre ++ [k]) st2 h' g3
      rw [hl] at f1 f4
      have hwm : Walked m' := by rcases hm with ⟨-, rfl⟩ | ⟨-, rfl⟩ <;> simp [Walked]
      refine ⟨st1, st2, st', g1, g2, f1, f2, ?_, ?_⟩
      · intro j x hx hw
        have hxn : x ≠ .unknown := by rcases hw with rfl | rfl <;> decide
        refine f3 j x (g5 j x ?_ hx hxn) hw
        intro q
        subst q
        rw [hst] at hx
        have := Option.some.inj hx
        rcases hm with ⟨rfl, -⟩ | ⟨rfl, -⟩ <;> rcases hw with rfl | rfl <;> simp at this
      · intro j hj hs
        by_cases q : j = pre.length
        · subst q
          exact ⟨m', f3 _ _ g4 hwm, hwm⟩
        · refine f4 j (by omega) ?_
          rcases hs with hs | hs
          · exact .inl (g5 j _ q hs (by decide))
          · exact .inr (g5 j _ q hs (by decide))
    unfold pass
    rw [rd_ok hi, ok_bind]
    generalize hm : st[pre.length] = m at hi
    have skip : (m ≠ .a false ∧ m ≠ .b false) → ∃ st', pass pd s.c0 s.c1 l (pre.length + 1) st = .ok st' ∧ Inv pd s lab st' ∧
          (∀ (j : Nat) (x : Mark), st[j]? = some x → Walked x → st'[j]? = some x) ∧
          ∀ j : Nat, pre.length ≤ j → (st[j]? = some (.a false) ∨ st[j]? = some (.b false)) → ∃ y, st'[j]? = some y ∧ Walked y := by
      rintro ⟨n1, n2⟩
      obtain ⟨st', f1, f2, f3, f4⟩ := ih (pre ++ [k]) st h' I
      rw [hl] at f1 f4
      refine ⟨st', f1, f2, f3, ?_⟩
      intro j hj hs
      refine f4 j ?_ hs
      by_contra hlt
      have : j = pre.length := by omega
      subst this
      rw [hi] at hs
      rcases hs with hs | hs
      · exact n1 (Option.some.inj hs)
      · exact n2 (Option.some.inj hs)
    match m, hi, skip with
    | .a false, hi, _ =>
      obtain ⟨st1, st2, st', g1, g2, g3, g4⟩ := step _ _ (.inl ⟨rfl, rfl⟩) hi
      simp only
      rw [g1, ok_bind, g2, ok_bind]
      exact ⟨st', g3, g4⟩
    | .b false, hi, _ =>
      obtain ⟨st1, st2, st', g1, g2, g3, g4⟩ := step _ _ (.inr ⟨rfl, rfl⟩) hi
      simp only
      rw [g1, ok_bind, g2, ok_bind]
      exact ⟨st', g3, g4⟩
    | .a true, _, skip => exact skip ⟨by decide, by decide⟩
    | .b true, _, skip => exact skip ⟨by decide, by decide⟩
    | .unknown, _, skip => exact skip ⟨by decide, by decide⟩

/-- When every component with a mark has been walked, all have been walked. -/
theorem Inv.all {st : List Mark} (I : Inv pd s lab st) (L : LensAt pd.cross pd.edge s)
    (h : ∀ (i : Nat) (m : Mark), st[i]? = some m → m ≠ .unknown → Walked m) : ∀ (i : Nat) (m : Mark), st[i]? = some m → Walked m := by
  have hP := hN.tidy.plane
  have hC := hP.consistent
  have hO := hP.oriented
  have hK := hN.tidy.goodComps
  let M : Nat → Prop := fun e => ∃ (j : Nat) (c : Comp), pd.comp[j]? = some c ∧ e ∈ c.edge ∧ st[j]? ≠ some .unknown
  have hnx : ∀ e, e < pd.edge.length → (M (nx pd.cross pd.edge e) ↔ M e) := by
    intro e he
    constructor
    · rintro ⟨j, c, h1, h2, h3⟩
      exact ⟨j, c, h1, (mem_comp_nx hC hO hK (List.mem_of_getElem? h1) he).mp h2, h3⟩
    · rintro ⟨j, c, h1, h2, h3⟩
      exact ⟨j, c, h1, (mem_comp_nx hC hO hK (List.mem_of_getElem? h1) he).mpr h2, h3⟩
  have hseed : ∀ e, (e = s.a0 ∨ e = s.b0) → M e := by
    intro e he
    have hlt : e < pd.edge.length := by
      rcases he with rfl | rfl
      · exact L.la0
      · exact L.lb0
    obtain ⟨j, p, c, -, q2, q3⟩ := comp_of hN hlt
    exact ⟨j, c, q2, q3, I.seeds e he j c q2 q3⟩
  have hMa0 := hseed _ (.inl rfl)
  have hMb0 := hseed _ (.inr rfl)
  have hMa1 : M s.a1 := by rw [← L.na0, hnx _ L.la0]; exact hMa0
  have hMb1 : M s.b1 := by rw [← L.nb0, hnx _ L.lb0]; exact hMb0
  have hcross : ∀ e u, e < pd.edge.length → u < pd.edge.length → (hd pd.edge[u]!).1 = (hd pd.edge[e]!).1 → M e → M u := by
    intro e u he hu hh hMe
    by_cases hx : (hd pd.edge[u]!).1 = s.c0 ∨ (hd pd.edge[u]!).1 = s.c1
    · rcases (L.head_iff hC hO hu).mp hx with rfl | rfl | rfl | rfl
      · exact hMa0
      · exact hMa1
      · exact hMb0
      · exact hMb1
    · rw [hh] at hx
      have n0 : (hd pd.edge[e]!).1 ≠ s.c0 := fun q => hx (.inl q)
      have n1 : (hd pd.edge[e]!).1 ≠ s.c1 := fun q => hx (.inr q)
      by_cases hue : u = e
      · rw [hue]; exact hMe
      obtain ⟨q1, -, v, v1, v2, v3, v4⟩ := rightOf_lab hN S he n0 n1
      have hv : u = v := by
        rcases third_in hC hO he v1 hu (Ne.symm v2) v3.symm (hh.trans v3.symm) with q | q
        · exact absurd q hue
        · exact q
      subst hv
      obtain ⟨j, c, h1, h2, h3⟩ := hMe
      have hl : j < st.length := by rw [I.len]; exact (List.getElem?_eq_some_iff.mp h1).1
      have hst := List.getElem?_eq_getElem hl
      have hw := h j _ hst (by intro q; rw [hst, q] at h3; exact h3 rfl)
      obtain ⟨k, p, d, -, r2, r3⟩ := comp_of hN q1
      have hMo : M (rightOf pd.cross pd.edge e) := ⟨k, d, r2, r3, I.nb j c _ h1 hst hw e h2 n0 n1 k d r2 r3⟩
      rcases v4 with q | q
      · rw [q] at hMo; exact hMo
      · rw [q, hnx _ hu] at hMo; exact hMo
  have hg : ∀ e, e < pd.edge.length → ((∃ x, x < pd.edge.length ∧ (hd pd.edge[x]!).1 = (hd pd.edge[e]!).1 ∧ M x) ↔ M e) := by
    intro e he
    constructor
    · rintro ⟨x, x1, x2, x3⟩
      exact hcross x e x1 he x2.symm x3
    · exact fun q => ⟨e, he, rfl, q⟩
  have hallM : ∀ e, e < pd.edge.length → M e := by
    intro e he
    rw [← hg e he]
    refine (connected_prop hP.connected (g := fun c => ∃ x, x < pd.edge.length ∧ (hd pd.edge[x]!).1 = c ∧ M x) ?_
      (mem_P.mp (hd_mem hC he).1).1 (mem_P.mp (hd_mem hC L.la0).1).1).mpr ⟨s.a0, L.la0, rfl, hMa0⟩
    intro r hr
    obtain ⟨e, he⟩ := List.mem_iff_getElem?.mp hr
    obtain ⟨g1, g2⟩ := getBang he
    obtain ⟨p, p1, p2⟩ := prev_ex hC hO g2
    have t1 := hg e g2
    have t2 := hg p p1
    rw [← tl_nx hC hO p1, p2, ← hnx p p1, p2] at t2
    rw [g1] at t1 t2
    exact t1.trans t2.symm
  intro i m hm
  refine h i m hm ?_
  rintro rfl
  have hl : i < pd.comp.length := by rw [← I.len]; exact (List.getElem?_eq_some_iff.mp hm).1
  have hc := List.getElem?_eq_getElem hl
  obtain ⟨-, -, k3, -⟩ := goodComps_of_retag hK
  obtain ⟨e, he⟩ := List.exists_mem_of_ne_nil _ (k3 _ (List.mem_of_getElem? hc))
  obtain ⟨j, c, h1, h2, h3⟩ := hallM e (comp_lt hN (List.mem_of_getElem? hc) he)
  rw [← comp_unique hK hc h1 he h2] at h3
  exact h3 hm

open Classical in
theorem passes_ok (L : LensAt pd.cross pd.edge s) : ∀ (n : Nat) (st : List Mark), Inv pd s lab st →
    ((Finset.range pd.comp.length).filter (Todo st)).card < n →
    ∃ st', passes pd s.c0 s.c1 n st = .ok st' ∧ Inv pd s lab st' ∧ ∀ (i : Nat) (m : Mark), st'[i]? = some m → Walked m := by
  intro n
  induction n with
  | zero => intro st I h; omega
  | succ n ih =>
    intro st I hcard
    obtain ⟨st1, g1, g2, g3, g4⟩ := pass_ok hN S pd.comp [] st rfl I
    have hall : allWalked st1 = true ↔ ∀ (i : Nat) (m : Mark), st1[i]? = some m → Walked m := by
      unfold allWalked
      rw [List.all_eq_true]
      constructor
      · intro q i m hm
        simpa [Walked] using q m (List.mem_of_getElem? hm)
      · intro q m hm
        obtain ⟨i, hi⟩ := List.mem_iff_getElem?.mp hm
        simpa [Walked] using q i m hi
    unfold passes
    rw [show ([] : List Comp).length = 0 from rfl] at g1
    rw [g1, ok_bind]
    by_cases hw : allWalked st1 = true
    · rw [if_pos hw]
      exact ⟨st1, rfl, g2, hall.mp hw⟩
    · rw [if_neg hw]
      refine ih st1 g2 ?_
      have hex : ∃ (i : Nat) (m : Mark), st[i]? = some m ∧ m ≠ .unknown ∧ ¬ Walked m := by
        by_contra hno
        apply hw
        rw [hall]
        have hA := Inv.all hN S I L (fun i m hm hne => by
          by_contra hnw
          exact hno ⟨i, m, hm, hne, hnw⟩)
        intro i m hm
        have hl : i < st.length := by rw [I.len, ← g2.len]; exact (List.getElem?_eq_some_iff.mp hm).1
        have hst := List.getElem?_eq_getElem hl
        have := g3 i _ hst (hA i _ hst)
        rw [hm] at this
        rw [Option.some.inj this]
        exact hA i _ hst
      obtain ⟨i, m, hm, hne, hnw⟩ := hex
      have hab : st[i]? = some (.a false) ∨ st[i]? = some (.b false) := by
        match m, hm, hne, hnw with
        | .a false, hm, _, _ => exact .inl hm
        | .b false, hm, _, _ => exact .inr hm
        | .a true, _, _, hnw => exact absurd (.inl rfl) hnw
        | .b true, _, _, hnw => exact absurd (.inr rfl) hnw
        | .unknown, _, hne, _ => exact absurd rfl hne
      obtain ⟨y, y1, y2⟩ := g4 i (Nat.zero_le _) hab
      have hlt : ((Finset.range pd.comp.length).filter (Todo st1)).card <
          ((Finset.range pd.comp.length).filter (Todo st)).card := by
        apply Finset.card_lt_card
        rw [Finset.ssubset_iff_of_subset]
        · refine ⟨i, ?_, ?_⟩
          · rw [Finset.mem_filter, Finset.mem_range, ← I.len]
            refine ⟨(List.getElem?_eq_some_iff.mp hm).1, ?_⟩
            rintro ⟨x, x1, x2⟩
            rw [hm] at x1
            cases x1
            exact hnw x2
          · rw [Finset.mem_filter]
            rintro ⟨-, q⟩
            exact q ⟨y, y1, y2⟩
        · intro j hj
          rw [Finset.mem_filter] at hj ⊢
          refine ⟨hj.1, ?_⟩
          rintro ⟨x, x1, x2⟩
          exact hj.2 ⟨x, g3 j x x1 x2, x2⟩
      omega

end

theorem mem_edgesOf (m : Mark) : ∀ (l : List Comp) (st : List Mark) (e : Nat),
    e ∈ edgesOf m l st ↔ ∃ (i : Nat) (c : Comp), l[i]? = some c ∧ st[i]? = some m ∧ e ∈ c.edge
  | [], st, e => by
    cases st <;> simp [edgesOf]
  | k :: l, [], e => by simp [edgesOf]
  | k :: l, x :: st, e => by
    unfold edgesOf
    rw [List.mem_append, mem_edgesOf m l st e]
    constructor
    · rintro (h | ⟨i, c, h1, h2, h3⟩)
      · split at h
        · next q => exact ⟨0, k, rfl, by simp [q], h⟩
        · exact absurd h List.not_mem_nil
      · exact ⟨i + 1, c, by simpa using h1, by simpa using h2, h3⟩
    · rintro ⟨i, c, h1, h2, h3⟩
      cases i with
      | zero =>
        simp only [List.getElem?_cons_zero, Option.some.injEq] at h1 h2
        rw [if_pos h2, h1]
        exact .inl h3
      | succ i => exact .inr ⟨i, c, by simpa using h1, by simpa using h2, h3⟩

theorem edgesOf_sublist (m : Mark) : ∀ (l : List Comp) (st : List Mark), (edgesOf m l st).Sublist (l.flatMap (·.edge))
  | [], st => by cases st <;> simp [edgesOf]
  | k :: l, [] => by simp [edgesOf]
  | k :: l, x :: st => by
    unfold edgesOf
    rw [List.flatMap_cons]
    refine List.Sublist.append ?_ (edgesOf_sublist m l st)
    split
    · exact List.Sublist.refl _
    · exact List.nil_sublist _

open Classical in
/-- The marks which the function ends with. -/
theorem walk_ok {pd : Io.Pd} (hN : Neat pd) {s : Site} {lab : Nat → Prop} (S : Separates pd.cross pd.edge s.c0 s.c1 lab)
    (L : LensAt pd.cross pd.edge s) (ha : lab s.a0) (hb : ¬ lab s.b0) :
    ∃ (kA pA kB pB : Nat) (cA cB : Comp) (st0 st1 st : List Mark), Strands.compAndPos pd.edge.length pd.comp s.a0 = .ok (kA, pA) ∧
      Strands.compAndPos pd.edge.length pd.comp s.b0 = .ok (kB, pB) ∧ kA ≠ kB ∧ pd.comp[kA]? = some cA ∧ pd.comp[kB]? = some cB ∧
      s.a0 ∈ cA.edge ∧ s.b0 ∈ cB.edge ∧
      wr (List.replicate pd.comp.length Mark.unknown) kA (.a false) = .ok st0 ∧ wr st0 kB (.b false) = .ok st1 ∧
      passes pd s.c0 s.c1 (pd.comp.length + 1) st1 = .ok st ∧
      (∀ e, e ∈ edgesOf (.a true) pd.comp st ↔ e < pd.edge.length ∧ lab e) ∧
      (∀ e, e ∈ edgesOf (.b true) pd.comp st ↔ e < pd.edge.length ∧ ¬ lab e) ∧
      (edgesOf (.a true) pd.comp st).Nodup ∧ (edgesOf (.b true) pd.comp st).Nodup := by
  have hP := hN.tidy.plane
  have hC := hP.consistent
  have hK := hN.tidy.goodComps
  obtain ⟨kA, pA, cA, a1, a2, a3⟩ := comp_of hN L.la0
  obtain ⟨kB, pB, cB, b1, b2, b3⟩ := comp_of hN L.lb0
  have hlab := fun {c : Comp} (hc : c ∈ pd.comp) {e e' : Nat} => lab_const hC hK S.along hc (e := e) (e' := e')
  have hne : kA ≠ kB := by
    rintro rfl
    rw [a2] at b2
    cases b2
    exact hb ((hlab (List.mem_of_getElem? a2) a3 b3).mp ha)
  have lA : kA < pd.comp.length := (List.getElem?_eq_some_iff.mp a2).1
  have lB : kB < pd.comp.length := (List.getElem?_eq_some_iff.mp b2).1
  have w1 : wr (List.replicate pd.comp.length Mark.unknown) kA (.a false) =
      .ok ((List.replicate pd.comp.length Mark.unknown).set kA (.a false)) := wr_lt (by simpa using lA)
  have w2 : wr ((List.replicate pd.comp.length Mark.unknown).set kA (.a false)) kB (.b false) =
      .ok (((List.replicate pd.comp.length Mark.unknown).set kA (.a false)).set kB (.b false)) := wr_lt (by simpa using lB)
  have hget : ∀ i : Nat, i < pd.comp.length → (((List.replicate pd.comp.length Mark.unknown).set kA (.a false)).set kB (.b false))[i]? =
      some (if i = kB then .b false else if i = kA then .a false else .unknown) := by
    intro i hi
    rw [List.getElem?_set, List.getElem?_set]
    by_cases q1 : i = kB
    · subst q1
      rw [if_pos rfl, if_pos rfl, if_pos (by simpa using hi)]
    · rw [if_neg (Ne.symm q1), if_neg q1]
      by_cases q2 : i = kA
      · subst q2
        rw [if_pos rfl, if_pos rfl, if_pos (by simpa using hi)]
      · rw [if_neg (Ne.symm q2), if_neg q2, List.getElem?_replicate, if_pos hi]
  have hlen : (((List.replicate pd.comp.length Mark.unknown).set kA (.a false)).set kB (.b false)).length = pd.comp.length := by simp
  have I : Inv pd s lab (((List.replicate pd.comp.length Mark.unknown).set kA (.a false)).set kB (.b false)) := by
    refine ⟨hlen, ?_, ?_, ?_⟩
    · intro i c m hc hm e he
      have hi := (List.getElem?_eq_some_iff.mp hc).1
      rw [hget i hi] at hm
      have hm := (Option.some.inj hm).symm
      subst hm
      by_cases q1 : i = kB
      · subst q1
        rw [if_pos rfl]
        rw [b2] at hc
        cases hc
        exact fun q => hb ((hlab (List.mem_of_getElem? b2) he b3).mp q)
      · rw [if_neg q1]
        by_cases q2 : i = kA
        · subst q2
          rw [if_pos rfl]
          rw [a2] at hc
          cases hc
          exact (hlab (List.mem_of_getElem? a2) he a3).mpr ha
        · rw [if_neg q2]
          trivial
    · rintro e he i c hc hec
      have hi := (List.getElem?_eq_some_iff.mp hc).1
      rw [hget i hi]
      rcases he with rfl | rfl
      · rw [comp_unique hK hc a2 hec a3, if_neg hne, if_pos rfl]
        simp
      · rw [comp_unique hK hc b2 hec b3, if_pos rfl]
        simp
    · intro i c m hc hm hw
      have hi := (List.getElem?_eq_some_iff.mp hc).1
      rw [hget i hi] at hm
      have hm := (Option.some.inj hm).symm
      subst hm
      exfalso
      revert hw
      split
      · rintro (q | q) <;> simp at q
      · split
        · rintro (q | q) <;> simp at q
        · rintro (q | q) <;> simp at q
  obtain ⟨st, g1, g2, g3⟩ := passes_ok hN S L (pd.comp.length + 1) _ I (by
    refine Nat.lt_succ_of_le ((Finset.card_filter_le _ _).trans ?_)
    rw [Finset.card_range])
  have hmem : ∀ e, e < pd.edge.length → ∃ (j : Nat) (c : Comp) (m : Mark), pd.comp[j]? = some c ∧ e ∈ c.edge ∧ st[j]? = some m ∧ Walked m := by
    intro e he
    obtain ⟨j, p, c, -, q2, q3⟩ := comp_of hN he
    have hl : j < st.length := by rw [g2.len]; exact (List.getElem?_eq_some_iff.mp q2).1
    have hst := List.getElem?_eq_getElem hl
    exact ⟨j, c, _, q2, q3, hst, g3 j _ hst⟩
  have hnd : (pd.comp.flatMap (·.edge)).Nodup := by
    rw [(goodComps_of_retag hK).1]
    exact List.nodup_range
  refine ⟨kA, pA, kB, pB, cA, cB, _, _, st, a1, b1, hne, a2, b2, a3, b3, w1, w2, g1, ?_, ?_, hnd.sublist (edgesOf_sublist _ _ _),
    hnd.sublist (edgesOf_sublist _ _ _)⟩
  · intro e
    rw [mem_edgesOf]
    constructor
    · rintro ⟨i, c, h1, h2, h3⟩
      exact ⟨comp_lt hN (List.mem_of_getElem? h1) h3, g2.fits i c _ h1 h2 e h3⟩
    · rintro ⟨h1, h2⟩
      obtain ⟨j, c, m, q1, q2, q3, q4⟩ := hmem e h1
      rcases q4 with rfl | rfl
      · exact ⟨j, c, q1, q3, q2⟩
      · exact absurd h2 (g2.fits j c _ q1 q3 e q2)
  · intro e
    rw [mem_edgesOf]
    constructor
    · rintro ⟨i, c, h1, h2, h3⟩
      exact ⟨comp_lt hN (List.mem_of_getElem? h1) h3, g2.fits i c _ h1 h2 e h3⟩
    · rintro ⟨h1, h2⟩
      obtain ⟨j, c, m, q1, q2, q3, q4⟩ := hmem e h1
      rcases q4 with rfl | rfl
      · exact absurd (g2.fits j c _ q1 q3 e q2) h2
      · exact ⟨j, c, q1, q3, q2⟩

end Plc
