import Verif.Proofs.IsoFaces
import Verif.Proofs.Linking
import Verif.Spec.Iso

/-! # What `pd_iso_consistent` checks -/

namespace Plc.IsoSearch

open Plc.Cmp Plc.PermM Plc.Emap Plc.Isos Plc.Iters Plc.Ok List

/-- A check that returns, and says whether something is true. -/
def Decides (r : Res Bool) (P : Prop) : Prop := ∃ b, r = .ok b ∧ (b = true ↔ P)

theorem Decides.congr {r : Res Bool} {P Q : Prop} (h : Decides r P) (e : P ↔ Q) : Decides r Q := by
  obtain ⟨b, h1, h2⟩ := h
  exact ⟨b, h1, h2.trans e⟩

theorem Decides.andThen {r s : Res Bool} {P Q : Prop} (h : Decides r P) (h' : P → Decides s Q) :
    Decides (do let b ← r; if b then s else .ok false) (P ∧ Q) := by
  obtain ⟨b, h1, h2⟩ := h
  rw [h1, ok_bind]
  cases b with
  | true =>
    have hP := h2.mp rfl
    obtain ⟨c, c1, c2⟩ := h' hP
    exact ⟨c, by rw [if_pos rfl, c1], c2.trans (by simp [hP])⟩
  | false =>
    refine ⟨false, by simp, ?_⟩
    have : ¬ P := fun hP => by simpa using h2.mpr hP
    simp [this]

theorem Decides.stop {P : Prop} (h : ¬ P) : Decides (.ok false) P := ⟨false, rfl, by simp [h]⟩

/-! ### Looking up edges -/

theorem findPos_at {e : Nat} : ∀ {l : List Nat} {p : Nat} (i : Nat), l.Nodup → l[p]? = some e →
    Strands.findPos e l i = some (i + p)
  | [], p, i, _, h => by simp at h
  | x :: l, p, i, hn, h => by
    rw [Strands.findPos]
    cases p with
    | zero =>
      simp only [List.getElem?_cons_zero, Option.some.injEq] at h
      rw [if_pos h, Nat.add_zero]
    | succ p =>
      rw [List.getElem?_cons_succ] at h
      rw [List.nodup_cons] at hn
      rw [if_neg (fun hx => hn.1 (by rw [hx]; exact List.mem_of_getElem? h)), findPos_at (i + 1) hn.2 h]
      congr 1
      omega

theorem findComp_at {e : Nat} : ∀ {l : List Comp} {j p : Nat} {c : Comp} (i : Nat), (l.flatMap (·.edge)).Nodup →
    l[j]? = some c → c.edge[p]? = some e → Strands.findComp e l i = .ok (i + j, p)
  | [], j, p, c, i, _, h, _ => by simp at h
  | x :: l, j, p, c, i, hn, h, h' => by
    rw [List.flatMap_cons, List.nodup_append] at hn
    rw [Strands.findComp]
    cases j with
    | zero =>
      simp only [List.getElem?_cons_zero, Option.some.injEq] at h
      subst h
      rw [findPos_at 0 hn.1 h']
      simp
    | succ j =>
      rw [List.getElem?_cons_succ] at h
      have hx : e ∉ x.edge := by
        intro he
        exact hn.2.2 e he e (List.mem_flatMap.mpr ⟨c, List.mem_of_getElem? h, List.mem_of_getElem? h'⟩) rfl
      rw [(Strands.findPos_spec e x.edge 0).2 hx]
      simp only
      rw [findComp_at (i + 1) hn.2.1 h h']
      congr 2
      omega

theorem compAndPos_at {K : List Comp} {n j p e : Nat} {c : Comp} (hK : K.flatMap (·.edge) ~ List.range n)
    (hj : K[j]? = some c) (hp : c.edge[p]? = some e) : Strands.compAndPos n K e = .ok (j, p) := by
  have he : e < n := List.mem_range.mp (hK.mem_iff.mp (List.mem_flatMap.mpr ⟨c, List.mem_of_getElem? hj, List.mem_of_getElem? hp⟩))
  unfold Strands.compAndPos
  rw [assertC_ok (by simpa using he), ok_bind, findComp_at 0 (hK.nodup_iff.mpr List.nodup_range) hj hp, Nat.zero_add]

theorem comp_index_unique {K : List Comp} {n i j e : Nat} {a b : Comp} (hK : K.flatMap (·.edge) ~ List.range n)
    (ha : K[i]? = some a) (hb : K[j]? = some b) (h1 : e ∈ a.edge) (h2 : e ∈ b.edge) : i = j := by
  obtain ⟨p, hp⟩ := List.mem_iff_getElem?.mp h1
  obtain ⟨q, hq⟩ := List.mem_iff_getElem?.mp h2
  have := (compAndPos_at hK ha hp).symm.trans (compAndPos_at hK hb hq)
  cases this
  rfl

/-! ### The separate checks -/

theorem sizesAgree_ok {B : List Comp} {cp : List Nat} : ∀ (l : List Comp) (c : Nat),
    (∀ i, i < l.length → ∃ t b, cp[c + i]? = some t ∧ B[t]? = some b) →
    Decides (sizesAgree B cp l c)
      (∀ (i : Nat) k, l[i]? = some k → ∃ t b, cp[c + i]? = some t ∧ B[t]? = some b ∧ b.edge.length = k.edge.length)
  | [], c, _ => ⟨true, rfl, by simp⟩
  | k :: l, c, h => by
    obtain ⟨t, b, t1, t2⟩ := h 0 (by simp)
    rw [Nat.add_zero] at t1
    rw [sizesAgree, rd_eq_ok.mpr t1, ok_bind, rd_eq_ok.mpr t2, ok_bind]
    by_cases he : k.edge.length = b.edge.length
    · rw [if_neg (by simp [he])]
      refine (sizesAgree_ok l (c + 1) (fun i hi => by
        have := h (i + 1) (by simpa using hi)
        rwa [show c + (i + 1) = c + 1 + i by omega] at this)).congr ?_
      constructor
      · intro h' i k' hk
        cases i with
        | zero =>
          simp only [List.getElem?_cons_zero, Option.some.injEq] at hk
          subst hk
          exact ⟨t, b, by simpa using t1, t2, he.symm⟩
        | succ i =>
          have := h' i k' (by simpa using hk)
          rwa [show c + 1 + i = c + (i + 1) by omega] at this
      · intro h' i k' hk
        have := h' (i + 1) k' (by simpa using hk)
        rwa [show c + (i + 1) = c + 1 + i by omega] at this
    · rw [if_pos he]
      apply Decides.stop
      intro h'
      obtain ⟨t', b', a1, a2, a3⟩ := h' 0 k (by simp)
      rw [Nat.add_zero, t1] at a1
      cases a1
      rw [t2] at a2
      cases a2
      exact he a3.symm

theorem allOr_ok {os : List Or} {o : Or} : ∀ (l : List Nat), (∀ e ∈ l, e < os.length) →
    Decides (allOr os o l) (∀ e ∈ l, os[e]? = some o)
  | [], _ => ⟨true, rfl, by simp⟩
  | e :: l, h => by
    have he := h e (by simp)
    rw [allOr, rd_lt he, ok_bind]
    by_cases hx : os[e] = o
    · rw [if_neg (by simp [hx])]
      refine (allOr_ok l (fun x hx => h x (by simp [hx]))).congr ?_
      simp only [List.mem_cons, forall_eq_or_imp, List.getElem?_eq_getElem he, hx, true_and]
    · rw [if_pos hx]
      apply Decides.stop
      intro h'
      have := h' e (by simp)
      rw [List.getElem?_eq_getElem he, Option.some.injEq] at this
      exact hx this

theorem compOrs_ok {os : List Or} : ∀ (K : List Comp), (∀ k ∈ K, k.edge ≠ [] ∧ ∀ e ∈ k.edge, e < os.length) →
    (∃ r, compOrs os K = .ok (some r) ∧ r.length = K.length ∧ ∀ (c : Nat) k, K[c]? = some k → ∃ o, r[c]? = some o ∧
      ∀ e ∈ k.edge, os[e]? = some o) ∨
    (compOrs os K = .ok none ∧ ∃ k ∈ K, ∀ o, ¬ ∀ e ∈ k.edge, os[e]? = some o)
  | [], _ => Or.inl ⟨[], rfl, rfl, by simp⟩
  | k :: K, h => by
    obtain ⟨h1, h2⟩ := h k (by simp)
    obtain ⟨e, es, hes⟩ := List.exists_cons_of_ne_nil h1
    have he : e < os.length := h2 e (by simp [hes])
    have h0 : k.edge[0]? = some e := by simp [hes]
    rw [compOrs, rd_eq_ok.mpr h0, ok_bind, rd_lt he, ok_bind]
    obtain ⟨b, b1, b2⟩ := allOr_ok (o := os[e]) (k.edge.drop 1) (fun x hx => h2 x (List.mem_of_mem_drop hx))
    rw [b1, ok_bind]
    have hall : (∀ x ∈ k.edge.drop 1, os[x]? = some os[e]) → ∀ x ∈ k.edge, os[x]? = some os[e] := by
      intro hd x hx
      rw [hes] at hx hd
      rw [List.mem_cons] at hx
      rcases hx with rfl | hx
      · exact List.getElem?_eq_getElem he
      · exact hd x (by simpa using hx)
    cases b with
    | true =>
      have hk := hall (b2.mp rfl)
      rw [if_pos rfl]
      rcases compOrs_ok K (fun k hk => h k (by simp [hk])) with ⟨r, r1, r2, r3⟩ | ⟨r1, k', k1, k2⟩
      · left
        rw [r1, ok_bind]
        refine ⟨os[e] :: r, rfl, by simp [r2], ?_⟩
        intro c k' hc
        cases c with
        | zero =>
          simp only [List.getElem?_cons_zero, Option.some.injEq] at hc
          subst hc
          exact ⟨os[e], by simp, hk⟩
        | succ c => exact r3 c k' (by simpa using hc)
      · right
        rw [r1, ok_bind]
        exact ⟨rfl, k', by simp [k1], k2⟩
    | false =>
      right
      refine ⟨by simp, k, by simp, ?_⟩
      intro o ho
      have : o = os[e] := by
        have := ho e (by simp [hes])
        rw [List.getElem?_eq_getElem he, Option.some.injEq] at this
        exact this.symm
      subst this
      have := b2.mpr (fun x hx => ho x (List.mem_of_mem_drop hx))
      simp at this

/-- One step around a cycle of `n` places. -/
def Step (o : Or) (n a b : Nat) : Prop := if o = .pos then b = (a + 1) % n else a = (b + 1) % n

instance (o : Or) (n a b : Nat) : Decidable (Step o n a b) := by unfold Step; infer_instance

theorem steps_dihedral {o : Or} (ho : o ≠ .unset) {n : Nat} (h0 : 0 < n) {p : Nat → Nat} (hp : ∀ i, i < n → p i < n) :
    (∀ i, i < n → Step o n (p i) (p ((i + 1) % n))) ↔ IsDihedral n ⟨(List.range n).map p, o⟩ := by
  have hget : ∀ i, i < n → ((List.range n).map p)[i]? = some (p i) := by
    intro i hi
    simp [hi]
  cases o with
  | unset => exact absurd rfl ho
  | pos =>
    unfold IsDihedral IsRotation
    simp only [true_and, reduceCtorEq, false_and, or_false, List.length_map, List.length_range]
    constructor
    · intro h
      have key : ∀ i, i < n → p i = (i + p 0) % n := by
        intro i
        induction i with
        | zero => intro hi; rw [Nat.zero_add, Nat.mod_eq_of_lt (hp 0 hi)]
        | succ i ih =>
          intro hi
          have := h i (by omega)
          unfold Step at this
          rw [if_pos rfl, Nat.mod_eq_of_lt hi, ih (by omega), Nat.mod_add_mod] at this
          rw [this]
          congr 1
          omega
      refine ⟨p 0, hp 0 h0, ?_⟩
      intro j hj
      rw [hget j hj, key j hj]
    · rintro ⟨k, hk, h⟩ i hi
      have e1 := (hget i hi).symm.trans (h i hi)
      have hi' : (i + 1) % n < n := Nat.mod_lt _ h0
      have e2 := (hget _ hi').symm.trans (h _ hi')
      rw [Option.some.injEq] at e1 e2
      unfold Step
      rw [if_pos rfl, e2, e1, Nat.mod_add_mod, Nat.mod_add_mod]
      congr 1
      omega
  | neg =>
    unfold IsDihedral IsReflection
    simp only [true_and, reduceCtorEq, false_and, false_or, List.length_map, List.length_range]
    constructor
    · intro h
      have key : ∀ i, i < n → (p i + i) % n = p 0 := by
        intro i
        induction i with
        | zero => intro hi; rw [Nat.add_zero, Nat.mod_eq_of_lt (hp 0 hi)]
        | succ i ih =>
          intro hi
          have := h i (by omega)
          unfold Step at this
          rw [if_neg (by decide), Nat.mod_eq_of_lt hi] at this
          rw [← ih (by omega), this, Nat.mod_add_mod]
          congr 1
          omega
      refine ⟨p 0, hp 0 h0, ?_⟩
      intro j hj
      exact ⟨p j, hget j hj, hp j hj, key j hj⟩
    · rintro ⟨k, hk, h⟩ i hi
      have hi' : (i + 1) % n < n := Nat.mod_lt _ h0
      obtain ⟨v, v1, v2, v3⟩ := h i hi
      obtain ⟨w, w1, w2, w3⟩ := h _ hi'
      rw [hget i hi, Option.some.injEq] at v1
      rw [hget _ hi', Option.some.injEq] at w1
      subst v1 w1
      unfold Step
      rw [if_neg (by decide)]
      have e : (p i + i) % n = (p ((i + 1) % n) + 1 + i) % n := by
        rw [v3, ← w3, Nat.add_mod_mod]
        congr 1
        omega
      have := Nat.ModEq.add_right_cancel' i (show p i + i ≡ p ((i + 1) % n) + 1 + i [MOD n] from e)
      rw [← Nat.mod_eq_of_lt (hp i hi)]
      exact this

theorem orderAgrees_loop {B : Io.Pd} {m k : List Nat} {o : Or} (ho : o ≠ .unset)
    (hB : B.comp.flatMap (·.edge) ~ List.range B.edge.length) {t : Nat} {b : Comp} (hb : B.comp[t]? = some b)
    (hl : b.edge.length = k.length) (hs : k.length < 2 ^ 32) {p : Nat → Nat}
    (hp : ∀ (i x : Nat), k[i]? = some x → ∃ z, m[x]? = some z ∧ b.edge[p i]? = some z) :
    ∀ (n j : Nat), j + n = k.length →
    Decides (orderAgrees B m k o n j) (∀ i, j ≤ i → i < j + n → Step o k.length (p i) (p ((i + 1) % k.length)))
  | 0, j, _ => ⟨true, rfl, by simp; intro i h1 h2; omega⟩
  | n + 1, j, h => by
    have hj : j < k.length := by omega
    have hj' : (j + 1) % k.length < k.length := Nat.mod_lt _ (by omega)
    obtain ⟨z, z1, z2⟩ := hp j _ (List.getElem?_eq_getElem hj)
    obtain ⟨w, w1, w2⟩ := hp ((j + 1) % k.length) _ (List.getElem?_eq_getElem hj')
    have hpl : p j < k.length := by rw [← hl]; exact (List.getElem?_eq_some_iff.mp z2).1
    have hpl' : p ((j + 1) % k.length) < k.length := lt_of_lt_of_eq (List.getElem?_eq_some_iff.mp w2).1 hl
    have hcyc := C31_in_cyclic_order (p j) (p ((j + 1) % k.length)) k.length o ho hpl hpl' hs
    rw [orderAgrees, rd_lt hj, ok_bind, rd_lt hj', ok_bind, rd_eq_ok.mpr z1, ok_bind, rd_eq_ok.mpr w1, ok_bind,
      compAndPos_at hB hb z2, ok_bind]
    simp only
    rw [compAndPos_at hB hb w2, ok_bind]
    simp only
    rw [assertC_ok (by simp), ok_bind, rd_eq_ok.mpr hb, ok_bind, hl, hcyc, ok_bind]
    have hst : (if o = .pos then decide (p ((j + 1) % k.length) = (p j + 1) % k.length)
        else decide (p j = (p ((j + 1) % k.length) + 1) % k.length)) = decide (Step o k.length (p j) (p ((j + 1) % k.length))) := by
      unfold Step
      split <;> simp
    rw [hst]
    by_cases hS : Step o k.length (p j) (p ((j + 1) % k.length))
    · rw [decide_eq_true hS, if_pos rfl]
      refine (orderAgrees_loop ho hB hb hl hs hp n (j + 1) (by omega)).congr ?_
      constructor
      · intro h' i h1 h2
        rcases Nat.lt_or_eq_of_le h1 with h3 | h3
        · exact h' i (by omega) (by omega)
        · rw [← h3]; exact hS
      · intro h' i h1 h2
        exact h' i (by omega) (by omega)
    · rw [decide_eq_false hS, if_neg (by decide)]
      apply Decides.stop
      intro h'
      exact hS (h' j (le_refl _) (by omega))

/-- The check of one component. -/
theorem orderAgrees_ok {B : Io.Pd} {m k : List Nat} {o : Or} (ho : o ≠ .unset)
    (hB : B.comp.flatMap (·.edge) ~ List.range B.edge.length) {t : Nat} {b : Comp} (hb : B.comp[t]? = some b)
    (hl : b.edge.length = k.length) (h0 : 0 < k.length) (hs : k.length < 2 ^ 32) (hkm : ∀ x ∈ k, x < m.length)
    (hmem : ∀ x ∈ k, ∃ z, m[x]? = some z ∧ z ∈ b.edge) :
    Decides (orderAgrees B m k o k.length 0) (ListCarried (fun e => m[e]!) o k b.edge) := by
  have hbn : b.edge.Nodup := by
    have := hB.nodup_iff.mpr List.nodup_range
    rw [List.flatMap, List.nodup_flatten] at this
    exact this.1 _ (List.mem_map_of_mem (List.mem_of_getElem? hb))
  have hp : ∀ i : Nat, ∃ p : Nat, ∀ x : Nat, k[i]? = some x → ∃ z, m[x]? = some z ∧ b.edge[p]? = some z := by
    intro i
    cases hi : k[i]? with
    | none => exact ⟨0, by simp⟩
    | some x =>
      obtain ⟨z, z1, z2⟩ := hmem x (List.mem_of_getElem? hi)
      obtain ⟨p, hp⟩ := List.mem_iff_getElem?.mp z2
      refine ⟨p, ?_⟩
      intro y hy
      cases hy
      exact ⟨z, z1, hp⟩
  choose p hp using hp
  have hplt : ∀ i, i < k.length → p i < k.length := by
    intro i hi
    obtain ⟨z, _, z2⟩ := hp i _ (List.getElem?_eq_getElem hi)
    rw [← hl]
    exact (List.getElem?_eq_some_iff.mp z2).1
  have hmv : Moves m k b.edge ((List.range k.length).map p) := by
    intro j x hj
    obtain ⟨z, z1, z2⟩ := hp j x hj
    exact ⟨p j, z, by simp [(List.getElem?_eq_some_iff.mp hj).1], z2, z1⟩
  refine (orderAgrees_loop ho hB hb hl hs hp k.length 0 (by omega)).congr ?_
  have h1 : (∀ i, 0 ≤ i → i < 0 + k.length → Step o k.length (p i) (p ((i + 1) % k.length))) ↔
      ∀ i, i < k.length → Step o k.length (p i) (p ((i + 1) % k.length)) := by simp
  rw [h1, steps_dihedral ho h0 hplt]
  constructor
  · intro h
    exact carried_of_moves (d := ⟨(List.range k.length).map p, o⟩) hl h hmv
  · intro h
    obtain ⟨d, d1, d2, d3⟩ := moves_of_carried hl h0 ho hkm h
    have := d3.inj hbn hmv (dihedral_lt d1).1 (by simp)
    cases d
    simp only at this d2
    rw [← this, ← d2]
    exact d1

theorem ordersAgree_ok {B : Io.Pd} {m : List Nat} {P : Nat → Prop} : ∀ (K : List Comp) (os : List Or) (c : Nat),
    K.length = os.length →
    (∀ (i : Nat) k o, K[i]? = some k → os[i]? = some o → Decides (orderAgrees B m k.edge o k.edge.length 0) (P (c + i))) →
    Decides (ordersAgree B m K os) (∀ i, i < K.length → P (c + i))
  | [], [], c, _, _ => ⟨true, rfl, by simp⟩
  | [], _ :: _, c, h, _ => by simp at h
  | _ :: _, [], c, h, _ => by simp at h
  | k :: K, o :: os, c, hl, h => by
    have h0 := h 0 k o (by simp) (by simp)
    rw [ordersAgree]
    refine (h0.andThen (fun _ => ordersAgree_ok (P := P) K os (c + 1) (by simpa using hl) (fun i k' o' hk ho => by
      have := h (i + 1) k' o' (by simpa using hk) (by simpa using ho)
      rwa [show c + (i + 1) = c + 1 + i by omega] at this))).congr ?_
    constructor
    · rintro ⟨a, b⟩ i hi
      cases i with
      | zero => exact a
      | succ i =>
        have := b i (by simpa using hi)
        rwa [show c + 1 + i = c + (i + 1) by omega] at this
    · intro a
      refine ⟨a 0 (by simp), ?_⟩
      intro i hi
      have := a (i + 1) (by simpa using hi)
      rwa [show c + (i + 1) = c + 1 + i by omega] at this

/-- The orientation as the comparison of buffers reads it. -/
def asRead (o : Or) : Or := if o = .pos then .pos else .neg

theorem cyclicEq_carried {m l g : List Nat} {o : Or} (hl : l.length = g.length) (h0 : 0 < g.length)
    (hlt : ∀ x ∈ l, x < m.length) :
    Decides (buffersCyclicEq (l.map (ap m)) g g.length o) (ListCarried (fun e => m[e]!) (asRead o) l g) := by
  obtain ⟨b, b1, b2⟩ := C31_cyclic_equality (l.map (ap m)) g o (by simpa using hl) h0
  refine ⟨b, b1, b2.trans ?_⟩
  rw [map_ap_eq hlt]
  unfold ListCarried asRead
  by_cases ho : o = .pos
  · rw [if_pos ho, if_pos ho, if_neg (by decide)]
    exact List.isRotated_comm
  · rw [if_neg ho, if_neg ho, if_pos rfl, List.isRotated_comm, ← List.isRotated_reverse_iff, List.reverse_reverse]

theorem crossAgree_ok {B : List Cross} {m cm : List Nat} {o : Or} : ∀ (l : List Cross) (c : Nat),
    (∀ x ∈ l, ∀ k, x.at k < m.length) → (∀ i, i < l.length → ∃ t z, cm[c + i]? = some t ∧ B[t]? = some z) →
    Decides (crossAgree B m cm o l c)
      (∀ (i : Nat) x, l[i]? = some x → ∃ t z, cm[c + i]? = some t ∧ B[t]? = some z ∧
        CarriedTo (fun e => m[e]!) (asRead o) x z)
  | [], c, _, _ => ⟨true, rfl, by simp⟩
  | x :: l, c, hx, h => by
    obtain ⟨t, z, t1, t2⟩ := h 0 (by simp)
    rw [Nat.add_zero] at t1
    have hlt : ∀ y ∈ [x.e0, x.e1, x.e2, x.e3], y < m.length := by
      have h0 := hx x (by simp) 0
      have h1 := hx x (by simp) 1
      have h2 := hx x (by simp) 2
      have h3 := hx x (by simp) 3
      simp only [Cross.at, Nat.reduceMod] at h0 h1 h2 h3
      intro y hy
      simp only [List.mem_cons, List.not_mem_nil, or_false] at hy
      omega
    have hd : Decides (buffersCyclicEq ([x.e0, x.e1, x.e2, x.e3].map (ap m)) [z.e0, z.e1, z.e2, z.e3] 4 o)
        (CarriedTo (fun e => m[e]!) (asRead o) x z) :=
      (cyclicEq_carried (l := [x.e0, x.e1, x.e2, x.e3]) (g := [z.e0, z.e1, z.e2, z.e3]) rfl (by simp) hlt).congr Shape.carriedTo_iff.symm
    rw [crossAgree, composeMap_ok hlt, ok_bind, rd_eq_ok.mpr t1, ok_bind, rd_eq_ok.mpr t2, ok_bind]
    refine (hd.andThen (fun _ => crossAgree_ok l (c + 1) (fun y hy => hx y (by simp [hy])) (fun i hi => by
      have := h (i + 1) (by simpa using hi)
      rwa [show c + (i + 1) = c + 1 + i by omega] at this))).congr ?_
    constructor
    · rintro ⟨a, b⟩ i y hy
      cases i with
      | zero =>
        simp only [List.getElem?_cons_zero, Option.some.injEq] at hy
        subst hy
        exact ⟨t, z, by simpa using t1, t2, a⟩
      | succ i =>
        have := b i y (by simpa using hy)
        rwa [show c + 1 + i = c + (i + 1) by omega] at this
    · intro a
      constructor
      · obtain ⟨t', z', a1, a2, a3⟩ := a 0 x (by simp)
        rw [Nat.add_zero, t1] at a1
        cases a1
        rw [t2] at a2
        cases a2
        exact a3
      · intro i y hy
        have := a (i + 1) y (by simpa using hy)
        rwa [show c + (i + 1) = c + 1 + i by omega] at this

theorem faceSizesAgree_ok {B : List Face} {cp : List Nat} : ∀ (l : List Face) (c : Nat),
    (∀ i, i < l.length → ∃ t b, cp[c + i]? = some t ∧ B[t]? = some b) →
    Decides (faceSizesAgree B cp l c)
      (∀ (i : Nat) k, l[i]? = some k → ∃ t b, cp[c + i]? = some t ∧ B[t]? = some b ∧ b.edge.length = k.edge.length)
  | [], c, _ => ⟨true, rfl, by simp⟩
  | k :: l, c, h => by
    obtain ⟨t, b, t1, t2⟩ := h 0 (by simp)
    rw [Nat.add_zero] at t1
    rw [faceSizesAgree, rd_eq_ok.mpr t1, ok_bind, rd_eq_ok.mpr t2, ok_bind]
    by_cases he : k.edge.length = b.edge.length
    · rw [if_neg (by simp [he])]
      refine (faceSizesAgree_ok l (c + 1) (fun i hi => by
        have := h (i + 1) (by simpa using hi)
        rwa [show c + (i + 1) = c + 1 + i by omega] at this)).congr ?_
      constructor
      · intro h' i k' hk
        cases i with
        | zero =>
          simp only [List.getElem?_cons_zero, Option.some.injEq] at hk
          subst hk
          exact ⟨t, b, by simpa using t1, t2, he.symm⟩
        | succ i =>
          have := h' i k' (by simpa using hk)
          rwa [show c + 1 + i = c + (i + 1) by omega] at this
      · intro h' i k' hk
        have := h' (i + 1) k' (by simpa using hk)
        rwa [show c + (i + 1) = c + 1 + i by omega] at this
    · rw [if_pos he]
      apply Decides.stop
      intro h'
      obtain ⟨t', b', a1, a2, a3⟩ := h' 0 k (by simp)
      rw [Nat.add_zero, t1] at a1
      cases a1
      rw [t2] at a2
      cases a2
      exact he a3.symm

theorem facesAgree_ok {G : List Face} {m fm : List Nat} {o : Or} : ∀ (l : List Face) (c : Nat),
    (∀ f ∈ l, f.edge ≠ [] ∧ ∀ e ∈ f.edge, e < m.length) →
    (∀ (i : Nat) k, l[i]? = some k → ∃ t b, fm[c + i]? = some t ∧ G[t]? = some b ∧ b.edge.length = k.edge.length) →
    Decides (facesAgree G m fm o l c)
      (∀ (i : Nat) x, l[i]? = some x → ∃ t z, fm[c + i]? = some t ∧ G[t]? = some z ∧
        ListCarried (fun e => m[e]!) (asRead o) x.edge z.edge)
  | [], c, _, _ => ⟨true, rfl, by simp⟩
  | x :: l, c, hx, h => by
    obtain ⟨t, z, t1, t2, t3⟩ := h 0 x (by simp)
    rw [Nat.add_zero] at t1
    obtain ⟨h1, h2⟩ := hx x (by simp)
    have hd := cyclicEq_carried (g := z.edge) (o := o) t3.symm (by
      rw [t3]
      exact List.length_pos_iff.mpr h1) h2
    rw [facesAgree, composeMap_ok h2, ok_bind, rd_eq_ok.mpr t1, ok_bind, rd_eq_ok.mpr t2, ok_bind,
      assertC_ok (by simp [t3]), ok_bind]
    refine (hd.andThen (fun _ => facesAgree_ok l (c + 1) (fun y hy => hx y (by simp [hy])) (fun i k hk => by
      have := h (i + 1) k (by simpa using hk)
      rwa [show c + (i + 1) = c + 1 + i by omega] at this))).congr ?_
    constructor
    · rintro ⟨a, b⟩ i y hy
      cases i with
      | zero =>
        simp only [List.getElem?_cons_zero, Option.some.injEq] at hy
        subst hy
        exact ⟨t, z, by simpa using t1, t2, a⟩
      | succ i =>
        have := b i y (by simpa using hy)
        rwa [show c + 1 + i = c + (i + 1) by omega] at this
    · intro a
      constructor
      · obtain ⟨t', z', a1, a2, a3⟩ := a 0 x (by simp)
        rw [Nat.add_zero, t1] at a1
        cases a1
        rw [t2] at a2
        cases a2
        exact a3
      · intro i y hy
        have := a (i + 1) y (by simpa using hy)
        rwa [show c + (i + 1) = c + 1 + i by omega] at this

theorem edgesAgree_ok {A B : Io.Pd} {i : Iso} (hA : A.comp.flatMap (·.edge) ~ List.range A.edge.length)
    (hB : B.comp.flatMap (·.edge) ~ List.range B.edge.length) (hAB : A.edge.length = B.edge.length)
    (hκ : i.comp.map.length = A.comp.length) (hτ : i.emap.perm.map ~ List.range A.edge.length) :
    ∀ (n e : Nat), e + n = A.edge.length →
    Decides (edgesAgree A B i n e) (∀ x, e ≤ x → x < e + n → ∀ (c : Nat) k, A.comp[c]? = some k → x ∈ k.edge →
      ∃ t b z, i.comp.map[c]? = some t ∧ B.comp[t]? = some b ∧ i.emap.perm.map[x]? = some z ∧ z ∈ b.edge)
  | 0, e, _ => ⟨true, rfl, by simp; intro x h1 h2; omega⟩
  | n + 1, e, h => by
    have hel : e < A.edge.length := by omega
    obtain ⟨k, hk, hek⟩ := List.mem_flatMap.mp (hA.mem_iff.mpr (List.mem_range.mpr hel))
    obtain ⟨c, hc⟩ := List.mem_iff_getElem?.mp hk
    obtain ⟨p, hp⟩ := List.mem_iff_getElem?.mp hek
    have hτl : i.emap.perm.map.length = A.edge.length := by simpa using hτ.length_eq
    have hem : e < i.emap.perm.map.length := by omega
    have hz : i.emap.perm.map[e] < B.edge.length := by
      rw [← hAB]
      exact List.mem_range.mp (hτ.mem_iff.mp (List.getElem_mem hem))
    obtain ⟨k', hk', hek'⟩ := List.mem_flatMap.mp (hB.mem_iff.mpr (List.mem_range.mpr hz))
    obtain ⟨c', hc'⟩ := List.mem_iff_getElem?.mp hk'
    obtain ⟨p', hp'⟩ := List.mem_iff_getElem?.mp hek'
    have hcl : c < i.comp.map.length := by rw [hκ]; exact (List.getElem?_eq_some_iff.mp hc).1
    rw [edgesAgree, compAndPos_at hA hc hp, ok_bind]
    simp only
    rw [rd_lt hem, ok_bind, compAndPos_at hB hc' hp', ok_bind]
    simp only
    rw [rd_lt hcl, ok_bind]
    by_cases he : c' = i.comp.map[c]
    · rw [if_neg (by simp [he])]
      refine (edgesAgree_ok hA hB hAB hκ hτ n (e + 1) (by omega)).congr ?_
      constructor
      · intro h' x h1 h2 d l hd hl
        rcases Nat.lt_or_eq_of_le h1 with h3 | h3
        · exact h' x (by omega) (by omega) d l hd hl
        · subst h3
          have := comp_index_unique hA hd hc hl hek
          subst this
          exact ⟨_, k', _, List.getElem?_eq_getElem hcl, he ▸ hc', List.getElem?_eq_getElem hem, hek'⟩
      · intro h' x h1 h2
        exact h' x (by omega) (by omega)
    · rw [if_pos he]
      apply Decides.stop
      intro h'
      obtain ⟨t, b, z, a1, a2, a3, a4⟩ := h' e (le_refl _) (by omega) c k hc hek
      rw [List.getElem?_eq_getElem hem, Option.some.injEq] at a3
      rw [List.getElem?_eq_getElem hcl, Option.some.injEq] at a1
      subst a3 a1
      exact he (comp_index_unique hB hc' a2 hek' a4)

/-! ### All of them -/

theorem permOk_perm {p : Perm} (h : permOk p = .ok true) : p.map ~ List.range p.n := by
  have hbasic : (allBelow p.map && noRepeat p.map) = true → p.map ~ List.range p.n := by
    unfold Perm.n
    rw [Bool.and_eq_true, allBelow_iff, noRepeat_iff, valid_iff]
    exact id
  unfold permOk at h
  split at h
  · obtain ⟨np, _, h⟩ := bind_ok_iff.mp h
    split at h
    · simp at h
    · split at h
      · rename_i h0
        have : p.map = [] := List.length_eq_zero_iff.mp h0
        rw [h0, this]
        simp
      · obtain ⟨t, _, h⟩ := bind_ok_iff.mp h
        obtain ⟨row, _, h⟩ := bind_ok_iff.mp h
        obtain ⟨s, _, h⟩ := bind_ok_iff.mp h
        split at h
        · exact hbasic (Except.ok.inj h)
        · simp at h
  · exact hbasic (Except.ok.inj h)

theorem isoOk_iff {i : Iso} {cm : OMap} (hc : i.cmap = some cm) :
    isoOk i = .ok true ↔ permOk i.comp = .ok true ∧ emapOk i.emap = .ok true ∧ permOk cm.perm = .ok true ∧
      permOk i.fmap.perm = .ok true := by
  unfold isoOk
  rw [bind_ite_ok, bind_ite_ok, bind_ite_ok, hc]
  rfl

theorem emapOk_parts {e : EMap} (h : emapOk e = .ok true) :
    permOk e.perm = .ok true ∧ ∀ o ∈ e.orient, o ≠ .unset := by
  unfold emapOk at h
  obtain ⟨b, h1, h2⟩ := bind_ok_iff.mp h
  have := Except.ok.inj h2
  rw [Bool.and_eq_true, List.all_eq_true] at this
  refine ⟨by rw [h1, this.1], ?_⟩
  intro o ho hu
  have := this.2 o ho
  rw [hu] at this
  simp [Cmp.orOk] at this

theorem cross_at_lt {cross : List Cross} {edge : List Edge} (hC : Consistent cross edge) {x : Cross} (hx : x ∈ cross)
    (k : Nat) : x.at k < edge.length := by
  obtain ⟨c, hc, rfl⟩ := List.getElem_of_mem hx
  have hk := Nat.mod_lt k (by decide : 0 < 4)
  have h := Places.eslot_lt hC (p := (c, k % 4)) (by rw [Places.mem_P]; exact ⟨hc, hk⟩)
  rw [Places.eslot, slot_of_lt hc hk] at h
  rw [← Cross.at_mod]
  exact h

/-- Everything `pd_iso_consistent` looks at after the checks of the single objects. -/
theorem isoAgrees_ok {A B : Io.Pd} {i : Iso} {cm : OMap} (hA : Tidy A.cross A.edge A.comp A.face)
    (hB : Tidy B.cross B.edge B.comp B.face) (hc : i.cmap = some cm) (h1 : B.comp.length = A.comp.length)
    (h2 : B.cross.length = A.cross.length) (hκ : i.comp.map ~ List.range A.comp.length)
    (hτ : i.emap.perm.map ~ List.range A.edge.length) (hos : i.emap.orient.length = A.edge.length)
    (hset : ∀ o ∈ i.emap.orient, o ≠ .unset)
    (hσ : cm.perm.map ~ List.range A.cross.length) (hφ : i.fmap.perm.map ~ List.range A.face.length) :
    Decides (isoAgrees A B i) (IsoMaps A B i.comp.map i.emap.perm.map i.emap.orient cm.perm.map (asRead cm.orient)
      i.fmap.perm.map (asRead i.fmap.orient)) := by
  have h3 : B.face.length = A.face.length := by rw [hA.goodFaces.count, hB.goodFaces.count, h2]
  have h4 : A.edge.length = B.edge.length := by
    rw [hA.plane.consistent.count, hB.plane.consistent.count, h2]
  have hAc : A.comp.flatMap (·.edge) ~ List.range A.edge.length := by rw [hA.goodComps.all]
  have hBc : B.comp.flatMap (·.edge) ~ List.range B.edge.length := by rw [hB.goodComps.all]
  have hget : ∀ {α : Type} {l : List α} {m : List Nat} {n : Nat}, m ~ List.range n → l.length = n → ∀ j, j < n →
      ∃ t z, m[j]? = some t ∧ l[t]? = some z := by
    intro α l m n hm hl j hj
    have hml : m.length = n := by simpa using hm.length_eq
    have hjl : j < m.length := by omega
    have ht : m[j] < l.length := by
      rw [hl]
      exact List.mem_range.mp (hm.mem_iff.mp (List.getElem_mem hjl))
    exact ⟨_, _, List.getElem?_eq_getElem hjl, List.getElem?_eq_getElem ht⟩
  have hτl : i.emap.perm.map.length = A.edge.length := by simpa using hτ.length_eq
  have d1 := sizesAgree_ok (B := B.comp) (cp := i.comp.map) A.comp 0 (fun j hj => by
    rw [Nat.zero_add]; exact hget hκ h1 j hj)
  have d2 := edgesAgree_ok (A := A) (B := B) (i := i) hAc hBc h4 (by simpa using hκ.length_eq) hτ A.edge.length 0 (by omega)
  have d5 : Decides (crossingsAgree A.cross B.cross i.emap.perm.map i.cmap)
      (∀ (c : Nat) x, A.cross[c]? = some x → ∃ t z, cm.perm.map[0 + c]? = some t ∧ B.cross[t]? = some z ∧
        CarriedTo (fun e => i.emap.perm.map[e]!) (asRead cm.orient) x z) := by
    rw [hc]
    exact crossAgree_ok (B := B.cross) (m := i.emap.perm.map) (cm := cm.perm.map) (o := cm.orient) A.cross 0
      (by
        intro x hx k
        rw [hτl]
        exact cross_at_lt hA.plane.consistent hx k)
      (fun j hj => by rw [Nat.zero_add]; exact hget hσ h2 j hj)
  have d6 := faceSizesAgree_ok (B := B.face) (cp := i.fmap.perm.map) A.face 0 (fun j hj => by
    rw [Nat.zero_add]; exact hget hφ h3 j hj)
  have d7 := facesAgree_ok (G := B.face) (m := i.emap.perm.map) (fm := i.fmap.perm.map) (o := i.fmap.orient) A.face 0
    (fun f hf => ⟨(hA.goodFaces.shape f hf).2, fun e he => by rw [hτl]; exact face_edge_lt hA.goodFaces f hf e he⟩)
  have d67 := d6.andThen (fun h => d7 h)
  unfold isoAgrees
  have hkm : ∀ k ∈ A.comp, k.edge ≠ [] ∧ ∀ e ∈ k.edge, e < i.emap.orient.length := fun k hk =>
    ⟨hA.goodComps.nonempty k hk, fun e he => by rw [hos]; exact Shape.comp_lt hA.goodComps hk he⟩
  -- what is required of the certificate
  have fwd : ∀ M : IsoMaps A B i.comp.map i.emap.perm.map i.emap.orient cm.perm.map (asRead cm.orient)
      i.fmap.perm.map (asRead i.fmap.orient), (∀ (j : Nat) k, A.comp[j]? = some k → ∃ t b, i.comp.map[j]? = some t ∧
        B.comp[t]? = some b ∧ b.edge.length = k.edge.length) ∧
      (∀ x, x < A.edge.length → ∀ (c : Nat) k, A.comp[c]? = some k → x ∈ k.edge →
        ∃ t b z, i.comp.map[c]? = some t ∧ B.comp[t]? = some b ∧ i.emap.perm.map[x]? = some z ∧ z ∈ b.edge) := by
    intro M
    constructor
    · intro j k hk
      obtain ⟨t, b, dir, t1, t2, _, t4, _⟩ := M.along j k hk
      exact ⟨t, b, t1, t2, listCarried_length t4⟩
    · intro x hx c k hk hxk
      obtain ⟨t, b, dir, t1, t2, _, t4, _⟩ := M.along c k hk
      have hx' : x < i.emap.perm.map.length := by omega
      refine ⟨t, b, _, t1, t2, List.getElem?_eq_getElem hx', ?_⟩
      rw [mem_of_carried t4]
      exact ⟨x, hxk, by simp only [getElem!_pos i.emap.perm.map x hx']⟩
  simp only [Nat.zero_add, Nat.zero_le, true_implies] at d1 d2 d5 d67
  rcases compOrs_ok A.comp hkm with ⟨r, r1, r2, r3⟩ | ⟨r1, k, k1, k2⟩
  · rw [r1]
    simp only [ok_bind]
    refine (d1.andThen (fun q1 => d2.andThen (fun q2 => (ordersAgree_ok (B := B) (m := i.emap.perm.map)
      (P := fun c => ∃ k t b o, A.comp[c]? = some k ∧ i.comp.map[c]? = some t ∧ B.comp[t]? = some b ∧ r[c]? = some o ∧
        ListCarried (fun e => i.emap.perm.map[e]!) o k.edge b.edge) A.comp r 0 r2.symm
      (by
        intro j k o hj ho
        obtain ⟨t, b, t1, t2, t3⟩ := q1 j k hj
        obtain ⟨o', o1, o2⟩ := r3 j k hj
        rw [ho] at o1
        cases o1
        have hk := List.mem_of_getElem? hj
        have hou : o ≠ .unset := by
          obtain ⟨e, es, hes⟩ := List.exists_cons_of_ne_nil (hkm k hk).1
          exact hset o (List.mem_of_getElem? (o2 e (by simp [hes])))
        refine (orderAgrees_ok hou hBc t2 t3 (List.length_pos_iff.mpr (hkm k hk).1) ?_
          (fun x hx => by rw [hτl, ← hos]; exact (hkm k hk).2 x hx) ?_).congr ?_
        · have h5 : k.edge.length ≤ A.edge.length := by
            have hn : k.edge.Nodup := by
              have := hAc.nodup_iff.mpr List.nodup_range
              rw [List.flatMap, List.nodup_flatten] at this
              exact this.1 _ (List.mem_map_of_mem hk)
            have := (hn.subperm (l₂ := List.range A.edge.length) (fun x hx => List.mem_range.mpr
              (by rw [← hos]; exact (hkm k hk).2 x hx))).length_le
            simpa using this
          have := hA.small
          omega
        · intro x hx
          obtain ⟨t', b', z, a1, a2, a3, a4⟩ := q2 x (by rw [← hos]; exact (hkm k hk).2 x hx) j k hj hx
          rw [t1] at a1
          cases a1
          rw [t2] at a2
          cases a2
          exact ⟨z, a3, a4⟩
        · constructor
          · intro h
            rw [Nat.zero_add]
            exact ⟨k, t, b, o, hj, t1, t2, ho, h⟩
          · rw [Nat.zero_add]
            rintro ⟨k', t', b', o', e1, e2, e3, e4, e5⟩
            rw [hj] at e1; cases e1
            rw [t1] at e2; cases e2
            rw [t2] at e3; cases e3
            rw [ho] at e4; cases e4
            exact e5)).andThen (fun _ => d5.andThen (fun _ => d67))))).congr ?_
    constructor
    · rintro ⟨q1, q2, q3, q5, q6, q7⟩
      refine ⟨h1, h2, h3, hκ, hτ, hos, hσ, hφ, ?_, ?_, ?_⟩
      · intro c k hk
        obtain ⟨k', t, b, o, e1, e2, e3, e4, e5⟩ := q3 c (List.getElem?_eq_some_iff.mp hk).1
        rw [Nat.zero_add] at e1 e2 e4
        rw [hk] at e1
        cases e1
        obtain ⟨o', o1, o2⟩ := r3 c k hk
        rw [e4] at o1
        cases o1
        refine ⟨t, b, o, e2, e3, ?_, e5, o2⟩
        obtain ⟨e, es, hes⟩ := List.exists_cons_of_ne_nil (hkm k (List.mem_of_getElem? hk)).1
        exact hset o (List.mem_of_getElem? (o2 e (by simp [hes])))
      · intro c x hx
        exact q5 c x hx
      · intro c x hx
        exact q7 c x hx
    · intro M
      obtain ⟨m1, m2⟩ := fwd M
      refine ⟨m1, m2, ?_, ?_, ?_, ?_⟩
      · intro c hc
        rw [Nat.zero_add]
        have hk := List.getElem?_eq_getElem hc
        obtain ⟨t, b, dir, t1, t2, _, t4, t5⟩ := M.along c _ hk
        obtain ⟨o, o1, o2⟩ := r3 c _ hk
        refine ⟨_, t, b, o, hk, t1, t2, o1, ?_⟩
        obtain ⟨e, es, hes⟩ := List.exists_cons_of_ne_nil (hkm _ (List.mem_of_getElem? hk)).1
        have he : e ∈ A.comp[c].edge := by rw [hes]; simp
        have := (t5 e he).symm.trans (o2 e he)
        cases this
        exact t4
      · exact fun c x hx => M.crossings c x hx
      · intro c f hf
        obtain ⟨t, g, t1, t2, t3⟩ := M.around c f hf
        exact ⟨t, g, t1, t2, listCarried_length t3⟩
      · exact fun c x hx => M.around c x hx
  · rw [r1]
    simp only [ok_bind]
    have hno : ¬ IsoMaps A B i.comp.map i.emap.perm.map i.emap.orient cm.perm.map (asRead cm.orient)
        i.fmap.perm.map (asRead i.fmap.orient) := by
      intro M
      obtain ⟨c, hc'⟩ := List.mem_iff_getElem?.mp k1
      obtain ⟨t, b, dir, _, _, _, _, t5⟩ := M.along c k hc'
      exact k2 dir t5
    refine (d1.andThen (fun _ => d2.andThen (fun _ => Decides.stop not_false))).congr ?_
    simp [hno]

end Plc.IsoSearch
