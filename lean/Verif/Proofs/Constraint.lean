import Verif.Spec.Constraint
import Verif.Proofs.Basic
import Mathlib.Tactic.Tauto
import Mathlib.Tactic.SplitIfs
import Mathlib.Tactic.ByContra

/-! # Constraints on vertices -/

namespace Plc.Cst

variable {V : Type} [DecidableEq V]

/-- The constraint covers the vertex. -/
def Cov (c : Cst V) (p : Nat) (v : Int) : Prop := c.cmp = p ∧ c.vert ≤ v ∧ v < c.vert + c.num

/-- Some constraint of the list puts `k` on the vertex. -/
def D (l : List (Cst V)) (p : Nat) (v : Int) (k : Kind × V) : Prop := ∃ c ∈ l, Cov c p v ∧ (c.kind, c.vect) = k

def Bef (a b : Cst V) : Prop := a.cmp < b.cmp ∨ (a.cmp = b.cmp ∧ a.vert + a.num ≤ b.vert)

omit [DecidableEq V] in
theorem D_nil (p v k) : D ([] : List (Cst V)) p v k ↔ False := by simp [D]

omit [DecidableEq V] in
theorem D_cons (c : Cst V) (l p v k) : D (c :: l) p v k ↔ (Cov c p v ∧ (c.kind, c.vect) = k) ∨ D l p v k := by
  simp [D]

omit [DecidableEq V] in
theorem D_append (l l' : List (Cst V)) (p v k) : D (l ++ l') p v k ↔ D l p v k ∨ D l' p v k := by
  simp only [D, List.mem_append]
  constructor
  · rintro ⟨c, hc | hc, h⟩
    · exact Or.inl ⟨c, hc, h⟩
    · exact Or.inr ⟨c, hc, h⟩
  · rintro (⟨c, hc, h⟩ | ⟨c, hc, h⟩)
    · exact ⟨c, Or.inl hc, h⟩
    · exact ⟨c, Or.inr hc, h⟩

omit [DecidableEq V] in
theorem Bef.not_cov {a b : Cst V} (h : Bef a b) {p v} (ha : Cov a p v) (hb : Cov b p v) : False := by
  unfold Bef at h
  unfold Cov at ha hb
  omega

omit [DecidableEq V] in
theorem tidy_cons {c : Cst V} {l : List (Cst V)} :
    Tidy (c :: l) ↔ (∀ n ∈ l, Bef c n) ∧ 1 ≤ c.num ∧ c.kind ≠ .unconstrained ∧ Tidy l := by
  simp only [Tidy, List.pairwise_cons, List.mem_cons, forall_eq_or_imp, Bef]
  tauto

omit [DecidableEq V] in
theorem tidy_append {l l' : List (Cst V)} : Tidy (l ++ l') ↔ Tidy l ∧ Tidy l' ∧ ∀ a ∈ l, ∀ b ∈ l', Bef a b := by
  simp only [Tidy, List.pairwise_append, List.mem_append, Bef]
  constructor
  · rintro ⟨⟨a, b, c⟩, d⟩
    exact ⟨⟨a, fun x h => d x (Or.inl h)⟩, ⟨b, fun x h => d x (Or.inr h)⟩, c⟩
  · rintro ⟨⟨a, a'⟩, ⟨b, b'⟩, c⟩
    exact ⟨⟨a, b, c⟩, fun x h => h.elim (a' x) (b' x)⟩

theorem prop_shorten {A B K K' T : Prop} (h : A → ¬ T) :
    (A ∧ K) ∨ ((¬ A ∧ B) ∧ K') ∨ T ↔ (A ∧ K) ∨ (¬ A ∧ ((B ∧ K') ∨ T)) := by tauto

theorem prop_join {A B K T : Prop} (h : T → ¬ B) :
    ((A ∨ B) ∧ K) ∨ (¬ (A ∨ B) ∧ T) ↔ (A ∧ K) ∨ (¬ A ∧ ((B ∧ K) ∨ T)) := by tauto

theorem prop_sub {A B K K' T : Prop} (h : B → A) :
    (A ∧ K) ∨ (¬ A ∧ T) ↔ (A ∧ K) ∨ (¬ A ∧ ((B ∧ K') ∨ T)) := by tauto

theorem prop_far {A K T : Prop} (h : T → ¬ A) : (A ∧ K) ∨ T ↔ (A ∧ K) ∨ (¬ A ∧ T) := by tauto

/-- In a tidy list the answer is what some constraint says. -/
theorem answer_iff {l : List (Cst V)} (h : Tidy l) (p v k) : answer l p v = some k ↔ D l p v k := by
  induction l with
  | nil => simp [answer, isConstrained, D]
  | cons c l ih =>
    obtain ⟨hb, h1, hu, hl⟩ := tidy_cons.1 h
    rw [D_cons, ← ih hl]
    by_cases hc : Cov c p v
    · have : answer (c :: l) p v = some (c.kind, c.vect) := by
        rw [answer, isConstrained, List.find?_cons_of_pos]
        · rfl
        · simpa [Cov] using hc
      rw [this]
      constructor
      · intro e
        exact Or.inl ⟨hc, by simpa using e⟩
      · rintro (⟨-, e⟩ | e)
        · rw [e]
        · obtain ⟨n, hn, hn', -⟩ := (ih hl).1 e
          exact ((hb n hn).not_cov hc hn').elim
    · have : answer (c :: l) p v = answer l p v := by
        rw [answer, isConstrained, List.find?_cons_of_neg]
        · rfl
        · simpa [Cov] using hc
      rw [this]
      tauto

theorem D_unique {l : List (Cst V)} (h : Tidy l) {p v k k'} (a : D l p v k) (b : D l p v k') : k = k' := by
  rw [← answer_iff h] at a b
  rw [a] at b
  exact Option.some.inj b

/-- What checking for overruns leaves. -/
structure Over (c : Cst V) (t : List (Cst V)) (c' : Cst V) (t' : List (Cst V)) : Prop where
  cmp : c'.cmp = c.cmp
  kind : c'.kind = c.kind
  vect : c'.vect = c.vect
  vert : c'.vert = c.vert
  num : c.num ≤ c'.num
  tidy : Tidy t'
  bef : ∀ n ∈ t', Bef c' n
  key : ∀ n ∈ t', ∃ m ∈ t, m.kind = n.kind ∧ m.vect = n.vect ∧ m.cmp = n.cmp
  says : ∀ p v k, D (c' :: t') p v k ↔ (Cov c p v ∧ (c.kind, c.vect) = k) ∨ (¬ Cov c p v ∧ D t p v k)

theorem overlap_spec : ∀ (t : List (Cst V)) (c : Cst V), 1 ≤ c.num → Tidy t →
    (∀ n ∈ t, c.cmp < n.cmp ∨ (c.cmp = n.cmp ∧ c.vert ≤ n.vert)) →
    Over c t (overlap c t).1 (overlap c t).2 := by
  intro t
  induction t with
  | nil =>
    intro c h1 ht hs
    exact ⟨rfl, rfl, rfl, rfl, Int.le_refl _, ht, by simp [overlap], by simp [overlap], by simp [overlap, D_cons, D_nil]⟩
  | cons n t ih =>
    intro c h1 ht hs
    obtain ⟨hb, hn1, hnu, htt⟩ := tidy_cons.1 ht
    have hs' := fun m hm => hs m (List.mem_cons_of_mem _ hm)
    have hn := hs n List.mem_cons_self
    have hx : ∀ p v k, D t p v k → ¬ Cov n p v := by
      rintro p v k ⟨m, hm, hm', -⟩ h
      exact (hb m hm).not_cov h hm'
    rw [overlap]
    split_ifs with hov hsub hjoin
    · obtain ⟨a1, a2, a3, a4, a5, a6, a7, a8, a9⟩ := ih c h1 htt hs'
      refine ⟨a1, a2, a3, a4, a5, a6, a7, ?_, ?_⟩
      · intro m hm
        obtain ⟨m', hm', e⟩ := a8 m hm
        exact ⟨m', List.mem_cons_of_mem _ hm', e⟩
      · intro p v k
        rw [a9, D_cons]
        exact prop_sub (by unfold Cov; omega)
    · obtain ⟨a1, a2, a3, a4, a5, a6, a7, a8, a9⟩ :=
        ih { c with num := n.vert + n.num - c.vert } (by show 1 ≤ n.vert + n.num - c.vert; omega) htt (by
          intro m hm
          rcases hs' m hm with h | h
          · exact Or.inl h
          · exact Or.inr h)
      refine ⟨a1, a2, a3, a4, ?_, a6, a7, ?_, ?_⟩
      · have : (n.vert + n.num - c.vert : Int) ≤ _ := a5
        omega
      · intro m hm
        obtain ⟨m', hm', e⟩ := a8 m hm
        exact ⟨m', List.mem_cons_of_mem _ hm', e⟩
      · intro p v k
        rw [a9, D_cons]
        have e1 : Cov { c with num := n.vert + n.num - c.vert } p v ↔ Cov c p v ∨ Cov n p v := by
          unfold Cov
          simp only
          omega
        have e2 : (n.kind, n.vect) = k ↔ (c.kind, c.vect) = k := by rw [hjoin.1, hjoin.2.2]
        rw [e1, e2]
        exact prop_join (hx p v k)
    · show Over c (n :: t) c
        ({ n with num := n.num - (c.vert + c.num - n.vert), vert := c.vert + c.num } :: t)
      refine ⟨rfl, rfl, rfl, rfl, Int.le_refl _, ?_, ?_, ?_, ?_⟩
      · rw [tidy_cons]
        refine ⟨?_, ?_, hnu, htt⟩
        · intro m hm
          have := hb m hm
          unfold Bef at this ⊢
          simp only
          omega
        · simp only
          omega
      · intro m hm
        rcases List.mem_cons.1 hm with rfl | hm
        · exact Or.inr ⟨hov.1.symm, Int.le_refl _⟩
        · have := hb m hm
          unfold Bef at this ⊢
          omega
      · intro m hm
        rcases List.mem_cons.1 hm with rfl | hm
        · exact ⟨n, List.mem_cons_self, rfl, rfl, rfl⟩
        · exact ⟨m, List.mem_cons_of_mem _ hm, rfl, rfl, rfl⟩
      · intro p v k
        rw [D_cons, D_cons, D_cons]
        have e1 : Cov { n with num := n.num - (c.vert + c.num - n.vert), vert := c.vert + c.num } p v ↔
            ¬ Cov c p v ∧ Cov n p v := by
          unfold Cov
          simp only
          omega
        have e3 : Cov c p v → ¬ D t p v k := by
          rintro h ⟨m, hm, hm', -⟩
          have := hb m hm
          unfold Bef at this
          unfold Cov at h hm'
          omega
        rw [e1]
        exact prop_shorten e3
    · have hcn : ∀ m ∈ n :: t, Bef c m := by
        intro m hm
        rcases List.mem_cons.1 hm with rfl | hm
        · unfold Bef
          omega
        · have := hb m hm
          unfold Bef at this ⊢
          omega
      refine ⟨rfl, rfl, rfl, rfl, Int.le_refl _, ht, hcn, ?_, ?_⟩
      · intro m hm
        exact ⟨m, hm, rfl, rfl, rfl⟩
      · intro p v k
        rw [D_cons]
        refine prop_far ?_
        rintro ⟨m, hm, hm', -⟩ h
        exact (hcn m hm).not_cov h hm'

theorem adjacent_spec : ∀ (t : List (Cst V)) (c : Cst V), 1 ≤ c.num → Tidy t → (∀ n ∈ t, Bef c n) →
    (∀ n ∈ t, n.cmp ≠ c.cmp → ¬ (n.kind = c.kind ∧ n.vect = c.vect)) →
    Over c t (adjacent c t).1 (adjacent c t).2 := by
  intro t
  induction t with
  | nil =>
    intro c h1 ht hs _
    exact ⟨rfl, rfl, rfl, rfl, Int.le_refl _, ht, by simp [adjacent], by simp [adjacent], by simp [adjacent, D_cons, D_nil]⟩
  | cons n t ih =>
    intro c h1 ht hs ha
    obtain ⟨hb, hn1, hnu, htt⟩ := tidy_cons.1 ht
    have hs' := fun m hm => hs m (List.mem_cons_of_mem _ hm)
    have ha' := fun m hm => ha m (List.mem_cons_of_mem _ hm)
    have hn := hs n List.mem_cons_self
    have hx : ∀ p v k, D t p v k → ¬ Cov n p v := by
      rintro p v k ⟨m, hm, hm', -⟩ h
      exact (hb m hm).not_cov h hm'
    rw [adjacent]
    split_ifs with hj
    · have hcmp : n.cmp = c.cmp := by
        by_contra h
        exact ha n List.mem_cons_self h ⟨hj.2.1, hj.2.2.2⟩
      obtain ⟨a1, a2, a3, a4, a5, a6, a7, a8, a9⟩ :=
        ih { c with num := n.vert + n.num - c.vert } (by show 1 ≤ n.vert + n.num - c.vert; omega) htt (by
          intro m hm
          have := hb m hm
          unfold Bef at this ⊢
          simp only
          omega) ha'
      refine ⟨a1, a2, a3, a4, ?_, a6, a7, ?_, ?_⟩
      · have : (n.vert + n.num - c.vert : Int) ≤ _ := a5
        omega
      · intro m hm
        obtain ⟨m', hm', e⟩ := a8 m hm
        exact ⟨m', List.mem_cons_of_mem _ hm', e⟩
      · intro p v k
        rw [a9, D_cons]
        have e1 : Cov { c with num := n.vert + n.num - c.vert } p v ↔ Cov c p v ∨ Cov n p v := by
          unfold Cov
          simp only
          omega
        have e2 : (n.kind, n.vect) = k ↔ (c.kind, c.vect) = k := by rw [hj.2.1, hj.2.2.2]
        rw [e1, e2]
        exact prop_join (hx p v k)
    · refine ⟨rfl, rfl, rfl, rfl, Int.le_refl _, ht, hs, ?_, ?_⟩
      · intro m hm
        exact ⟨m, hm, rfl, rfl, rfl⟩
      · intro p v k
        rw [D_cons]
        refine prop_far ?_
        rintro ⟨m, hm, hm', -⟩ h
        exact (hs m hm).not_cov h hm'

/-- No constraint of another component in the list has this kind and these vectors. -/
def Apart (kind : Kind) (vect : V) (cmp : Nat) (l : List (Cst V)) : Prop :=
  ∀ n ∈ l, n.cmp ≠ cmp → ¬ (n.kind = kind ∧ n.vect = vect)

theorem overrun_spec (t : List (Cst V)) (c : Cst V) (h1 : 1 ≤ c.num) (ht : Tidy t)
    (hs : ∀ n ∈ t, c.cmp < n.cmp ∨ (c.cmp = n.cmp ∧ c.vert ≤ n.vert)) (ha : Apart c.kind c.vect c.cmp t) :
    Over c t (overrun c t).1 (overrun c t).2 := by
  have o1 := overlap_spec t c h1 ht hs
  have o2 := adjacent_spec (overlap c t).2 (overlap c t).1 (Int.le_trans h1 o1.num) o1.tidy o1.bef (by
    intro n hn hne
    obtain ⟨m, hm, e1, e2, e3⟩ := o1.key n hn
    rw [o1.kind, o1.vect, ← e1, ← e2]
    exact ha m hm (by rw [e3]; rw [o1.cmp] at hne; exact hne))
  show Over c t (adjacent (overlap c t).1 (overlap c t).2).1 (adjacent (overlap c t).1 (overlap c t).2).2
  refine ⟨o2.cmp.trans o1.cmp, o2.kind.trans o1.kind, o2.vect.trans o1.vect, o2.vert.trans o1.vert,
    Int.le_trans o1.num o2.num, o2.tidy, o2.bef, ?_, ?_⟩
  · intro n hn
    obtain ⟨m, hm, e⟩ := o2.key n hn
    obtain ⟨m', hm', e'⟩ := o1.key m hm
    exact ⟨m', hm', e'.1.trans e.1, e'.2.1.trans e.2.1, e'.2.2.trans e.2.2⟩
  · intro p v k
    rw [o2.says, ← o1.says, D_cons]
    refine (prop_far ?_).symm
    rintro ⟨m, hm, hm', -⟩ h
    exact (o1.bef m hm).not_cov h hm'

/-- Behind the new constraint, only what it does not cover is left. -/
theorem Over.tail {c : Cst V} {t : List (Cst V)} {c' : Cst V} {t' : List (Cst V)} (h : Over c t c' t')
    (hk : ∀ n ∈ t, n.kind ≠ c.kind) (p v k) : D t' p v k ↔ ¬ Cov c p v ∧ D t p v k := by
  have hs := h.says p v k
  rw [D_cons] at hs
  have h1 : D t' p v k → k.1 ≠ c.kind := by
    rintro ⟨n, hn, -, rfl⟩
    obtain ⟨m, hm, e, -⟩ := h.key n hn
    rw [← e]
    exact hk m hm
  have h2 : D t p v k → k.1 ≠ c.kind := by
    rintro ⟨n, hn, -, rfl⟩
    exact hk n hn
  have h3 : (c.kind, c.vect) = k → k.1 = c.kind := by rintro rfl; rfl
  have h4 : (c'.kind, c'.vect) = k → k.1 = c.kind := by rintro rfl; exact h.kind
  tauto

end Plc.Cst
