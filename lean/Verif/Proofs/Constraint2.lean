import Verif.Proofs.Constraint

/-! # Inserting a constraint -/

namespace Plc.Cst

variable {V : Type} [DecidableEq V]

/-- The vertex is in the run of the call. -/
def Hit (cmp : Nat) (vert num : Int) (p : Nat) (v : Int) : Prop := p = cmp ∧ vert ≤ v ∧ v < vert + num

/-- The list after a call, as a user sees it. -/
structure Placed (kind : Kind) (vect : V) (cmp : Nat) (vert num : Int) (l l' : List (Cst V)) : Prop where
  tidy : Tidy l'
  says : ∀ p v k, D l' p v k ↔ (Hit cmp vert num p v ∧ kind ≠ .unconstrained ∧ (kind, vect) = k) ∨
    (¬ Hit cmp vert num p v ∧ D l p v k)
  bef : ∀ a : Cst V, (a.cmp < cmp ∨ (a.cmp = cmp ∧ a.vert + a.num ≤ vert)) → (∀ n ∈ l, Bef a n) → ∀ n ∈ l', Bef a n

omit [DecidableEq V] in
theorem cov_new (kind : Kind) (vect : V) (cmp : Nat) (vert num : Int) (p v) :
    Cov (⟨kind, vect, cmp, vert, num⟩ : Cst V) p v ↔ Hit cmp vert num p v := by
  unfold Cov Hit
  simp only
  omega

theorem prop_ext {A C K T U : Prop} (hu : U) (h : T → ¬ C) :
    ((A ∨ C) ∧ K) ∨ (¬ (A ∨ C) ∧ T) ↔ (A ∧ U ∧ K) ∨ (¬ A ∧ ((C ∧ K) ∨ T)) := by tauto

theorem prop_new {A K T U : Prop} (hu : U) (h : T → ¬ A) : (A ∧ K) ∨ T ↔ (A ∧ U ∧ K) ∨ (¬ A ∧ T) := by tauto

theorem prop_none {A K T U : Prop} (hu : ¬ U) (h : T → ¬ A) : T ↔ (A ∧ U ∧ K) ∨ (¬ A ∧ T) := by tauto

theorem prop_mid {A C K K' T U L R : Prop} (hu : U) (h : T → ¬ A) (e : L ∨ R ↔ C ∧ ¬ A) :
    (L ∧ K') ∨ (A ∧ K) ∨ (R ∧ K') ∨ T ↔ (A ∧ U ∧ K) ∨ (¬ A ∧ ((C ∧ K') ∨ T)) := by tauto

theorem prop_mid' {A C K K' T U L R : Prop} (hu : ¬ U) (h : T → ¬ A) (e : L ∨ R ↔ C ∧ ¬ A) :
    (L ∧ K') ∨ (R ∧ K') ∨ T ↔ (A ∧ U ∧ K) ∨ (¬ A ∧ ((C ∧ K') ∨ T)) := by tauto

theorem prop_left {A C K K' T U : Prop} (hu : ¬ U) :
    ((C ∧ ¬ A) ∧ K') ∨ (¬ A ∧ T) ↔ (A ∧ U ∧ K) ∨ (¬ A ∧ ((C ∧ K') ∨ T)) := by tauto

theorem prop_left' {A C K K' T U : Prop} (hu : U) :
    ((C ∧ ¬ A) ∧ K') ∨ ((A ∧ K) ∨ (¬ A ∧ T)) ↔ (A ∧ U ∧ K) ∨ (¬ A ∧ ((C ∧ K') ∨ T)) := by tauto

theorem prop_front {A K T U : Prop} (hu : ¬ U) : ¬ A ∧ T ↔ (A ∧ U ∧ K) ∨ (¬ A ∧ T) := by tauto

theorem prop_front' {A K T U : Prop} (hu : U) : (A ∧ K) ∨ (¬ A ∧ T) ↔ (A ∧ U ∧ K) ∨ (¬ A ∧ T) := by tauto

/-- Everything in the overrun part comes after what comes before all of the old part. -/
theorem Over.bef_all {c : Cst V} {t : List (Cst V)} {c' : Cst V} {t' : List (Cst V)} (h : Over c t c' t')
    (a : Cst V) (ha : Bef a c) (hn : 1 ≤ c.num) : ∀ n ∈ c' :: t', Bef a n := by
  have h1 : Bef a c' := by
    have := h.cmp; have := h.vert
    unfold Bef at ha ⊢
    omega
  intro n hm
  rcases List.mem_cons.1 hm with rfl | hm
  · exact h1
  · have := h.bef n hm
    have := h.num
    have := h.cmp; have := h.vert
    unfold Bef at *
    omega

theorem place_spec (kind : Kind) (vect : V) (cmp : Nat) (vert num : Int) (hnum : 1 ≤ num) (l : List (Cst V)) (hl : Tidy l)
    (hh : ∀ n ∈ l, cmp < n.cmp ∨ (n.cmp = cmp ∧ vert < n.vert + n.num))
    (hA : kind ≠ .unconstrained → Apart kind vect cmp l) :
    Placed kind vect cmp vert num l (place kind vect cmp vert num l) := by
  cases l with
  | nil =>
    rw [place]
    split_ifs with hk
    · refine ⟨?_, ?_, ?_⟩
      · rw [tidy_cons]
        exact ⟨by simp, hnum, hk, by simp [Tidy]⟩
      · intro p v k
        rw [D_cons, cov_new kind vect cmp vert num p v, D_nil]
        exact prop_new hk False.elim
      · intro a ha _ n hn
        simp only [List.mem_singleton] at hn
        subst hn
        exact ha
    · refine ⟨hl, ?_, by simp⟩
      intro p v k
      rw [D_nil]
      exact prop_none hk False.elim
  | cons c t =>
    obtain ⟨hb, hn1, hnu, htt⟩ := tidy_cons.1 hl
    have hc := hh c List.mem_cons_self
    have hAt : Apart kind vect cmp (c :: t) := by
      by_cases hk : kind = .unconstrained
      · rintro m hm - ⟨h, -⟩
        exact (hl.2 m hm).2 (h.trans hk)
      · exact hA hk
    have over : c.cmp = cmp → c.vert < vert → vert < c.vert + c.num →
        Over (⟨kind, vect, cmp, vert, num⟩ : Cst V) t (overrun ⟨kind, vect, cmp, vert, num⟩ t).1
          (overrun ⟨kind, vect, cmp, vert, num⟩ t).2 := by
      intro h1 h2 h3
      refine overrun_spec t _ hnum htt ?_ (fun m hm => hAt m (List.mem_cons_of_mem _ hm))
      intro m hm
      have := hb m hm
      unfold Bef at this
      simp only
      omega
    have over' : vert ≤ c.vert → Over (⟨kind, vect, cmp, vert, num⟩ : Cst V) (c :: t)
        (overrun ⟨kind, vect, cmp, vert, num⟩ (c :: t)).1 (overrun ⟨kind, vect, cmp, vert, num⟩ (c :: t)).2 := by
      intro h1
      refine overrun_spec _ _ hnum hl ?_ hAt
      intro m hm
      rcases List.mem_cons.1 hm with rfl | hm
      · simp only; omega
      · have := hb m hm
        unfold Bef at this
        simp only
        omega
    rw [place]
    split_ifs with hx hgt hk hlt hend hk hk hk
    · -- extend the one found
      have hx' : kind ≠ .fixed ∧ c.kind = kind ∧ c.cmp = cmp ∧ c.vert ≤ vert + num ∧ c.vect = vect := by
        simpa [extNext] using hx
      obtain ⟨x1, x2, x3, x4, x5⟩ := hx'
      have hku : kind ≠ .unconstrained := by rw [← x2]; exact hnu
      have o := overrun_spec t (extend c vert num) (by simp only [extend]; omega) htt (by
        intro m hm
        have := hb m hm
        unfold Bef at this
        simp only [extend]
        omega) (by
        intro m hm hne
        show ¬ (m.kind = c.kind ∧ m.vect = c.vect)
        rw [x2, x5]
        exact hA hku m (List.mem_cons_of_mem _ hm) (by rw [← x3]; exact hne))
      show Placed kind vect cmp vert num (c :: t) (_ :: _)
      refine ⟨?_, ?_, ?_⟩
      · rw [tidy_cons]
        refine ⟨o.bef, ?_, ?_, o.tidy⟩
        · refine Int.le_trans ?_ o.num
          simp only [extend]
          omega
        · rw [o.kind]; exact hnu
      · intro p v k
        rw [o.says, D_cons]
        have e1 : Cov (extend c vert num) p v ↔ Hit cmp vert num p v ∨ Cov c p v := by
          unfold Cov Hit
          simp only [extend]
          omega
        have e2 : ((extend c vert num).kind, (extend c vert num).vect) = k ↔ (kind, vect) = k := by
          simp only [extend, x2, x5]
        have e3 : (c.kind, c.vect) = k ↔ (kind, vect) = k := by rw [x2, x5]
        have e4 : D t p v k → ¬ Cov c p v := by
          rintro ⟨m, hm, hm', -⟩ h
          exact (hb m hm).not_cov h hm'
        rw [e1, e2, e3]
        exact prop_ext hku e4
      · intro a ha hbef
        have hac := hbef c List.mem_cons_self
        refine o.bef_all a ?_ (by simp only [extend]; omega)
        unfold Bef at hac ⊢
        simp only [extend]
        omega
    · -- strictly before everything
      have hcn : ∀ m ∈ c :: t, Bef (⟨kind, vect, cmp, vert, num⟩ : Cst V) m := by
        intro m hm
        rcases List.mem_cons.1 hm with rfl | hm
        · unfold Bef
          simp only
          omega
        · have := hb m hm
          unfold Bef at this ⊢
          simp only
          omega
      refine ⟨?_, ?_, ?_⟩
      · rw [tidy_cons]
        exact ⟨hcn, hnum, hk, hl⟩
      · intro p v k
        rw [D_cons, cov_new kind vect cmp vert num p v]
        refine prop_new hk ?_
        rintro ⟨m, hm, hm', -⟩ h
        exact (hcn m hm).not_cov ((cov_new kind vect cmp vert num p v).2 h) hm'
      · intro a ha hbef n hn
        rcases List.mem_cons.1 hn with rfl | hn
        · exact ha
        · exact hbef n hn
    · have hcn : ∀ m ∈ c :: t, Bef (⟨kind, vect, cmp, vert, num⟩ : Cst V) m := by
        intro m hm
        rcases List.mem_cons.1 hm with rfl | hm
        · unfold Bef
          simp only
          omega
        · have := hb m hm
          unfold Bef at this ⊢
          simp only
          omega
      refine ⟨hl, ?_, ?_⟩
      · intro p v k
        refine prop_none hk ?_
        rintro ⟨m, hm, hm', -⟩ h
        exact (hcn m hm).not_cov ((cov_new kind vect cmp vert num p v).2 h) hm'
      · intro a ha hbef
        exact hbef
    · -- in the middle
      have hcmp : c.cmp = cmp := by omega
      refine ⟨?_, ?_, ?_⟩
      · rw [tidy_cons, tidy_cons, tidy_cons]
        refine ⟨?_, by simp only; omega, hnu, ?_, hnum, hk, ?_, by simp only; omega, hnu, htt⟩
        · intro m hm
          simp only [List.mem_cons] at hm
          rcases hm with rfl | rfl | hm
          · unfold Bef; simp only; omega
          · exact Or.inr ⟨rfl, by simp only; omega⟩
          · have := hb m hm
            unfold Bef at this ⊢
            simp only
            omega
        · intro m hm
          simp only [List.mem_cons] at hm
          rcases hm with rfl | hm
          · unfold Bef; simp only; omega
          · have := hb m hm
            unfold Bef at this ⊢
            simp only
            omega
        · intro m hm
          have := hb m hm
          unfold Bef at this ⊢
          simp only
          omega
      · intro p v k
        rw [D_cons, D_cons, D_cons, D_cons, cov_new kind vect cmp vert num p v]
        have e1 : Cov { c with num := vert - c.vert } p v ∨
            Cov { c with vert := vert + num, num := c.num - (vert + num - c.vert) } p v ↔
            Cov c p v ∧ ¬ Hit cmp vert num p v := by
          unfold Cov Hit
          simp only
          omega
        have e4 : D t p v k → ¬ Hit cmp vert num p v := by
          rintro ⟨m, hm, hm', -⟩ h
          have := hb m hm
          unfold Bef at this
          unfold Cov at hm'
          unfold Hit at h
          omega
        exact prop_mid hk e4 e1
      · intro a ha hbef n hn
        have hac := hbef c List.mem_cons_self
        simp only [List.mem_cons] at hn
        rcases hn with rfl | rfl | rfl | hn
        · unfold Bef at hac ⊢; exact hac
        · exact ha
        · unfold Bef at hac ⊢; simp only; omega
        · exact hbef n (List.mem_cons_of_mem _ hn)
    · have hcmp : c.cmp = cmp := by omega
      refine ⟨?_, ?_, ?_⟩
      · rw [tidy_cons, tidy_cons]
        refine ⟨?_, by simp only; omega, hnu, ?_, by simp only; omega, hnu, htt⟩
        · intro m hm
          simp only [List.mem_cons] at hm
          rcases hm with rfl | hm
          · exact Or.inr ⟨rfl, by simp only; omega⟩
          · have := hb m hm
            unfold Bef at this ⊢
            simp only
            omega
        · intro m hm
          have := hb m hm
          unfold Bef at this ⊢
          simp only
          omega
      · intro p v k
        rw [D_cons, D_cons, D_cons]
        have e1 : Cov { c with num := vert - c.vert } p v ∨
            Cov { c with vert := vert + num, num := c.num - (vert + num - c.vert) } p v ↔
            Cov c p v ∧ ¬ Hit cmp vert num p v := by
          unfold Cov Hit
          simp only
          omega
        have e4 : D t p v k → ¬ Hit cmp vert num p v := by
          rintro ⟨m, hm, hm', -⟩ h
          have := hb m hm
          unfold Bef at this
          unfold Cov at hm'
          unfold Hit at h
          omega
        exact prop_mid' hk e4 e1
      · intro a ha hbef n hn
        have hac := hbef c List.mem_cons_self
        simp only [List.mem_cons] at hn
        rcases hn with rfl | rfl | hn
        · unfold Bef at hac ⊢; exact hac
        · unfold Bef at hac ⊢; simp only; omega
        · exact hbef n (List.mem_cons_of_mem _ hn)
    · -- shorten, and take away what is behind
      have hcmp : c.cmp = cmp := by omega
      have o := over hcmp (by omega) (by omega)
      refine ⟨?_, ?_, ?_⟩
      · rw [tidy_cons]
        refine ⟨?_, by simp only; omega, hnu, o.tidy⟩
        intro m hm
        refine o.bef_all { c with num := vert - c.vert } ?_ hnum m (List.mem_cons_of_mem _ hm)
        unfold Bef; simp only; omega
      · intro p v k
        rw [D_cons, o.tail (by rw [hk]; exact fun n hn => (htt.2 n hn).2), cov_new kind vect cmp vert num p v, D_cons]
        have e1 : Cov { c with num := vert - c.vert } p v ↔ Cov c p v ∧ ¬ Hit cmp vert num p v := by
          unfold Cov Hit
          simp only
          omega
        rw [e1]
        exact prop_left (fun h => h hk)
      · intro a ha hbef n hn
        have hac := hbef c List.mem_cons_self
        rcases List.mem_cons.1 hn with rfl | hn
        · unfold Bef at hac ⊢; exact hac
        · exact o.bef_all a ha hnum n (List.mem_cons_of_mem _ hn)
    · have hcmp : c.cmp = cmp := by omega
      have o := over hcmp (by omega) (by omega)
      refine ⟨?_, ?_, ?_⟩
      · rw [tidy_cons, tidy_cons]
        refine ⟨?_, by simp only; omega, hnu, o.bef, Int.le_trans hnum o.num, by rw [o.kind]; exact hk, o.tidy⟩
        refine o.bef_all { c with num := vert - c.vert } ?_ hnum
        unfold Bef; simp only; omega
      · intro p v k
        rw [D_cons, o.says, cov_new kind vect cmp vert num p v, D_cons]
        have e1 : Cov { c with num := vert - c.vert } p v ↔ Cov c p v ∧ ¬ Hit cmp vert num p v := by
          unfold Cov Hit
          simp only
          omega
        rw [e1]
        exact prop_left' hk
      · intro a ha hbef n hn
        have hac := hbef c List.mem_cons_self
        rcases List.mem_cons.1 hn with rfl | hn
        · unfold Bef at hac ⊢; exact hac
        · exact o.bef_all a ha hnum n hn
    · have hcmp : c.cmp = cmp := by omega
      have o := over' (by omega)
      refine ⟨o.tidy, ?_, ?_⟩
      · intro p v k
        rw [o.tail (by rw [hk]; exact fun n hn => (hl.2 n hn).2), cov_new kind vect cmp vert num p v]
        exact prop_front (fun h => h hk)
      · intro a ha hbef n hn
        exact o.bef_all a ha hnum n (List.mem_cons_of_mem _ hn)
    · have hcmp : c.cmp = cmp := by omega
      have o := over' (by omega)
      refine ⟨?_, ?_, ?_⟩
      · rw [tidy_cons]
        exact ⟨o.bef, Int.le_trans hnum o.num, by rw [o.kind]; exact hk, o.tidy⟩
      · intro p v k
        rw [o.says, cov_new kind vect cmp vert num p v]
        exact prop_front' hk
      · intro a ha hbef n hn
        exact o.bef_all a ha hnum n hn

end Plc.Cst
