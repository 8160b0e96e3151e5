import Verif.Proofs.Constraint2
import Batteries.Lean.Except
import Mathlib.Tactic.ClearExcept
import Mathlib.Data.List.Nodup

/-!
# C44: setting a constraint affects exactly the requested vertices

The claim is false for curves with several components (`C44_other_component_lost`). It holds as long as no kind and
vectors are used on two components: `C44_call_partial` for one call, `C44_history_partial` for a history of calls.
-/

namespace Plc

open Plc.Cst

variable {V : Type} [DecidableEq V]

namespace Cst

theorem takeWhile_all {α : Type} (q : α → Bool) (l : List α) : ∀ x ∈ l.takeWhile q, q x = true := by
  intro x hx
  induction l with
  | nil => simp at hx
  | cons a l ih =>
    rw [List.takeWhile_cons] at hx
    split at hx
    · rcases List.mem_cons.1 hx with rfl | hx
      · assumption
      · exact ih hx
    · simp at hx

theorem dropWhile_head {α : Type} (q : α → Bool) (l : List α) : ∀ x t, l.dropWhile q = x :: t → q x = false := by
  intro x t h
  induction l with
  | nil => simp at h
  | cons a l ih =>
    rw [List.dropWhile_cons] at h
    split at h
    · exact ih h
    · rename_i hq
      injection h with h1 h2
      subst h1
      simpa using hq

omit [DecidableEq V] in
theorem before_iff {cmp : Nat} {vert : Int} {c : Cst V} :
    before cmp vert c = true ↔ c.cmp < cmp ∨ (c.cmp = cmp ∧ c.vert + c.num ≤ vert) := by
  simp [before]

theorem insert_spec (kind : Kind) (vect : V) (cmp : Nat) (vert num : Int) (hnum : 1 ≤ num) (l : List (Cst V)) (hl : Tidy l)
    (hA : kind ≠ .unconstrained → Apart kind vect cmp l) :
    Tidy (insert kind vect cmp vert num l) ∧ ∀ p v k, D (insert kind vect cmp vert num l) p v k ↔
      (Hit cmp vert num p v ∧ kind ≠ .unconstrained ∧ (kind, vect) = k) ∨ (¬ Hit cmp vert num p v ∧ D l p v k) := by
  obtain ⟨pre, rest, hpre, hrest⟩ : ∃ pre rest, l.takeWhile (before cmp vert) = pre ∧ l.dropWhile (before cmp vert) = rest :=
    ⟨_, _, rfl, rfl⟩
  have hsplit : l = pre ++ rest := by rw [← hpre, ← hrest, List.takeWhile_append_dropWhile]
  have hp : ∀ a ∈ pre, a.cmp < cmp ∨ (a.cmp = cmp ∧ a.vert + a.num ≤ vert) := by
    intro a ha
    rw [← hpre] at ha
    exact before_iff.1 (takeWhile_all _ _ a ha)
  rw [hsplit] at hl hA
  obtain ⟨tp, tr, hpr⟩ := tidy_append.1 hl
  have hh : ∀ n ∈ rest, cmp < n.cmp ∨ (n.cmp = cmp ∧ vert < n.vert + n.num) := by
    cases hr : rest with
    | nil => simp
    | cons c t =>
      have hc : ¬ (c.cmp < cmp ∨ (c.cmp = cmp ∧ c.vert + c.num ≤ vert)) := by
        intro h
        have := dropWhile_head _ _ c t (hrest.trans hr)
        rw [before_iff.2 h] at this
        exact Bool.noConfusion this
      rw [hr] at tr
      obtain ⟨hb, h1, -, ht⟩ := tidy_cons.1 tr
      intro n hn
      rcases List.mem_cons.1 hn with rfl | hn
      · omega
      · have := hb n hn
        have := (ht.2 n hn).1
        unfold Bef at *
        omega
  have hAr : kind ≠ .unconstrained → Apart kind vect cmp rest :=
    fun h n hn => hA h n (List.mem_append_right _ hn)
  have hpl := place_spec kind vect cmp vert num hnum rest tr hh hAr
  have hpD : ∀ p v k, D pre p v k → ¬ Hit cmp vert num p v := by
    rintro p v k ⟨a, ha, ha', -⟩ h
    have := hp a ha
    unfold Cov at ha'
    unfold Hit at h
    omega
  have hplain : Tidy (pre ++ place kind vect cmp vert num rest) ∧ ∀ p v k,
      D (pre ++ place kind vect cmp vert num rest) p v k ↔
      (Hit cmp vert num p v ∧ kind ≠ .unconstrained ∧ (kind, vect) = k) ∨ (¬ Hit cmp vert num p v ∧ D l p v k) := by
    refine ⟨tidy_append.2 ⟨tp, hpl.tidy, fun a ha => hpl.bef a (hp a ha) (hpr a ha)⟩, ?_⟩
    intro p v k
    rw [D_append, hpl.says, hsplit, D_append]
    have := hpD p v k
    generalize Hit cmp vert num p v = A at *
    generalize D pre p v k = P at *
    generalize D rest p v k = R at *
    clear * - this
    tauto
  unfold insert
  simp only [hpre, hrest]
  cases hg : pre.getLast? with
  | none =>
    have : pre = [] := by simpa using hg
    subst this
    exact hplain
  | some q =>
    simp only
    split_ifs with hx
    · have hq : pre = pre.dropLast ++ [q] := by
        obtain ⟨ys, hys⟩ := List.getLast?_eq_some_iff.1 hg
        rw [hys]
        simp
      obtain ⟨p0, hp0⟩ : ∃ p0, p0 = pre.dropLast := ⟨_, rfl⟩
      rw [← hp0] at hq ⊢
      have hx' : kind ≠ .fixed ∧ q.kind = kind ∧ q.cmp = cmp ∧ q.vert + q.num ≥ vert ∧ q.vect = vect := by
        simpa [extPrev] using hx
      obtain ⟨x1, x2, x3, x4, x5⟩ := hx'
      have hqm : q ∈ pre := by rw [hq]; simp
      have hku : kind ≠ .unconstrained := by rw [← x2]; exact (tp.2 q hqm).2
      have hqv := hp q hqm
      have hq1 := (tp.2 q hqm).1
      have o := overrun_spec rest (extend q vert num) (by simp only [extend]; omega) tr (by
        intro m hm
        have := hpr q hqm m hm
        unfold Bef at this
        simp only [extend]
        omega) (by
        intro m hm hne
        show ¬ (m.kind = q.kind ∧ m.vect = q.vect)
        rw [x2, x5]
        exact hAr hku m hm (by rw [← x3]; exact hne))
      rw [hq] at tp
      obtain ⟨t0, -, h0q⟩ := tidy_append.1 tp
      have h0q' : ∀ a ∈ p0, Bef a q := fun a ha => h0q a ha q (by simp)
      show Tidy (p0 ++ (_ :: _)) ∧ ∀ p v k, D (p0 ++ (_ :: _)) p v k ↔ _
      refine ⟨tidy_append.2 ⟨t0, ?_, ?_⟩, ?_⟩
      · rw [tidy_cons]
        refine ⟨o.bef, Int.le_trans ?_ o.num, ?_, o.tidy⟩
        · simp only [extend]; omega
        · rw [o.kind]
          show q.kind ≠ _
          rw [x2]
          exact hku
      · intro a ha
        refine o.bef_all a ?_ (by simp only [extend]; omega)
        have := h0q' a ha
        unfold Bef at this ⊢
        simp only [extend]
        omega
      · intro p v k
        rw [D_append, o.says, hsplit, D_append, hq, D_append, D_cons, D_nil]
        have e1 : Cov (extend q vert num) p v ↔ Hit cmp vert num p v ∨ Cov q p v := by
          unfold Cov Hit
          simp only [extend]
          omega
        have e2 : ((extend q vert num).kind, (extend q vert num).vect) = k ↔ (kind, vect) = k := by
          simp only [extend, x2, x5]
        have e3 : (q.kind, q.vect) = k ↔ (kind, vect) = k := by rw [x2, x5]
        have e4 : D rest p v k → ¬ Cov q p v := by
          rintro ⟨m, hm, hm', -⟩ h
          exact (hpr q hqm m hm).not_cov h hm'
        have e5 : D p0 p v k → ¬ Hit cmp vert num p v := by
          intro h
          exact hpD p v k (by rw [hq, D_append]; exact Or.inl h)
        rw [e1, e2, e3]
        generalize Hit cmp vert num p v = A at *
        generalize D p0 p v k = P at *
        generalize D rest p v k = R at *
        generalize Cov q p v = C at *
        clear * - e4 e5 hku
        tauto
    · exact hplain

end Cst

/-- **C44, one call.** On a tidy list, a call on a run of vertices leaves a tidy list; the vertices of the run get
exactly that constraint (none, for `plc_unconstrain`) and all others answer as before.

Missing: the same kind and vectors may not be in use on another component. -/
theorem C44_call_partial (nv : List Nat) (l : List (Cst V)) (hl : Tidy l) (o : Call V)
    (hv : valid nv o.kind o.cmp o.vert o.num = true)
    (hA : o.kind ≠ .unconstrained → ∀ n ∈ l, n.cmp ≠ o.cmp → (n.kind, n.vect) ≠ (o.kind, o.vect)) :
    ∃ l', set nv l o.cmp o.vert o.num o.kind o.vect = .ok l' ∧ Tidy l' ∧
      ∀ p v, answer l' p v = if o.hits p v then o.says else answer l p v := by
  have hnum : 1 ≤ o.num := by
    unfold valid at hv
    split at hv
    · cases hv
    · simp at hv
      omega
  obtain ⟨ht, hs⟩ := insert_spec o.kind o.vect o.cmp o.vert o.num hnum l hl (by
    intro hk n hn hne h
    exact hA hk n hn hne (by rw [h.1, h.2]))
  refine ⟨_, by rw [Cst.set, hv]; rfl, ht, ?_⟩
  intro p v
  apply Option.ext
  intro k
  rw [answer_iff ht, hs]
  have hh : o.hits p v = true ↔ Hit o.cmp o.vert o.num p v := by
    unfold Call.hits Hit
    simp only [decide_eq_true_eq, eq_comm (a := o.cmp)]
  by_cases h : Hit o.cmp o.vert o.num p v
  · rw [if_pos (hh.2 h), Call.says]
    split_ifs with hk
    · simp [h, hk]
    · simp [h, hk]
  · rw [if_neg (fun x => h (hh.1 x)), answer_iff hl]
    simp [h]

/-- Every constraint in the list was put on its component by some call. -/
theorem Cst.keys_of_answers {l : List (Cst V)} (hl : Tidy l) (n : Cst V) (hn : n ∈ l) :
    answer l n.cmp n.vert = some (n.kind, n.vect) := by
  rw [answer_iff hl]
  refine ⟨n, hn, ⟨rfl, Int.le_refl _, ?_⟩, rfl⟩
  have := (hl.2 n hn).1
  omega

/-- **C44, histories.** After any history of legal calls, in which no kind and vectors were used on two components,
the constraint list is tidy, and each vertex answers what the newest call concerning it said. -/
theorem C44_history_partial (nv : List Nat) (history : List (Call V))
    (hv : ∀ o ∈ history, valid nv o.kind o.cmp o.vert o.num = true)
    (hA : ∀ o ∈ history, ∀ o' ∈ history, o.kind ≠ .unconstrained → (o.kind, o.vect) = (o'.kind, o'.vect) → o.cmp = o'.cmp) :
    ∃ l, runAll nv history = .ok l ∧ Tidy l ∧ ∀ p v, answer l p v = expected history p v := by
  induction history with
  | nil => exact ⟨[], rfl, by simp [Tidy], fun p v => rfl⟩
  | cons o older ih =>
    obtain ⟨l, hr, ht, ha⟩ := ih (fun x hx => hv x (List.mem_cons_of_mem _ hx))
      (fun x hx y hy => hA x (List.mem_cons_of_mem _ hx) y (List.mem_cons_of_mem _ hy))
    obtain ⟨l', h1, h2, h3⟩ := C44_call_partial nv l ht o (hv o List.mem_cons_self) (by
      intro hk n hn hne he
      have := keys_of_answers ht n hn
      rw [ha, expected] at this
      split at this
      · cases this
      · rename_i o' ho'
        have hm := List.mem_of_find?_eq_some ho'
        have hc : o'.hits n.cmp n.vert = true := by simpa using List.find?_some ho'
        have hcmp : o'.cmp = n.cmp := by
          unfold Call.hits at hc
          simp at hc
          exact hc.1
        rw [Call.says] at this
        split at this
        · cases this
        · injection this with this
          exact hne (by rw [← hcmp]; exact (hA o List.mem_cons_self o' (List.mem_cons_of_mem _ hm) hk (by rw [this, he])).symm))
    refine ⟨l', by rw [runAll, hr, ok_bind]; exact h1, h2, ?_⟩
    intro p v
    rw [h3, expected, List.find?_cons]
    split_ifs with hh
    · rw [hh]
    · have : o.hits p v = false := by simpa using hh
      rw [this]
      exact ha p v

/-- **C44, range checks.** A call that returns was about vertices of the curve, and about one vertex if it fixes
them. All other calls end the program. -/
theorem C44_range (nv : List Nat) (l : List (Cst V)) (o : Call V) :
    (∃ l', set nv l o.cmp o.vert o.num o.kind o.vect = .ok l') ↔
      ∃ n, nv[o.cmp]? = some n ∧ 0 ≤ o.vert ∧ 1 ≤ o.num ∧ o.vert + o.num ≤ (n : Int) ∧ (o.kind = .fixed → o.num = 1) := by
  unfold Cst.set valid
  cases h : nv[o.cmp]? with
  | none => simp [assertC, error_bind]
  | some n =>
    simp only [Option.some.injEq, exists_eq_left']
    constructor
    · rintro ⟨l', h1⟩
      rw [bind_ok_iff] at h1
      obtain ⟨_, h2, -⟩ := h1
      unfold assertC at h2
      split at h2
      · rename_i h3
        simp only [decide_eq_true_eq] at h3
        refine ⟨h3.1, h3.2.2.1, h3.2.2.2.1, ?_⟩
        intro hk
        rcases h3.2.2.2.2 with h4 | h4
        · exact absurd hk h4
        · exact h4
      · cases h2
    · rintro ⟨h1, h2, h3, h4⟩
      have hk : o.kind ≠ .fixed ∨ o.num = 1 := by
        by_cases hk : o.kind = .fixed
        · exact Or.inr (h4 hk)
        · exact Or.inl hk
      refine ⟨_, by
        rw [assertC_ok, ok_bind]
        simp only [decide_eq_true_eq]
        exact ⟨h1, by omega, h2, h3, hk⟩⟩

/-- **C44, no constraints outside the curve.** After any history of calls that returned, with the condition on
components, only vertices of the curve are constrained. -/
theorem C44_inside_partial (nv : List Nat) (history : List (Call V)) (l : List (Cst V)) (hr : runAll nv history = .ok l)
    (hA : ∀ o ∈ history, ∀ o' ∈ history, o.kind ≠ .unconstrained → (o.kind, o.vect) = (o'.kind, o'.vect) → o.cmp = o'.cmp) :
    ∀ c ∈ l, ∃ n, nv[c.cmp]? = some n ∧ 0 ≤ c.vert ∧ c.vert + c.num ≤ (n : Int) := by
  have hval : ∀ (h : List (Call V)) (l : List (Cst V)), runAll nv h = .ok l → ∀ o ∈ h, valid nv o.kind o.cmp o.vert o.num = true := by
    intro h
    induction h with
    | nil => intro l _ o ho; simp at ho
    | cons o older ih =>
      intro l hl x hx
      rw [runAll, bind_ok_iff] at hl
      obtain ⟨l0, h1, h2⟩ := hl
      rcases List.mem_cons.mp hx with rfl | hx
      · unfold Cst.set at h2
        rw [bind_ok_iff] at h2
        obtain ⟨_, h3, -⟩ := h2
        unfold assertC at h3
        split at h3
        · assumption
        · cases h3
      · exact ih l0 h1 x hx
  have hv := hval history l hr
  obtain ⟨l', h1, h2, h3⟩ := C44_history_partial nv history hv hA
  rw [hr] at h1
  cases h1
  have inside : ∀ p v, answer l p v ≠ none → ∃ n, nv[p]? = some n ∧ 0 ≤ v ∧ v < (n : Int) := by
    intro p v h
    rw [h3, expected] at h
    split at h
    · exact absurd rfl h
    · rename_i o ho
      have hm := List.mem_of_find?_eq_some ho
      have hc : o.hits p v = true := by simpa using List.find?_some ho
      unfold Call.hits at hc
      rw [decide_eq_true_eq] at hc
      have := hv o hm
      unfold valid at this
      split at this
      · cases this
      · rename_i n hn
        simp only [decide_eq_true_eq] at this
        rw [hc.1] at hn
        exact ⟨n, hn, by omega, by omega⟩
  intro c hc
  have hnum := (h2.2 c hc).1
  have cov : ∀ v, c.vert ≤ v → v < c.vert + c.num → answer l c.cmp v ≠ none := by
    intro v v1 v2 hn
    have := (answer_iff (k := (c.kind, c.vect)) (p := c.cmp) (v := v) h2).mpr ⟨c, hc, ⟨rfl, v1, v2⟩, rfl⟩
    rw [hn] at this
    cases this
  obtain ⟨n, n1, n2, -⟩ := inside c.cmp c.vert (cov _ (Int.le_refl _) (by omega))
  obtain ⟨n', m1, -, m3⟩ := inside c.cmp (c.vert + c.num - 1) (cov _ (by omega) (by omega))
  rw [n1] at m1
  cases m1
  exact ⟨n, n1, n2, by omega⟩

/-- A curve with one component satisfies the condition on components: the full claim. -/
theorem C44_knot (nv : Nat) (history : List (Call V))
    (hv : ∀ o ∈ history, valid [nv] o.kind o.cmp o.vert o.num = true) :
    ∃ l, runAll [nv] history = .ok l ∧ Tidy l ∧ ∀ p v, answer l p v = expected history p v := by
  refine C44_history_partial [nv] history hv ?_
  have h0 : ∀ o ∈ history, o.cmp = 0 := by
    intro o ho
    have := hv o ho
    unfold valid at this
    split at this
    · cases this
    · rename_i n hn
      have := (List.getElem?_eq_some_iff.1 hn).1
      simpa using this
  intro o ho o' ho' _ _
  rw [h0 o ho, h0 o' ho']

/-- The full claim is false: two components, the same line constraint on vertex 3 of the second and on 0, 1 of the
first. Constraining also vertex 2 of the first makes the library forget the constraint on the second component, and
constrain vertex 3 of the first instead. -/
theorem C44_other_component_lost :
    let older : List (Call Nat) := [⟨0, 0, 2, .line, 7⟩, ⟨1, 3, 1, .line, 7⟩]
    let newest : Call Nat := ⟨0, 2, 1, .line, 7⟩
    ∃ l l', runAll [6, 6] older = .ok l ∧ runAll [6, 6] (newest :: older) = .ok l' ∧
      answer l 1 3 = some (.line, 7) ∧ answer l' 1 3 = none ∧ answer l 0 3 = none ∧ answer l' 0 3 = some (.line, 7) := by
  exact ⟨_, _, rfl, rfl, by decide, by decide, by decide, by decide⟩

/-- A history meeting the conditions: three constraints of which the second cuts the first in two and the third takes
part of both away. -/
example : ∃ l, runAll [10] [(⟨0, 3, 3, .unconstrained, 0⟩ : Call Nat), ⟨0, 4, 1, .fixed, 5⟩, ⟨0, 1, 8, .plane, 7⟩] = .ok l ∧
    l = [⟨.plane, 7, 0, 1, 2⟩, ⟨.plane, 7, 0, 6, 3⟩] := ⟨_, rfl, by decide⟩

/-- **C44, removing.** `plc_remove_constraint` leaves a tidy list in which the vertices with this constraint are
unconstrained and all others answer as before. -/
theorem C44_remove (kind : Kind) (same : V → Bool) (l : List (Cst V)) (hl : Tidy l) :
    Tidy (remove kind same l).2 ∧ ∀ p v, answer (remove kind same l).2 p v =
      (answer l p v).filter (fun k => !(k.1 = kind ∧ same k.2 : Bool)) := by
  have hf : (remove kind same l).2 = l.filter (fun c => !(c.kind = kind ∧ same c.vect : Bool)) := by
    clear hl
    induction l with
    | nil => rfl
    | cons c t ih =>
      rw [remove]
      split_ifs with h
      · rw [List.filter_cons_of_neg (by simpa using h), ih]
      · rw [List.filter_cons_of_pos (by rw [decide_eq_false h]; rfl), ih]
  have ht : Tidy (remove kind same l).2 := by
    rw [hf]
    exact ⟨hl.1.filter _, fun c hc => hl.2 c ((List.mem_filter.1 hc).1)⟩
  refine ⟨ht, ?_⟩
  intro p v
  apply Option.ext
  intro k
  rw [answer_iff ht, Option.filter_eq_some_iff, answer_iff hl, hf]
  simp only [D, List.mem_filter]
  constructor
  · rintro ⟨c, ⟨hc, hm⟩, h1, rfl⟩
    exact ⟨⟨c, hc, h1, rfl⟩, hm⟩
  · rintro ⟨⟨c, hc, h1, rfl⟩, hm⟩
    exact ⟨c, ⟨hc, hm⟩, h1, rfl⟩

namespace Cst

/-- The vertices of a constraint. -/
def verts (c : Cst V) : List (Nat × Int) := (List.range c.num.toNat).map (fun i : Nat => (c.cmp, c.vert + (i : Int)))

omit [DecidableEq V] in
theorem mem_verts (c : Cst V) (p v) : (p, v) ∈ verts c ↔ Cov c p v := by
  simp only [verts, List.mem_map, List.mem_range, Prod.mk.injEq, Cov]
  constructor
  · rintro ⟨i, hi, h1, h2⟩
    omega
  · rintro ⟨h1, h2, h3⟩
    exact ⟨(v - c.vert).toNat, by omega, h1, by omega⟩

omit [DecidableEq V] in
theorem verts_nodup (c : Cst V) : (verts c).Nodup := by
  rw [verts, List.nodup_map_iff_inj_on List.nodup_range]
  intro i _ j _ h
  injection h with h1 h2
  omega

end Cst

/-- **C44, the number returned.** `plc_remove_constraint` returns the number of vertices that had this constraint:
these vertices can be listed without repetition in a list of that length. -/
theorem C44_remove_count (kind : Kind) (same : V → Bool) (l : List (Cst V)) (hl : Tidy l) :
    ∃ vs : List (Nat × Int), vs.Nodup ∧ (vs.length : Int) = (remove kind same l).1 ∧
      ∀ p v, (p, v) ∈ vs ↔ ∃ k, answer l p v = some k ∧ k.1 = kind ∧ same k.2 = true := by
  simp only [answer_iff hl]
  induction l with
  | nil => exact ⟨[], by simp, rfl, by simp [D]⟩
  | cons c t ih =>
    obtain ⟨hb, h1, -, ht⟩ := tidy_cons.1 hl
    obtain ⟨vs, hd, hn, hm⟩ := ih ht
    rw [remove]
    split_ifs with h
    · refine ⟨verts c ++ vs, ?_, ?_, ?_⟩
      · rw [List.nodup_append]
        refine ⟨verts_nodup c, hd, ?_⟩
        rintro ⟨p, v⟩ hx ⟨p', v'⟩ hy e
        injection e with e1 e2
        subst e1; subst e2
        obtain ⟨k, ⟨m, hm1, hm2, -⟩, -⟩ := (hm p v).1 hy
        exact (hb m hm1).not_cov ((mem_verts c p v).1 hx) hm2
      · simp only [List.length_append, verts, List.length_map, List.length_range]
        rw [← hn]
        omega
      · intro p v
        rw [List.mem_append, mem_verts, hm]
        simp only [D_cons]
        constructor
        · rintro (hc | ⟨k, hk, hk'⟩)
          · exact ⟨(c.kind, c.vect), Or.inl ⟨hc, rfl⟩, h⟩
          · exact ⟨k, Or.inr hk, hk'⟩
        · rintro ⟨k, ⟨hc, -⟩ | hk, hk'⟩
          · exact Or.inl hc
          · exact Or.inr ⟨k, hk, hk'⟩
    · refine ⟨vs, hd, hn, ?_⟩
      intro p v
      rw [hm]
      simp only [D_cons]
      constructor
      · rintro ⟨k, hk, hk'⟩
        exact ⟨k, Or.inr hk, hk'⟩
      · rintro ⟨k, ⟨-, rfl⟩ | hk, hk'⟩
        · exact (h hk').elim
        · exact ⟨k, hk, hk'⟩

/-- Two of the three runs carry the constraint removed. -/
example : (remove .line (fun v => v = 7) [(⟨.line, 7, 0, 1, 2⟩ : Cst Nat), ⟨.line, 8, 0, 4, 5⟩, ⟨.line, 7, 1, 0, 3⟩]) =
    (5, [⟨.line, 8, 0, 4, 5⟩]) := by decide

end Plc
