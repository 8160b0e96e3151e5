import Verif.Model.Rope
import Verif.Props.StrutPi
import Verif.Props.Minrad
import Verif.Props.Measure

/-! # C91: thickness and ropelength -/

namespace Plc.Struts

open Plc.Core Plc.FindCrossings Plc.RandomPolygon Plc.Equilateral Plc.Motions Plc.Measure Plc.Poca

theorem curveLoop_ok : ∀ (cs : List Comp) (s : ℝ), (∀ c ∈ cs, c.vt ≠ []) → curveLoop cs s = .ok (s + (cs.map lengthOf).sum)
  | [], s, _ => by simp [curveLoop]
  | c :: cs, s, h => by
    have h0 := h c (List.mem_cons_self ..)
    have := edgeSum_ok c (tour c) 0 s (reads_tour c h0)
    rw [tour_edges c h0, tour_length] at this
    rw [curveLoop, this, ok_bind, curveLoop_ok cs _ (fun c' hc' => h c' (List.mem_cons_of_mem _ hc'))]
    rw [List.map_cons, List.sum_cons, add_assoc]

theorem wrap_id {cp : List Comp} (hE : Edged cp) : cp.map fixWrap = cp := by
  conv_rhs => rw [← List.map_id cp]
  apply List.map_congr_left
  intro c hc
  exact Minrad.fixWrap_proper (hE c hc).2.1

/-- A lower bound of lengths, at most `big`, and attained unless it is `big`. -/
def Least (big : ℝ) (l : List Strut) (S : ℝ) : Prop := S ≤ big ∧ (∀ x ∈ l, S ≤ x.len) ∧ (S = big ∨ ∃ x ∈ l, S = x.len)

theorem Least.unique {big S S' : ℝ} {l : List Strut} (h : Least big l S) (h' : Least big l S') : S = S' := by
  obtain ⟨a1, a2, a3⟩ := h
  obtain ⟨b1, b2, b3⟩ := h'
  apply le_antisymm
  · rcases b3 with h | ⟨x, hx, h⟩
    · rw [h]; exact a1
    · rw [h]; exact a2 x hx
  · rcases a3 with h | ⟨x, hx, h⟩
    · rw [h]; exact b1
    · rw [h]; exact b2 x hx

theorem least_exists (big : ℝ) : ∀ l : List Strut, ∃ S, Least big l S
  | [] => ⟨big, le_refl _, by simp, .inl rfl⟩
  | x :: l => by
    obtain ⟨S, h1, h2, h3⟩ := least_exists big l
    rcases le_total S x.len with h | h
    · refine ⟨S, h1, ?_, ?_⟩
      · intro y hy
        rcases List.mem_cons.mp hy with rfl | hy
        · exact h
        · exact h2 y hy
      · rcases h3 with h3 | ⟨y, hy, e⟩
        · exact .inl h3
        · exact .inr ⟨y, List.mem_cons_of_mem _ hy, e⟩
    · refine ⟨x.len, le_trans h h1, ?_, .inr ⟨x, List.mem_cons_self .., rfl⟩⟩
      intro y hy
      rcases List.mem_cons.mp hy with rfl | hy
      · exact le_refl _
      · exact le_trans h (h2 y hy)

/-- The shortest strut: no strut between two edges which are not nearly parallel is shorter, and it is one, or `big`. -/
def Shortest (big : ℝ) (cp : List Comp) (S : ℝ) : Prop :=
  S ≤ big ∧ (∀ x, StrutOf cp x → TwoEdges x → Transversal cp x → S ≤ x.len) ∧ (S = big ∨ ∃ x, StrutOf cp x ∧ TwoEdges x ∧ x.len = S)

/-- The least radius of a bend, or `big`. -/
def Roundest (big : ℝ) (L : Curve) (r : ℝ) : Prop :=
  r ≤ big ∧ (∀ (i v : Nat) (s : Int) (m : ℝ), BendOf L i v s m → r ≤ m) ∧ (r = big ∨ ∃ (i v : Nat) (s : Int), BendOf L i v s r)

theorem Roundest.unique {big r r' : ℝ} {L : Curve} (h : Roundest big L r) (h' : Roundest big L r') : r = r' := by
  obtain ⟨a1, a2, a3⟩ := h
  obtain ⟨b1, b2, b3⟩ := h'
  apply le_antisymm
  · rcases b3 with h | ⟨i, v, s, h⟩
    · rw [h]; exact a1
    · exact a2 _ _ _ _ h
  · rcases a3 with h | ⟨i, v, s, h⟩
    · rw [h]; exact b1
    · exact b2 _ _ _ _ h

/-- What is asked of the curve: its edges have a length, any two are parallel or clearly not, it turns somewhere and is nowhere folded. -/
structure Nice (cp : List Comp) : Prop where
  edged : Edged cp
  clear : ClearCut cp
  unfolded : ∀ c ∈ cp, ∀ t, TurnAt c t → t < Real.pi
  turns : ∃ c ∈ cp, ∃ t, TurnAt c t ∧ Real.pi < 2 ^ 31 * t

/-- All calls of `octrope_struts` look at the same pairs of edges. -/
theorem calls {cp : List Comp} (h : Nice cp) (front : Varr) (req : Nat) : ∃ C : List Strut,
    (∀ S big, Least big C S → Shortest big cp S) ∧
    ∀ (big cutoff eps : ℝ) (size : Nat), 0 ≤ cutoff → 0 ≤ eps → ∃ sh l, octropeStruts big (some front) req cp cutoff eps size = .ok (some (sh, l)) ∧
      sh ≤ big ∧ (∀ x ∈ C, (0 < cutoff → x.len ≤ cutoff) → sh ≤ x.len) ∧ (sh = big ∨ ∃ x ∈ C, sh = x.len ∧ (0 < cutoff → x.len ≤ cutoff)) ∧
      (∀ x ∈ l, x ∈ C ∧ x.len ≤ lengthBound cutoff eps sh) := by
  have hn : ∃ c ∈ cp, ∃ v a b, EdgeAt c v a b := by
    obtain ⟨c, hc, t, ⟨u, v, a, b, d, h, _⟩, _⟩ := h.turns
    exact ⟨c, hc, u, a, b, h⟩
  obtain ⟨T, h1, h2, h3, _⟩ := C89_octree cp hn front req
  obtain ⟨k, hk⟩ := (C87_straight h.edged).2 h.turns
  have k2 : 2 ≤ k := (C87_pi_count h.edged hk).1
  refine ⟨allCands cp T.es k (T.es.length - 1), ?_, ?_⟩
  · rintro S big ⟨a1, a2, a3⟩
    refine ⟨a1, ?_, ?_⟩
    · intro x hx h2' ht
      rcases strut_cand h.edged h2 (by omega) hx (C90_none_skipped h.edged hk h.unfolded hx h2') ht with m | m
      · exact a2 x m
      · have := a2 (Plc.flip x) m
        exact this
    · rcases a3 with e | ⟨x, hx, e⟩
      · exact .inl e
      · obtain ⟨s, f⟩ := allCands_sound h.edged h2 h.clear hx
        refine .inr ⟨x, s, ?_, e.symm⟩
        intro e'
        simp only [Prod.mk.injEq] at e'
        obtain ⟨c, _, g, _⟩ := f e'.1
        rw [e'.2] at g
        simp at g
        omega
  · intro big cutoff eps size hc he
    obtain ⟨sh, l, r, s1, s2, s3, s4, s5, _⟩ := (⟨h.edged, h2, h3, hk, he⟩ : Given cp T.es T.boxes T.depth T.root eps k).ok big cutoff size
    refine ⟨sh, l, ?_, s1, s2, s3, fun x hx => ⟨s4.subset hx, s5 x hx⟩⟩
    unfold octropeStruts
    rw [if_neg (not_lt.mpr he), if_neg (not_lt.mpr hc), h1, ok_bind, r, ok_bind]

theorem strutData_ok {cp : List Comp} (h : Nice cp) (front : Varr) (req : Nat) {big : ℝ} (hb : 0 < big) : ∃ S, Shortest big cp S ∧
    ∀ (cutoff eps : ℝ) (size : Nat), 0 ≤ cutoff → 0 ≤ eps → ∃ (sh : ℝ) (l : List Strut),
      octropeStruts big (some front) req cp cutoff eps size = .ok (some (sh, l)) ∧
      strutData big (some front) req cp cutoff eps size = .ok ⟨some sh, some S, l.length, l⟩ ∧
      ((cutoff = 0 ∨ S ≤ cutoff) → sh = S) ∧ (0 < cutoff → cutoff < S → sh = big) := by
  obtain ⟨C, c1, c2⟩ := calls h front req
  obtain ⟨S, hS⟩ := least_exists big C
  refine ⟨S, c1 S big hS, ?_⟩
  intro cutoff eps size hc he
  obtain ⟨sh, l, r, s1, s2, s3, s4⟩ := c2 big cutoff eps size hc he
  have full : (∀ x ∈ C, sh ≤ x.len) → sh = S := by
    intro hall
    refine Least.unique ⟨s1, hall, ?_⟩ hS
    rcases s3 with e | ⟨x, hx, e, _⟩
    · exact .inl e
    · exact .inr ⟨x, hx, e⟩
  refine ⟨sh, l, r, ?_, ?_, ?_⟩
  · unfold strutData
    rw [r, ok_bind]
    simp only
    by_cases hl : l.length = 0
    · rw [if_pos hl]
      obtain ⟨sh', l', r', t1, t2, t3, t4⟩ := c2 big big 0 0 hb.le (le_refl _)
      have : sh' = S := by
        refine Least.unique ⟨t1, ?_, ?_⟩ hS
        · intro x hx
          rcases le_or_gt x.len big with g | g
          · exact t2 x hx (fun _ => g)
          · linarith
        · rcases t3 with e | ⟨x, hx, e, _⟩
          · exact .inl e
          · exact .inr ⟨x, hx, e⟩
      unfold again
      rw [r', ok_bind, ok_bind, hl, this]
      rfl
    · rw [if_neg hl]
      have : sh = S := by
        apply full
        intro y hy
        obtain ⟨x, r', rfl⟩ : ∃ x r', l = x :: r' := by
          rcases l with _ | ⟨x, r'⟩
          · simp at hl
          · exact ⟨x, r', rfl⟩
        obtain ⟨x1, x2⟩ := s4 x (List.mem_cons_self ..)
        by_cases h0 : 0 < cutoff
        · unfold lengthBound at x2
          rw [if_pos h0] at x2
          have := s2 x x1 (fun _ => x2)
          rcases le_or_gt y.len cutoff with g | g
          · exact s2 y hy (fun _ => g)
          · linarith
        · exact s2 y hy (fun g => absurd g h0)
      rw [this]
  · rintro (h0 | h0)
    · apply full
      intro x hx
      exact s2 x hx (fun g => by linarith)
    · apply full
      intro x hx
      rcases hS.2.2 with e | ⟨y, hy, e⟩
      · have := hS.2.1 x hx
        linarith
      · have h1 := s2 y hy (fun _ => by linarith)
        have h2 := hS.2.1 x hx
        linarith
  · intro h0 hlt
    rcases s3 with e | ⟨x, hx, e, g⟩
    · exact e
    · have := hS.2.1 x hx
      have := g h0
      linarith

/-- **C91a.** For every such curve there are the length `S` of a shortest strut and the least radius `R` of a bend, so that whatever is asked for
and with whatever cutoffs, epsilons and sizes of lists, `octrope` reports: as thickness, the smaller of `S/2` and `R/λ`, or `S/2` without
stiffness; as length, that of the curve; as ropelength, length divided by thickness, or `DBL_MAX` if that is 0; as radius `R`, or `DBL_MAX`
without stiffness; as number of struts, the number of those in the list, and those are the ones of `octrope_struts`; as length of the shortest
strut `S`, unless that is above the cutoff, when it is `DBL_MAX`; and nothing else. -/
theorem C91_octrope {L : Curve} (h : Nice L.cp) (front : Varr) (req : Nat) {big : ℝ} (hb : 0 < big) {lam : ℝ} (hl : 0 ≤ lam) :
    ∃ S R, Shortest big L.cp S ∧ Roundest big L R ∧
    ∀ (ask : Ask) (mrCutoff mrEps : ℝ) (mrSize : Nat) (cutoff eps : ℝ) (size : Nat), 0 ≤ cutoff → 0 ≤ eps →
    ∃ (out : Rope) (th : ℝ), octrope big (some front) req ask L mrCutoff mrEps mrSize cutoff eps size lam = .ok out ∧
      th = (if lam = 0 then S / 2 else min (S / 2) (R / lam)) ∧
      out.thick = (if ask.thick then some th else none) ∧
      out.len = (if ask.len then some (L.cp.map lengthOf).sum else none) ∧
      out.rope = (if ask.rope then some (if th = 0 then big else (L.cp.map lengthOf).sum / th) else none) ∧
      out.rad = (if ask.rad then some (if lam = 0 then big else R) else none) ∧
      out.strut = (if ask.strut then some (if cutoff = 0 ∨ S ≤ cutoff then S else big) else none) ∧
      out.num = (if ask.num then some (out.list.length : Int) else none) ∧
      (ask.num = true → ∃ sh, octropeStruts big (some front) req L.cp cutoff eps size = .ok (some (sh, out.list))) ∧
      (ask.locs = true → ∃ l, out.locs = some l ∧ (lam = 0 → l = []) ∧ (0 < lam → Minrad.minrad big mrCutoff mrEps (some mrSize) L = .ok (R, l))) := by
  obtain ⟨S, hS, data⟩ := strutData_ok h front req hb
  have hp : ∀ c ∈ L.cp, 2 ≤ c.vt.length ∧ Proper c := fun c hc => ⟨(h.edged c hc).1, (h.edged c hc).2.1⟩
  obtain ⟨R, _, _, R1, R2, R3⟩ := Minrad.C85_minrad big 0 0 none L hp
  have hR : Roundest big L R := ⟨R1, R2, R3⟩
  refine ⟨S, R, hS, hR, ?_⟩
  intro ask mrCutoff mrEps mrSize cutoff eps size hc he
  have rad : ∀ s, ∃ l, Minrad.minrad big mrCutoff mrEps s L = .ok (R, l) := by
    intro s
    obtain ⟨r, l, e, r1, r2, r3⟩ := Minrad.C85_minrad big mrCutoff mrEps s L hp
    rw [Roundest.unique (L := L) (big := big) ⟨r1, r2, r3⟩ hR] at e
    exact ⟨l, e⟩
  obtain ⟨sh, l, c1, c2, c3, c4⟩ := data cutoff eps size hc he
  have hlen : curveLength L.cp = .ok (L.cp.map lengthOf).sum := by
    have := curveLoop_ok L.cp 0 (fun c hc => by
      have := (hp c hc).1
      intro e
      rw [e] at this
      simp at this)
    rw [zero_add] at this
    exact this
  have hsh : sh = if cutoff = 0 ∨ S ≤ cutoff then S else big := by
    split
    · rename_i g; exact c3 g
    · rename_i g
      rw [not_or, not_le] at g
      exact c4 (lt_of_le_of_ne hc (Ne.symm g.1)) g.2
  -- the radius
  obtain ⟨mr, hmr, mr1, mr2⟩ : ∃ mr, radData big ask L mrCutoff mrEps mrSize lam = .ok mr ∧
      ((ask.rope || ask.thick || ask.rad || ask.locs) = true → 0 < lam → mr.1 = R) ∧
      (ask.locs = true → 0 < lam → Minrad.minrad big mrCutoff mrEps (some mrSize) L = .ok (R, mr.2)) := by
    unfold radData
    by_cases g : (ask.rope || ask.thick || ask.rad || ask.locs) = true ∧ 0 < lam
    · rw [if_pos g]
      obtain ⟨l', e⟩ := rad (if ask.locs then some mrSize else none)
      rw [e]
      refine ⟨_, rfl, fun _ _ => rfl, fun g' _ => ?_⟩
      rw [g', if_pos rfl] at e
      exact e
    · rw [if_neg g]
      refine ⟨_, rfl, fun g1 g2 => absurd ⟨g1, g2⟩ g, fun g1 g2 => absurd ⟨?_, g2⟩ g⟩
      simp [g1]
  -- the struts
  obtain ⟨f, hf, f1, f2, f3⟩ : ∃ f, strutPart big (some front) req ask L.cp cutoff eps size = .ok f ∧
      (ask.strut = true → f.told = some sh) ∧ ((ask.rope || ask.thick) = true → f.used = some S) ∧
      (ask.num = true → f.num = l.length ∧ f.list = l) := by
    unfold strutPart
    by_cases g : (ask.rope || ask.thick || ask.strut || ask.num) = true
    · rw [if_pos g, c2]
      exact ⟨_, rfl, fun _ => rfl, fun _ => rfl, fun _ => ⟨rfl, rfl⟩⟩
    · rw [if_neg g]
      simp only [Bool.not_eq_true, Bool.or_eq_false_iff] at g
      obtain ⟨⟨⟨a1, a2⟩, a3⟩, a4⟩ := g
      refine ⟨_, rfl, fun b => ?_, fun b => ?_, fun b => ?_⟩
      · rw [a3] at b; simp at b
      · rw [a1, a2] at b; simp at b
      · rw [a4] at b; simp at b
  obtain ⟨th, eth⟩ : ∃ th, th = (if lam = 0 then S / 2 else min (S / 2) (R / lam)) := ⟨_, rfl⟩
  have x1 : iff ask.strut (need f.told) = .ok (if ask.strut then some sh else none) := by
    cases g : ask.strut with
    | false => rfl
    | true => rw [f1 g]; rfl
  have x2 : iff (ask.rope || ask.thick) ((need f.used).map (thickness mr.1 lam)) = .ok (if (ask.rope || ask.thick) = true then some th else none) := by
    cases g : (ask.rope || ask.thick) with
    | false => rfl
    | true =>
      rw [f2 g, if_pos rfl]
      have : thickness mr.1 lam S = th := by
        rw [eth]
        unfold thickness
        by_cases z : lam = 0
        · rw [if_pos z, if_pos z]
        · rw [if_neg z, if_neg z, mr1 (by rw [g]; rfl) (lt_of_le_of_ne hl (Ne.symm z))]
          rw [min_def]
          split
          · rename_i q; rw [if_pos q.le]
          · rename_i q
            split
            · rename_i q'; linarith
            · rfl
      rw [← this]
      rfl
  have x3 : iff (ask.rope || ask.len) (curveLength L.cp) = .ok (if (ask.rope || ask.len) = true then some (L.cp.map lengthOf).sum else none) := by
    rw [hlen]
    cases g : (ask.rope || ask.len) <;> rfl
  unfold octrope
  rw [if_neg (not_lt.mpr hl), hmr, ok_bind, wrap_id h.edged, hf, ok_bind, x1, ok_bind, x2, ok_bind, x3, ok_bind]
  have x4 : iff ask.rope (do
      let t ← need (if (ask.rope || ask.thick) = true then some th else none)
      let l ← need (if (ask.rope || ask.len) = true then some (L.cp.map lengthOf).sum else none)
      .ok (if t = 0 then big else l / t)) = .ok (if ask.rope then some (if th = 0 then big else (L.cp.map lengthOf).sum / th) else none) := by
    cases g : ask.rope with
    | false => rfl
    | true =>
      simp only [Bool.true_or, if_true]
      rfl
  rw [x4, ok_bind]
  refine ⟨_, th, rfl, eth, ?_, ?_, rfl, ?_, ?_, ?_, ?_, ?_⟩
  · show (if ask.thick = true then if (ask.rope || ask.thick) = true then some th else none else none) = _
    by_cases g : ask.thick = true
    · simp [g]
    · simp [g]
  · show (if ask.len = true then if (ask.rope || ask.len) = true then some (L.cp.map lengthOf).sum else none else none) = _
    by_cases g : ask.len = true
    · simp [g]
    · simp [g]
  · show (if ask.rad = true then some (if lam = 0 then big else mr.1) else none) = _
    by_cases g : ask.rad = true
    · rw [if_pos g, if_pos g]
      by_cases z : lam = 0
      · rw [if_pos z, if_pos z]
      · rw [if_neg z, if_neg z, mr1 (by simp [g]) (lt_of_le_of_ne hl (Ne.symm z))]
    · rw [if_neg g, if_neg g]
  · show (if ask.strut = true then some sh else none) = _
    rw [hsh]
  · show (if ask.num = true then some f.num else none) = if ask.num = true then some (f.list.length : Int) else none
    by_cases g : ask.num = true
    · rw [if_pos g, if_pos g, (f3 g).1, (f3 g).2]
    · rw [if_neg g, if_neg g]
  · intro g
    refine ⟨sh, ?_⟩
    show octropeStruts big (some front) req L.cp cutoff eps size = .ok (some (sh, f.list))
    rw [(f3 g).2]
    exact c1
  · intro g
    refine ⟨if lam = 0 then [] else mr.2, ?_, fun z => by rw [if_pos z], fun z => ?_⟩
    · show (if ask.locs = true then some (if lam = 0 then [] else mr.2) else none) = _
      rw [if_pos g]
    · rw [if_neg z.ne']
      exact mr2 g z

/-- **C91b.** The functions for thickness, ropelength and shortest distance alone. -/
theorem C91_values {L : Curve} (h : Nice L.cp) (front : Varr) (req : Nat) {big : ℝ} (hb : 0 < big) {lam : ℝ} (hl : 0 ≤ lam) :
    ∃ S R th, Shortest big L.cp S ∧ Roundest big L R ∧ th = (if lam = 0 then S / 2 else min (S / 2) (R / lam)) ∧
      octropePoca big (some front) req L = .ok S ∧ octropeThickness big (some front) req L lam = .ok th ∧
      octropeRopelength big (some front) req L lam = .ok (if th = 0 then big else (L.cp.map lengthOf).sum / th) := by
  obtain ⟨S, R, hS, hR, g⟩ := C91_octrope h front req hb hl
  obtain ⟨o1, th, e1, t1, p1, _⟩ := g { thick := true } 0 0 0 0 0 0 (le_refl _) (le_refl _)
  obtain ⟨o2, th', e2, t2, _, _, p2, _⟩ := g { rope := true } 0 0 0 0 0 0 (le_refl _) (le_refl _)
  obtain ⟨o3, _, e3, _, _, _, _, _, p3, _⟩ := g { strut := true } 0 0 0 0 0 0 (le_refl _) (le_refl _)
  refine ⟨S, R, th, hS, hR, t1, ?_, ?_, ?_⟩
  · unfold octropePoca
    rw [wrap_id h.edged]
    obtain ⟨sh, l, q⟩ : ∃ sh l, octropeStruts big (some front) req L.cp 0 0 0 = .ok (some (sh, l)) := by
      obtain ⟨C, _, c2⟩ := calls h front req
      obtain ⟨sh, l, q, _⟩ := c2 big 0 0 0 (le_refl _) (le_refl _)
      exact ⟨sh, l, q⟩
    rw [q, ok_bind]
    unfold octrope at e3
    rw [if_neg (not_lt.mpr hl)] at e3
    obtain ⟨mr, _, e3⟩ := bind_ok_iff.mp e3
    obtain ⟨f, hf, e3⟩ := bind_ok_iff.mp e3
    obtain ⟨st, hst, e3⟩ := bind_ok_iff.mp e3
    obtain ⟨_, _, e3⟩ := bind_ok_iff.mp e3
    obtain ⟨_, _, e3⟩ := bind_ok_iff.mp e3
    obtain ⟨_, _, e3⟩ := bind_ok_iff.mp e3
    simp only [Except.ok.injEq] at e3
    rw [← e3] at p3
    simp only at p3
    have hw := wrap_id h.edged
    rw [hw] at hf
    unfold strutPart at hf
    rw [if_pos (by simp)] at hf
    unfold strutData at hf
    rw [q, ok_bind] at hf
    simp only at hf
    have told : f.told = some sh := by
      by_cases z : l.length = 0
      · rw [if_pos z] at hf
        obtain ⟨_, _, hf⟩ := bind_ok_iff.mp hf
        simp only [Except.ok.injEq] at hf
        rw [← hf]
      · rw [if_neg z] at hf
        simp only [Except.ok.injEq] at hf
        rw [← hf]
    rw [told] at hst
    have : st = some sh := by
      have : (Except.ok (some sh) : Res (Option ℝ)) = .ok st := hst
      simp only [Except.ok.injEq] at this
      exact this.symm
    rw [this] at p3
    simp at p3
    rw [p3]
    rfl
  · unfold octropeThickness
    rw [e1, ok_bind, p1]
    rfl
  · unfold octropeRopelength
    rw [e2, ok_bind, p2, t1, ← t2]
    rfl

/-- **C91c.** With a negative cutoff or epsilon `octrope_struts` sets nothing, and `octrope` goes on with an uninitialised length. -/
theorem C91_uninitialised {L : Curve} (h : ∀ c ∈ L.cp, 2 ≤ c.vt.length ∧ Proper c) (front : Option Varr) (req : Nat) {big lam : ℝ} (hl : 0 ≤ lam) {ask : Ask}
    (ha : (ask.rope || ask.thick || ask.strut) = true) {mrCutoff mrEps cutoff eps : ℝ} (hc : cutoff < 0 ∨ eps < 0) (mrSize size : Nat) :
    octrope big front req ask L mrCutoff mrEps mrSize cutoff eps size lam = .error .ub := by
  unfold octrope
  rw [if_neg (not_lt.mpr hl)]
  obtain ⟨mr, hmr⟩ : ∃ mr, radData big ask L mrCutoff mrEps mrSize lam = .ok mr := by
    unfold radData
    split
    · obtain ⟨r, l, e, _⟩ := Minrad.C85_minrad big mrCutoff mrEps (if ask.locs then some mrSize else none) L h
      exact ⟨_, e⟩
    · exact ⟨_, rfl⟩
  rw [hmr, ok_bind]
  have : strutPart big front req ask (L.cp.map fixWrap) cutoff eps size = .ok ⟨none, none, -1, []⟩ := by
    unfold strutPart
    rw [if_pos (by simp only [Bool.or_eq_true] at ha ⊢; tauto)]
    unfold strutData
    rw [C89_refused hc, ok_bind]
  rw [this, ok_bind]
  cases g : ask.strut with
  | true => rfl
  | false =>
    rw [g, Bool.or_false] at ha
    rw [ha]
    rfl

/-- **C91d.** With a negative λ nothing is written: `octrope_thickness` and `octrope_ropelength` return a variable which is not initialised. -/
theorem C91_negative_lambda {lam : ℝ} (hl : lam < 0) (big : ℝ) (front : Option Varr) (req : Nat) (L : Curve) :
    octropeThickness big front req L lam = .error .ub ∧ octropeRopelength big front req L lam = .error .ub := by
  unfold octropeThickness octropeRopelength octrope
  rw [if_pos hl, if_pos hl]
  exact ⟨rfl, rfl⟩

/-- **C91e.** `octrope_strut_ends` gives the two points of a strut, which are as far apart as the strut is long. -/
theorem C91_strut_ends {cp : List Comp} {x : Strut} (h : StrutOf cp x) : ∃ (c c' : Comp) (a b a' b' : V3), cp[x.comp0]? = some c ∧ cp[x.comp1]? = some c' ∧
    EdgeAt c x.vert0 a b ∧ EdgeAt c' x.vert1 a' b' ∧ strutEnds cp x = .ok (along a b x.pos0, along a' b' x.pos1) ∧
    apart (along a b x.pos0) (along a' b' x.pos1) = x.len := by
  obtain ⟨c, c', a, b, a', b', g1, g2, g3, g4, _, _, g5, _⟩ := h
  have one : ∀ {i v : Nat} {s : ℝ} {c : Comp} {a b : V3}, cp[i]? = some c → EdgeAt c v a b → endOf cp i v s = .ok (along a b s) := by
    intro i v s c a b h1 h2
    unfold endOf
    rw [rd_ok h1, ok_bind, vtAt_nat h2.1, ok_bind, vtAt_next h2, ok_bind]
    congr 1
    simp only [along, V3.mk.injEq]
    refine ⟨?_, ?_, ?_⟩ <;> ring
  refine ⟨c, c', a, b, a', b', g1, g2, g3, g4, ?_, g5.symm⟩
  unfold strutEnds
  rw [one g1 g3, ok_bind, one g2 g4, ok_bind]

/-! ## Example: the curve of C87 -/

theorem exNice : Nice [bent, above] where
  edged := exEdged
  clear := exClear
  unfolded := fun c hc t ht => by rw [exTurn hc ht]; linarith [Real.pi_pos]
  turns := ⟨bent, by simp, Real.pi / 2, exTurns, by nlinarith [Real.pi_pos]⟩

/-- Its shortest strut has length at most 1, so it is at most 1/2 thick. -/
example (front : Varr) : ∃ th, octropeThickness 100 (some front) 0 ⟨[bent, above], []⟩ 0 = .ok th ∧ th ≤ 1 / 2 := by
  obtain ⟨S, R, th, hS, _, e, _, h, _⟩ := C91_values (L := ⟨[bent, above], []⟩) exNice front 0 (big := 100) (by norm_num) (le_refl (0 : ℝ))
  refine ⟨th, h, ?_⟩
  have : S ≤ 1 := hS.2.1 exStrut exIs.1 (by simp [TwoEdges, exStrut]) exIs.2.2
  rw [e, if_pos rfl]
  linarith

end Plc.Struts
