import Verif.Props.Octree
import Verif.Proofs.StrutPi

/-! # C90: nothing is lost by skipping edges which are close along the curve -/

namespace Plc.Struts

open Plc.Core Plc.FindCrossings Plc.RandomPolygon Plc.Equilateral Plc.Motions Plc.Measure Plc.Poca

/-- The edges of the strut are two. -/
def TwoEdges (x : Strut) : Prop := (x.comp0, x.vert0) ≠ (x.comp1, x.vert1)

/-- The vertices between two edges less than `k` apart do not turn by half a circle. -/
theorem small_turn {cp : List Comp} {k : Int} (hE : Edged cp) (h : piCount cp = .ok k) (hf : ∀ c ∈ cp, ∀ t, TurnAt c t → t < Real.pi) {c : Comp} (hc : c ∈ cp)
    {d : Nat} (hd : (d : Int) < k) : ∃ m, (∀ t, TurnAt c t → t ≤ m) ∧ d * m < Real.pi := by
  obtain ⟨m, m0, hk, h1, c', hc', h2⟩ := piCount_ok hE h
  refine ⟨m, h1 c hc, ?_⟩
  rcases le_or_gt ⌊Real.pi / m⌋ 2 with x | x
  · have : d ≤ 1 := by omega
    have hm := hf c' hc' m h2
    have hd : (d : ℝ) ≤ 1 := by exact_mod_cast this
    nlinarith
  · have e : k = ⌊Real.pi / m⌋ := by omega
    have a : ((⌊Real.pi / m⌋ : ℤ) : ℝ) ≤ Real.pi / m := Int.floor_le _
    rw [le_div_iff₀ m0, ← e] at a
    have : (d : ℝ) < k := by exact_mod_cast hd
    nlinarith

theorem far_aux {cp : List Comp} {k : Int} (hE : Edged cp) (h : piCount cp = .ok k) (hf : ∀ c ∈ cp, ∀ t, TurnAt c t → t < Real.pi) {x : Strut}
    (hx : StrutOf cp x) (hlt : x.comp0 = x.comp1 → x.vert0 < x.vert1) : FarAlong cp k x := by
  obtain ⟨c, c', a, b, a', b', g1, g2, g3, g4, n1, n2, _, r1, r2⟩ := hx
  intro hcc
  have hlt := hlt hcc
  rw [hcc, g2] at g1
  simp only [Option.some.injEq] at g1
  subst g1
  have hc := List.mem_of_getElem? g2
  have hne := (hE _ hc).2.2
  have l1 := g3.lt
  have l2 := g4.lt
  refine ⟨c', by rw [hcc]; exact g2, ?_, ?_⟩
  · by_contra hk
    obtain ⟨d, hd⟩ : ∃ d, x.vert1 = x.vert0 + d := ⟨x.vert1 - x.vert0, by omega⟩
    rw [abs_sub_comm, abs_of_nonneg (by omega)] at hk
    obtain ⟨m, hm, hdm⟩ := small_turn hE h hf hc (d := d) (by omega)
    have e : (x.vert0 + d) % c'.vt.length = x.vert1 := by rw [← hd, Nat.mod_eq_of_lt l2]
    exact no_strut (u := x.vert0) (d := d) hne l1 (by omega) (fun ho => by have := g4.openLt ho; omega) hm hdm g3 (by rw [e]; exact g4) n1 (by rw [e]; exact n2) r1
      (by rw [e]; exact r2)
  · intro ho
    by_contra hk
    obtain ⟨d, hd⟩ : ∃ d, x.vert1 + d = c'.vt.length + x.vert0 := ⟨c'.vt.length + x.vert0 - x.vert1, by omega⟩
    rw [abs_sub_comm, abs_of_nonneg (by omega)] at hk
    obtain ⟨m, hm, hdm⟩ := small_turn hE h hf hc (d := d) (by omega)
    have e : (x.vert1 + d) % c'.vt.length = x.vert0 := by rw [hd, Nat.add_mod_left, Nat.mod_eq_of_lt l1]
    exact no_strut (u := x.vert1) (d := d) hne l2 (by omega) (fun h' => by rw [ho] at h'; simp at h') hm hdm g4 (by rw [e]; exact g3) n2 (by rw [e]; exact n1) r2
      (by rw [e]; exact r1)

/-- **C90a.** If the curve is nowhere folded back onto itself, every strut between two different edges is between edges at least `pi_count` apart
along the curve. -/
theorem C90_none_skipped {cp : List Comp} {k : Int} (hE : Edged cp) (h : piCount cp = .ok k) (hf : ∀ c ∈ cp, ∀ t, TurnAt c t → t < Real.pi) {x : Strut}
    (hx : StrutOf cp x) (h2 : TwoEdges x) : FarAlong cp k x := by
  by_cases hlt : x.comp0 = x.comp1 → x.vert0 < x.vert1
  · exact far_aux hE h hf hx hlt
  · have hlt := not_forall.mp hlt
    obtain ⟨hcc, hlt⟩ := hlt
    have hne : x.vert0 ≠ x.vert1 := by
      intro e
      apply h2
      rw [hcc, e]
    have : FarAlong cp k (Plc.flip x) := far_aux hE h hf hx.flip (fun _ => by
      show x.vert1 < x.vert0
      omega)
    exact this.flip

/-- **C90b.** So `octrope_struts` is about all struts between two different edges, if these are not parallel and the curve is nowhere folded: none
is shorter than the length reported, and if there is room, all within the bound are listed. -/
theorem C90_all_struts {cp : List Comp} (hE : Edged cp) (hc : ClearCut cp) (hf : ∀ c ∈ cp, ∀ t, TurnAt c t → t < Real.pi)
    (ht : ∃ c ∈ cp, ∃ t, TurnAt c t ∧ Real.pi < 2 ^ 31 * t) (front : Varr) (req : Nat) {big cutoff eps : ℝ} (h0 : 0 ≤ cutoff) (he : 0 ≤ eps) (size : Nat) :
    ∃ (sh : ℝ) (l : List Strut), octropeStruts big (some front) req cp cutoff eps size = .ok (some (sh, l)) ∧
      (∀ x, StrutOf cp x → TwoEdges x → Transversal cp x → (0 < cutoff → x.len ≤ cutoff) → sh ≤ x.len) ∧
      (sh = big ∨ ∃ x, StrutOf cp x ∧ TwoEdges x ∧ x.len = sh) ∧
      (∀ x ∈ l, StrutOf cp x ∧ TwoEdges x ∧ x.len ≤ lengthBound cutoff eps sh) ∧
      ((cp.map fun c => if c.isOpen then c.vt.length - 1 else c.vt.length).sum * ((cp.map fun c => if c.isOpen then c.vt.length - 1 else c.vt.length).sum - 1) ≤
          2 * size →
        ∀ x, StrutOf cp x → TwoEdges x → Transversal cp x → x.len ≤ lengthBound cutoff eps sh → x ∈ l ∨ Plc.flip x ∈ l) := by
  have hn : ∃ c ∈ cp, ∃ v a b, EdgeAt c v a b := by
    obtain ⟨c, hc, t, ⟨u, v, a, b, d, h, _⟩, _⟩ := ht
    exact ⟨c, hc, u, a, b, h⟩
  obtain ⟨T, h1, h2, h3, _, _, _, _, h4⟩ := C89_octree cp hn front req
  obtain ⟨k, hk⟩ := (C87_straight hE).2 ht
  have G : Given cp T.es T.boxes T.depth T.root eps k := ⟨hE, h2, h3, hk, he⟩
  have k2 := G.two
  have two : ∀ x, FarAlong cp k x → TwoEdges x := by
    intro x hx e
    simp only [Prod.mk.injEq] at e
    obtain ⟨c, _, h, _⟩ := hx e.1
    rw [e.2] at h
    simp at h
    omega
  obtain ⟨sh, l, r, s1, s2, s3⟩ := C87_shortest G hc big cutoff size
  obtain ⟨l1, l2, l3⟩ := C87_list_sound G hc r
  refine ⟨sh, l, ?_, fun x a b d => s2 x a (C90_none_skipped hE hk hf a b) d, ?_, fun x hx => ⟨(l1 x hx).1, two x (l1 x hx).2.1, (l1 x hx).2.2⟩, ?_⟩
  · unfold octropeStruts
    rw [if_neg (not_lt.mpr he), if_neg (not_lt.mpr h0), h1, ok_bind, r, ok_bind]
  · rcases s3 with h | ⟨x, a, b, d, _⟩
    · exact .inl h
    · exact .inr ⟨x, a, two x b, d⟩
  · intro room x a b
    rw [← h4] at room
    exact C87_list_complete G hc r (.inl room) x a (C90_none_skipped hE hk hf a b)

/-! ## A fold -/

/-- The arc through `(0, 0, 0)`, `(2, 0, 0)` and back to `(1, 0, 0)`. -/
noncomputable def folded : Comp := ⟨true, [⟨0, 0, 0⟩, ⟨2, 0, 0⟩, ⟨1, 0, 0⟩]⟩

/-- The two edges at the fold, where they meet. -/
noncomputable def foldStrut : Strut := ⟨0, 0, 0, 1, 3 / 4, 1 / 2, 0⟩

/-- **C90c.** At a fold two edges next to each other have points in common, which are not found: they are never looked at. -/
theorem C90_fold : StrutOf [folded] foldStrut ∧ TwoEdges foldStrut ∧ ∀ k, 2 ≤ k → ¬ FarAlong [folded] k foldStrut := by
  have e1 : along ⟨0, 0, 0⟩ ⟨2, 0, 0⟩ (3 / 4) = ⟨3 / 2, 0, 0⟩ := by norm_num [along]
  have e2 : along ⟨2, 0, 0⟩ ⟨1, 0, 0⟩ (1 / 2) = ⟨3 / 2, 0, 0⟩ := by norm_num [along]
  have z : apart ⟨3 / 2, 0, 0⟩ ⟨3 / 2, 0, 0⟩ = 0 := by simp [apart, distSq]
  refine ⟨⟨folded, folded, ⟨0, 0, 0⟩, ⟨2, 0, 0⟩, ⟨2, 0, 0⟩, ⟨1, 0, 0⟩, rfl, rfl, ⟨rfl, rfl⟩, ⟨rfl, rfl⟩, ?_, ?_, ?_, ?_, ?_⟩, by simp [TwoEdges, foldStrut], ?_⟩
  · exact ⟨by norm_num [foldStrut], .inl (by norm_num [foldStrut])⟩
  · exact ⟨by norm_num [foldStrut], .inl (by norm_num [foldStrut])⟩
  · show (0 : ℝ) = apart (along ⟨0, 0, 0⟩ ⟨2, 0, 0⟩ (3 / 4)) (along ⟨2, 0, 0⟩ ⟨1, 0, 0⟩ (1 / 2))
    rw [e1, e2, z]
  · refine ⟨?_, fun h => by norm_num [foldStrut] at h⟩
    intro t _ _
    show apart (along ⟨2, 0, 0⟩ ⟨1, 0, 0⟩ (1 / 2)) (along ⟨0, 0, 0⟩ ⟨2, 0, 0⟩ (3 / 4)) ≤ _
    rw [e1, e2, z]
    exact Real.sqrt_nonneg _
  · refine ⟨?_, fun h => by norm_num [foldStrut] at h⟩
    intro t _ _
    show apart (along ⟨0, 0, 0⟩ ⟨2, 0, 0⟩ (3 / 4)) (along ⟨2, 0, 0⟩ ⟨1, 0, 0⟩ (1 / 2)) ≤ _
    rw [e1, e2, z]
    exact Real.sqrt_nonneg _
  · intro k hk h
    obtain ⟨c, _, h, _⟩ := h rfl
    simp [foldStrut] at h
    omega

/-! ## Example: the curve of C87, which turns by a right angle -/

example : ∀ c ∈ [bent, above], ∀ t, TurnAt c t → t < Real.pi := by
  intro c hc t ht
  rw [exTurn hc ht]
  linarith [Real.pi_pos]

example : FarAlong [bent, above] 2 exStrut :=
  C90_none_skipped exEdged exPi (fun c hc t ht => by rw [exTurn hc ht]; linarith [Real.pi_pos]) exIs.1 (by simp [TwoEdges, exStrut])

end Plc.Struts
