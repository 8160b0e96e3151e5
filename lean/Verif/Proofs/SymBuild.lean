import Verif.Proofs.Symmetry

/-! # Lemmas about symmetries of curves: building -/

namespace Plc.Symmetry

open Plc.Core Plc.FindCrossings Plc.RandomPolygon Plc.Equilateral Plc.Motions Plc.Measure Plc.Nearest

/-- Vertex `m` is one of those nearest to the image of vertex `l`. -/
def Near (L : SCurve) (A : Mat) (l m : Loc) : Prop :=
  HasVert L m ∧ ∀ w, HasVert L w → apart (image A (vertAt L l)) (vertAt L m) ≤ apart (image A (vertAt L l)) (vertAt L w)

/-- What the search for nearest vertices needs. -/
structure Ready (big : ℝ) (A : Mat) (L : SCurve) : Prop where
  comps : L.cp ≠ []
  full : ∀ c ∈ L.cp, c.vt ≠ []
  fits : ∀ c ∈ L.cp, 5000 ≤ c.vt.length → Fits c.vt
  reach : ∀ l, HasVert L l → ∃ m, HasVert L m ∧ distSq (image A (vertAt L l)) (vertAt L m) < big

theorem nearest_loc {qs : QSort} {big : ℝ} {A : Mat} {L : SCurve} (h : Ready big A L) (l : Loc) (hl : HasVert L l) (pc : Option VPc)
    (hu : VUsable L.addr L.parts (some pc)) :
    ∃ v m pc' st, nearestVertex qs big (image A (vertAt L l)) L.addr L.parts (some pc) = .ok (v, m.1, m.2, pc', st) ∧
      VUsable L.addr L.parts (some (pc'.getD none)) ∧ Near L A l m := by
  have hmem : ∀ c ∈ L.parts, ∃ d ∈ L.cp, c = ⟨d.addr, d.vt⟩ := by
    intro c hc
    obtain ⟨d, hd, rfl⟩ := List.mem_map.mp hc
    exact ⟨d, hd, rfl⟩
  obtain ⟨v, cp, vt, pc', h1, h2, ⟨c, hc, hv⟩, h4⟩ := nearestVertex_ok qs big (image A (vertAt L l)) L.addr L.parts (some pc)
    (by simpa [SCurve.parts] using h.comps)
    (by intro c hc; obtain ⟨d, hd, rfl⟩ := hmem c hc; exact h.full d hd)
    (by intro c hc; obtain ⟨d, hd, rfl⟩ := hmem c hc; exact h.fits d hd) hu
  have hvm : vert L (cp, vt) = some v := by
    unfold SCurve.parts at hc
    rw [List.getElem?_map] at hc
    rcases hd : L.cp[cp]? with _ | d
    · rw [hd] at hc; simp at hc
    · rw [hd] at hc
      simp only [Option.map_some, Option.some.injEq] at hc
      exact vert_eq.mpr ⟨d, hd, by rw [← hc] at hv; exact hv⟩
  refine ⟨v, (cp, vt), pc', _, h1, ?_, ⟨v, hvm⟩, ?_⟩
  · rcases pc' with _ | pc'
    · trivial
    · exact h2
  · intro w hw
    have hwm : ∀ w, HasVert L w → ∃ c ∈ L.parts, vertAt L w ∈ c.vt := by
      intro w hw
      obtain ⟨d, hd, hdv⟩ := vert_eq.mp (vertAt_eq hw)
      exact ⟨⟨d.addr, d.vt⟩, List.mem_map.mpr ⟨d, List.mem_of_getElem? hd, rfl⟩, List.mem_of_getElem? hdv⟩
    obtain ⟨c', hc', hwc⟩ := hwm w hw
    obtain ⟨m, hm, hmb⟩ := h.reach l hl
    obtain ⟨c'', hc'', hmc⟩ := hwm m hm
    have hva : vertAt L (cp, vt) = v := by unfold vertAt; rw [hvm]; rfl
    rw [hva]
    exact h4 ⟨c'', hc'', vertAt L m, hmc, hmb⟩ c' hc' _ hwc

/-- The vertex the table sends `l` to. -/
def sentBy (t : List (List Loc)) (l : Loc) : Option Loc := t[l.1]?.bind fun row => row[l.2]?

theorem wr2_ok {t : List (List Loc)} {l x y : Loc} (h : sentBy t l = some y) :
    ∃ t', wr2 t l x = .ok t' ∧ sentBy t' l = some x ∧ ∀ m, m ≠ l → sentBy t' m = sentBy t m := by
  unfold sentBy at h
  rcases h1 : t[l.1]? with _ | row
  · rw [h1] at h; simp at h
  · rw [h1, Option.bind_some] at h
    have hi : l.1 < t.length := (List.getElem?_eq_some_iff.mp h1).1
    have hj : l.2 < row.length := (List.getElem?_eq_some_iff.mp h).1
    refine ⟨t.set l.1 (row.set l.2 x), ?_, ?_, ?_⟩
    · unfold wr2
      rw [rd_ok h1, ok_bind, wr_lt hj, ok_bind, wr_lt hi]
    · unfold sentBy; simp [hi, hj]
    · intro m hm
      unfold sentBy
      rw [List.getElem?_set]
      by_cases hil : l.1 = m.1
      · have h2 : l.2 ≠ m.2 := fun h => hm (Prod.ext hil.symm h.symm)
        rw [if_pos hil, if_pos (by omega), ← hil, h1, Option.bind_some, Option.bind_some, List.getElem?_set, if_neg h2]
      · rw [if_neg hil]

theorem noTargets_sent (L : SCurve) (l : Loc) (hl : HasVert L l) : sentBy (noTargets L) l = some (0, 0) := by
  obtain ⟨p, hp⟩ := hl
  obtain ⟨c, hc, hv⟩ := vert_eq.mp hp
  have := (List.getElem?_eq_some_iff.mp hv).1
  unfold sentBy noTargets
  rw [List.getElem?_map, hc]
  simp [this]

theorem locs_nodup (L : SCurve) : L.locs.Nodup := by
  unfold SCurve.locs
  rw [List.nodup_flatMap]
  constructor
  · intro p _
    exact (List.nodup_range).map (fun a b h => by simpa using h)
  · have : L.cp.zipIdx.Pairwise (fun a b => a.2 ≠ b.2) := by
      have h := List.nodup_range' (s := 0) (n := L.cp.length)
      rw [← List.zipIdx_map_snd 0 L.cp] at h
      exact List.pairwise_map.mp h
    refine this.imp ?_
    intro a b hab x hx hx'
    obtain ⟨_, _, rfl⟩ := List.mem_map.mp hx
    obtain ⟨_, _, h⟩ := List.mem_map.mp hx'
    exact hab (congrArg Prod.fst h).symm

/-- The targets of the vertices in `D` are found, and are different. -/
structure Found (L : SCurve) (A : Mat) (D : Loc → Prop) (target : List (List Loc)) (used : List Bool) (τ : Loc → Loc) : Prop where
  shape : ∀ l, HasVert L l → ∃ x, sentBy target l = some x
  sent : ∀ l, D l → sentBy target l = some (τ l)
  near : ∀ l, D l → Near L A l (τ l)
  inj : ∀ l m, D l → D m → τ l = τ m → l = m
  len : used.length = L.size
  used : ∀ m, HasVert L m → ∃ (k : Nat) (b : Bool), L.num m = .ok k ∧ used[k]? = some b ∧ (b = true ↔ ∃ l, D l ∧ τ l = m)

theorem buildLoop_ok (qs : QSort) (big : ℝ) (L : SCurve) (A : Mat) (h : Ready big A L) :
    ∀ (ls : List Loc) (D : Loc → Prop) (target : List (List Loc)) (used : List Bool) (pc : Option VPc) (τ : Loc → Loc), ls.Nodup →
      (∀ l ∈ ls, HasVert L l ∧ ¬ D l) → Found L A D target used τ → VUsable L.addr L.parts (some pc) →
      (∃ l m x, (D l ∨ l ∈ ls) ∧ m ∈ ls ∧ l ≠ m ∧ (D l ∨ HasVert L l) ∧ Near L A l x ∧ Near L A m x ∧ buildLoop qs big L A ls target used pc = .ok none) ∨
      ∃ t used' τ', buildLoop qs big L A ls target used pc = .ok (some t) ∧ Found L A (fun l => D l ∨ l ∈ ls) t used' τ' := by
  intro ls
  induction ls with
  | nil =>
    intro D target used pc τ _ _ hF _
    refine .inr ⟨target, used, τ, rfl, ?_⟩
    have : (fun l => D l ∨ l ∈ ([] : List Loc)) = D := by funext l; simp
    rw [this]; exact hF
  | cons l ls ih =>
    intro D target used pc τ hnd hls hF hu
    obtain ⟨hlv, hlD⟩ := hls l List.mem_cons_self
    obtain ⟨v, m, pc', st, n1, n2, n3⟩ := nearest_loc (qs := qs) h l hlv pc hu
    obtain ⟨y, hy⟩ := hF.shape l hlv
    obtain ⟨t', t1, t2, t3⟩ := wr2_ok (x := m) hy
    obtain ⟨k, b, k1, k2, k3⟩ := hF.used m n3.1
    have hk : k < used.length := (List.getElem?_eq_some_iff.mp k2).1
    have hstep : buildLoop qs big L A (l :: ls) target used pc =
        if b then .ok none else buildLoop qs big L A ls t' (used.set k true) (pc'.getD none) := by
      conv_lhs => unfold buildLoop
      rw [get_eq (vertAt_eq hlv), ok_bind, app_image, n1, ok_bind]
      simp only
      rw [t1, ok_bind, k1, ok_bind, rd_ok k2, ok_bind]
      cases b
      · simp only [Bool.false_eq_true, if_false]
        rw [wr_lt hk, ok_bind]
      · simp
    rcases hb : b with _ | _
    · rw [hb] at hstep k3
      simp only [Bool.false_eq_true, if_false] at hstep
      have hfree : ∀ x, D x → τ x ≠ m := fun x hx hxm => absurd (k3.mpr ⟨x, hx, hxm⟩) (by simp)
      have hne : ∀ x, D x → x ≠ l := fun x hx hxl => hlD (hxl ▸ hx)
      have hF' : Found L A (fun x => D x ∨ x = l) t' (used.set k true) (Function.update τ l m) := by
        constructor
        · intro x hx
          by_cases hxl : x = l
          · exact ⟨m, hxl ▸ t2⟩
          · rw [t3 x hxl]; exact hF.shape x hx
        · rintro x (hx | rfl)
          · rw [Function.update_of_ne (hne x hx), t3 x (hne x hx)]; exact hF.sent x hx
          · rw [Function.update_self]; exact t2
        · rintro x (hx | rfl)
          · rw [Function.update_of_ne (hne x hx)]; exact hF.near x hx
          · rw [Function.update_self]; exact n3
        · rintro x z (hx | rfl) (hz | rfl) hxz
          · rw [Function.update_of_ne (hne x hx), Function.update_of_ne (hne z hz)] at hxz
            exact hF.inj x z hx hz hxz
          · rw [Function.update_of_ne (hne x hx), Function.update_self] at hxz
            exact absurd hxz (hfree x hx)
          · rw [Function.update_of_ne (hne z hz), Function.update_self] at hxz
            exact absurd hxz.symm (hfree z hz)
          · rfl
        · simpa using hF.len
        · intro w hw
          obtain ⟨q, c, q1, q2, q3⟩ := hF.used w hw
          by_cases hwm : w = m
          · subst hwm
            refine ⟨k, true, k1, by simp [hk], ?_⟩
            simp only [true_iff]
            exact ⟨l, .inr rfl, Function.update_self ..⟩
          · have hkq : k ≠ q := fun hkq => hwm ((num_numbers L).inj w m q hw n3.1 q1 (hkq ▸ k1))
            refine ⟨q, c, q1, by rw [List.getElem?_set, if_neg hkq]; exact q2, q3.trans ?_⟩
            constructor
            · rintro ⟨x, hx, hxw⟩
              exact ⟨x, .inl hx, by rw [Function.update_of_ne (hne x hx)]; exact hxw⟩
            · rintro ⟨x, hx | rfl, hxw⟩
              · exact ⟨x, hx, by rw [Function.update_of_ne (hne x hx)] at hxw; exact hxw⟩
              · rw [Function.update_self] at hxw
                exact absurd hxw.symm hwm
      rcases ih (fun x => D x ∨ x = l) t' (used.set k true) (pc'.getD none) (Function.update τ l m) (List.nodup_cons.mp hnd).2
        (by
          intro x hx
          refine ⟨(hls x (List.mem_cons_of_mem _ hx)).1, ?_⟩
          rintro (hxD | rfl)
          · exact (hls x (List.mem_cons_of_mem _ hx)).2 hxD
          · exact (List.nodup_cons.mp hnd).1 hx) hF' n2 with
        ⟨a, c, x, h1, h2, h3, h4, h5, h6, h7⟩ | ⟨t'', used'', τ'', h1, h2⟩
      · refine .inl ⟨a, c, x, ?_, List.mem_cons_of_mem _ h2, h3, ?_, h5, h6, by rw [hstep]; exact h7⟩
        · rcases h1 with (h1 | rfl) | h1
          · exact .inl h1
          · exact .inr List.mem_cons_self
          · exact .inr (List.mem_cons_of_mem _ h1)
        · rcases h4 with (h4 | rfl) | h4
          · exact .inl h4
          · exact .inr hlv
          · exact .inr h4
      · refine .inr ⟨t'', used'', τ'', by rw [hstep]; exact h1, ?_⟩
        have : (fun x => (D x ∨ x = l) ∨ x ∈ ls) = fun x => D x ∨ x ∈ l :: ls := by
          funext x; simp [or_assoc]
        rw [← this]; exact h2
    · rw [hb] at hstep k3
      obtain ⟨x, hx, hxm⟩ := k3.mp rfl
      refine .inl ⟨x, l, m, .inl hx, List.mem_cons_self, fun hxl => hlD (hxl ▸ hx), .inl hx, hxm ▸ hF.near x hx, n3, by rw [hstep]; rfl⟩

theorem build_ok (qs : QSort) (big : ℝ) (L : SCurve) (A : Mat) (h : Ready big A L) :
    (∃ l m x, HasVert L l ∧ HasVert L m ∧ l ≠ m ∧ Near L A l x ∧ Near L A m x ∧ buildSymmetry qs big A L = .ok none) ∨
    ∃ (s : Sym) (τ : Loc → Loc), buildSymmetry qs big A L = .ok (some s) ∧ s.transform = A ∧
      ∀ l, HasVert L l → Plc.sent s l = some (τ l) ∧ Near L A l (τ l) ∧ ∀ m, HasVert L m → τ l = τ m → l = m := by
  have hF : Found L A (fun _ => False) (noTargets L) (List.replicate L.size false) id := by
    refine ⟨fun l hl => ⟨_, noTargets_sent L l hl⟩, fun _ h => h.elim, fun _ h => h.elim, fun _ _ h => h.elim, by simp, ?_⟩
    intro m hm
    obtain ⟨k, k1, k2⟩ := (num_numbers L).ok m hm
    exact ⟨k, false, k1, by simp [k2], by simp⟩
  rcases buildLoop_ok qs big L A h L.locs (fun _ => False) (noTargets L) (List.replicate L.size false) none id (locs_nodup L)
    (fun l hl => ⟨(mem_locs L l).mp hl, fun h => h⟩) hF trivial with ⟨l, m, x, h1, h2, h3, h4, h5, h6, h7⟩ | ⟨t, used', τ', h1, h2⟩
  · refine .inl ⟨l, m, x, h4.resolve_left (fun h => h), (mem_locs L m).mp h2, h3, h5, h6, ?_⟩
    unfold buildSymmetry
    rw [h7, ok_bind]; rfl
  · refine .inr ⟨⟨A, t⟩, τ', ?_, rfl, ?_⟩
    · unfold buildSymmetry
      rw [h1, ok_bind]; rfl
    · intro l hl
      have hD : False ∨ l ∈ L.locs := .inr ((mem_locs L l).mpr hl)
      exact ⟨h2.sent l hD, h2.near l hD, fun m hm => h2.inj l m hD (.inr ((mem_locs L m).mpr hm))⟩

/-- Vertices further apart than twice the error: the nearest vertex is the right one. -/
theorem build_exact (qs : QSort) (big : ℝ) (L : SCurve) (A : Mat) (h : Ready big A L) (hA : Rigid A) (d : ℝ) (τ : Loc → Loc)
    (hτ : ∀ l, HasVert L l → HasVert L (τ l) ∧ apart (image A (vertAt L l)) (vertAt L (τ l)) ≤ d)
    (hd : ∀ l m, HasVert L l → HasVert L m → l ≠ m → 2 * d < apart (vertAt L l) (vertAt L m)) :
    ∃ s, buildSymmetry qs big A L = .ok (some s) ∧ s.transform = A ∧ ∀ l, HasVert L l → Plc.sent s l = some (τ l) := by
  have huniq : ∀ l m, HasVert L l → Near L A l m → m = τ l := by
    intro l m hl hm
    by_contra hne
    obtain ⟨h1, h2⟩ := hτ l hl
    have h3 := hm.2 (τ l) h1
    have h4 := hd m (τ l) hm.1 h1 hne
    have h5 := apart_triangle (vertAt L m) (image A (vertAt L l)) (vertAt L (τ l))
    rw [apart_comm (vertAt L m) (image A _)] at h5
    linarith
  rcases build_ok qs big L A h with ⟨l, m, x, hl, hm, hne, h1, h2, _⟩ | ⟨s, τ', h1, h2, h3⟩
  · exfalso
    have e1 := huniq l x hl h1
    have e2 := huniq m x hm h2
    have h3 := (hτ l hl).2
    have h4 := (hτ m hm).2
    rw [← e1] at h3
    rw [← e2] at h4
    have h5 := apart_triangle (image A (vertAt L l)) (vertAt L x) (image A (vertAt L m))
    rw [hA, apart_comm (vertAt L x)] at h5
    have := hd l m hl hm hne
    linarith
  · refine ⟨s, h1, h2, ?_⟩
    intro l hl
    obtain ⟨a, b, _⟩ := h3 l hl
    rw [a, huniq l _ hl b]

end Plc.Symmetry
