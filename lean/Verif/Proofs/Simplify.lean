import Verif.Model.Simplify
import Verif.Spec.Unlooped
import Verif.Props.MovesFull

/-! Faces with one edge are loops, and loops are such faces. -/

namespace Plc.Simplify

open Plc.Core Plc.Cmp Plc.Places Plc.Faces Plc.Orbit Plc.Moves Plc.Planar Plc.Ok List

variable {cross : List Cross} {edge : List Edge}

theorem at_of_place {p : Nat × Nat} (hp : p ∈ P cross) {x : Cross} (hx : cross[p.1]? = some x) : x.at p.2 = eslot cross p := by
  have h := slot_eslot hp
  have := at_eq_slot (k := p.2) hx
  rw [Nat.mod_eq_of_lt (mem_P.mp hp).2, h] at this
  exact (Option.some.inj this).symm

/-- A side followed by itself is a loop. -/
theorem loop_of_fixed (hC : Consistent cross edge) {d : Dart} (hm : d ∈ D edge) (hf : nd cross edge d = d) :
    ∃ (k : Nat) (x : Cross), cross[(hd edge[d.1]!).1]? = some x ∧ x.at k = x.at (k + 1) := by
  have hb := begp_nd hC hm
  rw [hf] at hb
  obtain ⟨p1, p2⟩ := endp_mem hC hm
  obtain ⟨q1, q2⟩ := begp_mem hC hm
  obtain ⟨l1, l2⟩ := mem_P.mp p1
  have hc1 : (begp edge d).1 = (endp edge d).1 := by rw [hb]; rfl
  have hc : (hd edge[d.1]!).1 = (endp edge d).1 := by
    by_cases h : d.2 = .pos
    · rw [endp, if_pos h]
    · rw [← hc1, begp, if_neg h]
  have hx := List.getElem?_eq_getElem l1
  refine ⟨((endp edge d).2 + 3) % 4, _, by rw [hc]; exact hx, ?_⟩
  have e1 := at_of_place p1 hx
  have e2 := at_of_place q1 (by rw [hc1]; exact hx)
  rw [p2] at e1
  rw [q2, hb] at e2
  rw [at_lt _ (_ + 1), show (((endp edge d).2 + 3) % 4 + 1) % 4 = (endp edge d).2 by omega, e1]
  exact e2

/-- At a loop there is a side followed by itself. -/
theorem fixed_of_loop (hC : Consistent cross edge) {c k : Nat} {x : Cross} (hx : cross[c]? = some x) (h : x.at k = x.at (k + 1)) :
    ∃ d ∈ D edge, nd cross edge d = d := by
  have hc := (List.getElem?_eq_some_iff.mp hx).1
  have mp : (c, k % 4) ∈ P cross := mem_P.mpr ⟨hc, Nat.mod_lt _ (by decide)⟩
  have mq : (c, (k + 1) % 4) ∈ P cross := mem_P.mpr ⟨hc, Nat.mod_lt _ (by decide)⟩
  have e1 := at_of_place mp (x := x) hx
  have e2 := at_of_place mq (x := x) hx
  simp only at e1 e2
  rw [← at_lt] at e1 e2
  have hs : eslot cross (c, k % 4) = eslot cross (c, (k + 1) % 4) := by rw [← e1, ← e2, h]
  have hlt := eslot_lt hC mp
  have h1 := ends_at hC mp
  have h2 := ends_at hC mq
  rw [← hs] at h2
  have hne : ((c, k % 4) : Nat × Nat) ≠ (c, (k + 1) % 4) := by
    intro q
    have := congrArg Prod.snd q
    simp only at this
    omega
  have ht : turn 3 (c, (k + 1) % 4) = (c, k % 4) := by
    unfold turn
    rw [Prod.ext_iff]
    simp only [true_and]
    omega
  rcases h1 with h1 | h1
  · have h2' : tl edge[eslot cross (c, k % 4)]! = (c, (k + 1) % 4) := h2.resolve_left (fun q => hne (h1.symm.trans q))
    have hm : ((eslot cross (c, k % 4), .neg) : Dart) ∈ D edge := mem_D.mpr ⟨hlt, .inr rfl⟩
    refine ⟨_, hm, begp_inj hC ((injOn_nd hC).maps _ hm) hm ?_⟩
    rw [begp_nd hC hm]
    show turn 3 (tl edge[eslot cross (c, k % 4)]!) = hd edge[eslot cross (c, k % 4)]!
    rw [h2', h1, ht]
  · have h2' : hd edge[eslot cross (c, k % 4)]! = (c, (k + 1) % 4) := h2.resolve_right (fun q => hne (h1.symm.trans q))
    have hm : ((eslot cross (c, k % 4), .pos) : Dart) ∈ D edge := mem_D.mpr ⟨hlt, .inl rfl⟩
    refine ⟨_, hm, begp_inj hC ((injOn_nd hC).maps _ hm) hm ?_⟩
    rw [begp_nd hC hm]
    show turn 3 (hd edge[eslot cross (c, k % 4)]!) = tl edge[eslot cross (c, k % 4)]!
    rw [h2', h1, ht]

theorem single (hC : Consistent cross edge) {faces : List Face} (hF : GoodFaces cross edge faces) {F : Face} (hf : F ∈ faces)
    (h1 : F.edge.length = 1) : ∃ d ∈ D edge, nd cross edge d = d ∧ F.edge[0]? = some d.1 := by
  obtain ⟨s, s1, s2, -⟩ := face_cyc hC hF hf
  have hlen : (cyc (nd cross edge) s).length = 1 := by rw [← s2, Shape.sides_length hF hf, h1]
  rw [cyc_length] at hlen
  refine ⟨s, s1, ?_, ?_⟩
  · have := iterate_per (nd cross edge) s
    rw [hlen] at this
    exact this
  · have := cyc_getElem? (f := nd cross edge) (x := s) (k := 0) (by omega)
    rw [← s2, sides, List.getElem?_zip_eq_some] at this
    exact this.1

theorem single_of (hC : Consistent cross edge) {faces : List Face} (hF : GoodFaces cross edge faces) {d : Dart} (hm : d ∈ D edge)
    (hf : nd cross edge d = d) : ∃ F ∈ faces, F.edge.length = 1 := by
  have hI := injOn_nd hC
  obtain ⟨F, h1, h2⟩ := List.mem_flatMap.mp (hF.all.mem_iff.mpr ((mem_all rfl d).mpr hm))
  obtain ⟨s, s1, s2, -⟩ := face_cyc hC hF h1
  rw [s2] at h2
  obtain ⟨k, hk⟩ := (hI.mem_cyc s1).mp h2
  have hpos := hI.per_pos s1
  have hfix : ∀ n, (nd cross edge)^[n] d = d := fun n => Function.iterate_fixed hf n
  have hs : s = d := by
    have e : (nd cross edge)^[per (nd cross edge) s * k] s = s := by
      rw [← iterate_mod_per, Nat.mul_mod_right]
      rfl
    obtain ⟨j, hj⟩ : ∃ j, per (nd cross edge) s * k = j + k := ⟨per (nd cross edge) s * k - k, by
      have := Nat.le_mul_of_pos_left k hpos
      omega⟩
    rw [hj, Function.iterate_add_apply, hk, hfix] at e
    exact e.symm
  rw [hs] at s2 hpos
  have hper : per (nd cross edge) d = 1 := by
    by_contra hn
    exact ne_of_lt_per (f := nd cross edge) (x := d) (k := 1) (by decide) (by omega) hf
  refine ⟨F, h1, ?_⟩
  rw [← Shape.sides_length hF h1, s2, cyc_length, hper]

/-- What the loop does. -/
theorem loop_ok (qs qs' : QSort) : ∀ (n : Nat) (caps : Io.Caps) (pd : Io.Pd), Neat pd → pdOk qs' caps pd = .ok true →
    pd.cross.length ≤ caps.verts → pd.cross.length < n →
    ∃ last, Unlooped pd last ∧ Neat last ∧
      ((∃ caps', loop qs n caps pd = .ok (.code caps' last) ∧ pdOk qs' caps' last = .ok true ∧ ¬ HasLoop last.cross ∧
        ∀ F ∈ last.face, F.edge.length ≠ 1) ∨
      (loop qs n caps pd = .ok (.unknot 0) ∧ last.cross.length = 1 ∧ HasLoop last.cross)) := by
  intro n
  induction n with
  | zero => intro caps pd _ _ _ h; omega
  | succ n ih =>
    intro caps pd hN hok hv hn
    have hC := hN.tidy.plane.consistent
    have hF := hN.tidy.goodFaces
    cases hfind : pd.face.find? (fun f => decide (f.edge.length = 1)) with
    | none =>
      have hno : ∀ F ∈ pd.face, F.edge.length ≠ 1 := fun F hm h => by
        have := List.find?_eq_none.mp hfind F hm
        simp only [decide_eq_true_eq] at this
        exact this h
      refine ⟨pd, .refl, hN, .inl ⟨caps, by rw [loop, hfind], hok, ?_, hno⟩⟩
      rintro ⟨x, hx, k, hk⟩
      obtain ⟨c, hc⟩ := List.mem_iff_getElem?.mp hx
      obtain ⟨d, d1, d2⟩ := fixed_of_loop hC hc hk
      obtain ⟨F, h1, h2⟩ := single_of hC hF d1 d2
      exact hno F h1 h2
    | some f =>
      have hm := List.mem_of_find?_eq_some hfind
      have h1 : f.edge.length = 1 := by simpa using List.find?_some hfind
      obtain ⟨d, d1, d2, d3⟩ := single hC hF hm h1
      obtain ⟨k, x, hx, hk⟩ := loop_of_fixed hC d1 d2
      have hlt := (mem_D.mp d1).1
      have hbang : pd.edge[d.1]? = some pd.edge[d.1]! := by simp [hlt]
      have hstep : loop qs (n + 1) caps pd = (do
          match ← loopDeletion qs caps.verts pd (hd pd.edge[d.1]!).1 with
          | .unknot m => .ok (.unknot m)
          | .code caps' pd' => if pd'.cross.length = 0 then .ok (.code caps' pd') else loop qs n caps' pd') := by
        rw [loop, hfind]
        simp only
        rw [rd_ok d3, ok_bind, rd_ok hbang, ok_bind]
        rfl
      by_cases ho : x.at (k + 2) = x.at (k + 3)
      · obtain ⟨r1, r2⟩ := C63_remove_figure_eight qs pd hN caps.verts _ k x hx hk ho
        rw [r2, ok_bind] at hstep
        exact ⟨pd, .refl, hN, .inr ⟨hstep, r1, x, List.mem_of_getElem? hx, k, hk⟩⟩
      · obtain ⟨caps', pd', e0, e2, τ, σ, ρ, r1, r2, r3, r4, r5, r6, r7, r8, L, t1, t2⟩ :=
          C63_remove_loop qs qs' pd hN caps.verts hv _ k x hx hk ho
        have hne : pd'.cross.length ≠ 0 := fun h => r2.tidy.plane.nonempty (List.length_eq_zero_iff.mp h)
        rw [r1, ok_bind] at hstep
        simp only [if_neg hne] at hstep
        obtain ⟨last, u1, u2, u3⟩ := ih caps' pd' r2 r3 (by omega) (by omega)
        refine ⟨last, ?_, u2, by rw [hstep]; exact u3⟩
        have first : Unlooped pd pd' := .step .refl r2 L t1 t2
        clear ih u2 u3 hstep
        induction u1 with
        | refl => exact first
        | step a n b c d ih => exact .step ih n b c d

end Plc.Simplify
