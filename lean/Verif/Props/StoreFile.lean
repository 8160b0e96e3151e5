import Verif.Proofs.StoreFile
import Verif.Proofs.IoShrink

/-! # C59 and C60: stores in files -/

namespace Plc

open Plc.Cmp Plc.PermM Plc.Ok Plc.IsoSearch Plc.Isotopy Plc.Regenerate Plc.Unpack Plc.Store Plc.Io List

/-- What a diagram must be to survive in a store of the given mode that is written to a file and read again. -/
structure KeptFile (m : Mode) (p : Held) : Prop where
  filed : Filed p
  signs : (∀ c ∈ p.2.cross, c.sign ≠ .unset) ∨ (m ≠ .isotopy ∧ ∀ c ∈ p.2.cross, c.sign = .unset)
  iso : m = .isomorphism → p.2.comp.length ≤ 12 ∧ (p.2.comp.map (fun k => 2 * k.edge.length)).prod < 2 ^ 32
  isotopy : m = .isotopy → (p.2.comp.map (fun k => k.edge.length)).prod < 2 ^ 32

namespace Store

/-- The equivalence of a mode; in the mode `NONE` it does not matter. -/
def SameIn (m : Mode) (a b : Held) : Prop := if m = .isotopy then SameIsotopy a b else SameIso a b

theorem _root_.Plc.KeptFile.keptIso {p : Held} (h : KeptFile .isomorphism p) : KeptIso p :=
  ⟨⟨h.filed.tidy, h.filed.room, h.filed.hash, (h.iso rfl).1, (h.iso rfl).2⟩, h.signs.imp id And.right⟩

theorem _root_.Plc.KeptFile.keptIsotopy {p : Held} (h : KeptFile .isotopy p) : KeptIsotopy p :=
  ⟨h.filed.tidy, h.filed.hash, h.signs.resolve_right (fun q => q.1 rfl), h.isotopy rfl⟩

/-- What `pd_pack` and `pd_unpack` make of a diagram is again such a diagram, with signs. -/
theorem _root_.Plc.KeptFile.repack (qs : QSort) (bs : BSearch) {m : Mode} {p : Held} (h : KeptFile m p) :
    ∃ w a, (realKit qs bs).pack p = .ok w ∧ (realKit qs bs).unpack w = .ok a ∧ KeptFile m a ∧ (∀ c ∈ a.2.cross, c.sign ≠ .unset) ∧
      a = (p.2.cross.length, unpacked p.2) ∧ SameIn m a p := by
  have hT := h.filed.tidy
  rcases h.signs with hs | ⟨hm, hs⟩
  · obtain ⟨w, w1, w2⟩ := C57_signed_roundtrip qs p.2 hT h.filed.hash hs
    refine ⟨w, (p.2.cross.length, { p.2 with uid := 0 }), w1, ?_, ⟨⟨hT, Nat.le_refl _, h.filed.hash, h.filed.comps⟩, .inl hs, h.iso,
      h.isotopy⟩, hs, by rw [unpacked_signed hs], ?_⟩
    · simp only [realKit]
      rw [w2, ok_bind]
    · unfold SameIn
      split
      · exact ⟨id, id, .pos, (loose_refl p.2).shadow, (loose_refl p.2).signs, (loose_refl p.2).comps⟩
      · exact ⟨_, _, _, SameShadow.refl _ _⟩
  · obtain ⟨w, w1, w2⟩ := C57_unsigned_roundtrip qs p.2 hT h.filed.hash hs
    have hs' : ∀ c ∈ (p.2.cross.map (fun c => { c with sign := .neg })), c.sign ≠ .unset := by
      intro c hc
      obtain ⟨d, -, rfl⟩ := List.mem_map.mp hc
      simp
    refine ⟨w, (p.2.cross.length, { p.2 with uid := 0, cross := p.2.cross.map (fun c => { c with sign := .neg }) }), w1, ?_,
      ⟨⟨tidy_resign hT (fun _ => .neg), by simp, ?_, h.filed.comps⟩, .inl hs', h.iso, h.isotopy⟩, hs', by rw [unpacked_unsigned hs], ?_⟩
    · simp only [realKit]
      rw [w2, ok_bind]
      simp
    · obtain ⟨q, hq⟩ := h.filed.hash
      exact ⟨q, by simp only [List.length_map]; exact hq⟩
    · unfold SameIn
      rw [if_neg hm]
      exact ⟨_, _, _, resign_shadow _ _ (fun _ => .neg)⟩

theorem file_faithful (qs : QSort) (bs : BSearch) (m : Mode) : Faithful (realKit qs bs) (KeptFile m) (SameIn m) := by
  by_cases hm : m = .isotopy
  · subst hm
    have e : SameIn .isotopy = SameIsotopy := by
      funext a b
      simp [SameIn]
    rw [e]
    have hf := real_isotopy_faithful qs bs
    refine ⟨fun a h => hf.refl a h.keptIsotopy, fun a b ha hb => hf.symm a b ha.keptIsotopy hb.keptIsotopy,
      fun a b c ha hb hc => hf.trans a b c ha.keptIsotopy hb.keptIsotopy hc.keptIsotopy,
      fun a b ha hb => hf.hash a b ha.keptIsotopy hb.keptIsotopy, ?_⟩
    intro p hp
    obtain ⟨w, a, w1, w2, w3, -, -, w4⟩ := hp.repack qs bs
    rw [e] at w4
    exact ⟨w, a, w1, w2, w3, w4⟩
  · have e : SameIn m = SameIso := by
      funext a b
      simp [SameIn, hm]
    rw [e]
    refine ⟨fun a _ => ⟨_, _, _, SameShadow.refl _ _⟩, fun a b ha hb h => sameIso_symm ha.filed.tidy hb.filed.tidy h,
      fun a b c ha hb _ h h' => sameIso_trans ha.filed.tidy hb.filed.tidy h h', ?_, ?_⟩
    · intro a b ha hb h
      have := same_hash ha.filed.tidy hb.filed.tidy ha.filed.hash hb.filed.hash h
      simp only [realKit, this]
    · intro p hp
      obtain ⟨w, a, w1, w2, w3, -, -, w4⟩ := hp.repack qs bs
      rw [e] at w4
      exact ⟨w, a, w1, w2, w3, w4⟩

theorem file_decides (qs : QSort) (bs : BSearch) (m : Mode) (hm : m ≠ .none) :
    Decides (if m = .isomorphism then (realKit qs bs).isomorphic else (realKit qs bs).isotopic) (KeptFile m) (SameIn m) := by
  cases m with
  | none => exact absurd rfl hm
  | isomorphism => exact fun a b ha hb => real_iso_decides qs bs a b ha.keptIso hb.keptIso
  | isotopy => exact fun a b ha hb => real_isotopy_decides qs bs a b ha.keptIsotopy hb.keptIsotopy

theorem decides_same {Pd Packed : Type} {k : Kit Pd Packed} {m : Mode} {Good : Pd → Prop} {E : Pd → Pd → Prop}
    (hd : m ≠ .none → Decides (if m = .isomorphism then k.isomorphic else k.isotopic) Good E) :
    m ≠ .none → Decides (same k m) Good E := by
  intro hm
  have hd := hd hm
  cases m with
  | none => exact absurd rfl hm
  | isomorphism => exact hd
  | isotopy => exact hd

theorem reread_rel {α : Type} {R : α → Held → Prop} {S : α → Held → Prop}
    (h : ∀ (a : α) (y : Held) (v : Nat), R a y → S a (y.2.cross.length, { y.2 with uid := v })) : ∀ {as : List α} {l : List Held} (u : Nat),
    List.Forall₂ R as l → List.Forall₂ S as (reread u l)
  | _, _, _, .nil => .nil
  | _, _, u, .cons a b => .cons (h _ _ _ a) (reread_rel h (u + 1) b)

/-- The words with which a stored diagram would be stored again. -/
def again (qs : QSort) (bs : BSearch) (w : List Nat) : List Nat :=
  match (realKit qs bs).unpack w >>= (realKit qs bs).pack with
  | .ok w' => w'
  | .error _ => w

theorem again_eq {qs : QSort} {bs : BSearch} {w w' : List Nat} {a : Held} (h1 : (realKit qs bs).unpack w = .ok a)
    (h2 : (realKit qs bs).pack a = .ok w') : again qs bs w = w' := by
  unfold again
  rw [h1, ok_bind, h2]

theorem flat_again (g : List Nat → List Nat) (T : List (Hash × Bucket (List Nat))) :
    flat (T.map (fun x => (x.1, x.2.map (fun y => (y.1, g y.2))))) = (flat T).map (fun e => (e.1, e.2.1, g e.2.2)) := by
  simp only [flat, List.flatMap_map, List.map_flatMap, List.map_map]
  rfl

theorem forall2_left {α β : Type} {R : α → β → Prop} {as : List α} {bs : List β} (h : List.Forall₂ R as bs) :
    ∀ a ∈ as, ∃ b ∈ bs, R a b := by
  induction h with
  | nil => simp
  | cons r _ ih =>
    intro a ha
    rcases List.mem_cons.mp ha with rfl | ha
    · exact ⟨_, by simp, r⟩
    · obtain ⟨b, hb, hr⟩ := ih a ha
      exact ⟨b, by simp [hb], hr⟩

theorem forall2_right {α β : Type} {R : α → β → Prop} {as : List α} {bs : List β} (h : List.Forall₂ R as bs) :
    ∀ b ∈ bs, ∃ a ∈ as, R a b := by
  induction h with
  | nil => simp
  | cons r _ ih =>
    intro b hb
    rcases List.mem_cons.mp hb with rfl | hb
    · exact ⟨_, by simp, r⟩
    · obtain ⟨a, ha, hr⟩ := ih b hb
      exact ⟨a, by simp [ha], hr⟩

theorem unpacked_again {a : Held} {p : Io.Pd} (h : a = (p.cross.length, unpacked p)) (hs : ∀ c ∈ a.2.cross, c.sign ≠ .unset) :
    (a.2.cross.length, unpacked a.2) = a := by
  rw [unpacked_signed hs]
  subst h
  simp [unpacked]

theorem addAll_length {Pd Packed : Type} {k : Kit Pd Packed} {m : Mode} : ∀ {l : List Pd} {s s' : Stor Packed} {us : List Nat},
    addAll k m s l = .ok (s', us) → us.length = l.length
  | [], _, _, _, h => by
    simp only [addAll, Except.ok.injEq, Prod.mk.injEq] at h
    rw [← h.2]
    rfl
  | x :: l, s, s', us, h => by
    unfold addAll at h
    obtain ⟨r, -, h⟩ := bind_ok_iff.mp h
    obtain ⟨r', r1, h⟩ := bind_ok_iff.mp h
    have := addAll_length (l := l) r1
    simp only [Except.ok.injEq, Prod.mk.injEq] at h
    rw [← h.2, List.length_cons, List.length_cons, this]

/-- Inserting the elements of a store into an empty one, in their order. -/
theorem reinsert (qs : QSort) (bs : BSearch) (m : Mode) (l : List Held) (hl : ∀ p ∈ l, KeptFile m p) (fuel : Nat)
    (hf : l.length ≤ fuel) :
    ∃ s us L s' us', addAll (realKit qs bs) m newStor l = .ok (s, us) ∧ visit (realKit qs bs) fuel s = .ok (s, L) ∧
      nelts (some s) = L.length % 2 ^ 32 ∧ (entries s).length = L.length ∧ L.length ≤ l.length ∧ s.arr.length ≤ L.length ∧
      (∀ x ∈ L, KeptFile m x.1) ∧
      addAll (realKit qs bs) m newStor (reread 0 (L.map (·.1))) = .ok (s', us') ∧
      List.Forall₂ (fun e e' => e'.1 = e.1 ∧ e'.2.1 = e.2.1 ∧ (realKit qs bs).unpack e'.2.2 = (realKit qs bs).unpack e.2.2)
        (entries s) (entries s') ∧ nelts (some s') = nelts (some s) ∧
      ((∀ p ∈ l, ∀ c ∈ p.2.cross, c.sign ≠ .unset) → s' = s) ∧
      (∀ p ∈ l, ∃ x ∈ L, SameIn m x.1 p) ∧ (∀ x ∈ L, ∃ p ∈ l, SameIn m x.1 p) ∧ (m = .none → L.length = l.length) := by
  have hF := file_faithful qs bs m
  have hd := file_decides qs bs m
  have hh : ∀ p, KeptFile m p → (realKit qs bs).hash p ≠ [] := by
    intro p hp
    simp only [realKit, ne_eq, List.map_eq_nil_iff]
    exact hash_nonempty hp.filed.tidy hp.filed.hash
  obtain ⟨s, us, L, a1, a2, hI, a3, a4, a5⟩ := Store.walk (realKit qs bs) m (KeptFile m) (SameIn m) hF hd l
    (fun p hp => ⟨hl p hp, hh p (hl p hp)⟩) fuel hf
  -- what is known of an entry
  have known : ∀ e ∈ entries s, ∃ p ∈ l, ∃ a, (realKit qs bs).pack p = .ok e.2.2 ∧ (realKit qs bs).unpack e.2.2 = .ok a ∧
      KeptFile m a ∧ (∀ c ∈ a.2.cross, c.sign ≠ .unset) ∧ a = (p.2.cross.length, unpacked p.2) ∧ (realKit qs bs).hash a = e.1 ∧
      SameIn m a p := by
    rintro ⟨h, u, w⟩ he
    obtain ⟨b, b1, b2⟩ := mem_entries.mp he
    obtain ⟨⟨p, v⟩, o1, -, o2, o3⟩ := hI.origin _ b1 _ b2
    have hp := (List.of_mem_zip o1).1
    obtain ⟨w', a, w1, w2, w3, w4, w5, w6⟩ := (hl p hp).repack qs bs
    simp only at o3
    rw [w1] at o3
    cases o3
    obtain ⟨a', g1, g2, g3⟩ := hI.good _ b1 _ b2
    simp only at g1
    rw [w2] at g1
    cases g1
    exact ⟨p, hp, a, w1, w2, w3, w4, w5, g3, w6⟩
  have once : ∀ e ∈ entries s, ∃ a, (realKit qs bs).unpack e.2.2 = .ok a ∧ (realKit qs bs).pack a = .ok (again qs bs e.2.2) ∧
      (realKit qs bs).unpack (again qs bs e.2.2) = .ok a := by
    intro e he
    obtain ⟨p, -, a, -, k1, k2, k3, k4, -⟩ := known e he
    obtain ⟨w, b, w1, w2, -, -, w3, -⟩ := k2.repack qs bs
    rw [unpacked_again k4 k3] at w3
    subst w3
    refine ⟨b, k1, ?_, ?_⟩ <;> rw [again_eq k1 w1]
    · exact w1
    · exact w2
  let T := s.arr.map (fun x => (x.1, x.2.map (fun y => (y.1, again qs bs y.2))))
  have hTf : flat T = (entries s).map (fun e => (e.1, e.2.1, again qs bs e.2.2)) := flat_again _ _
  have hTs : SortedArr T := by
    simp only [T, SortedArr, List.pairwise_map]
    exact hI.sorted
  have hTu : ∀ x ∈ T, x.2 ≠ [] ∧ x.2.map Prod.fst = List.range' 1 x.2.length := by
    intro x hx
    obtain ⟨y, hy, rfl⟩ := List.mem_map.mp hx
    obtain ⟨u1, u2⟩ := hI.uids y hy
    refine ⟨by simpa using u1, ?_⟩
    simp only [List.map_map, List.length_map]
    rw [← u2]
    rfl
  have hL : ∀ x ∈ L, KeptFile m x.1 := by
    intro x hx
    obtain ⟨e, he, h1, -⟩ := forall2_right a3 x hx
    obtain ⟨p, -, a, -, k1, k2, -⟩ := known e he
    rw [k1] at h1
    cases h1
    exact k2
  have hkept : ∀ (y : Held) (v : Nat), KeptFile m y → KeptFile m (y.2.cross.length, { y.2 with uid := v }) := by
    intro y v hy
    exact ⟨⟨hy.filed.tidy, Nat.le_refl _, hy.filed.hash, hy.filed.comps⟩, hy.signs, hy.iso, hy.isotopy⟩
  have h2 : List.Forall₂ (fun e x => (realKit qs bs).hash x = e.1 ∧ (realKit qs bs).pack x = .ok e.2.2) (flat T)
      (reread 0 (L.map (·.1))) := by
    rw [hTf, List.forall₂_map_left_iff]
    have h3 : List.Forall₂ (fun e (x : Held) => e ∈ entries s ∧ (realKit qs bs).unpack e.2.2 = .ok x) (entries s) (L.map (·.1)) := by
      rw [List.forall₂_map_right_iff, List.forall₂_iff_get]
      rw [List.forall₂_iff_get] at a3
      exact ⟨a3.1, fun i h h' => ⟨List.get_mem _ _, (a3.2 i h h').1⟩⟩
    refine reread_rel ?_ 0 h3
    rintro e y v ⟨he, hy⟩
    obtain ⟨p, -, a, -, k1, -, -, -, k2, -⟩ := known e he
    rw [hy] at k1
    cases k1
    obtain ⟨a, o1, o2, -⟩ := once e he
    rw [hy] at o1
    cases o1
    exact ⟨k2, o2⟩
  have hkr : ∀ x ∈ reread 0 (L.map (·.1)), KeptFile m x := by
    have : List.Forall₂ (fun (_ : Held) x => KeptFile m x) (L.map (·.1)) (reread 0 (L.map (·.1))) :=
      reread_rel (R := fun a b => a = b ∧ KeptFile m b) (fun _ y v h => hkept y v h.2) 0
        (by
          rw [List.forall₂_same]
          intro x hx
          obtain ⟨y, hy, rfl⟩ := List.mem_map.mp hx
          exact ⟨rfl, hL y hy⟩)
    intro x hx
    obtain ⟨_, _, h⟩ := forall2_right this x hx
    exact h
  have hE : m ≠ .none → (reread 0 (L.map (·.1))).Pairwise (fun a b => ¬ SameIn m a b) := by
    intro hm
    obtain ⟨s1, us1, c1, -, -, -, c2, -⟩ := C33_no_duplicates (realKit qs bs) m hm (KeptFile m) (SameIn m) hF (hd hm) l hl
    rw [a1] at c1
    cases c1
    have h3 : List.Forall₂ (fun e (x : Held) => ∃ a v, (realKit qs bs).unpack e.2.2 = .ok a ∧ x = (a.2.cross.length, { a.2 with uid := v }))
        (entries s) (reread 0 (L.map (·.1))) := by
      refine reread_rel (R := fun e y => (realKit qs bs).unpack e.2.2 = .ok y) (fun e y v h => ⟨y, v, h, rfl⟩) 0 ?_
      rw [List.forall₂_map_right_iff]
      exact a3.imp (fun _ _ h => h.1)
    rw [List.pairwise_iff_getElem] at c2 ⊢
    intro i j hi hj hij
    have hlen := h3.length_eq
    obtain ⟨a, v, d1, d2⟩ := h3.get (i := i) (by omega) hi
    obtain ⟨b, w, e1, e2⟩ := h3.get (i := j) (by omega) hj
    simp only [List.get_eq_getElem] at d1 d2 e1 e2
    rw [d2, e2]
    have := c2 i j (by omega) (by omega) hij a b d1 e1
    unfold SameIn at this ⊢
    split <;> rename_i h0 <;> simp only [h0, if_true, if_false] at this
    · rintro ⟨τ, σ, o, h⟩
      exact this ⟨τ, σ, o, h.shadow, h.signs, h.comps⟩
    · exact this
  have hres := rebuild hF (decides_same hd) (reread 0 (L.map (·.1))) T hTs hTu h2 hkr hE
  have hlenL := a3.length_eq
  have hcount : nelts (some s) = L.length % 2 ^ 32 := by
    have := hI.count
    rw [← hlenL]
    exact this
  refine ⟨s, us, L, _, _, a1, a2, hcount, hlenL, by omega, ?_, hL, hres, ?_, ?_, ?_, ?_, ?_, ?_⟩
  · rw [← hlenL]
    have : ∀ A : List (Hash × Bucket (List Nat)), (∀ x ∈ A, x.2 ≠ []) → A.length ≤ (flat A).length := by
      intro A
      induction A with
      | nil => simp
      | cons x A ih =>
        intro h
        have h1 := ih (fun y hy => h y (by simp [hy]))
        have h2 := List.length_pos_iff.mpr (h x (by simp))
        simp only [flat, List.flatMap_cons, List.length_append, List.length_map, List.length_cons] at h1 ⊢
        omega
    exact this s.arr (fun x hx => (hI.uids x hx).1)
  · have : entries (⟨T, (reread 0 (L.map (·.1))).length % 2 ^ 32, [], 0, none⟩ : Stor (List Nat)) = flat T := rfl
    rw [this, hTf, List.forall₂_map_right_iff, List.forall₂_same]
    intro e he
    obtain ⟨a, o1, -, o2⟩ := once e he
    exact ⟨rfl, rfl, by rw [o1, o2]⟩
  · rw [hcount]
    simp only [nelts, reread_length, List.length_map]
  · intro hs
    have hT : T = s.arr := by
      simp only [T]
      conv_rhs => rw [← List.map_id s.arr]
      apply List.map_congr_left
      rintro ⟨h, b⟩ hx
      simp only [id_eq, Prod.mk.injEq, true_and]
      conv_rhs => rw [← List.map_id b]
      apply List.map_congr_left
      rintro ⟨u, w⟩ hy
      simp only [id_eq, Prod.mk.injEq, true_and]
      obtain ⟨p, hp, a, k0, k1, -, -, k2, -⟩ := known (h, u, w) (mem_entries.mpr ⟨b, hx, hy⟩)
      apply again_eq k1
      rw [← k0, k2, unpacked_signed (hs p hp)]
      rfl
    rw [hT, ← a4]
    unfold Stor.reset
    congr 1
    rw [reread_length, List.length_map]
    exact hcount.symm

  · intro p hp
    obtain ⟨i, hi, rfl⟩ := List.getElem_of_mem hp
    have hz : (l[i], us[i]'(by rw [addAll_length a1]; exact hi)) ∈ l.zip us :=
      List.mem_iff_getElem.mpr ⟨i, by rw [List.length_zip, addAll_length a1]; omega, by simp⟩
    obtain ⟨b, w, a, b1, b2, b3, b4, -⟩ := hI.kept _ hz
    obtain ⟨x, x1, x2, -⟩ := forall2_left a3 _ (mem_entries.mpr ⟨b, b1, b2⟩)
    simp only at x2
    rw [b3] at x2
    cases x2
    exact ⟨x, x1, b4⟩
  · intro x hx
    obtain ⟨e, e1, e2, -⟩ := forall2_right a3 x hx
    obtain ⟨p, hp, a, -, k1, -, -, -, -, k2⟩ := known e e1
    rw [k1] at e2
    cases e2
    exact ⟨p, hp, k2⟩
  · intro hm
    have := (hI.all hm).length_eq
    simp only [List.length_map, List.length_zip, addAll_length a1] at this
    rw [← hlenL]
    exact (this.symm.trans (Nat.min_self _))

/-- Giving a diagram another uid changes nothing. -/
theorem sameIn_uid {m : Mode} {a b : Held} (n v : Nat) : SameIn m a b → SameIn m (n, { a.2 with uid := v }) b := by
  unfold SameIn
  split
  · rintro ⟨τ, σ, o, h⟩
    exact ⟨τ, σ, o, h.shadow, h.signs, h.comps⟩
  · exact id

theorem _root_.Plc.KeptFile.uid {m : Mode} {y : Held} (v : Nat) (hy : KeptFile m y) : KeptFile m (y.2.cross.length, { y.2 with uid := v }) :=
  ⟨⟨hy.filed.tidy, Nat.le_refl _, hy.filed.hash, hy.filed.comps⟩, hy.signs, hy.iso, hy.isotopy⟩

theorem mem_reread : ∀ {u : Nat} {l : List Held} {x : Held}, x ∈ reread u l → ∃ y ∈ l, ∃ v, x = (y.2.cross.length, { y.2 with uid := v })
  | _, [], _, h => by simp [reread] at h
  | u, y :: l, x, h => by
    rw [reread, List.mem_cons] at h
    rcases h with rfl | h
    · exact ⟨y, by simp, u, rfl⟩
    · obtain ⟨z, z1, v, z2⟩ := mem_reread h
      exact ⟨z, by simp [z1], v, z2⟩

theorem reread_mem : ∀ (u : Nat) {l : List Held} {y : Held}, y ∈ l → ∃ v, (y.2.cross.length, { y.2 with uid := v }) ∈ reread u l
  | _, [], _, h => by simp at h
  | u, z :: l, y, h => by
    rcases List.mem_cons.mp h with rfl | h
    · exact ⟨u, by simp [reread]⟩
    · obtain ⟨v, hv⟩ := reread_mem (u + 1) h
      exact ⟨v, by simp [reread, hv]⟩

end Store

/-! ### C59 -/

/-- C59. Write a store to a file and read it again in the mode it was built in. No step faults and reading succeeds, whatever follows in
the file. The store read has the same hashes and uids in the same order, and unpacking gives the same diagrams. If all
diagrams inserted had signs, it is the store that was written. -/
theorem C59_write_read (qs : QSort) (bs : BSearch) (m : Mode) (l : List Held) (hl : ∀ p ∈ l, KeptFile m p) (hn : l.length < 2 ^ 32)
    (fuel : Nat) (hf : l.length ≤ fuel) :
    ∃ s us text s', addAll (realKit qs bs) m newStor l = .ok (s, us) ∧ writeStor qs bs fuel s = .ok (s, text) ∧
      (∀ rest, readStor qs bs m (text ++ rest) = .ok (some s')) ∧
      List.Forall₂ (fun e e' => e'.1 = e.1 ∧ e'.2.1 = e.2.1 ∧ ∃ a, (realKit qs bs).unpack e.2.2 = .ok a ∧
        (realKit qs bs).unpack e'.2.2 = .ok a) (entries s) (entries s') ∧ nelts (some s') = nelts (some s) ∧
      ((∀ p ∈ l, ∀ c ∈ p.2.cross, c.sign ≠ .unset) → s' = s) := by
  obtain ⟨s, us, L, s', us', a1, a2, a3, a4, a5, a6, a7, a8, a9, b1, b2, -, -, -⟩ := reinsert qs bs m l hl fuel hf
  have hst := C33_stats s
  rw [a4, Nat.mod_eq_of_lt (show L.length < 2 ^ 32 by omega), Nat.mod_eq_of_lt (show s.arr.length < 2 ^ 32 by omega)] at hst
  rw [Nat.mod_eq_of_lt (show L.length < 2 ^ 32 by omega)] at a3
  have hw : writeStor qs bs fuel s = .ok (s, header L.length L.length s.arr.length ++ writeElts 0 (L.map (·.1))) := by
    unfold writeStor
    simp only
    rw [hst, a3]
    simp only
    split
    · rename_i h0
      rw [List.length_eq_zero_iff.mp h0]
      simp [writeElts]
    · rw [a2, ok_bind]
  refine ⟨s, us, _, s', a1, hw, ?_, ?_, b1, b2⟩
  · intro rest
    have := readStor_ok qs bs m (L.map (·.1)) (by
        intro p hp
        obtain ⟨x, hx, rfl⟩ := List.mem_map.mp hp
        exact (a7 x hx).filed) (by rw [List.length_map]; omega) (b := L.length) (c := s.arr.length) (by omega) (by omega) rest
    rw [List.length_map] at this
    rw [this, a8]
    rfl
  · obtain ⟨s1, us1, L1, c1, c2, -, c4⟩ := C34_iteration (realKit qs bs) m (KeptFile m) (SameIn m) (file_faithful qs bs m) (file_decides qs bs m) l
      (fun p hp => ⟨hl p hp, by
        simp only [realKit, ne_eq, List.map_eq_nil_iff]
        exact hash_nonempty (hl p hp).filed.tidy (hl p hp).filed.hash⟩) fuel hf
    rw [a1] at c1
    cases c1
    rw [List.forall₂_iff_get] at a9 ⊢
    refine ⟨a9.1, fun i h h' => ?_⟩
    obtain ⟨x1, x2, x3⟩ := a9.2 i h h'
    have := (List.forall₂_iff_get.mp c4).2 i h (by rw [← c4.length_eq]; exact h)
    exact ⟨x1, x2, _, this.1, x3.trans this.1⟩

/-- C59. A file with elements of any origin, read in any mode: reading is inserting them one after the other, whatever the header says
about the number of hashes and the actual number of elements. -/
theorem C59_read_inserts (qs : QSort) (bs : BSearch) (m : Mode) (l : List Held) (hl : ∀ p ∈ l, Filed p) (hn : l.length < 2 ^ 32)
    (actual nhashes : Nat) (hb : actual < 2 ^ 32) (hc : nhashes < 2 ^ 32) (rest : List Char) :
    readStor qs bs m (header l.length actual nhashes ++ writeElts 0 l ++ rest) =
      (addAll (realKit qs bs) m newStor (reread 0 l)).map (fun r => some r.1) :=
  readStor_ok qs bs m l hl hn hb hc rest

/-- C59. A file that ends before the last element is rejected. -/
theorem C59_short_file (qs : QSort) (bs : BSearch) (m : Mode) (l : List Held) (hl : ∀ p ∈ l, KeptFile m p) (missing : Nat) (h0 : 0 < missing)
    (hn : l.length + missing < 2 ^ 32) (actual nhashes : Nat) (hb : actual < 2 ^ 32) (hc : nhashes < 2 ^ 32) :
    readStor qs bs m (header (l.length + missing) actual nhashes ++ writeElts 0 l) = .ok none := by
  obtain ⟨inp, i1, i2⟩ := readStor_more qs bs m l (fun p hp => (hl p hp).filed) hn hb hc []
  rw [List.append_nil] at i2
  obtain ⟨s, us, s1, -⟩ := addAll_ok (file_faithful qs bs m) (decides_same (file_decides qs bs m)) (l := reread 0 l)
    (inv_new (Packed := List Nat)) (by
      intro x hx
      obtain ⟨y, y1, v, rfl⟩ := mem_reread hx
      exact (hl y y1).uid v)
  obtain ⟨n, rfl⟩ : ∃ n, missing = n + 1 := ⟨missing - 1, by omega⟩
  rw [i2, s1, ok_bind]
  exact readElts_end qs bs m n _ i1

/-! ### C60 -/

namespace Store

theorem adds_ok (qs : QSort) (bs : BSearch) (m : Mode) (fuel : Nat) : ∀ (ls : List (List Held)) (f : Inc),
    (∀ l ∈ ls, (∀ p ∈ l, KeptFile m p) ∧ l.length ≤ fuel) → f.nelts + ls.flatten.length < 2 ^ 32 → f.nhashes + ls.flatten.length < 2 ^ 32 →
    ∃ (ss : List (Stor (List Nat))) (Ls : List (List Held)) (h : Nat),
      List.Forall₂ (fun l s => ∃ us, addAll (realKit qs bs) m newStor l = .ok (s, us)) ls ss ∧
      addsInc qs bs fuel f ss = .ok ⟨f.file ++ Ls.flatMap (writeElts 0), h, f.nelts + Ls.flatten.length⟩ ∧
      h ≤ f.nhashes + Ls.flatten.length ∧ Ls.flatten.length ≤ ls.flatten.length ∧ (∀ L ∈ Ls, ∀ p ∈ L, KeptFile m p) ∧
      (∀ p ∈ ls.flatten, ∃ x ∈ Ls.flatten, SameIn m x p) ∧ (∀ x ∈ Ls.flatten, ∃ p ∈ ls.flatten, SameIn m x p) ∧
      (m = .none → Ls.flatten.length = ls.flatten.length)
  | [], f, _, _, _ => ⟨[], [], f.nhashes, .nil, by simp [addsInc], by simp, by simp, by simp, by simp, by simp, by simp⟩
  | l :: ls, f, hl, h1, h2 => by
    obtain ⟨k1, k2⟩ := hl l (by simp)
    rw [List.flatten_cons, List.length_append] at h1 h2
    obtain ⟨s, us, L, -, -, a1, a2, -, a4, a5, a6, a7, -, -, -, -, b1, b2, b3⟩ := reinsert qs bs m l k1 fuel k2
    have hst := C33_stats s
    rw [a4, Nat.mod_eq_of_lt (show L.length < 2 ^ 32 by omega), Nat.mod_eq_of_lt (show s.arr.length < 2 ^ 32 by omega)] at hst
    have hadd : addInc qs bs fuel f s = .ok ⟨f.file ++ writeElts 0 (L.map (·.1)), s.arr.length + f.nhashes, L.length + f.nelts⟩ := by
      unfold addInc
      simp only
      rw [hst, a2, ok_bind]
      simp only
      rw [Nat.mod_eq_of_lt (by omega), Nat.mod_eq_of_lt (by omega)]
    obtain ⟨ss, Ls, h, c1, c2, c3, c4, c5, c6, c7, c8⟩ := adds_ok qs bs m fuel ls
      ⟨f.file ++ writeElts 0 (L.map (·.1)), s.arr.length + f.nhashes, L.length + f.nelts⟩ (fun k hk => hl k (by simp [hk]))
      (by simp only; omega) (by simp only; omega)
    simp only at c2 c3
    refine ⟨s :: ss, L.map (·.1) :: Ls, h, .cons ⟨us, a1⟩ c1, ?_, ?_, ?_, ?_, ?_, ?_, ?_⟩
    · rw [addsInc, hadd, ok_bind, c2]
      simp only [List.flatMap_cons, List.flatten_cons, List.length_append, List.length_map, List.append_assoc]
      congr 2
      omega
    · simp only [List.flatten_cons, List.length_append, List.length_map]
      omega
    · simp only [List.flatten_cons, List.length_append, List.length_map]
      omega
    · intro k hk p hp
      rcases List.mem_cons.mp hk with rfl | hk
      · obtain ⟨x, hx, rfl⟩ := List.mem_map.mp hp
        exact a7 x hx
      · exact c5 k hk p hp
    · intro p hp
      rw [List.flatten_cons, List.mem_append] at hp
      rcases hp with hp | hp
      · obtain ⟨x, x1, x2⟩ := b1 p hp
        exact ⟨x.1, by rw [List.flatten_cons]; exact List.mem_append_left _ (List.mem_map_of_mem x1), x2⟩
      · obtain ⟨x, x1, x2⟩ := c6 p hp
        exact ⟨x, by rw [List.flatten_cons]; exact List.mem_append_right _ x1, x2⟩
    · intro x hx
      rw [List.flatten_cons, List.mem_append] at hx
      rcases hx with hx | hx
      · obtain ⟨y, y1, rfl⟩ := List.mem_map.mp hx
        obtain ⟨p, p1, p2⟩ := b2 y y1
        exact ⟨p, by rw [List.flatten_cons]; exact List.mem_append_left _ p1, p2⟩
      · obtain ⟨p, p1, p2⟩ := c7 x hx
        exact ⟨p, by rw [List.flatten_cons]; exact List.mem_append_right _ p1, p2⟩
    · intro hm
      simp only [List.flatten_cons, List.length_append, List.length_map]
      have := b3 hm
      have := c8 hm
      omega

theorem flatMap_reread_length (Ls : List (List Held)) : (Ls.flatMap (reread 0)).length = Ls.flatten.length := by
  induction Ls with
  | nil => rfl
  | cons L Ls ih => simp [reread_length, ih]

end Store

/-- C60. Diagrams are collected in several stores, one after the other, and each store is added to a file that is finished at the end.
No step faults. The file is read as one store: every diagram inserted into any of the stores is equivalent to an element, every element is
equivalent to a diagram inserted, and in a mode that looks for equivalent diagrams no two elements are equivalent, also if they come
from different stores. In the mode `NONE` there are as many elements as insertions. -/
theorem C60_incremental (qs : QSort) (bs : BSearch) (m : Mode) (ls : List (List Held)) (hl : ∀ l ∈ ls, ∀ p ∈ l, KeptFile m p)
    (hn : ls.flatten.length < 2 ^ 32) (fuel : Nat) (hf : ∀ l ∈ ls, l.length ≤ fuel) :
    ∃ ss f s, List.Forall₂ (fun l s => ∃ us, addAll (realKit qs bs) m newStor l = .ok (s, us)) ls ss ∧
      addsInc qs bs fuel ⟨startInc, 0, 0⟩ ss = .ok f ∧ (∀ rest, readStor qs bs m (finishInc f ++ rest) = .ok (some s)) ∧
      (∀ p ∈ ls.flatten, ∃ e ∈ entries s, e.1 = p.2.hash.map Char.toNat ∧ ∃ a, (realKit qs bs).unpack e.2.2 = .ok a ∧ SameIn m a p) ∧
      (∀ e ∈ entries s, ∃ p ∈ ls.flatten, ∃ a, (realKit qs bs).unpack e.2.2 = .ok a ∧ KeptFile m a ∧ SameIn m a p) ∧
      (m ≠ .none → (entries s).Pairwise (fun e e' => ∀ a b, (realKit qs bs).unpack e.2.2 = .ok a → (realKit qs bs).unpack e'.2.2 = .ok b →
        ¬ SameIn m a b)) ∧
      (entries s).Pairwise InOrder ∧
      (m = .none → (entries s).length = ls.flatten.length) ∧ nelts (some s) = (entries s).length % 2 ^ 32 := by
  obtain ⟨ss, Ls, h, c1, c2, c3, c4, c5, c6, c7, c8⟩ := adds_ok qs bs m fuel ls ⟨startInc, 0, 0⟩
    (fun l h => ⟨hl l h, hf l h⟩) (by simp only; omega) (by simp only; omega)
  simp only [Nat.zero_add] at c2 c3
  have hF := file_faithful qs bs m
  have hd := file_decides qs bs m
  have kept : ∀ x ∈ Ls.flatMap (reread 0), KeptFile m x := by
    intro x hx
    obtain ⟨L, L1, L2⟩ := List.mem_flatMap.mp hx
    obtain ⟨y, y1, v, rfl⟩ := mem_reread L2
    exact (c5 L L1 y y1).uid v
  obtain ⟨s, us, s1, -, hI⟩ := addAll_ok hF (decides_same hd) (l := Ls.flatMap (reread 0)) (inv_new (Packed := List Nat)) kept
  rw [List.nil_append] at hI
  have keptL : ∀ x ∈ Ls.flatten, KeptFile m x := by
    intro x hx
    obtain ⟨L, L1, L2⟩ := List.mem_flatten.mp hx
    exact c5 L L1 x L2
  refine ⟨ss, _, s, c1, c2, ?_, ?_, ?_, ?_, hI.inOrder, ?_, hI.count⟩
  · intro rest
    rw [finishInc_ok (by omega) (by omega), List.append_assoc]
    unfold readStor
    rw [readHeaderInc_ok (by omega) (by omega)]
    obtain ⟨inp, -, i2⟩ := readElts_groups qs bs m rest Ls ('\n' :: ('\n' :: Ls.flatMap (writeElts 0) ++ rest))
      (fun L hL => ⟨fun p hp => (c5 L hL p hp).filed, by
        have : L.length ≤ Ls.flatten.length := (List.sublist_flatten_of_mem hL).length_le
        omega⟩) (by rw [skip_space _ (by decide), List.cons_append, skip_space _ (by decide)])
    have := i2 0 newStor
    rw [Nat.add_zero, s1, ok_bind] at this
    exact this
  · intro p hp
    obtain ⟨x, x1, x2⟩ := c6 p hp
    obtain ⟨L, L1, L2⟩ := List.mem_flatten.mp x1
    obtain ⟨v, hv⟩ := reread_mem 0 L2
    have hy : (x.2.cross.length, { x.2 with uid := v }) ∈ Ls.flatMap (reread 0) := List.mem_flatMap.mpr ⟨L, L1, hv⟩
    obtain ⟨i, hi, he⟩ := List.getElem_of_mem hy
    have hlen := addAll_length s1
    have hz : ((Ls.flatMap (reread 0))[i], us[i]'(by rw [hlen]; exact hi)) ∈ (Ls.flatMap (reread 0)).zip us :=
      List.mem_iff_getElem.mpr ⟨i, by rw [List.length_zip, hlen]; omega, by simp⟩
    obtain ⟨b, w, a, b1, b2, b3, b4, -⟩ := hI.kept _ hz
    simp only [he] at b1 b4
    have hpk : KeptFile m p := by
      obtain ⟨l, l1, l2⟩ := List.mem_flatten.mp hp
      exact hl l l1 p l2
    have hyk := (keptL x x1).uid v
    have hyp : SameIn m (x.2.cross.length, { x.2 with uid := v }) p := sameIn_uid _ v x2
    obtain ⟨a', g1, g2, -⟩ := hI.good _ b1 _ b2
    simp only at g1
    rw [b3] at g1
    cases g1
    exact ⟨_, mem_entries.mpr ⟨b, b1, b2⟩, hF.hash _ _ hyk hpk hyp, a, b3, hF.trans _ _ _ g2 hyk hpk b4 hyp⟩
  · rintro ⟨hh, u, w⟩ he
    obtain ⟨b, b1, b2⟩ := mem_entries.mp he
    obtain ⟨⟨y, v⟩, o1, -, -, o2⟩ := hI.origin _ b1 _ b2
    have hy := (List.of_mem_zip o1).1
    obtain ⟨L, L1, L2⟩ := List.mem_flatMap.mp hy
    obtain ⟨x, x1, v', rfl⟩ := mem_reread L2
    obtain ⟨p, p1, p2⟩ := c7 x (List.mem_flatten.mpr ⟨L, L1, x1⟩)
    obtain ⟨w', a, q1, q2, q3, q4⟩ := hF.pack _ (kept _ hy)
    simp only at o2
    rw [q1] at o2
    cases o2
    have hpk : KeptFile m p := by
      obtain ⟨l, l1, l2⟩ := List.mem_flatten.mp p1
      exact hl l l1 p l2
    exact ⟨p, p1, a, q2, q3, hF.trans _ _ _ q3 (kept _ hy) hpk q4 (sameIn_uid _ v' p2)⟩
  · intro hm
    obtain ⟨s2, us2, d1, -, -, -, d2, -⟩ := C33_no_duplicates (realKit qs bs) m hm (KeptFile m) (SameIn m) hF (hd hm) _ kept
    rw [s1] at d1
    cases d1
    exact d2
  · intro hm
    have := (hI.all hm).length_eq
    simp only [List.length_map, List.length_zip, addAll_length s1, Nat.min_self, flatMap_reread_length] at this
    rw [← c8 hm, this]
    rfl

/-- C60. A file that was started but not finished cannot be read. -/
theorem C60_unfinished (qs : QSort) (bs : BSearch) (m : Mode) (rest : List Char) : readStor qs bs m (startInc ++ rest) = .ok none := by
  have e1 : startInc ++ rest = 'p' :: 'd' :: 's' :: 't' :: 'o' :: 'r' :: '\n' :: 'n' :: 'e' :: 'l' :: 't' :: 's' :: ' ' :: '(' ::
      ((startInc ++ rest).drop 14) := by
    conv_lhs => rw [← List.take_append_drop 14 (startInc ++ rest)]
    rw [List.take_append_of_le_length (by rw [startInc_length]; omega)]
    have : startInc.take 14 = ['p', 'd', 's', 't', 'o', 'r', '\n', 'n', 'e', 'l', 't', 's', ' ', '('] := by
      unfold startInc
      decide
    rw [this]
    rfl
  generalize (startInc ++ rest).drop 14 = t at e1
  have h : scanf fStor (startInc ++ rest) = ([], '(' :: t) := by
    have e2 : fStor = .lit 'p' :: .lit 'd' :: .lit 's' :: .lit 't' :: .lit 'o' :: .lit 'r' :: .ws :: .lit 'n' :: .lit 'e' :: .lit 'l' ::
        .lit 't' :: .lit 's' :: .ws :: .lu :: fStor.drop 14 := rfl
    rw [e1, e2]
    simp only [scanf_lit, scanf_ws]
    rw [skip_space _ (by decide), skip_cons _ (by decide)]
    simp only [scanf_lit, scanf_ws]
    rw [skip_space _ (by decide), skip_cons _ (by decide)]
    rfl
  unfold readStor readHeader
  rw [h]
  rfl

namespace Store

theorem readElts_many (qs : QSort) (bs : BSearch) (m : Mode) : ∀ (n : Nat) (s : Stor (List Nat)) (inp : List Char), inp.length < n →
    ∀ s', readElts qs bs m n s inp ≠ .ok (some s')
  | 0, _, _, h, _ => absurd h (Nat.not_lt_zero _)
  | n + 1, s, inp, h, s' => by
    intro he
    rw [readElts] at he
    split at he
    · cases he
    · split at he
      · cases he
      · cases he
      · cases he
      · rename_i pd r e
        obtain ⟨q, -, q2⟩ := bind_ok_iff.mp he
        have := readPd_lt qs (okReal qs) (rehashReal qs) e
        exact readElts_many qs bs m n q.1 r (by omega) s' q2

end Store

/-- C60. The header with question marks, which `pd_read_pdstor` accepts for files with an unknown number of elements, does not lead to
a store: no file of less than 4 GB without three numbers in its header is read. -/
theorem C60_unknown_number (qs : QSort) (bs : BSearch) (m : Mode) (inp : List Char) (hn : inp.length < 2 ^ 32 - 1)
    (hh : ∀ a b c r, scanf fStor inp ≠ ([.num a, .num b, .num c], r)) (s : Stor (List Nat)) :
    readStor qs bs m inp ≠ .ok (some s) := by
  unfold readStor readHeader
  have h1 := scanf_le fStor inp
  split
  · intro h; cases h
  · rename_i n r e
    split at e
    · rename_i a b c r' e'
      exact absurd e' (hh _ _ _ _)
    · rename_i v r' _ e'
      have h2 := scanf_le fUnknown r'
      rw [e'] at h1
      simp only at h1
      split at e
      · rename_i t e''
        rw [e''] at h2
        simp only [Option.some.injEq, Prod.mk.injEq] at e
        obtain ⟨rfl, rfl⟩ := e
        exact readElts_many qs bs m _ _ _ (by simp only at h2; omega) s
      · cases e

/-! ### Examples -/

/-- The Hopf link can be kept in all modes. -/
theorem Store.hopf_file (m : Mode) : KeptFile m (2, isoHopf) :=
  ⟨⟨isoHopf_searchable.tidy, by decide, isoHopf_searchable.hash, by decide⟩, .inl (by decide), fun _ => by decide, fun _ => by decide⟩

/-- And its shadow, but not in the mode `DIAGRAM_ISOTOPY`. -/
theorem Store.hopf_shadow_file {m : Mode} (hm : m ≠ .isotopy) :
    KeptFile m (7, { isoHopf with cross := isoHopf.cross.map (resign (fun _ => .unset)) }) :=
  ⟨⟨tidy_resign isoHopf_searchable.tidy _, by decide, by simp only [List.length_map]; exact isoHopf_searchable.hash, by decide⟩,
    .inr ⟨hm, by decide⟩, fun _ => by decide, fun _ => by decide⟩

/-- The Hopf link and its shadow, without comparison: the two elements of the file are read, with their uids; of course the
shadow is signed now. -/
example : ∃ s us text s', addAll (realKit insQSort linearBSearch) .none newStor
      [(2, isoHopf), (7, { isoHopf with cross := isoHopf.cross.map (resign (fun _ => .unset)) })] = .ok (s, us) ∧
    writeStor insQSort linearBSearch 2 s = .ok (s, text) ∧ readStor insQSort linearBSearch .none text = .ok (some s') ∧
    (entries s').length = (entries s).length := by
  obtain ⟨s, us, text, s', h1, h2, h3, h4, -⟩ := C59_write_read insQSort linearBSearch .none
    [(2, isoHopf), (7, { isoHopf with cross := isoHopf.cross.map (resign (fun _ => .unset)) })] (by
      intro p hp
      simp only [List.mem_cons, List.not_mem_nil, or_false] at hp
      rcases hp with rfl | rfl
      · exact hopf_file _
      · exact hopf_shadow_file (by decide)) (by decide) 2 (by decide)
  have := h3 []
  rw [List.append_nil] at this
  exact ⟨s, us, text, s', h1, h2, this, h4.length_eq.symm⟩

/-- Two elements are promised, three claimed and one is there. -/
example : readStor insQSort linearBSearch .isotopy (header 2 3 1 ++ writeElts 0 [(2, isoHopf)]) = .ok none :=
  C59_short_file insQSort linearBSearch .isotopy [(2, isoHopf)] (by
    intro p hp
    rw [List.mem_singleton] at hp
    subst hp
    exact hopf_file _) 1 (by decide) (by decide) 3 1 (by decide) (by decide)

/-- The same link in two stores that are written to one file: one element is left after reading. -/
example : ∃ ss f s, addsInc insQSort linearBSearch 1 ⟨startInc, 0, 0⟩ ss = .ok f ∧ ss.length = 2 ∧
    readStor insQSort linearBSearch .isotopy (finishInc f) = .ok (some s) ∧ (entries s).length = 1 := by
  obtain ⟨ss, f, s, h1, h2, h3, h4, h5, h6, -⟩ := C60_incremental insQSort linearBSearch .isotopy [[(2, isoHopf)], [(2, isoHopf)]] (by
    intro l hl p hp
    simp only [List.mem_cons, List.not_mem_nil, or_false, or_self] at hl
    subst hl
    rw [List.mem_singleton] at hp
    subst hp
    exact hopf_file _) (by decide) 1 (by decide)
  have := h3 []
  rw [List.append_nil] at this
  refine ⟨ss, f, s, h2, h1.length_eq.symm, this, ?_⟩
  have hp : ∀ p ∈ [[((2 : Nat), isoHopf)], [(2, isoHopf)]].flatten, p = (2, isoHopf) := by
    intro p hp
    simpa using hp
  obtain ⟨e, e1, -⟩ := h4 (2, isoHopf) (by simp)
  have hpos := List.length_pos_of_mem e1
  have hF := file_faithful insQSort linearBSearch .isotopy
  by_contra hne
  have h2' : 1 < (entries s).length := by omega
  obtain ⟨p, p1, a, a1, ka, a2⟩ := h5 _ (List.getElem_mem (show 0 < (entries s).length by omega))
  obtain ⟨q, q1, b, b1, kb, b2⟩ := h5 _ (List.getElem_mem h2')
  rw [hp p p1] at a2
  rw [hp q q1] at b2
  exact List.pairwise_iff_getElem.mp (h6 (by decide)) 0 1 (by omega) h2' (by omega) a b a1 b1
    (hF.trans _ _ _ ka (hopf_file _) kb a2 (hF.symm _ _ kb (hopf_file _) b2))

/-- A header with question marks is accepted, as 4294967295 elements. -/
example : (readHeader (str "pdstor nelts ?/? (claimed/actual) nhashes ?\n")).map Prod.fst = some 4294967295 := by decide

end Plc
