import Verif.Model.StoreKit
import Verif.Props.Store
import Verif.Props.Unpack

/-! # C58: the store, together with the functions it calls -/

namespace Plc

open Plc.Cmp Plc.PermM Plc.Ok Plc.IsoSearch Plc.Isotopy Plc.Regenerate Plc.Unpack Plc.Store

/-- What a diagram must be to be kept up to isomorphism: as `pd_regenerate` leaves it, not too many components,
and signs at all crossings or at none. -/
structure KeptIso (p : Held) : Prop where
  searchable : Searchable p.1 p.2
  signs : (∀ c ∈ p.2.cross, c.sign ≠ .unset) ∨ ∀ c ∈ p.2.cross, c.sign = .unset

/-- What a diagram must be to be kept up to isotopy: as `pd_regenerate` leaves it, with signs everywhere, and the
numbers of edges of components multiply to less than `2^32`. -/
structure KeptIsotopy (p : Held) : Prop where
  tidy : Tidy p.2.cross p.2.edge p.2.comp p.2.face
  hash : ∃ qs : QSort, HashGen.regenHash qs p.2.cross.length p.2.edge.length p.2.face p.2.comp = .ok p.2.hash
  signs : ∀ c ∈ p.2.cross, c.sign ≠ .unset
  product : (p.2.comp.map (fun k => k.edge.length)).prod < 2 ^ 32

/-- Two diagrams have the same shadow, seen from one side or the other. -/
def SameIso (a b : Held) : Prop := ∃ τ σ o, SameShadow a.2.cross b.2.cross a.2.edge.length τ σ o

/-- The shadow of one diagram is carried to that of the other with signs, tags and directions. -/
def SameIsotopy (a b : Held) : Prop := ∃ τ σ o, LooseIsotopy a.2 b.2 τ σ o

namespace Store

theorem standard_tags {comps : List Comp} {n : Nat} (h : comps.map (·.tag) = List.range' n comps.length) :
    comps.mapIdx (fun i k => (⟨k.edge, n + i⟩ : Comp)) = comps := by
  apply List.ext_getElem?
  intro i
  rw [List.getElem?_mapIdx]
  cases hi : comps[i]? with
  | none => rfl
  | some k =>
    simp only [Option.map_some, Option.some.injEq]
    have := congrArg (·[i]?) h
    have hl := (List.getElem?_eq_some_iff.mp hi).1
    simp only [List.getElem?_map, hi, Option.map_some, List.getElem?_range', hl, Option.some.injEq] at this
    obtain ⟨e, t⟩ := k
    simp only at this
    simp [this]

theorem _root_.Plc.KeptIsotopy.isotopable {p : Held} (h : KeptIsotopy p) : Isotopable p.2 where
  tidy := by
    rw [standard_tags h.tidy.goodComps.tags]
    exact h.tidy
  hash := h.hash
  tags := by
    rw [h.tidy.goodComps.tags]
    exact List.nodup_range'
  product := h.product

theorem _root_.Plc.KeptIsotopy.tags {p q : Held} (hp : KeptIsotopy p) (hq : KeptIsotopy q) : TagsMatch p.2 q.2 := by
  intro hl
  left
  rw [hp.tidy.goodComps.tags, hq.tidy.goodComps.tags, hl]

theorem sameIso_len {a b : Held} (ha : Tidy a.2.cross a.2.edge a.2.comp a.2.face)
    (hb : Tidy b.2.cross b.2.edge b.2.comp b.2.face) {τ σ : Nat → Nat} {o : Or}
    (h : SameShadow a.2.cross b.2.cross a.2.edge.length τ σ o) : a.2.edge.length = b.2.edge.length := by
  rw [ha.plane.consistent.count, hb.plane.consistent.count, h.len]

theorem same_hash {a b : Held} (ha : Tidy a.2.cross a.2.edge a.2.comp a.2.face)
    (hb : Tidy b.2.cross b.2.edge b.2.comp b.2.face)
    (hha : ∃ qs : QSort, HashGen.regenHash qs a.2.cross.length a.2.edge.length a.2.face a.2.comp = .ok a.2.hash)
    (hhb : ∃ qs : QSort, HashGen.regenHash qs b.2.cross.length b.2.edge.length b.2.face b.2.comp = .ok b.2.hash)
    (h : SameIso a b) : a.2.hash = b.2.hash := by
  obtain ⟨qa, hqa⟩ := hha
  obtain ⟨qb, hqb⟩ := hhb
  obtain ⟨τ, σ, o, h⟩ := h
  obtain ⟨s, s1, s2⟩ := C50_hash_invariant qa qb _ _ _ _ _ _ _ _ ha.plane.consistent hb.plane.consistent ha.plane.oriented
    hb.plane.oriented ha.goodFaces hb.goodFaces ha.goodComps hb.goodComps τ σ o h
  rw [hqa] at s1
  rw [hqb] at s2
  exact (Except.ok.inj s1).trans (Except.ok.inj s2).symm

theorem sameIso_symm {a b : Held} (ha : Tidy a.2.cross a.2.edge a.2.comp a.2.face)
    (hb : Tidy b.2.cross b.2.edge b.2.comp b.2.face) (h : SameIso a b) : SameIso b a := by
  obtain ⟨τ, σ, o, h⟩ := h
  obtain ⟨τ', σ', h', -⟩ := h.symm (slots_lt ha.plane.consistent)
  rw [sameIso_len ha hb h] at h'
  exact ⟨τ', σ', o, h'⟩

theorem sameIso_trans {a b c : Held} (ha : Tidy a.2.cross a.2.edge a.2.comp a.2.face)
    (hb : Tidy b.2.cross b.2.edge b.2.comp b.2.face) (h : SameIso a b) (h' : SameIso b c) : SameIso a c := by
  obtain ⟨τ, σ, o, h⟩ := h
  obtain ⟨τ', σ', o', h'⟩ := h'
  rw [← sameIso_len ha hb h] at h'
  exact ⟨_, _, _, h.trans h'⟩

/-- Changing signs keeps the shadow. -/
theorem resign_shadow (cross : List Cross) (m : Nat) (s : Cross → Or) :
    SameShadow (cross.map (resign s)) cross m id id .pos := by
  have h := SameShadow.refl cross m
  refine ⟨by simp, h.tlt, h.tinj, by simp, by simp, ?_⟩
  intro c x hx
  rw [List.getElem?_map, Option.map_eq_some_iff] at hx
  obtain ⟨y, hy, rfl⟩ := hx
  exact h.carried c y hy

theorem real_iso_faithful (qs : QSort) (bs : BSearch) : Faithful (realKit qs bs) KeptIso SameIso where
  refl a _ := ⟨_, _, _, SameShadow.refl _ _⟩
  symm a b ha hb h := sameIso_symm ha.searchable.tidy hb.searchable.tidy h
  trans a b c ha hb _ h h' := sameIso_trans ha.searchable.tidy hb.searchable.tidy h h'
  hash a b ha hb h := by
    have := same_hash ha.searchable.tidy hb.searchable.tidy ha.searchable.hash hb.searchable.hash h
    simp only [realKit, this]
  pack := by
    rintro ⟨mv, pd⟩ ⟨hS, hs | hs⟩
    · obtain ⟨ws, w1, w2⟩ := C57_signed_roundtrip qs pd hS.tidy hS.hash hs
      refine ⟨ws, (pd.cross.length, { pd with uid := 0 }), w1, ?_, ⟨⟨hS.tidy, Nat.le_refl _, hS.hash, hS.comps, hS.product⟩, .inl hs⟩,
        _, _, _, SameShadow.refl _ _⟩
      simp only [realKit]
      rw [w2, ok_bind]
    · obtain ⟨ws, w1, w2⟩ := C57_unsigned_roundtrip qs pd hS.tidy hS.hash hs
      refine ⟨ws, (pd.cross.length, { pd with uid := 0, cross := pd.cross.map (fun c => { c with sign := .neg }) }), w1, ?_,
        ⟨⟨tidy_resign hS.tidy (fun _ => .neg), by simp, ?_, hS.comps, hS.product⟩, .inl ?_⟩,
        _, _, _, resign_shadow _ _ (fun _ => .neg)⟩
      · simp only [realKit]
        rw [w2, ok_bind]
        simp
      · obtain ⟨q, hq⟩ := hS.hash
        exact ⟨q, by simp only [List.length_map]; exact hq⟩
      · intro c hc
        obtain ⟨d, -, rfl⟩ := List.mem_map.mp hc
        simp

theorem real_iso_decides (qs : QSort) (bs : BSearch) : Decides (realKit qs bs).isomorphic KeptIso SameIso := by
  intro a b ha hb
  obtain ⟨r, r1, r2⟩ := C52_isomorphic qs bs a.1 b.1 a.2 b.2 ha.searchable hb.searchable
  exact ⟨r, r1, r2⟩

theorem real_isotopy_faithful (qs : QSort) (bs : BSearch) : Faithful (realKit qs bs) KeptIsotopy SameIsotopy where
  refl a _ := ⟨_, _, _, loose_refl _⟩
  symm a b ha hb h := by
    obtain ⟨τ, σ, o, h⟩ := h
    obtain ⟨τ', σ', h'⟩ := loose_symm ha.isotopable.tidy hb.isotopable.tidy h
    exact ⟨_, _, _, h'⟩
  trans a b c ha hb _ h h' := by
    obtain ⟨τ, σ, o, h⟩ := h
    obtain ⟨τ', σ', o', h'⟩ := h'
    exact ⟨_, _, _, loose_trans (sameIso_len ha.tidy hb.tidy h.shadow) h h'⟩
  hash a b ha hb h := by
    obtain ⟨τ, σ, o, h⟩ := h
    have := same_hash ha.tidy hb.tidy ha.hash hb.hash ⟨τ, σ, o, h.shadow⟩
    simp only [realKit, this]
  pack := by
    rintro ⟨mv, pd⟩ hp
    obtain ⟨ws, w1, w2⟩ := C57_signed_roundtrip qs pd hp.tidy hp.hash hp.signs
    refine ⟨ws, (pd.cross.length, { pd with uid := 0 }), w1, ?_, ⟨hp.tidy, hp.hash, hp.signs, hp.product⟩, id, id, .pos, ?_⟩
    · simp only [realKit]
      rw [w2, ok_bind]
    · exact ⟨(loose_refl pd).shadow, (loose_refl pd).signs, (loose_refl pd).comps⟩

theorem real_isotopy_decides (qs : QSort) (bs : BSearch) : Decides (realKit qs bs).isotopic KeptIsotopy SameIsotopy := by
  intro a b ha hb
  obtain ⟨r, r1, r2⟩ := C54_isotopic qs bs a.2 b.2 ha.isotopable hb.isotopable (KeptIsotopy.tags ha hb)
  exact ⟨r, r1, r2⟩

/-- Insertions into an empty store and a walk through it. -/
theorem story {Pd Packed : Type} (k : Kit Pd Packed) (m : Mode) (hm : m ≠ .none) (Good : Pd → Prop) (E : Pd → Pd → Prop)
    (hF : Faithful k Good E) (hd : Decides (if m = .isomorphism then k.isomorphic else k.isotopic) Good E)
    (hh : ∀ pd, Good pd → k.hash pd ≠ []) (l : List Pd) (hl : ∀ pd ∈ l, Good pd) :
    ∃ s us L, addAll k m newStor l = .ok (s, us) ∧ us.length = l.length ∧ visit k l.length s = .ok (s, L) ∧
      nelts (some s) = L.length % 2 ^ 32 ∧
      (∀ (i j : Nat) (a b : Pd) (u v : Nat), l[i]? = some a → l[j]? = some b → us[i]? = some u → us[j]? = some v →
        ((k.hash a, u) = (k.hash b, v) ↔ E a b)) ∧
      (∀ x ∈ L, ∃ (i : Nat) (pd : Pd) (p : Packed), l[i]? = some pd ∧ us[i]? = some x.2 ∧ k.pack pd = .ok p ∧ k.unpack p = .ok x.1) ∧
      L.Pairwise (fun x y => ¬ E x.1 y.1) ∧
      (∀ (i : Nat) (pd : Pd) (u : Nat), l[i]? = some pd → us[i]? = some u → ∃ x ∈ L, x.2 = u ∧ E x.1 pd) := by
  obtain ⟨s, us, a1, a2, a3, a4, a5, a6, a7, a8⟩ := C33_no_duplicates k m hm Good E hF hd l hl
  obtain ⟨s', us', b1, b2⟩ := C33_same_uid k m hm Good E hF hd l hl
  rw [a1] at b1
  cases b1
  obtain ⟨s', us', L, c1, c2, -, c3⟩ := C34_iteration k m Good E hF (fun _ => hd) l (fun pd hp => ⟨hl pd hp, hh pd (hl pd hp)⟩)
    l.length (Nat.le_refl _)
  rw [a1] at c1
  cases c1
  have hlen := c3.length_eq
  refine ⟨s, us, L, a1, a2, c2, by rw [a8, hlen], b2, ?_, ?_, ?_⟩
  · intro x hx
    obtain ⟨n, hn, rfl⟩ := List.getElem_of_mem hx
    obtain ⟨d1, d2⟩ := c3.get (i := n) (by omega) hn
    obtain ⟨i, pd, e1, e2, -, e3⟩ := a7 ((entries s)[n]'(by omega)) (List.getElem_mem _)
    simp only [List.get_eq_getElem] at d1 d2
    exact ⟨i, pd, _, e1, by rw [e2, d2], e3, d1⟩
  · rw [List.pairwise_iff_getElem]
    intro i j hi hj hij
    obtain ⟨d1, d2⟩ := c3.get (i := i) (by omega) hi
    obtain ⟨e1, e2⟩ := c3.get (i := j) (by omega) hj
    exact List.pairwise_iff_getElem.mp a5 i j (by omega) (by omega) hij _ _ d1 e1
  · intro i pd u hi hu
    obtain ⟨p, a, e1, e2, e3⟩ := a6 i pd u hi hu
    obtain ⟨n, hn, he⟩ := List.getElem_of_mem e1
    obtain ⟨d1, d2⟩ := c3.get (i := n) hn (by omega)
    simp only [List.get_eq_getElem, he] at d1 d2
    rw [e2] at d1
    refine ⟨L[n]'(by omega), List.getElem_mem _, d2, ?_⟩
    cases d1
    exact e3

theorem hash_nonempty {pd : Io.Pd} (h : Tidy pd.cross pd.edge pd.comp pd.face)
    (hh : ∃ qs : QSort, HashGen.regenHash qs pd.cross.length pd.edge.length pd.face pd.comp = .ok pd.hash) : pd.hash ≠ [] := by
  obtain ⟨q, hq⟩ := hh
  obtain ⟨s, s1, s2, -⟩ := C50_hash_computed q pd.cross pd.edge pd.face pd.comp h.goodFaces
  rw [hq] at s1
  rw [Except.ok.inj s1]
  intro h0
  rw [h0] at s2
  simp at s2

end Store

/-- How a diagram looks after `pd_pack` and `pd_unpack`: without its uid, and with negative signs if it had none. -/
def unpacked (pd : Io.Pd) : Io.Pd :=
  { pd with uid := 0, cross := pd.cross.map (fun c => if c.sign = .unset then { c with sign := .neg } else c) }

namespace Store

theorem unpacked_signed {pd : Io.Pd} (h : ∀ c ∈ pd.cross, c.sign ≠ .unset) : unpacked pd = { pd with uid := 0 } := by
  unfold unpacked
  congr 1
  conv_rhs => rw [← List.map_id pd.cross]
  apply List.map_congr_left
  intro c hc
  rw [if_neg (h c hc)]
  rfl

theorem unpacked_unsigned {pd : Io.Pd} (h : ∀ c ∈ pd.cross, c.sign = .unset) :
    unpacked pd = { pd with uid := 0, cross := pd.cross.map (fun c => { c with sign := .neg }) } := by
  unfold unpacked
  congr 1
  apply List.map_congr_left
  intro c hc
  rw [if_pos (h c hc)]

end Store

/-- **C58.** Diagrams are inserted into an empty store in the mode `ISOMORPHISM`, and then visited one after the
other. Nothing fails. Two inserted diagrams get the same hash and uid exactly if they have the same shadow;
the diagrams visited are among those inserted, no two of them have the same shadow, and every inserted diagram
has the shadow of one visited, with its uid. The number of elements is right modulo `2^32`. -/
theorem C58_isomorphism_store (qs : QSort) (bs : BSearch) (l : List Held) (hl : ∀ p ∈ l, KeptIso p) :
    ∃ s us L, addAll (realKit qs bs) .isomorphism newStor l = .ok (s, us) ∧ us.length = l.length ∧
      visit (realKit qs bs) l.length s = .ok (s, L) ∧ nelts (some s) = L.length % 2 ^ 32 ∧
      (∀ (i j : Nat) (a b : Held) (u v : Nat), l[i]? = some a → l[j]? = some b → us[i]? = some u → us[j]? = some v →
        ((a.2.hash, u) = (b.2.hash, v) ↔ ∃ τ σ o, SameShadow a.2.cross b.2.cross a.2.edge.length τ σ o)) ∧
      (∀ x ∈ L, ∃ (i : Nat) (p : Held), l[i]? = some p ∧ us[i]? = some x.2 ∧ x.1.2 = unpacked p.2) ∧
      L.Pairwise (fun x y => ¬ ∃ τ σ o, SameShadow x.1.2.cross y.1.2.cross x.1.2.edge.length τ σ o) ∧
      (∀ (i : Nat) (p : Held) (u : Nat), l[i]? = some p → us[i]? = some u → ∃ x ∈ L, x.2 = u ∧
        ∃ τ σ o, SameShadow x.1.2.cross p.2.cross x.1.2.edge.length τ σ o) := by
  obtain ⟨s, us, L, a1, a2, a3, a4, a5, a6, a7, a8⟩ := story (realKit qs bs) .isomorphism (by decide) KeptIso SameIso
    (real_iso_faithful qs bs) (real_iso_decides qs bs) (fun p hp => by
      simp only [realKit, ne_eq, List.map_eq_nil_iff]
      exact hash_nonempty hp.searchable.tidy hp.searchable.hash) l hl
  refine ⟨s, us, L, a1, a2, a3, a4, ?_, ?_, a7, a8⟩
  · intro i j a b u v h1 h2 h3 h4
    refine Iff.trans ?_ (a5 i j a b u v h1 h2 h3 h4)
    simp only [realKit, Prod.mk.injEq]
    rw [List.map_inj_right (fun x y h => Char.toNat_inj.mp h)]
  · intro x hx
    obtain ⟨i, p, w, h1, h2, h3, h4⟩ := a6 x hx
    refine ⟨i, p, h1, h2, ?_⟩
    obtain ⟨hS, hs⟩ := hl p (List.mem_of_getElem? h1)
    simp only [realKit] at h3 h4
    rcases hs with hs | hs
    · obtain ⟨w', w1, w2⟩ := C57_signed_roundtrip qs p.2 hS.tidy hS.hash hs
      rw [w1] at h3
      rw [← Except.ok.inj h3, w2, ok_bind] at h4
      rw [← Except.ok.inj h4, unpacked_signed hs]
    · obtain ⟨w', w1, w2⟩ := C57_unsigned_roundtrip qs p.2 hS.tidy hS.hash hs
      rw [w1] at h3
      rw [← Except.ok.inj h3, w2, ok_bind] at h4
      rw [← Except.ok.inj h4, unpacked_unsigned hs]

/-- **C58.** The same in the mode `DIAGRAM_ISOTOPY`, for diagrams with all signs set. -/
theorem C58_isotopy_store (qs : QSort) (bs : BSearch) (l : List Held) (hl : ∀ p ∈ l, KeptIsotopy p) :
    ∃ s us L, addAll (realKit qs bs) .isotopy newStor l = .ok (s, us) ∧ us.length = l.length ∧
      visit (realKit qs bs) l.length s = .ok (s, L) ∧ nelts (some s) = L.length % 2 ^ 32 ∧
      (∀ (i j : Nat) (a b : Held) (u v : Nat), l[i]? = some a → l[j]? = some b → us[i]? = some u → us[j]? = some v →
        ((a.2.hash, u) = (b.2.hash, v) ↔ ∃ τ σ o, LooseIsotopy a.2 b.2 τ σ o)) ∧
      (∀ x ∈ L, ∃ (i : Nat) (p : Held), l[i]? = some p ∧ us[i]? = some x.2 ∧ x.1.2 = { p.2 with uid := 0 }) ∧
      L.Pairwise (fun x y => ¬ ∃ τ σ o, LooseIsotopy x.1.2 y.1.2 τ σ o) ∧
      (∀ (i : Nat) (p : Held) (u : Nat), l[i]? = some p → us[i]? = some u → ∃ x ∈ L, x.2 = u ∧
        ∃ τ σ o, LooseIsotopy x.1.2 p.2 τ σ o) := by
  obtain ⟨s, us, L, a1, a2, a3, a4, a5, a6, a7, a8⟩ := story (realKit qs bs) .isotopy (by decide) KeptIsotopy SameIsotopy
    (real_isotopy_faithful qs bs) (real_isotopy_decides qs bs) (fun p hp => by
      simp only [realKit, ne_eq, List.map_eq_nil_iff]
      exact hash_nonempty hp.tidy hp.hash) l hl
  refine ⟨s, us, L, a1, a2, a3, a4, ?_, ?_, a7, a8⟩
  · intro i j a b u v h1 h2 h3 h4
    refine Iff.trans ?_ (a5 i j a b u v h1 h2 h3 h4)
    simp only [realKit, Prod.mk.injEq]
    rw [List.map_inj_right (fun x y h => Char.toNat_inj.mp h)]
  · intro x hx
    obtain ⟨i, p, w, h1, h2, h3, h4⟩ := a6 x hx
    refine ⟨i, p, h1, h2, ?_⟩
    have hp := hl p (List.mem_of_getElem? h1)
    simp only [realKit] at h3 h4
    obtain ⟨w', w1, w2⟩ := C57_signed_roundtrip qs p.2 hp.tidy hp.hash hp.signs
    rw [w1] at h3
    rw [← Except.ok.inj h3, w2, ok_bind] at h4
    rw [← Except.ok.inj h4]

/-- **C58.** `pd_search_pdstor_by_isomorphism` in such a store finds nothing exactly if no diagram with the same shadow has
been inserted. Otherwise it gives a stored diagram with the same shadow, its uid and all isomorphisms to it. -/
theorem C58_search (qs : QSort) (bs : BSearch) (l : List Held) (hl : ∀ p ∈ l, KeptIso p) (q : Held) (hq : KeptIso q) :
    ∃ s us r, addAll (realKit qs bs) .isomorphism newStor l = .ok (s, us) ∧
      search (realKit qs bs) (fun a b => buildIsos qs bs false (Io.capsNew a.1) (Io.capsNew b.1) a.2 b.2) s q = .ok r ∧
      (r = none ↔ ∀ p ∈ l, ¬ ∃ τ σ o, SameShadow p.2.cross q.2.cross p.2.edge.length τ σ o) ∧
      (∀ a u is, r = some (a, u, is) → is ≠ [] ∧
        (∃ w, (q.2.hash.map Char.toNat, u, w) ∈ entries s ∧ (realKit qs bs).unpack w = .ok a) ∧
        (∀ i ∈ is, ∃ o, (o = .pos ∨ o = .neg) ∧ IsoFrom q.2 a.2 o i) ∧
        ∀ κ τ os σ o φ, (o = .pos ∨ o = .neg) → IsoMaps q.2 a.2 κ τ os σ o φ o →
          ∃ i ∈ is, i.comp.map = κ ∧ i.emap.perm.map = τ ∧ i.emap.orient = os ∧ i.fmap.perm.map = φ ∧ i.fmap.orient = o ∧
            ∃ cm, i.cmap = some cm ∧ cm.perm.map = σ ∧ cm.orient = o) := by
  obtain ⟨s, us, r, a1, a2, a3, a4⟩ := C33_search (realKit qs bs) .isomorphism (by decide) KeptIso SameIso
    (real_iso_faithful qs bs) (real_iso_decides qs bs)
    (fun a b => buildIsos qs bs false (Io.capsNew a.1) (Io.capsNew b.1) a.2 b.2) (by
      intro a b ha hb
      obtain ⟨L, l1, l2, l3, -⟩ := C52_all_isomorphisms qs bs a.1 b.1 a.2 b.2 ha.searchable hb.searchable
      refine ⟨L, l1, ?_, ?_⟩
      · intro h
        obtain ⟨i, hi⟩ := List.exists_mem_of_ne_nil _ h
        obtain ⟨o, -, cm, -, -, -, hm⟩ := l2 i hi
        exact sameIso_symm ha.searchable.tidy hb.searchable.tidy ⟨_, _, _, hm.shadow⟩
      · intro h h0
        obtain ⟨τ, σ, o, h⟩ := sameIso_symm hb.searchable.tidy ha.searchable.tidy h
        obtain ⟨o', ho', h⟩ := shadow_or h
        obtain ⟨κ, os, φ, hm⟩ := maps_of_shadow ha.searchable.tidy hb.searchable.tidy h
        obtain ⟨i, hi, -⟩ := l3 _ _ _ _ _ _ ho' hm
        rw [h0] at hi
        simp at hi) l hl q hq
  refine ⟨s, us, r, a1, a2, a3, ?_⟩
  intro a u is hr
  obtain ⟨b1, b2, b3, w, b4, b5⟩ := a4 a u is hr
  refine ⟨b2, ⟨w, b4, b5⟩, ?_⟩
  have ha : KeptIso a := by
    obtain ⟨s', us', c1, -, -, c2, -⟩ := C33_no_duplicates (realKit qs bs) .isomorphism (by decide) KeptIso SameIso
      (real_iso_faithful qs bs) (real_iso_decides qs bs) l hl
    rw [a1] at c1
    cases c1
    obtain ⟨a', d1, d2, -⟩ := c2 _ b4
    simp only at d1
    rw [b5] at d1
    cases d1
    exact d2
  obtain ⟨L, l1, l2, l3, -⟩ := C52_all_isomorphisms qs bs q.1 a.1 q.2 a.2 hq.searchable ha.searchable
  rw [l1] at b3
  cases b3
  exact ⟨l2, l3⟩

/-! ### Where the store goes wrong -/

namespace Store

/-- The second insertion of a diagram finds its own packed copy. -/
theorem twice {Pd Packed : Type} (k : Kit Pd Packed) (m : Mode) (hm : m ≠ .none) (pd a : Pd) (p : Packed)
    (hp : k.pack pd = .ok p) (hu : k.unpack p = .ok a) :
    (same k m a pd = .ok false → ∃ s, addAll k m newStor [pd, pd] = .ok (s, [1, 2]) ∧ (entries s).length = 2) ∧
    (∀ f, same k m a pd = .error f → addAll k m newStor [pd, pd] = .error f) := by
  have s1 : addto k m newStor pd = .ok (⟨[(k.hash pd, [(1, p)])], 1, [], 0, none⟩, 1) := by
    unfold addto
    simp only [newStor, Stor.reset, jslg, Option.getD_none, scan]
    rw [ok_bind]
    simp only []
    rw [hp, ok_bind]
    rfl
  constructor
  · intro ht
    have s2 : addto k m ⟨[(k.hash pd, [(1, p)])], 1, [], 0, none⟩ pd =
        .ok (⟨[(k.hash pd, [(1, p), (2, p)])], 2, [], 0, none⟩, 2) := by
      unfold addto
      simp only [Stor.reset, jslg, if_true, Option.getD_some, scan, findLoop]
      rw [if_pos hm, hu, ok_bind, ht, ok_bind, if_neg (by decide), ok_bind]
      simp only []
      rw [hp, ok_bind]
      simp [jli, jsli]
    refine ⟨⟨[(k.hash pd, [(1, p), (2, p)])], 2, [], 0, none⟩, ?_, rfl⟩
    unfold addAll
    rw [s1, ok_bind]
    simp only []
    unfold addAll
    rw [s2, ok_bind]
    rfl
  · intro f ht
    have s2 : addto k m ⟨[(k.hash pd, [(1, p)])], 1, [], 0, none⟩ pd = .error f := by
      unfold addto
      simp only [Stor.reset, jslg, if_true, Option.getD_some, scan, findLoop]
      rw [if_pos hm, hu, ok_bind, ht, error_bind, error_bind]
    unfold addAll
    rw [s1, ok_bind]
    simp only []
    unfold addAll
    rw [s2, error_bind, error_bind]

end Store

/-- A diagram without signs is stored twice in the mode `DIAGRAM_ISOTOPY`: its packed copy has negative signs, so it is
not recognised. -/
theorem C58_unsigned_stored_twice (qs : QSort) (bs : BSearch) (p : Held) (hT : Tidy p.2.cross p.2.edge p.2.comp p.2.face)
    (hH : ∃ qs : QSort, HashGen.regenHash qs p.2.cross.length p.2.edge.length p.2.face p.2.comp = .ok p.2.hash)
    (hprod : (p.2.comp.map (fun k => k.edge.length)).prod < 2 ^ 32) (hs : ∀ c ∈ p.2.cross, c.sign = .unset) :
    ∃ s, addAll (realKit qs bs) .isotopy newStor [p, p] = .ok (s, [1, 2]) ∧ (entries s).length = 2 := by
  obtain ⟨ws, w1, w2⟩ := C57_unsigned_roundtrip qs p.2 hT hH hs
  refine (twice (realKit qs bs) .isotopy (by decide) p (p.2.cross.length,
    { p.2 with uid := 0, cross := p.2.cross.map (fun c => { c with sign := .neg }) }) ws w1 ?_).1 ?_
  · simp only [realKit]
    rw [w2, ok_bind]
    simp
  · have tagged := standard_tags hT.goodComps.tags
    have hB : Isotopable p.2 := ⟨by rw [tagged]; exact hT, hH, by rw [hT.goodComps.tags]; exact List.nodup_range', hprod⟩
    have hA : Isotopable { p.2 with uid := 0, cross := p.2.cross.map (fun c => { c with sign := .neg }) } :=
      ⟨by simp only; rw [tagged]; exact tidy_resign hT (fun _ => .neg), by simp only [List.length_map]; exact hH, hB.tags, hprod⟩
    obtain ⟨b, b1, b2⟩ := C54_isotopic qs bs _ _ hA hB (fun _ => .inl rfl)
    change diagramIsotopic qs bs _ _ = _
    rw [b1]
    congr 1
    rw [Bool.eq_false_iff, ne_eq, b2]
    rintro ⟨τ, σ, o, h⟩
    obtain ⟨x, hx⟩ := List.exists_mem_of_ne_nil _ hA.tidy.plane.nonempty
    obtain ⟨c, hc⟩ := List.mem_iff_getElem?.mp hx
    obtain ⟨z, z1, z2⟩ := h.signs c x hc
    rw [hs z (List.mem_of_getElem? z1)] at z2
    obtain ⟨y, -, rfl⟩ := List.mem_map.mp hx
    simp at z2

/-- A diagram with tags other than `A`, `B`, ... in this order, and at most six components (`MAX_PC`), cannot be inserted
twice in the mode `DIAGRAM_ISOTOPY`: its packed copy has the usual tags, and comparing the two ends the program. -/
theorem C58_other_tags_die (qs : QSort) (bs : BSearch) (p : Held) (h : Isotopable p.2)
    (hs : ∀ c ∈ p.2.cross, c.sign ≠ .unset) (h6 : p.2.comp.length ≤ 6)
    (ht : p.2.comp.map (·.tag) ≠ List.range' 65 p.2.comp.length) :
    addAll (realKit qs bs) .isotopy newStor [p, p] = .error .die := by
  obtain ⟨q, hq⟩ := h.hash
  have hq' : HashGen.regenHash q p.2.cross.length p.2.edge.length p.2.face (p.2.comp.mapIdx (fun i k => ⟨k.edge, 65 + i⟩)) =
      .ok p.2.hash := (hash_retag ..).trans hq
  obtain ⟨ws, w1, w2⟩ := C57_signed_roundtrip qs { p.2 with comp := p.2.comp.mapIdx (fun i k => ⟨k.edge, 65 + i⟩) } h.tidy
    ⟨q, hq'⟩ hs
  refine (twice (realKit qs bs) .isotopy (by decide) p (p.2.cross.length,
    { p.2 with uid := 0, comp := p.2.comp.mapIdx (fun i k => ⟨k.edge, 65 + i⟩) }) ws w1 ?_).2 _ ?_
  · simp only [realKit]
    rw [w2, ok_bind]
  · change diagramIsotopic qs bs _ _ = _
    have htags := h.tidy.goodComps.tags
    have hA : Isotopable { p.2 with uid := 0, comp := p.2.comp.mapIdx (fun i k => ⟨k.edge, 65 + i⟩) } := by
      refine ⟨?_, ⟨q, hq'⟩, ?_, ?_⟩
      · simp only
        rw [standard_tags htags]
        exact h.tidy
      · simp only
        rw [htags]
        exact List.nodup_range'
      · simp only
        have : (p.2.comp.mapIdx (fun i k => (⟨k.edge, 65 + i⟩ : Comp))).map (fun k => k.edge.length) =
            p.2.comp.map (fun k => k.edge.length) := by
          apply List.ext_getElem?
          intro i
          rw [List.getElem?_map, List.getElem?_mapIdx, List.getElem?_map]
          cases p.2.comp[i]? <;> rfl
        rw [this]
        exact h.product
    refine C54_other_tags_die qs bs _ _ hA h _ _ _ (SameShadow.refl _ _) rfl (.inl ⟨by simpa using h6, ?_⟩)
    simp only
    rw [htags, List.length_mapIdx]
    exact fun h => ht h.symm

/-! ### Examples -/

/-- The two Hopf links of the search are kept, up to isomorphism and isotopy. -/
theorem Store.hopf_kept : KeptIso (2, isoHopf) ∧ KeptIsotopy (2, isoHopf) :=
  ⟨⟨isoHopf_searchable, .inl (by decide)⟩, ⟨isoHopf_searchable.tidy, isoHopf_searchable.hash, by decide, by decide⟩⟩

/-- Without signs the Hopf link is stored twice. -/
example : ∃ s, addAll (realKit insQSort linearBSearch) .isotopy newStor
    (List.replicate 2 (2, { isoHopf with cross := isoHopf.cross.map (resign (fun _ => .unset)) })) = .ok (s, [1, 2]) ∧
      (entries s).length = 2 :=
  C58_unsigned_stored_twice insQSort linearBSearch (2, { isoHopf with cross := isoHopf.cross.map (resign (fun _ => .unset)) })
    (tidy_resign isoHopf_searchable.tidy _) (by simp only [List.length_map]; exact isoHopf_searchable.hash) (by decide) (by decide)

/-- With exchanged tags the Hopf link cannot be inserted twice. -/
example : addAll (realKit insQSort linearBSearch) .isotopy newStor
    (List.replicate 2 (2, { isoHopf with comp := [⟨[0, 1], 66⟩, ⟨[2, 3], 65⟩] })) = .error .die :=
  C58_other_tags_die insQSort linearBSearch (2, { isoHopf with comp := [⟨[0, 1], 66⟩, ⟨[2, 3], 65⟩] })
    (hopf_isotopable 66 65 (by decide)) (by decide) (by decide) (by decide)

end Plc
