import Verif.Spec.Store
import Verif.Proofs.Basic
import Mathlib.Data.List.Basic
import Mathlib.Data.List.Lex
import Mathlib.Data.List.Flatten
import Mathlib.Data.List.Range

namespace Plc.Store

open List

variable {Pd Packed : Type}

abbrev SortedArr (l : List (Hash × Bucket Packed)) : Prop := l.Pairwise (fun a b => a.1 < b.1)

theorem jslg_iff {l : List (Hash × Bucket Packed)} (hs : SortedArr l) {k : Hash} {b : Bucket Packed} :
    jslg l k = some b ↔ (k, b) ∈ l := by
  induction l with
  | nil => simp [jslg]
  | cons x l ih =>
    obtain ⟨h, c⟩ := x
    have hs' := List.pairwise_cons.mp hs
    unfold jslg
    by_cases hk : k = h
    · subst hk
      rw [if_pos rfl]
      constructor
      · intro h; cases h; simp
      · intro h
        rcases List.mem_cons.mp h with h | h
        · cases h; rfl
        · exact absurd (hs'.1 _ h) (lt_irrefl _)
    · rw [if_neg hk, ih hs'.2]
      simp [hk]

theorem jslg_none {l : List (Hash × Bucket Packed)} {k : Hash} :
    jslg l k = none ↔ ∀ b, (k, b) ∉ l := by
  induction l with
  | nil => simp [jslg]
  | cons x l ih =>
    obtain ⟨h, c⟩ := x
    unfold jslg
    by_cases hk : k = h
    · subst hk
      simp only [if_pos, reduceCtorEq, false_iff, not_forall, not_not]
      exact ⟨c, by simp⟩
    · rw [if_neg hk, ih]
      simp [hk]

theorem mem_jsli {l : List (Hash × Bucket Packed)} (hs : SortedArr l) {k : Hash} {b : Bucket Packed}
    (x : Hash × Bucket Packed) : x ∈ jsli l k b ↔ x = (k, b) ∨ (x.1 ≠ k ∧ x ∈ l) := by
  induction l with
  | nil => simp [jsli]
  | cons y l ih =>
    obtain ⟨h, c⟩ := y
    have hs' := List.pairwise_cons.mp hs
    unfold jsli
    by_cases hk : k = h
    · subst hk
      rw [if_pos rfl, List.mem_cons, List.mem_cons]
      constructor
      · rintro (h | h)
        · exact Or.inl h
        · right
          have := hs'.1 _ h
          exact ⟨fun he => absurd (he ▸ this) (lt_irrefl _), Or.inr h⟩
      · rintro (h | ⟨h1, h | h⟩)
        · exact Or.inl h
        · exact absurd (by rw [h]) h1
        · exact Or.inr h
    · rw [if_neg hk]
      by_cases hlt : k < h
      · rw [if_pos hlt, List.mem_cons]
        constructor
        · rintro (h | h)
          · exact Or.inl h
          · refine Or.inr ⟨fun he => ?_, h⟩
            rcases List.mem_cons.mp h with h | h
            · rw [h] at he; exact hk he.symm
            · have := hs'.1 _ h
              rw [he] at this
              exact absurd (lt_trans hlt this) (lt_irrefl _)
        · rintro (h | ⟨_, h⟩)
          · exact Or.inl h
          · exact Or.inr h
      · rw [if_neg hlt, List.mem_cons, List.mem_cons, ih hs'.2]
        constructor
        · rintro (h | h | ⟨h1, h2⟩)
          · refine Or.inr ⟨?_, Or.inl h⟩
            rw [h]; exact fun he => hk he.symm
          · exact Or.inl h
          · exact Or.inr ⟨h1, Or.inr h2⟩
        · rintro (h | ⟨h1, h | h⟩)
          · exact Or.inr (Or.inl h)
          · exact Or.inl h
          · exact Or.inr (Or.inr ⟨h1, h⟩)

theorem sorted_jsli {l : List (Hash × Bucket Packed)} (hs : SortedArr l) (k : Hash) (b : Bucket Packed) :
    SortedArr (jsli l k b) := by
  induction l with
  | nil => simp [jsli, SortedArr]
  | cons y l ih =>
    obtain ⟨h, c⟩ := y
    have hs' := List.pairwise_cons.mp hs
    unfold jsli
    by_cases hk : k = h
    · subst hk
      rw [if_pos rfl]
      exact List.pairwise_cons.mpr ⟨hs'.1, hs'.2⟩
    · rw [if_neg hk]
      by_cases hlt : k < h
      · rw [if_pos hlt]
        refine List.pairwise_cons.mpr ⟨?_, hs⟩
        intro x hx
        rcases List.mem_cons.mp hx with hx | hx
        · rw [hx]; exact hlt
        · exact lt_trans hlt (hs'.1 _ hx)
      · rw [if_neg hlt]
        refine List.pairwise_cons.mpr ⟨?_, ih hs'.2⟩
        intro x hx
        rcases (mem_jsli hs'.2 x).mp hx with hx | hx
        · rw [hx]
          rcases lt_trichotomy k h with h1 | h1 | h1
          · exact absurd h1 hlt
          · exact absurd h1 hk
          · exact h1
        · exact hs'.1 _ hx.2

theorem jsli_same {l : List (Hash × Bucket Packed)} (hs : SortedArr l) {k : Hash} {b : Bucket Packed}
    (h : (k, b) ∈ l) : jsli l k b = l := by
  induction l with
  | nil => simp at h
  | cons y l ih =>
    obtain ⟨g, c⟩ := y
    have hs' := List.pairwise_cons.mp hs
    unfold jsli
    by_cases hk : k = g
    · subst hk
      rw [if_pos rfl]
      rcases List.mem_cons.mp h with h | h
      · rw [h]
      · exact absurd (hs'.1 _ h) (lt_irrefl _)
    · have hm : (k, b) ∈ l := by
        rcases List.mem_cons.mp h with h | h
        · cases h; exact absurd rfl hk
        · exact h
      have hlt : ¬ k < g := fun hl => absurd (lt_trans hl (hs'.1 _ hm)) (lt_irrefl _)
      rw [if_neg hk, if_neg hlt, ih hs'.2 hm]

/-- The elements of a list of buckets. -/
def flat (l : List (Hash × Bucket Packed)) : List (Hash × Nat × Packed) :=
  l.flatMap (fun hb => hb.2.map (fun up => (hb.1, up.1, up.2)))

theorem flat_jsli {l : List (Hash × Bucket Packed)} (hs : SortedArr l) (k : Hash) (u : Nat) (p : Packed) :
    flat (jsli l k (((jslg l k).getD []) ++ [(u, p)])) ~ (k, u, p) :: flat l := by
  induction l with
  | nil => simp [jsli, jslg, flat]
  | cons y l ih =>
    obtain ⟨g, c⟩ := y
    have hs' := List.pairwise_cons.mp hs
    by_cases hk : k = g
    · subst hk
      unfold jsli jslg
      rw [if_pos rfl, if_pos rfl]
      simp only [Option.getD_some, flat, List.flatMap_cons, List.map_append, List.map_cons, List.map_nil,
        List.append_assoc, List.singleton_append]
      exact List.perm_middle
    · by_cases hlt : k < g
      · have hn : jslg ((g, c) :: l) k = none := by
          rw [jslg_none]
          intro b hb
          rcases List.mem_cons.mp hb with h | h
          · cases h; exact hk rfl
          · exact absurd (lt_trans hlt (hs'.1 _ h)) (lt_irrefl _)
        rw [hn]
        unfold jsli
        rw [if_neg hk, if_pos hlt]
        simp [flat]
      · have hg : jslg ((g, c) :: l) k = jslg l k := by
          conv_lhs => unfold jslg
          rw [if_neg hk]
        rw [hg]
        unfold jsli
        rw [if_neg hk, if_neg hlt]
        simp only [flat, List.flatMap_cons]
        refine (List.Perm.append_left _ (ih hs'.2)).trans ?_
        simp only [flat]
        exact List.perm_middle

theorem jli_append (p : Packed) : ∀ {b : Bucket Packed} {uid : Nat}, (∀ x ∈ b, x.1 < uid) → jli b uid p = some (b ++ [(uid, p)])
  | [], _, _ => rfl
  | (u, q) :: b, uid, h => by
    have hu : u < uid := h (u, q) (by simp)
    unfold jli
    rw [if_neg (by omega), if_neg (by omega), jli_append p (fun x hx => h x (by simp [hx]))]
    rfl

/-- The search loop, in a mode that looks for equivalent diagrams. -/
theorem findLoop_ok {k : Kit Pd Packed} {m : Mode} {Good : Pd → Prop} {E : Pd → Pd → Prop} {pd : Pd}
    (hm : m ≠ .none) (hd : Decides (same k m) Good E) (hg : Good pd) : ∀ {b : Bucket Packed} (last : Nat),
    (∀ x ∈ b, ∃ a, k.unpack x.2 = .ok a ∧ Good a) →
    (∃ x ∈ b, ∃ a, k.unpack x.2 = .ok a ∧ E a pd ∧ findLoop k m pd b last = .ok (.inl x.1)) ∨
    ((∀ x ∈ b, ∀ a, k.unpack x.2 = .ok a → ¬ E a pd) ∧
      findLoop k m pd b last = .ok (.inr (((b.map Prod.fst).getLast?).getD last)))
  | [], last, _ => Or.inr ⟨by simp, rfl⟩
  | (u, p) :: b, last, h => by
    obtain ⟨a, a1, a2⟩ := h (u, p) (by simp)
    obtain ⟨r, r1, r2⟩ := hd a pd a2 hg
    simp only at a1
    unfold findLoop
    rw [if_pos hm, a1, ok_bind, r1, ok_bind]
    by_cases hr : r = true
    · left
      rw [if_pos hr]
      exact ⟨(u, p), by simp, a, a1, r2.mp hr, rfl⟩
    · rw [if_neg hr]
      rcases findLoop_ok hm hd hg (b := b) u (fun x hx => h x (by simp [hx])) with ⟨x, x1, x2⟩ | ⟨x1, x2⟩
      · exact Or.inl ⟨x, by simp [x1], x2⟩
      · right
        refine ⟨?_, ?_⟩
        · intro x hx c hc
          rcases List.mem_cons.mp hx with hx | hx
          · subst hx
            simp only at hc
            rw [a1] at hc
            cases hc
            exact fun he => hr (r2.mpr he)
          · exact x1 x hx c hc
        · rw [x2]
          congr 2
          rw [List.map_cons, List.getLast?_cons]
          rfl

theorem findLoop_none {k : Kit Pd Packed} {pd : Pd} : ∀ {b : Bucket Packed} (last : Nat),
    findLoop k .none pd b last = .ok (.inr (((b.map Prod.fst).getLast?).getD last))
  | [], last => rfl
  | (u, p) :: b, last => by
    unfold findLoop
    rw [if_neg (by simp), findLoop_none]
    congr 2
    rw [List.map_cons, List.getLast?_cons]
    rfl

/-- What holds of a store after the insertions `H` (diagrams with the uids they were given). -/
structure Inv (k : Kit Pd Packed) (m : Mode) (Good : Pd → Prop) (E : Pd → Pd → Prop) (s : Stor Packed)
    (H : List (Pd × Nat)) : Prop where
  sorted : SortedArr s.arr
  uids : ∀ x ∈ s.arr, x.2 ≠ [] ∧ x.2.map Prod.fst = List.range' 1 x.2.length
  good : ∀ x ∈ s.arr, ∀ y ∈ x.2, ∃ a, k.unpack y.2 = .ok a ∧ Good a ∧ k.hash a = x.1
  distinct : m ≠ .none → ∀ x ∈ s.arr, x.2.Pairwise (fun y z => ∀ a c, k.unpack y.2 = .ok a →
    k.unpack z.2 = .ok c → ¬ E a c)
  kept : ∀ h ∈ H, ∃ b p a, (k.hash h.1, b) ∈ s.arr ∧ (h.2, p) ∈ b ∧ k.unpack p = .ok a ∧ E a h.1 ∧
    (m = .none → k.pack h.1 = .ok p)
  origin : ∀ x ∈ s.arr, ∀ y ∈ x.2, ∃ h ∈ H, h.2 = y.1 ∧ k.hash h.1 = x.1 ∧ k.pack h.1 = .ok y.2
  count : s.nelts = (flat s.arr).length % 2 ^ 32
  all : m = .none → H.map (fun h => (k.hash h.1, h.2)) ~ (flat s.arr).map (fun e => (e.1, e.2.1))

variable {k : Kit Pd Packed} {m : Mode} {Good : Pd → Prop} {E : Pd → Pd → Prop}

theorem inv_new : Inv k m Good E (newStor : Stor Packed) [] where
  sorted := List.Pairwise.nil
  uids := by simp [newStor]
  good := by simp [newStor]
  distinct := by simp [newStor]
  kept := by simp
  origin := by simp [newStor]
  count := rfl
  all := fun _ => by simp [newStor, flat]

theorem last_uid {b : Bucket Packed} (h : b.map Prod.fst = List.range' 1 b.length) :
    ((b.map Prod.fst).getLast?).getD 0 = b.length := by
  rw [h, List.getLast?_range']
  split
  · rename_i h0; rw [h0]; rfl
  · rw [Option.getD_some]; omega

theorem addto_ok (hF : Faithful k Good E) (hd : m ≠ .none → Decides (same k m) Good E) {s : Stor Packed}
    {H : List (Pd × Nat)} (hI : Inv k m Good E s H) {pd : Pd} (hg : Good pd) :
    ∃ s' u, addto k m s pd = .ok (s', u) ∧ Inv k m Good E s' (H ++ [(pd, u)]) := by
  have hreset : s.reset.arr = s.arr := rfl
  generalize hb : (jslg s.arr (k.hash pd)).getD [] = b
  -- the bucket
  have hcase : (jslg s.arr (k.hash pd) = none ∧ b = []) ∨ ((k.hash pd, b) ∈ s.arr ∧ b ≠ []) := by
    cases hj : jslg s.arr (k.hash pd) with
    | none => left; rw [hj] at hb; exact ⟨rfl, hb.symm⟩
    | some c =>
      right
      rw [hj] at hb
      simp only [Option.getD_some] at hb
      subst hb
      have := (jslg_iff hI.sorted).mp hj
      exact ⟨this, (hI.uids _ this).1⟩
  have huids : b.map Prod.fst = List.range' 1 b.length := by
    rcases hcase with ⟨_, rfl⟩ | ⟨h, _⟩
    · rfl
    · exact (hI.uids _ h).2
  have hgood : ∀ y ∈ b, ∃ a, k.unpack y.2 = .ok a ∧ Good a ∧ k.hash a = k.hash pd := by
    rcases hcase with ⟨_, rfl⟩ | ⟨h, _⟩
    · simp
    · exact hI.good _ h
  have hlt : ∀ x ∈ b, x.1 < b.length + 1 := by
    intro x hx
    have : x.1 ∈ b.map Prod.fst := List.mem_map_of_mem hx
    rw [huids, List.mem_range'_1] at this
    omega
  have hdist : m ≠ .none → b.Pairwise (fun y z => ∀ a c, k.unpack y.2 = .ok a →
      k.unpack z.2 = .ok c → ¬ E a c) := by
    intro hm
    rcases hcase with ⟨_, rfl⟩ | ⟨h, _⟩
    · exact List.Pairwise.nil
    · exact hI.distinct hm _ h
  have horig : ∀ y ∈ b, ∃ h ∈ H, h.2 = y.1 ∧ k.hash h.1 = k.hash pd ∧ k.pack h.1 = .ok y.2 := by
    rcases hcase with ⟨_, rfl⟩ | ⟨h, _⟩
    · simp
    · exact hI.origin _ h
  -- what the search gives
  have hsearch : ((m ≠ .none) ∧ ∃ x ∈ b, ∃ a, k.unpack x.2 = .ok a ∧ E a pd ∧
        scan k m pd b = .ok (.inl x.1)) ∨
      ((m ≠ .none → ∀ x ∈ b, ∀ a, k.unpack x.2 = .ok a → ¬ E a pd) ∧
        scan k m pd b = .ok (.inr b.length)) := by
    have hmatch : scan k m pd b =
        findLoop k m pd b 0 := by
      cases b <;> rfl
    rw [hmatch]
    by_cases hm : m = .none
    · right
      subst hm
      refine ⟨fun h => absurd rfl h, ?_⟩
      rw [findLoop_none, last_uid huids]
    · rcases findLoop_ok hm (hd hm) hg (b := b) 0 (fun x hx => by
          obtain ⟨a, a1, a2, _⟩ := hgood x hx
          exact ⟨a, a1, a2⟩) with h | ⟨h1, h2⟩
      · exact Or.inl ⟨hm, h⟩
      · right
        rw [h2, last_uid huids]
        exact ⟨fun _ => h1, rfl⟩
  unfold addto
  simp only [hreset, hb]
  rcases hsearch with ⟨hm, x, x1, a, a1, a2, a3⟩ | ⟨h1, h2⟩
  · -- found
    have hne : b ≠ [] := by intro h; rw [h] at x1; simp at x1
    have hmem : (k.hash pd, b) ∈ s.arr := by
      rcases hcase with ⟨_, h⟩ | ⟨h, _⟩
      · exact absurd h hne
      · exact h
    rw [a3, ok_bind]
    refine ⟨_, _, rfl, ?_⟩
    simp only [jsli_same hI.sorted hmem]
    refine ⟨hI.sorted, hI.uids, hI.good, hI.distinct, ?_, ?_, hI.count, fun h => absurd h hm⟩
    · intro h hh
      rcases List.mem_append.mp hh with hh | hh
      · exact hI.kept h hh
      · simp only [List.mem_cons, List.not_mem_nil, or_false] at hh
        subst hh
        exact ⟨b, x.2, a, hmem, x1, a1, a2, fun h => absurd h hm⟩
    · intro x hx y hy
      obtain ⟨h, h1, h2⟩ := hI.origin x hx y hy
      exact ⟨h, by simp [h1], h2⟩
  · -- new
    obtain ⟨p, a, p1, p2, p3, p4⟩ := hF.pack pd hg
    rw [h2, ok_bind]
    simp only []
    rw [p1, ok_bind, jli_append p hlt]
    refine ⟨_, _, rfl, ?_⟩
    have hmem : ∀ x, x ∈ jsli s.arr (k.hash pd) (b ++ [(b.length + 1, p)]) ↔
        x = (k.hash pd, b ++ [(b.length + 1, p)]) ∨ (x.1 ≠ k.hash pd ∧ x ∈ s.arr) := mem_jsli hI.sorted
    have hflat : flat (jsli s.arr (k.hash pd) (b ++ [(b.length + 1, p)])) ~ (k.hash pd, b.length + 1, p) :: flat s.arr := by
      have := flat_jsli hI.sorted (k.hash pd) (b.length + 1) p
      rw [hb] at this
      exact this
    refine ⟨sorted_jsli hI.sorted _ _, ?_, ?_, ?_, ?_, ?_, ?_, ?_⟩
    · intro x hx
      rcases (hmem x).mp hx with rfl | ⟨_, hx⟩
      · refine ⟨by simp, ?_⟩
        simp only [List.map_append, huids, List.map_cons, List.map_nil, List.length_append, List.length_cons,
          List.length_nil, Nat.zero_add]
        rw [List.range'_concat]
        congr 2
        omega
      · exact hI.uids x hx
    · intro x hx y hy
      rcases (hmem x).mp hx with rfl | ⟨_, hx⟩
      · simp only [List.mem_append, List.mem_cons, List.not_mem_nil, or_false] at hy
        rcases hy with hy | rfl
        · exact hgood y hy
        · exact ⟨a, p2, p3, hF.hash a pd p3 hg p4⟩
      · exact hI.good x hx y hy
    · intro hm x hx
      rcases (hmem x).mp hx with rfl | ⟨_, hx⟩
      · rw [List.pairwise_append]
        refine ⟨hdist hm, by simp, ?_⟩
        intro y hy z hz c d hc hd he
        simp only [List.mem_cons, List.not_mem_nil, or_false] at hz
        subst hz
        simp only at hd
        rw [p2] at hd
        cases hd
        obtain ⟨c', c1, c2, _⟩ := hgood y hy
        rw [hc] at c1
        cases c1
        exact h1 hm y hy c hc (hF.trans c a pd c2 p3 hg he p4)
      · exact hI.distinct hm x hx
    · intro h hh
      rcases List.mem_append.mp hh with hh | hh
      · obtain ⟨b', q, c, q1, q2, q3⟩ := hI.kept h hh
        by_cases he : k.hash h.1 = k.hash pd
        · have hbb : b' = b := by
            rw [he] at q1
            have := (jslg_iff hI.sorted).mpr q1
            rw [this] at hb
            exact hb
          subst hbb
          exact ⟨_, q, c, (hmem _).mpr (Or.inl (by rw [he])), by simp [q2], q3⟩
        · exact ⟨b', q, c, (hmem _).mpr (Or.inr ⟨he, q1⟩), q2, q3⟩
      · simp only [List.mem_cons, List.not_mem_nil, or_false] at hh
        subst hh
        exact ⟨_, p, a, (hmem _).mpr (Or.inl rfl), by simp, p2, p4, fun _ => p1⟩
    · intro x hx y hy
      rcases (hmem x).mp hx with rfl | ⟨_, hx⟩
      · simp only [List.mem_append, List.mem_cons, List.not_mem_nil, or_false] at hy
        rcases hy with hy | rfl
        · obtain ⟨h, h1, h2⟩ := horig y hy
          exact ⟨h, by simp [h1], h2⟩
        · exact ⟨(pd, b.length + 1), by simp, rfl, rfl, p1⟩
      · obtain ⟨h, h1, h2⟩ := hI.origin x hx y hy
        exact ⟨h, by simp [h1], h2⟩
    · have := hI.count
      have hr : s.reset.nelts = s.nelts := rfl
      simp only [hr]
      rw [hflat.length_eq, this, List.length_cons]
      omega
    · intro hm
      rw [List.map_append, List.map_cons, List.map_nil]
      refine List.Perm.trans ?_ (hflat.map _).symm
      rw [List.map_cons]
      refine (List.perm_append_comm).trans ?_
      exact List.Perm.cons _ (hI.all hm)

theorem addAll_ok (hF : Faithful k Good E) (hd : m ≠ .none → Decides (same k m) Good E) : ∀ {l : List Pd}
    {s : Stor Packed} {H : List (Pd × Nat)}, Inv k m Good E s H → (∀ pd ∈ l, Good pd) →
    ∃ s' us, addAll k m s l = .ok (s', us) ∧ us.length = l.length ∧ Inv k m Good E s' (H ++ l.zip us)
  | [], s, H, hI, _ => ⟨s, [], rfl, rfl, by simpa using hI⟩
  | pd :: l, s, H, hI, hg => by
    obtain ⟨s1, u, h1, h2⟩ := addto_ok hF hd hI (hg pd (by simp))
    obtain ⟨s2, us, h3, h4, h5⟩ := addAll_ok hF hd (l := l) h2 (fun x hx => hg x (by simp [hx]))
    refine ⟨s2, u :: us, ?_, by simp [h4], ?_⟩
    · unfold addAll
      rw [h1, ok_bind]
      simp only []
      rw [h3, ok_bind]
    · simpa using h5

/-! ### Iteration -/

/-- What iteration needs: keys in order, no empty bucket, no empty hash, everything unpacks. -/
structure WF (k : Kit Pd Packed) (s : Stor Packed) : Prop where
  sorted : SortedArr s.arr
  bucket : ∀ x ∈ s.arr, x.2 ≠ [] ∧ x.2.Pairwise (fun y z => y.1 < z.1) ∧ x.1 ≠ []
  unpack : ∀ x ∈ s.arr, ∀ y ∈ x.2, ∃ a, k.unpack y.2 = .ok a

theorem Inv.wf {s : Stor Packed} {H : List (Pd × Nat)} (hI : Inv k m Good E s H)
    (hh : ∀ x ∈ s.arr, x.1 ≠ []) : WF k s where
  sorted := hI.sorted
  bucket := by
    intro x hx
    obtain ⟨h1, h2⟩ := hI.uids x hx
    refine ⟨h1, ?_, hh x hx⟩
    have : (x.2.map Prod.fst).Pairwise (· < ·) := by
      rw [h2]
      exact List.pairwise_lt_range'
    rwa [List.pairwise_map] at this
  unpack := by
    intro x hx y hy
    obtain ⟨a, a1, _⟩ := hI.good x hx y hy
    exact ⟨a, a1⟩

theorem jlnext_first (b : Bucket Packed) : jlnext false b 0 = b.head? := by
  cases b with
  | nil => rfl
  | cons x b =>
    obtain ⟨u, p⟩ := x
    unfold jlnext
    rw [if_pos (by simp; omega)]
    rfl

theorem jslnext_first (l : List (Hash × Bucket Packed)) : jslnext false l [] = l.head? := by
  cases l with
  | nil => rfl
  | cons x b =>
    obtain ⟨h, p⟩ := x
    unfold jslnext
    rw [if_pos ?_]
    · rfl
    · cases h with
      | nil => simp
      | cons a h => exact Or.inl (List.nil_lt_cons a h)

theorem jlnext_split : ∀ {pre post : Bucket Packed} {u : Nat} {p : Packed},
    (pre ++ (u, p) :: post).Pairwise (fun y z => y.1 < z.1) →
    jlnext true (pre ++ (u, p) :: post) u = post.head?
  | [], [], u, p, _ => by
    simp [jlnext]
  | [], (v, q) :: post, u, p, h => by
    have : u < v := (List.pairwise_cons.mp h).1 (v, q) (by simp)
    simp [jlnext, this]
  | (v, q) :: pre, post, u, p, h => by
    rw [List.cons_append] at h ⊢
    obtain ⟨h1, h2⟩ := List.pairwise_cons.mp h
    have : v < u := h1 (u, p) (by simp)
    unfold jlnext
    rw [if_neg (by simp; omega), jlnext_split h2]

theorem jslnext_split : ∀ {pre post : List (Hash × Bucket Packed)} {u : Hash} {p : Bucket Packed},
    SortedArr (pre ++ (u, p) :: post) → jslnext true (pre ++ (u, p) :: post) u = post.head?
  | [], [], u, p, _ => by
    simp [jslnext]
  | [], (v, q) :: post, u, p, h => by
    have : u < v := (List.pairwise_cons.mp h).1 (v, q) (by simp)
    simp [jslnext, this]
  | (v, q) :: pre, post, u, p, h => by
    rw [List.cons_append] at h ⊢
    obtain ⟨h1, h2⟩ := List.pairwise_cons.mp h
    have : v < u := h1 (u, p) (by simp)
    have : ¬ u < v := fun hl => absurd (lt_trans hl this) (lt_irrefl _)
    unfold jslnext
    rw [if_neg (by simp [this]), jslnext_split h2]

/-- An element as it is returned. -/
def Shown (k : Kit Pd Packed) (e : Hash × Nat × Packed) (x : Pd × Nat) : Prop :=
  k.unpack e.2.2 = .ok x.1 ∧ x.2 = e.2.1

theorem restElts_ok {s : Stor Packed} (hW : WF k s) : ∀ (fuel : Nat) {pre post : List (Hash × Bucket Packed)} {h : Hash}
    {bpre bpost : Bucket Packed} {u : Nat} {p : Packed}, s.arr = pre ++ (h, bpre ++ (u, p) :: bpost) :: post →
    (bpost.map (fun up => (h, up.1, up.2)) ++ flat post).length < fuel →
    ∃ L, restElts k fuel { s with iterHash := h, iterUid := u, cur := some h } = .ok (s.reset, L) ∧
      List.Forall₂ (Shown k) (bpost.map (fun up => (h, up.1, up.2)) ++ flat post) L
  | 0, _, _, _, _, _, _, _, _, hf => by omega
  | f + 1, pre, post, h, bpre, bpost, u, p, harr, hf => by
    have hmem : (h, bpre ++ (u, p) :: bpost) ∈ s.arr := by rw [harr]; simp
    obtain ⟨w1, w2, w3⟩ := hW.bucket _ hmem
    have hg : jslg s.arr h = some (bpre ++ (u, p) :: bpost) := (jslg_iff hW.sorted).mpr hmem
    unfold restElts nextelt
    simp only []
    rw [assertC_ok (by simpa using w3), ok_bind, hg]
    simp only []
    rw [jlnext_split w2]
    cases bpost with
    | cons x bpost =>
      obtain ⟨v, q⟩ := x
      obtain ⟨a, a1⟩ := hW.unpack _ hmem (v, q) (by simp)
      simp only at a1
      simp only [List.head?_cons]
      rw [a1, ok_bind, ok_bind]
      simp only []
      obtain ⟨L, l1, l2⟩ := restElts_ok hW f (pre := pre) (post := post) (h := h) (bpre := bpre ++ [(u, p)])
        (bpost := bpost) (u := v) (p := q) (by rw [harr]; simp) (by
          simp only [List.map_cons, List.cons_append, List.length_cons] at hf
          omega)
      rw [l1, ok_bind]
      exact ⟨_, rfl, List.Forall₂.cons ⟨a1, rfl⟩ l2⟩
    | nil =>
      simp only [List.head?_nil]
      have hsp : jslnext true s.arr h = post.head? := by
        have := hW.sorted
        rw [harr] at this ⊢
        exact jslnext_split this
      rw [hsp]
      cases post with
      | nil =>
        simp only [List.head?_nil]
        rw [ok_bind]
        exact ⟨[], rfl, List.Forall₂.nil⟩
      | cons x post =>
        obtain ⟨h', b'⟩ := x
        have hmem' : (h', b') ∈ s.arr := by rw [harr]; simp
        obtain ⟨w1', _, _⟩ := hW.bucket _ hmem'
        simp only [List.head?_cons]
        rw [jlnext_first]
        cases b' with
        | nil => exact absurd rfl w1'
        | cons y b' =>
          obtain ⟨v, q⟩ := y
          obtain ⟨a, a1⟩ := hW.unpack _ hmem' (v, q) (by simp)
          simp only at a1
          simp only [List.head?_cons]
          rw [a1, ok_bind, ok_bind]
          simp only []
          obtain ⟨L, l1, l2⟩ := restElts_ok hW f (pre := pre ++ [(h, bpre ++ [(u, p)])]) (post := post) (h := h')
            (bpre := []) (bpost := b') (u := v) (p := q) (by rw [harr]; simp) (by
              simp only [flat, List.flatMap_cons, List.map_nil, List.nil_append, List.map_cons, List.cons_append,
                List.length_cons] at hf ⊢
              omega)
          rw [l1, ok_bind]
          refine ⟨_, rfl, ?_⟩
          simp only [flat, List.flatMap_cons, List.map_nil, List.nil_append, List.map_cons, List.cons_append]
          exact List.Forall₂.cons ⟨a1, rfl⟩ l2

theorem visit_ok {s : Stor Packed} (hW : WF k s) {fuel : Nat} (hf : (entries s).length ≤ fuel) :
    ∃ L, visit k fuel s = .ok (s.reset, L) ∧ List.Forall₂ (Shown k) (entries s) L := by
  have hent : entries s = flat s.arr := rfl
  have hr : s.reset.arr = s.arr := rfl
  unfold visit firstelt
  simp only [hr]
  rw [jslnext_first]
  rw [hent] at hf ⊢
  have hcases : s.arr = [] ∨ ∃ h b post, s.arr = (h, b) :: post := by
    rcases s.arr with _ | ⟨⟨h, b⟩, post⟩
    · exact Or.inl rfl
    · exact Or.inr ⟨h, b, post, rfl⟩
  rcases hcases with harr | ⟨h, b, post, harr⟩
  · rw [show s.arr.head? = none by rw [harr]; rfl]
    simp only []
    rw [ok_bind]
    refine ⟨[], rfl, ?_⟩
    rw [harr]
    exact List.Forall₂.nil
  · rw [show s.arr.head? = some (h, b) by rw [harr]; rfl]
    have hmem : (h, b) ∈ s.arr := by rw [harr]; simp
    obtain ⟨w1, _, _⟩ := hW.bucket _ hmem
    simp only []
    rw [jlnext_first]
    cases b with
    | nil => exact absurd rfl w1
    | cons y b =>
      obtain ⟨v, q⟩ := y
      obtain ⟨a, a1⟩ := hW.unpack _ hmem (v, q) (by simp)
      simp only at a1
      simp only [List.head?_cons]
      rw [a1, ok_bind, ok_bind]
      simp only []
      rw [harr] at hf
      obtain ⟨L, l1, l2⟩ := restElts_ok hW fuel (pre := []) (post := post) (h := h)
        (bpre := []) (bpost := b) (u := v) (p := q) (by rw [harr]; simp) (by
          simp only [flat, List.flatMap_cons, List.map_cons, List.cons_append, List.length_cons] at hf ⊢
          omega)
      rw [show s.reset.nelts = s.nelts from rfl, l1, ok_bind]
      refine ⟨_, rfl, ?_⟩
      rw [harr]
      simp only [flat, List.flatMap_cons, List.map_cons, List.cons_append]
      exact List.Forall₂.cons ⟨a1, rfl⟩ l2

/-! ### Searching -/

theorem searchLoop_ok {Iso : Type} {isos : Pd → Pd → Res (List Iso)} {pd : Pd}
    (hd : ∀ a, Good a → ∃ l, isos pd a = .ok l ∧ (l ≠ [] ↔ E a pd)) : ∀ {b : Bucket Packed},
    (∀ x ∈ b, ∃ a, k.unpack x.2 = .ok a ∧ Good a) →
    (∃ x ∈ b, ∃ a l, k.unpack x.2 = .ok a ∧ E a pd ∧ isos pd a = .ok l ∧ l ≠ [] ∧
      searchLoop k isos pd b = .ok (some (a, x.1, l))) ∨
    ((∀ x ∈ b, ∀ a, k.unpack x.2 = .ok a → ¬ E a pd) ∧ searchLoop k isos pd b = .ok none)
  | [], _ => Or.inr ⟨by simp, rfl⟩
  | (u, p) :: b, h => by
    obtain ⟨a, a1, a2⟩ := h (u, p) (by simp)
    obtain ⟨r, r1, r2⟩ := hd a a2
    simp only at a1
    unfold searchLoop
    rw [a1, ok_bind, r1, ok_bind]
    by_cases hr : r = []
    · rw [if_neg (by simp [hr])]
      rcases searchLoop_ok hd (b := b) (fun x hx => h x (by simp [hx])) with ⟨x, x1, x2⟩ | ⟨x1, x2⟩
      · exact Or.inl ⟨x, by simp [x1], x2⟩
      · right
        refine ⟨?_, x2⟩
        intro x hx c hc
        rcases List.mem_cons.mp hx with hx | hx
        · subst hx
          simp only at hc
          rw [a1] at hc
          cases hc
          exact fun he => (r2.mpr he) hr
        · exact x1 x hx c hc
    · rw [if_pos (by simpa using hr)]
      exact Or.inl ⟨(u, p), by simp, a, r, a1, r2.mp hr, r1, hr, rfl⟩

end Plc.Store
