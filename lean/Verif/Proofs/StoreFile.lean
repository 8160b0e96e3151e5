import Verif.Model.StoreFile
import Verif.Props.StoreFull
import Verif.Props.Io

namespace Plc.Store

open List Plc.Io

section Generic

variable {Pd Packed : Type} {k : Kit Pd Packed} {m : Mode} {Good : Pd → Prop} {E : Pd → Pd → Prop}

theorem jslg_skip {h : Hash} : ∀ {A : List (Hash × Bucket Packed)} (T : List (Hash × Bucket Packed)), (∀ x ∈ A, x.1 < h) →
    jslg (A ++ T) h = jslg T h
  | [], _, _ => rfl
  | (g, c) :: A, T, hA => by
    have hg : g < h := hA (g, c) (by simp)
    rw [List.cons_append, jslg, if_neg (fun e => by rw [e] at hg; exact lt_irrefl _ hg), jslg_skip T (fun x hx => hA x (by simp [hx]))]

theorem jsli_skip {h : Hash} {b : Bucket Packed} : ∀ {A : List (Hash × Bucket Packed)} (T : List (Hash × Bucket Packed)),
    (∀ x ∈ A, x.1 < h) → jsli (A ++ T) h b = A ++ jsli T h b
  | [], _, _ => rfl
  | (g, c) :: A, T, hA => by
    have hg : g < h := hA (g, c) (by simp)
    rw [List.cons_append, jsli, if_neg (fun e => by rw [e] at hg; exact lt_irrefl _ hg), if_neg (fun e => lt_irrefl _ (lt_trans e hg)),
      jsli_skip T (fun x hx => hA x (by simp [hx])), List.cons_append]

/-- Inserting a diagram that is not equivalent to any in its bucket. -/
theorem addto_new (hd : m ≠ .none → Decides (same k m) Good E) {s : Stor Packed} {pd : Pd} {p : Packed} {b : Bucket Packed}
    (hb : (jslg s.arr (k.hash pd)).getD [] = b) (huids : b.map Prod.fst = List.range' 1 b.length) (hg : Good pd)
    (hgood : ∀ y ∈ b, ∃ a, k.unpack y.2 = .ok a ∧ Good a) (hnew : m ≠ .none → ∀ y ∈ b, ∀ a, k.unpack y.2 = .ok a → ¬ E a pd)
    (hp : k.pack pd = .ok p) :
    addto k m s pd = .ok (⟨jsli s.arr (k.hash pd) (b ++ [(b.length + 1, p)]), (s.nelts + 1) % 2 ^ 32, [], 0, none⟩, b.length + 1) := by
  have hlt : ∀ x ∈ b, x.1 < b.length + 1 := by
    intro x hx
    have : x.1 ∈ b.map Prod.fst := List.mem_map_of_mem hx
    rw [huids, List.mem_range'_1] at this
    omega
  have hscan : scan k m pd b = .ok (.inr b.length) := by
    have hmatch : scan k m pd b = findLoop k m pd b 0 := by cases b <;> rfl
    rw [hmatch]
    by_cases hm : m = .none
    · subst hm
      rw [findLoop_none, last_uid huids]
    · rcases findLoop_ok hm (hd hm) hg (b := b) 0 hgood with ⟨x, x1, a, a1, a2, -⟩ | ⟨-, h2⟩
      · exact absurd a2 (hnew hm x x1 a a1)
      · rw [h2, last_uid huids]
  have hreset : s.reset.arr = s.arr := rfl
  unfold addto
  simp only [hreset, hb]
  rw [hscan, ok_bind]
  simp only []
  rw [hp, ok_bind, jli_append p hlt]
  rfl

theorem addAll_snoc {s s1 s2 : Stor Packed} {l : List Pd} {x : Pd} {us : List Nat} {u : Nat} (h1 : addAll k m s l = .ok (s1, us))
    (h2 : addto k m s1 x = .ok (s2, u)) : addAll k m s (l ++ [x]) = .ok (s2, us ++ [u]) := by
  induction l generalizing s us with
  | nil =>
    simp only [addAll, Except.ok.injEq, Prod.mk.injEq] at h1
    obtain ⟨rfl, rfl⟩ := h1
    rw [List.nil_append, addAll, h2, ok_bind]
    rfl
  | cons y l ih =>
    unfold addAll at h1
    obtain ⟨⟨t, v⟩, a1, a2⟩ := bind_ok_iff.mp h1
    obtain ⟨⟨t', vs⟩, b1, b2⟩ := bind_ok_iff.mp a2
    simp only [Except.ok.injEq, Prod.mk.injEq] at b2
    obtain ⟨rfl, rfl⟩ := b2
    rw [List.cons_append, addAll, a1, ok_bind]
    simp only []
    rw [ih b1, ok_bind]
    rfl

theorem flat_append (A B : List (Hash × Bucket Packed)) : flat (A ++ B) = flat A ++ flat B := by simp [flat]

/-- Inserting, in the order of hashes, diagrams no two of which are equivalent: the result is any array that holds
them with the right uids. -/
theorem rebuild (hF : Faithful k Good E) (hd : m ≠ .none → Decides (same k m) Good E) (xs : List Pd) :
    ∀ (T : List (Hash × Bucket Packed)), SortedArr T → (∀ x ∈ T, x.2 ≠ [] ∧ x.2.map Prod.fst = List.range' 1 x.2.length) →
    List.Forall₂ (fun e x => k.hash x = e.1 ∧ k.pack x = .ok e.2.2) (flat T) xs → (∀ x ∈ xs, Good x) →
    (m ≠ .none → xs.Pairwise (fun a b => ¬ E a b)) →
    addAll k m newStor xs = .ok (⟨T, xs.length % 2 ^ 32, [], 0, none⟩, (flat T).map (fun e => e.2.1)) := by
  induction xs using List.reverseRecOn with
  | nil =>
    intro T hT hu h2 _ _
    have h0 : flat T = [] := List.forall₂_nil_right_iff.mp h2
    cases T with
    | nil => rfl
    | cons x T =>
      exfalso
      have := (hu x (by simp)).1
      simp only [flat, List.flatMap_cons, List.append_eq_nil_iff, List.map_eq_nil_iff] at h0
      exact this h0.1
  | append_singleton xs x ih =>
    intro T hT hu h2 hg hE
    -- the last entry
    rcases List.eq_nil_or_concat T with rfl | ⟨A, ⟨h, B'⟩, rfl⟩
    · have := h2.length_eq
      simp [flat] at this
    rw [List.concat_eq_append] at hT hu h2 ⊢
    have hAlt : ∀ y ∈ A, y.1 < h := by
      intro y hy
      exact (List.pairwise_append.mp hT).2.2 y hy (h, B') (by simp)
    obtain ⟨hB0, hBu⟩ := hu (h, B') (by simp)
    simp only at hB0 hBu
    rcases List.eq_nil_or_concat B' with rfl | ⟨B, ⟨n, p⟩, rfl⟩
    · exact absurd rfl hB0
    rw [List.concat_eq_append] at hT hu h2 hBu ⊢
    have hn : n = B.length + 1 ∧ B.map Prod.fst = List.range' 1 B.length := by
      rw [List.map_append, List.length_append, List.length_singleton, List.range'_concat, List.map_singleton] at hBu
      obtain ⟨a, b⟩ := List.append_inj' hBu rfl
      simp only [List.cons.injEq, and_true] at b
      exact ⟨by omega, a⟩
    obtain ⟨rfl, hBu'⟩ := hn
    -- the entries before it
    let T' : List (Hash × Bucket Packed) := A ++ (if B = [] then [] else [(h, B)])
    have hflat : flat (A ++ [(h, B ++ [(B.length + 1, p)])]) = flat T' ++ [(h, B.length + 1, p)] := by
      simp only [T', flat_append]
      split
      · rename_i h0
        rw [h0]
        simp [flat]
      · simp [flat]
    rw [hflat] at h2
    obtain ⟨h2a, h2b⟩ : List.Forall₂ (fun e x => k.hash x = e.1 ∧ k.pack x = .ok e.2.2) (flat T') xs ∧
        (k.hash x = h ∧ k.pack x = .ok p) := by
      have hl := h2.length_eq
      simp only [List.length_append, List.length_singleton] at hl
      have t1 := List.forall₂_take (flat T').length h2
      have t2 := List.forall₂_drop (flat T').length h2
      rw [List.take_left, List.take_left' (by omega)] at t1
      rw [List.drop_left, List.drop_left' (by omega)] at t2
      refine ⟨t1, ?_⟩
      cases t2 with
      | cons a _ => exact a
    have hT' : SortedArr T' := by
      simp only [T']
      split
      · rw [List.append_nil]
        exact (List.pairwise_append.mp hT).1
      · rw [SortedArr, List.pairwise_append]
        refine ⟨(List.pairwise_append.mp hT).1, by simp, ?_⟩
        intro y hy z hz
        rw [List.mem_singleton] at hz
        subst hz
        exact hAlt y hy
    have hu' : ∀ y ∈ T', y.2 ≠ [] ∧ y.2.map Prod.fst = List.range' 1 y.2.length := by
      intro y hy
      simp only [T', List.mem_append] at hy
      rcases hy with hy | hy
      · exact hu y (by simp [hy])
      · split at hy
        · simp at hy
        · rename_i h0
          rw [List.mem_singleton] at hy
          subst hy
          exact ⟨h0, hBu'⟩
    have step := ih T' hT' hu' h2a (fun y hy => hg y (by simp [hy])) (fun hm => (List.pairwise_append.mp (hE hm)).1)
    have hbucket : (jslg T' (k.hash x)).getD [] = B := by
      rw [h2b.1]
      simp only [T']
      rw [jslg_skip _ hAlt]
      split
      · rename_i h0
        rw [h0]
        rfl
      · simp [jslg]
    have hmem : ∀ y ∈ B, ∃ z ∈ xs, k.pack z = .ok y.2 := by
      intro y hy
      have : (h, y.1, y.2) ∈ flat T' := by
        simp only [T', flat_append, List.mem_append]
        right
        rw [if_neg (List.ne_nil_of_mem hy)]
        simp only [flat, List.flatMap_cons, List.flatMap_nil, List.append_nil, List.mem_map]
        exact ⟨y, hy, rfl⟩
      obtain ⟨i, hi, he⟩ := List.getElem_of_mem this
      have hl := h2a.length_eq
      have := (h2a.get (i := i) hi (by omega)).2
      simp only [List.get_eq_getElem, he] at this
      exact ⟨_, List.getElem_mem _, this⟩
    have gx : Good x := hg x (by simp)
    have add := addto_new (s := ⟨T', xs.length % 2 ^ 32, [], 0, none⟩) hd hbucket hBu' gx (by
        intro y hy
        obtain ⟨z, z1, z2⟩ := hmem y hy
        obtain ⟨q, a, q1, q2, q3, -⟩ := hF.pack z (hg z (by simp [z1]))
        rw [z2] at q1
        cases q1
        exact ⟨a, q2, q3⟩) (by
        intro hm y hy a ha he
        obtain ⟨z, z1, z2⟩ := hmem y hy
        have gz := hg z (by simp [z1])
        obtain ⟨q, a', q1, q2, q3, q4⟩ := hF.pack z gz
        rw [z2] at q1
        cases q1
        rw [ha] at q2
        cases q2
        exact (List.pairwise_append.mp (hE hm)).2.2 z z1 x (by simp)
          (hF.trans z a x gz q3 gx (hF.symm a z q3 gz q4) he)) h2b.2
    rw [addAll_snoc step add, hflat]
    congr 2
    · congr 1
      · simp only
        rw [h2b.1]
        simp only [T']
        rw [jsli_skip _ hAlt]
        split
        · rename_i h0
          rw [h0]
          rfl
        · simp [jsli]
      · simp
    · simp

end Generic

/-! ### Elements -/

/-- A diagram that can be written to a file and read again: as `pd_regenerate` leaves it, with no more tags than
visible characters. -/
structure _root_.Plc.Filed (p : Held) : Prop where
  tidy : Tidy p.2.cross p.2.edge p.2.comp p.2.face
  room : p.2.cross.length ≤ p.1
  hash : ∃ qs : QSort, HashGen.regenHash qs p.2.cross.length p.2.edge.length p.2.face p.2.comp = .ok p.2.hash
  comps : p.2.comp.length ≤ 62

/-- What reading makes of diagrams written one after the other: uids are places in the file, and the buffers are just large enough. -/
def reread : Nat → List Held → List Held
  | _, [] => []
  | u, p :: l => (p.2.cross.length, { p.2 with uid := u }) :: reread (u + 1) l

theorem reread_length : ∀ (u : Nat) (l : List Held), (reread u l).length = l.length
  | _, [] => rfl
  | u, _ :: l => by simp [reread, reread_length (u + 1) l]

theorem _root_.Plc.Filed.writable {p : Held} (h : Filed p) {u : Nat} (hu : u < 2 ^ 64) : Writable { p.2 with uid := u } := by
  obtain ⟨qs, hq⟩ := h.hash
  obtain ⟨s, s1, s2, s3⟩ := C50_hash_computed qs p.2.cross p.2.edge p.2.face p.2.comp h.tidy.goodFaces
  rw [hq] at s1
  have s1 := Except.ok.inj s1
  have hc := h.tidy.plane.consistent.count
  have hs := h.tidy.small
  have hk := Ok.comps_le h.tidy.plane h.tidy.goodComps
  have hall := h.tidy.goodComps.all
  refine ⟨?_, ?_, ?_, hu, h.tidy.plane.nonempty, h.tidy.plane.consistent, by simp only; omega, by simp only; omega, ?_, ?_, ?_, ?_, ?_⟩
  · intro h0
    simp only at h0
    rw [h0] at s1
    rw [← s1] at s2
    simp at s2
  · simp only; rw [s1]; exact s3
  · simp only; rw [s1, s2]
  · simp only
    rw [h.tidy.goodFaces.count]
    omega
  · intro c hc
    simp only at hc
    have : c.tag ∈ p.2.comp.map (·.tag) := List.mem_map_of_mem hc
    rw [h.tidy.goodComps.tags, List.mem_range'_1] at this
    have := h.comps
    omega
  · intro c hc
    simp only at hc ⊢
    have h1 : ∀ e ∈ c.edge, e < p.2.edge.length := by
      intro e he
      have : e ∈ p.2.comp.flatMap (·.edge) := List.mem_flatMap.mpr ⟨c, hc, he⟩
      rw [hall, List.mem_range] at this
      exact this
    have h2 : c.edge.Nodup := by
      have : (p.2.comp.flatMap (·.edge)).Nodup := by rw [hall]; exact List.nodup_range
      exact (List.nodup_flatMap.mp this).1 c hc
    refine ⟨?_, h1⟩
    have := (h2.subperm (fun e he => List.mem_range.mpr (h1 e he))).length_le
    rwa [List.length_range] at this
  · intro f hf
    simp only at hf ⊢
    have h1 := IsoSearch.face_edge_lt h.tidy.goodFaces f hf
    have h2 := Distinct.face_nodup h.tidy.plane h.tidy.goodFaces hf
    refine ⟨?_, h1⟩
    have := (h2.subperm (fun e he => List.mem_range.mpr (h1 e he))).length_le
    rwa [List.length_range] at this
  · intro f hf
    simp only at hf ⊢
    have h1 := (h.tidy.goodFaces.shape f hf).1
    refine ⟨h1.symm, ?_⟩
    intro o ho
    have e : f.orient = (sides f).map Prod.snd := by rw [sides, List.map_snd_zip h1.ge]
    rw [e] at ho
    obtain ⟨d, hd, rfl⟩ := List.mem_map.mp ho
    rcases (Faces.mem_D.mp (Shape.sides_mem h.tidy.goodFaces hf hd)).2 with h | h <;> rw [h] <;> decide

theorem _root_.Plc.Filed.fits {p : Held} (h : Filed p) (u : Nat) : Fits (capsNew p.1) { p.2 with uid := u } := by
  have hk := Ok.comps_le h.tidy.plane h.tidy.goodComps
  have hc := h.tidy.plane.consistent.count
  have hf := h.tidy.goodFaces.count
  have hr := h.room
  simp only [Fits, capsNew]
  omega

theorem readPd_skip (qs : QSort) (ok : Io.Pd → Bool) (rehash : Io.Pd → List Char) (inp : List Char) :
    readPd qs ok rehash (skip inp) = readPd qs ok rehash inp := by
  unfold readPd
  rw [skip_skip]

/-- Reading one element. -/
theorem _root_.Plc.Filed.read (qs : QSort) {p : Held} (h : Filed p) {u : Nat} (hu : u < 2 ^ 64) (rest : List Char) :
    readPd qs (okReal qs) (rehashReal qs) (writePd (capsNew p.1) { p.2 with uid := u } ++ rest) =
      .ok (some (.code { p.2 with uid := u }, skip rest)) := by
  have hok : okReal qs { p.2 with uid := u } = true := by
    unfold okReal
    rw [C51_ok_complete qs _ { p.2 with uid := u } h.tidy (Nat.le_refl _)]
  rw [C40_write_read_partial qs (okReal qs) (rehashReal qs) (capsNew p.1) { p.2 with uid := u } rest (h.writable hu) (h.fits u) hok
    (Ok.Tidy.canon h.tidy) h.tidy.canonical.strict]
  have : rehashReal qs { p.2 with uid := u } = p.2.hash := by
    obtain ⟨q, hq⟩ := h.hash
    unfold rehashReal
    simp only
    rw [Unpack.hash_any h.tidy q qs hq]
  rw [this, ite_self]
  rfl

theorem _root_.Plc.Filed.starts {p : Held} (h : Filed p) (u : Nat) (rest : List Char) :
    ∃ t, writePd (capsNew p.1) { p.2 with uid := u } ++ rest = 'p' :: t := by
  have hf := h.fits u
  unfold Fits at hf
  unfold writePd
  rw [if_neg (by omega)]
  exact ⟨_, rfl⟩

/-- Reading elements is inserting them one after the other. -/
theorem readElts_more (qs : QSort) (bs : PermM.BSearch) (m : Mode) (rest : List Char) : ∀ (l : List Held) (u : Nat)
    (inp : List Char), (∀ p ∈ l, Filed p) → u + l.length ≤ 2 ^ 64 → skip inp = skip (writeElts u l ++ rest) →
    ∃ inp', skip inp' = skip rest ∧ ∀ (n : Nat) (s : Stor (List Nat)),
      readElts qs bs m (l.length + n) s inp = (addAll (realKit qs bs) m s (reread u l)) >>= fun r => readElts qs bs m n r.1 inp'
  | [], _, inp, _, _, hi => ⟨inp, hi, fun n s => by rw [reread, addAll, ok_bind, List.length_nil, Nat.zero_add]⟩
  | p :: l, u, inp, hl, hu, hi => by
    have hp := hl p (by simp)
    rw [List.length_cons] at hu
    obtain ⟨t, ht⟩ := hp.starts u (str "\n" ++ (writeElts (u + 1) l ++ rest))
    have hi' : skip inp = writePd (capsNew p.1) { p.2 with uid := u } ++ (str "\n" ++ (writeElts (u + 1) l ++ rest)) := by
      rw [hi, writeElts]
      simp only [List.append_assoc]
      rw [ht, skip_cons _ (by decide)]
    have hne : inp ≠ [] := by
      rintro rfl
      rw [ht] at hi'
      simp [skip] at hi'
    obtain ⟨inp', h1, h2⟩ := readElts_more qs bs m rest l (u + 1) (skip (str "\n" ++ (writeElts (u + 1) l ++ rest)))
      (fun q hq => hl q (by simp [hq])) (by omega) (by rw [skip_skip]; exact skip_space _ (by decide))
    refine ⟨inp', h1, fun n s => ?_⟩
    rw [List.length_cons, Nat.add_right_comm, readElts, if_neg hne, ← readPd_skip, hi', hp.read qs (by omega)]
    simp only
    rw [reread, addAll]
    cases addto (realKit qs bs) m s (p.2.cross.length, { p.2 with uid := u }) with
    | error e => rfl
    | ok r =>
      rw [ok_bind, ok_bind]
      simp only
      rw [h2]
      cases addAll (realKit qs bs) m r.1 (reread (u + 1) l) <;> rfl

theorem readElts_ok (qs : QSort) (bs : PermM.BSearch) (m : Mode) (rest : List Char) (l : List Held) (u : Nat) (s : Stor (List Nat))
    (inp : List Char) (hl : ∀ p ∈ l, Filed p) (hu : u + l.length ≤ 2 ^ 64) (hi : skip inp = skip (writeElts u l ++ rest)) :
    readElts qs bs m l.length s inp = (addAll (realKit qs bs) m s (reread u l)).map (fun r => some r.1) := by
  obtain ⟨inp', -, h⟩ := readElts_more qs bs m rest l u inp hl hu hi
  have := h 0 s
  rw [Nat.add_zero] at this
  rw [this]
  cases addAll (realKit qs bs) m s (reread u l) <;> rfl

theorem addAll_append {Pd Packed : Type} (k : Kit Pd Packed) (m : Mode) (b : List Pd) : ∀ (a : List Pd) (s : Stor Packed),
    addAll k m s (a ++ b) = addAll k m s a >>= fun r => (addAll k m r.1 b).map (fun r' => (r'.1, r.2 ++ r'.2))
  | [], s => by
    rw [List.nil_append, addAll, ok_bind]
    cases addAll k m s b <;> rfl
  | x :: a, s => by
    rw [List.cons_append, addAll, addAll]
    cases addto k m s x with
    | error e => rfl
    | ok r =>
      rw [ok_bind, ok_bind]
      simp only
      rw [addAll_append k m b a r.1]
      cases addAll k m r.1 a with
      | error e => rfl
      | ok r' =>
        rw [ok_bind, ok_bind]
        simp only [ok_bind]
        cases addAll k m r'.1 b <;> rfl

/-- Several groups of elements, each of them numbered from 0. -/
theorem readElts_groups (qs : QSort) (bs : PermM.BSearch) (m : Mode) (rest : List Char) : ∀ (ls : List (List Held))
    (inp : List Char), (∀ l ∈ ls, (∀ p ∈ l, Filed p) ∧ l.length ≤ 2 ^ 64) → skip inp = skip (ls.flatMap (writeElts 0) ++ rest) →
    ∃ inp', skip inp' = skip rest ∧ ∀ (n : Nat) (s : Stor (List Nat)),
      readElts qs bs m (ls.flatten.length + n) s inp =
        (addAll (realKit qs bs) m s (ls.flatMap (reread 0))) >>= fun r => readElts qs bs m n r.1 inp'
  | [], inp, _, hi => ⟨inp, hi, fun n s => by simp [addAll, ok_bind]⟩
  | l :: ls, inp, hl, hi => by
    obtain ⟨h1, h2⟩ := hl l (by simp)
    rw [List.flatMap_cons, List.append_assoc] at hi
    obtain ⟨inp1, i1, i2⟩ := readElts_more qs bs m (ls.flatMap (writeElts 0) ++ rest) l 0 inp h1 (by omega) hi
    obtain ⟨inp2, j1, j2⟩ := readElts_groups qs bs m rest ls inp1 (fun k hk => hl k (by simp [hk])) i1
    refine ⟨inp2, j1, fun n s => ?_⟩
    rw [List.flatten_cons, List.length_append, Nat.add_assoc, i2, List.flatMap_cons, addAll_append]
    cases addAll (realKit qs bs) m s (reread 0 l) with
    | error e => rfl
    | ok r =>
      simp only [ok_bind]
      rw [j2]
      cases addAll (realKit qs bs) m r.1 (ls.flatMap (reread 0)) <;> rfl

/-- Nothing more to read. -/
theorem readElts_end (qs : QSort) (bs : PermM.BSearch) (m : Mode) (n : Nat) (s : Stor (List Nat)) {inp : List Char} (h : skip inp = []) :
    readElts qs bs m (n + 1) s inp = .ok none := by
  rw [readElts]
  split
  · rfl
  · have : readPd qs (okReal qs) (rehashReal qs) inp = .ok none := by
      rw [← readPd_skip, h]
      rfl
    rw [this]

/-! ### The header -/

theorem scanf_skip {f : List Dir} {c : Char} {r : List Char} (hc : isSpace c = false) :
    scanf (.ws :: f) (' ' :: c :: r) = scanf f (c :: r) := by
  rw [scanf_ws, skip_space _ (by decide), skip_cons _ hc]

theorem str_head : str "pdstor \nnelts " = ['p', 'd', 's', 't', 'o', 'r', ' ', '\n', 'n', 'e', 'l', 't', 's', ' '] := by decide

theorem str_mid : str " (claimed/actual) nhashes " = [' ', '(', 'c', 'l', 'a', 'i', 'm', 'e', 'd', '/', 'a', 'c', 't', 'u', 'a', 'l', ')', ' ', 'n', 'h', 'a', 's', 'h', 'e', 's', ' '] := by decide

theorem str_end : str " \n\n" = [' ', '\n', '\n'] := by decide

theorem readHeader_ok {a b c : Nat} (ha : a < 2 ^ 32) (hb : b < 2 ^ 32) (hc : c < 2 ^ 32) (rest : List Char) :
    readHeader (header a b c ++ rest) = some (a, ' ' :: '\n' :: '\n' :: rest) := by
  have h : scanf fStor (header a b c ++ rest) = ([.num a, .num b, .num c], ' ' :: '\n' :: '\n' :: rest) := by
    have e1 : header a b c ++ rest = 'p' :: 'd' :: 's' :: 't' :: 'o' :: 'r' :: ' ' :: '\n' :: 'n' :: 'e' :: 'l' :: 't' :: 's' :: ' ' ::
        (dec a ++ '/' :: (dec b ++ ' ' :: '(' :: 'c' :: 'l' :: 'a' :: 'i' :: 'm' :: 'e' :: 'd' :: '/' :: 'a' :: 'c' :: 't' :: 'u' :: 'a' ::
          'l' :: ')' :: ' ' :: 'n' :: 'h' :: 'a' :: 's' :: 'h' :: 'e' :: 's' :: ' ' :: (dec c ++ ' ' :: '\n' :: '\n' :: rest))) := by
      unfold header
      rw [str_head, str_mid, str_end]
      simp only [List.append_assoc, List.cons_append, List.nil_append]
      rfl
    have e2 : fStor = [.lit 'p', .lit 'd', .lit 's', .lit 't', .lit 'o', .lit 'r', .ws, .lit 'n', .lit 'e', .lit 'l', .lit 't', .lit 's',
        .ws, .lu, .lit '/', .lu, .ws, .lit '(', .lit 'c', .lit 'l', .lit 'a', .lit 'i', .lit 'm', .lit 'e', .lit 'd', .lit '/', .lit 'a',
        .lit 'c', .lit 't', .lit 'u', .lit 'a', .lit 'l', .lit ')', .ws, .lit 'n', .lit 'h', .lit 'a', .lit 's', .lit 'h', .lit 'e',
        .lit 's', .ws, .lu] := rfl
    rw [e1, e2]
    simp only [scanf_lit, scanf_ws]
    rw [skip_space _ (by decide), skip_space _ (by decide), skip_cons _ (by decide)]
    simp only [scanf_lit, scanf_ws]
    rw [skip_space _ (by decide), skip_dec, scanf_lu _ (small_le (by omega)) (noDig_cons (by decide))]
    simp only [scanf_lit]
    rw [scanf_lu _ (small_le (by omega)) (noDig_cons (by decide)), scanf_ws, skip_space _ (by decide), skip_cons _ (by decide)]
    simp only [scanf_lit, scanf_ws]
    rw [skip_space _ (by decide), skip_cons _ (by decide)]
    simp only [scanf_lit, scanf_ws]
    rw [skip_space _ (by decide), skip_dec, scanf_lu _ (small_le (by omega)) (noDig_cons (by decide)), scanf_nil]
  unfold readHeader
  rw [h]
  simp only
  rw [Nat.mod_eq_of_lt ha]

/-- The elements of the file, and what is missing. -/
theorem readStor_more (qs : QSort) (bs : PermM.BSearch) (m : Mode) (l : List Held) (hl : ∀ p ∈ l, Filed p) {n : Nat}
    (hn : l.length + n < 2 ^ 32) {b c : Nat} (hb : b < 2 ^ 32) (hc : c < 2 ^ 32) (rest : List Char) :
    ∃ inp', skip inp' = skip rest ∧ readStor qs bs m (header (l.length + n) b c ++ writeElts 0 l ++ rest) =
      (addAll (realKit qs bs) m newStor (reread 0 l)) >>= fun r => readElts qs bs m n r.1 inp' := by
  unfold readStor
  rw [List.append_assoc, readHeader_ok hn hb hc]
  obtain ⟨inp', h1, h2⟩ := readElts_more qs bs m rest l 0 (' ' :: '\n' :: '\n' :: (writeElts 0 l ++ rest)) hl (by omega)
    (by rw [skip_space _ (by decide), skip_space _ (by decide), skip_space _ (by decide)])
  exact ⟨inp', h1, h2 n newStor⟩

theorem readStor_ok (qs : QSort) (bs : PermM.BSearch) (m : Mode) (l : List Held) (hl : ∀ p ∈ l, Filed p) (hn : l.length < 2 ^ 32)
    {b c : Nat} (hb : b < 2 ^ 32) (hc : c < 2 ^ 32) (rest : List Char) :
    readStor qs bs m (header l.length b c ++ writeElts 0 l ++ rest) =
      (addAll (realKit qs bs) m newStor (reread 0 l)).map (fun r => some r.1) := by
  unfold readStor
  rw [List.append_assoc, readHeader_ok hn hb hc]
  simp only
  exact readElts_ok qs bs m rest l 0 newStor _ hl (by omega)
    (by rw [skip_space _ (by decide), skip_space _ (by decide), skip_space _ (by decide)])

/-! ### The header of a file written in several steps -/

theorem dec_le {n : Nat} (h : n < 2 ^ 32) : (dec n).length ≤ 10 := by
  have := digitsF_length (n + 1) n [] 10 (by omega) (by omega)
  simpa [dec] using this

theorem dec13_length {n : Nat} (h : n < 2 ^ 32) : (dec13 n).length = 13 := by
  have := dec_le h
  unfold dec13
  rw [List.length_append, List.length_replicate]
  omega

theorem readDigits_zeros (t : List Char) : ∀ k, readDigits 0 (List.replicate k '0' ++ t) = readDigits 0 t
  | 0 => rfl
  | k + 1 => by
    rw [List.replicate_succ, List.cons_append, readDigits, if_pos (by decide)]
    exact readDigits_zeros t k

theorem dec13_head {n : Nat} (h : n < 2 ^ 32) : ∃ t, dec13 n = '0' :: t := by
  have := dec_le h
  unfold dec13
  obtain ⟨j, hj⟩ : ∃ j, 13 - (dec n).length = j + 1 := ⟨12 - (dec n).length, by omega⟩
  rw [hj, List.replicate_succ]
  exact ⟨_, rfl⟩

theorem scanLu_dec13 {n : Nat} (hn : n < 2 ^ 32) {r : List Char} (h : NoDig r) : scanLu (dec13 n ++ r) = some (n, r) := by
  obtain ⟨t, ht⟩ := dec13_head hn
  have h1 : readDigits 0 (dec13 n ++ r) = (n, r) := by
    unfold dec13
    rw [List.append_assoc, readDigits_zeros, dec_append, readDigits_digitsF _ _ _ (by omega), readDigits_stop n h]
  rw [ht, List.cons_append] at h1 ⊢
  unfold scanLu
  rw [skip_cons _ (by decide)]
  split
  · next h => simp at h
  · next h => simp at h
  · rw [scanNum, if_pos (by decide), h1]
    simp only [Nat.min_eq_left (small_le (show n < 4294967296 by omega))]

theorem scanf_lu13 {n : Nat} (hn : n < 2 ^ 32) {r : List Char} (f : List Dir) (h : NoDig r) :
    scanf (.lu :: f) (dec13 n ++ r) = (.num n :: (scanf f r).1, (scanf f r).2) := by
  rw [scanf, scanLu_dec13 hn h]

theorem skip_dec13 {n : Nat} (hn : n < 2 ^ 32) (r : List Char) : skip (dec13 n ++ r) = dec13 n ++ r := by
  obtain ⟨t, ht⟩ := dec13_head hn
  rw [ht, List.cons_append, skip_cons _ (by decide)]

theorem str_head' : str "pdstor\nnelts " = ['p', 'd', 's', 't', 'o', 'r', '\n', 'n', 'e', 'l', 't', 's', ' '] := by decide

theorem str_mid' : str " (claimed/actual)\nnhashes " = [' ', '(', 'c', 'l', 'a', 'i', 'm', 'e', 'd', '/', 'a', 'c', 't', 'u', 'a', 'l', ')', '\n', 'n', 'h', 'a', 's', 'h', 'e', 's', ' '] := by decide

theorem readHeaderInc_ok {a c : Nat} (ha : a < 2 ^ 32) (hc : c < 2 ^ 32) (rest : List Char) :
    readHeader (headerInc c a ++ rest) = some (a, '\n' :: rest) := by
  have h : scanf fStor (headerInc c a ++ rest) = ([.num a, .num a, .num c], '\n' :: rest) := by
    have e1 : headerInc c a ++ rest = 'p' :: 'd' :: 's' :: 't' :: 'o' :: 'r' :: '\n' :: 'n' :: 'e' :: 'l' :: 't' :: 's' :: ' ' ::
        (dec13 a ++ '/' :: (dec13 a ++ ' ' :: '(' :: 'c' :: 'l' :: 'a' :: 'i' :: 'm' :: 'e' :: 'd' :: '/' :: 'a' :: 'c' :: 't' :: 'u' :: 'a' ::
          'l' :: ')' :: '\n' :: 'n' :: 'h' :: 'a' :: 's' :: 'h' :: 'e' :: 's' :: ' ' :: (dec13 c ++ '\n' :: rest))) := by
      unfold headerInc
      rw [str_head', str_mid']
      simp only [List.append_assoc, List.cons_append, List.nil_append]
      rfl
    have e2 : fStor = [.lit 'p', .lit 'd', .lit 's', .lit 't', .lit 'o', .lit 'r', .ws, .lit 'n', .lit 'e', .lit 'l', .lit 't', .lit 's',
        .ws, .lu, .lit '/', .lu, .ws, .lit '(', .lit 'c', .lit 'l', .lit 'a', .lit 'i', .lit 'm', .lit 'e', .lit 'd', .lit '/', .lit 'a',
        .lit 'c', .lit 't', .lit 'u', .lit 'a', .lit 'l', .lit ')', .ws, .lit 'n', .lit 'h', .lit 'a', .lit 's', .lit 'h', .lit 'e',
        .lit 's', .ws, .lu] := rfl
    rw [e1, e2]
    simp only [scanf_lit, scanf_ws]
    rw [skip_space _ (by decide), skip_cons _ (by decide)]
    simp only [scanf_lit, scanf_ws]
    rw [skip_space _ (by decide), skip_dec13 ha, scanf_lu13 ha _ (noDig_cons (by decide))]
    simp only [scanf_lit]
    rw [scanf_lu13 ha _ (noDig_cons (by decide)), scanf_ws, skip_space _ (by decide), skip_cons _ (by decide)]
    simp only [scanf_lit, scanf_ws]
    rw [skip_space _ (by decide), skip_cons _ (by decide)]
    simp only [scanf_lit, scanf_ws]
    rw [skip_space _ (by decide), skip_dec13 hc, scanf_lu13 hc _ (noDig_cons (by decide)), scanf_nil]
  unfold readHeader
  rw [h]
  simp only
  rw [Nat.mod_eq_of_lt ha]

theorem startInc_length : startInc.length = 81 := by
  unfold startInc
  decide

theorem headerInc_length {a c : Nat} (ha : a < 2 ^ 32) (hc : c < 2 ^ 32) : (headerInc c a).length = 80 := by
  unfold headerInc
  rw [str_head', str_mid']
  simp only [List.length_append, dec13_length ha, dec13_length hc]
  rfl

/-- Finishing replaces the header and leaves the last line feed of the old one. -/
theorem finishInc_ok {text : List Char} {a c : Nat} (ha : a < 2 ^ 32) (hc : c < 2 ^ 32) :
    finishInc ⟨startInc ++ text, c, a⟩ = headerInc c a ++ '\n' :: text := by
  have h : startInc.drop 80 = ['\n'] := by
    unfold startInc
    decide
  unfold finishInc
  simp only
  rw [headerInc_length ha hc, List.drop_append_of_le_length (by rw [startInc_length]; omega), h]
  rfl

end Plc.Store
