import Verif.Model.Octree
import Verif.Spec.Struts
import Verif.Proofs.StrutGeom
import Mathlib.Tactic.Linarith

/-! # The octree is built: helper lemmas -/

namespace Plc.Struts

open Plc.Core Plc.FindCrossings Plc.RandomPolygon Plc.Equilateral Plc.Motions Plc.Measure Plc.Poca

/-- Edge `i` is in the box. -/
def Holds (cp : List Comp) (es : List Varr) (B : Box) (i : Nat) : Prop :=
  ∀ (e : Varr) (c : Comp) (a b : V3), es[i]? = some e → cp[e.comp]? = some c → EdgeAt c e.vert a b → InBox B a ∧ InBox B b

/-- A tree of boxes all of which satisfy `cl`. -/
def TreeIn (cl : Nat → Prop) (cp : List Comp) (es : List Varr) (boxes : List Box) : Nat → Nat → Prop
  | 0, _ => False
  | f + 1, p => cl p ∧ ∃ B, boxes[p]? = some B ∧ B.first + B.num ≤ es.length ∧ (∀ j, B.first ≤ j → j < B.first + B.num → Holds cp es B j) ∧
      ((∀ o ∈ B.subs, o = none) ∨ (Follow boxes B.subs B.first B.num ∧ ∀ q, some q ∈ B.subs → TreeIn cl cp es boxes f q))

variable {cp : List Comp} {es : List Varr} {cl cl' : Nat → Prop} {boxes boxes' : List Box}

theorem TreeIn.at : ∀ {f p : Nat}, TreeIn cl cp es boxes f p → TreeAt cp es boxes f p
  | 0, _, h => h
  | f + 1, p, ⟨_, B, h1, h2, h3, h4⟩ => by
    refine ⟨B, h1, h2, fun j e c a b j1 j2 => h3 j j1 j2 e c a b, ?_⟩
    rcases h4 with h | ⟨h, h'⟩
    · exact .inl h
    · exact .inr ⟨h, fun q hq => (h' q hq).at⟩

theorem TreeIn.cl_root : ∀ {f p : Nat}, TreeIn cl cp es boxes f p → cl p
  | 0, _, h => absurd h id
  | _ + 1, _, h => h.1

theorem follow_frame : ∀ {l : List (Option Nat)} {a n : Nat}, (∀ q, some q ∈ l → boxes'[q]? = boxes[q]?) → Follow boxes l a n → Follow boxes' l a n
  | [], _, _, _, h => h
  | none :: r, a, n, hq, h => follow_frame (l := r) (a := a) (n := n) (fun q hr => hq q (List.mem_cons_of_mem _ hr)) h
  | some q :: r, a, n, hq, ⟨B, h1, h2, h3, h4⟩ =>
    ⟨B, by rw [hq q List.mem_cons_self]; exact h1, h2, h3, follow_frame (fun q hr => hq q (List.mem_cons_of_mem _ hr)) h4⟩

theorem TreeIn.frame (hb : ∀ q, cl q → boxes'[q]? = boxes[q]?) (hc : ∀ q, cl q → cl' q) : ∀ {f p : Nat},
    TreeIn cl cp es boxes f p → TreeIn cl' cp es boxes' f p
  | 0, _, h => h
  | f + 1, p, ⟨h0, B, h1, h2, h3, h4⟩ => by
    refine ⟨hc p h0, B, by rw [hb p h0]; exact h1, h2, h3, ?_⟩
    rcases h4 with h | ⟨h, h'⟩
    · exact .inl h
    · exact .inr ⟨follow_frame (fun q hq => hb q (h' q hq).cl_root) h, fun q hq => (h' q hq).frame hb hc⟩

theorem follow_append : ∀ {l l' : List (Option Nat)} {a n m : Nat}, Follow boxes l a n → Follow boxes l' (a + n) m → Follow boxes (l ++ l') a (n + m)
  | [], l', a, n, m, h, h' => by
    have : n = 0 := h
    subst this
    simpa using h'
  | none :: r, l', a, n, m, h, h' => follow_append (l := r) (show Follow boxes r a n from h) h'
  | some q :: r, l', a, n, m, ⟨B, h1, h2, h3, h4⟩, h' => by
    refine ⟨B, h1, h2, by omega, ?_⟩
    have := follow_append (l := r) (l' := l') (a := a + B.num) (n := n - B.num) (m := m) h4 (by rw [show a + B.num + (n - B.num) = a + n by omega]; exact h')
    rw [show n - B.num + m = n + m - B.num by omega] at this
    exact this

theorem follow_none : ∀ (k a : Nat), Follow boxes (List.replicate k none) a 0
  | 0, _ => rfl
  | k + 1, a => by rw [List.replicate_succ]; exact follow_none k a

/-- A complete or incomplete leaf with the edges from `lo` to `hi`. -/
def LeafBox (cp : List Comp) (es : List Varr) (boxes : List Box) (p lo hi : Nat) : Prop :=
  ∃ B, boxes[p]? = some B ∧ B.first = lo ∧ B.num = hi - lo ∧ lo ≤ hi ∧ (∀ i, lo ≤ i → i < hi → Holds cp es B i) ∧ B.subs = List.replicate 8 none

/-- A box whose boxes, complete and in slots before `d`, hold the edges from `lo` to `hi`. -/
def PartBox (cl : Nat → Prop) (cp : List Comp) (es : List Varr) (boxes : List Box) (k p lo hi d : Nat) : Prop :=
  ∃ B pre, boxes[p]? = some B ∧ B.first = lo ∧ B.num = hi - lo ∧ lo ≤ hi ∧ (∀ i, lo ≤ i → i < hi → Holds cp es B i) ∧
    B.subs = pre ++ List.replicate (8 - pre.length) none ∧ pre.length ≤ d ∧ d ≤ 8 ∧ Follow boxes pre lo (hi - lo) ∧
    ∀ q, some q ∈ pre → TreeIn cl cp es boxes k q

/-- The same, with a box which is not complete in slot `d`. -/
def LinkBox (cl : Nat → Prop) (cp : List Comp) (es : List Varr) (boxes : List Box) (k p child lo hi d : Nat) : Prop :=
  ∃ B pre, boxes[p]? = some B ∧ B.first = lo ∧ B.num = hi - lo ∧ lo ≤ hi ∧ (∀ i, lo ≤ i → i < hi → Holds cp es B i) ∧
    B.subs = pre ++ some child :: List.replicate (7 - pre.length) none ∧ pre.length = d ∧ d < 8 ∧ Follow boxes pre lo (hi - lo) ∧
    ∀ q, some q ∈ pre → TreeIn cl cp es boxes k q

theorem LinkBox.frame {k p child lo hi d : Nat} (hp : boxes'[p]? = boxes[p]?) (hb : ∀ q, cl q → boxes'[q]? = boxes[q]?) (hc : ∀ q, cl q → cl' q)
    (h : LinkBox cl cp es boxes k p child lo hi d) : LinkBox cl' cp es boxes' k p child lo hi d := by
  obtain ⟨B, pre, h1, h2, h3, h4, h5, h6, h7, h8, h9, h10⟩ := h
  exact ⟨B, pre, by rw [hp]; exact h1, h2, h3, h4, h5, h6, h7, h8, follow_frame (fun q hq => hb q (h10 q hq).cl_root) h9, fun q hq => (h10 q hq).frame hb hc⟩

/-! ## Boxes -/

theorem inBox_merge_left {P B : Box} {x : V3} (h : InBox P x) : InBox (merge P B) x := by
  obtain ⟨h1, h2, h3, h4, h5, h6⟩ := h
  unfold merge
  refine ⟨?_, ?_, ?_, ?_, ?_, ?_⟩ <;> simp only <;> split <;> linarith

theorem inBox_merge_right {P B : Box} {x : V3} (h : InBox B x) : InBox (merge P B) x := by
  obtain ⟨h1, h2, h3, h4, h5, h6⟩ := h
  unfold merge
  refine ⟨?_, ?_, ?_, ?_, ?_, ?_⟩ <;> simp only <;> split <;> linarith

theorem widen1_ok (lo hi a b : ℝ) : (widen1 lo hi a b).1 ≤ lo ∧ hi ≤ (widen1 lo hi a b).2 ∧ (widen1 lo hi a b).1 ≤ a ∧ (widen1 lo hi a b).1 ≤ b ∧
    a ≤ (widen1 lo hi a b).2 ∧ b ≤ (widen1 lo hi a b).2 ∨ hi < lo := by
  by_cases hlh : hi < lo
  · exact .inr hlh
  left
  unfold widen1
  split <;> refine ⟨?_, ?_, ?_, ?_, ?_, ?_⟩ <;> simp only <;> split <;> linarith

theorem inBox_init (a b : V3) (j : Nat) (l : Bool) : InBox (initBox a b j l) a ∧ InBox (initBox a b j l) b := by
  unfold initBox
  constructor <;> refine ⟨?_, ?_, ?_, ?_, ?_, ?_⟩ <;> simp only <;> split <;> linarith

theorem inBox_absorb {B : Box} {a b x : V3} (h : InBox B x) : InBox (absorb B a b) x ∧ InBox (absorb B a b) a ∧ InBox (absorb B a b) b := by
  obtain ⟨h1, h2, h3, h4, h5, h6⟩ := h
  have X := (widen1_ok B.lo.x B.hi.x a.x b.x).resolve_right (by linarith)
  have Y := (widen1_ok B.lo.y B.hi.y a.y b.y).resolve_right (by linarith)
  have Z := (widen1_ok B.lo.z B.hi.z a.z b.z).resolve_right (by linarith)
  obtain ⟨x1, x2, x3, x4, x5, x6⟩ := X
  obtain ⟨y1, y2, y3, y4, y5, y6⟩ := Y
  obtain ⟨z1, z2, z3, z4, z5, z6⟩ := Z
  unfold absorb
  refine ⟨⟨?_, ?_, ?_, ?_, ?_, ?_⟩, ⟨?_, ?_, ?_, ?_, ?_, ?_⟩, ⟨?_, ?_, ?_, ?_, ?_, ?_⟩⟩ <;> simp only <;> linarith

/-! ## The state -/

/-- What is closed when the levels from `k` on are being worked on. -/
def clOf (st : TSt) (k : Nat) (q : Nat) : Prop := q < st.boxes.length ∧ q ∉ st.sw.drop k

/-- The box at level `k`. -/
def Level (cp : List Comp) (es : List Varr) (st : TSt) (k p lo hi d : Nat) : Prop :=
  if k = 0 then LeafBox cp es st.boxes p lo hi else PartBox (clOf st k) cp es st.boxes k p lo hi d

/-- The levels above `k` wait for the one below, level `k` holds the edges up to `j`. -/
structure Mid (cp : List Comp) (es : List Varr) (L : Nat) (st : TSt) (f : Nat → Nat) (j t k d : Nat) : Prop where
  len : st.sw.length = L
  nodup : st.sw.Nodup
  lt : ∀ p ∈ st.sw, p < st.boxes.length
  root : f (L - 1) = 0
  inside : k < L
  level : ∃ p, st.sw[k]? = some p ∧ Level cp es st k p (f k) j d
  link : ∀ c, k ≤ c → c + 1 < L → ∃ p q, st.sw[c + 1]? = some p ∧ st.sw[c]? = some q ∧
    LinkBox (clOf st k) cp es st.boxes (c + 1) p q (f (c + 1)) (f c) (t / 8 ^ c % 8)

theorem mem_drop {sw : List Nat} {k i : Nat} {p : Nat} (h : k ≤ i) (hp : sw[i]? = some p) : p ∈ sw.drop k := by
  rw [List.mem_iff_getElem?]
  exact ⟨i - k, by rw [List.getElem?_drop, show k + (i - k) = i by omega]; exact hp⟩

theorem not_mem_drop {sw : List Nat} (hn : sw.Nodup) {k i : Nat} {p : Nat} (h : i < k) (hp : sw[i]? = some p) : p ∉ sw.drop k := by
  intro hm
  rw [List.mem_iff_getElem?] at hm
  obtain ⟨m, hm⟩ := hm
  rw [List.getElem?_drop] at hm
  obtain ⟨l1, e1⟩ := List.getElem?_eq_some_iff.mp hp
  obtain ⟨l2, e2⟩ := List.getElem?_eq_some_iff.mp hm
  have := (hn.getElem_inj_iff (i := i) (j := k + m) (hi := l1) (hj := l2)).mp (e1.trans e2.symm)
  omega

theorem sw_ne {sw : List Nat} (hn : sw.Nodup) {i j p q : Nat} (hp : sw[i]? = some p) (hq : sw[j]? = some q) (h : i ≠ j) : p ≠ q := by
  rintro rfl
  obtain ⟨l1, e1⟩ := List.getElem?_eq_some_iff.mp hp
  obtain ⟨l2, e2⟩ := List.getElem?_eq_some_iff.mp hq
  exact h ((hn.getElem_inj_iff (hi := l1) (hj := l2)).mp (e1.trans e2.symm))

/-- Completing one box. -/
theorem close_ok {L ppb : Nat} {st : TSt} {f : Nat → Nat} {j t k d : Nat} (hj : j ≤ es.length) (h : Mid cp es L st f j t k d) (hk : k + 1 < L) :
    ∃ st', closeStep ppb (k + 1) st = .ok st' ∧ Mid cp es L st' f j t (k + 1) (t / 8 ^ k % 8 + 1) := by
  obtain ⟨q, hq, hlev⟩ := h.level
  obtain ⟨p, q', hp, hq', hlink⟩ := h.link k (Nat.le_refl _) hk
  rw [hq] at hq'
  simp only [Option.some.injEq] at hq'
  subst hq'
  obtain ⟨P, pre, P1, P2, P3, P4, P5, P6, P7, P8, P9, P10⟩ := hlink
  have hpq : p ≠ q := sw_ne h.nodup hp hq (by omega)
  have pin : p ∈ st.sw.drop k := mem_drop (by omega) hp
  have qin : q ∈ st.sw.drop k := mem_drop (Nat.le_refl _) hq
  have plen := h.lt p (List.mem_of_getElem? hp)
  have qlen := h.lt q (List.mem_of_getElem? hq)
  -- the complete box
  obtain ⟨B, B1, B2, B3, B4, B5, B6⟩ : ∃ B, st.boxes[q]? = some B ∧ B.first = f k ∧ B.num = j - f k ∧ f k ≤ j ∧
      (∀ i, f k ≤ i → i < j → Holds cp es B i) ∧
      ((∀ o ∈ B.subs, o = none) ∨ (Follow st.boxes B.subs (f k) (j - f k) ∧ ∀ q, some q ∈ B.subs → TreeIn (clOf st k) cp es st.boxes k q)) := by
    unfold Level at hlev
    split at hlev
    · obtain ⟨B, a1, a2, a3, a4, a5, a6⟩ := hlev
      exact ⟨B, a1, a2, a3, a4, a5, .inl (by rw [a6]; intro o ho; exact List.eq_of_mem_replicate ho)⟩
    · obtain ⟨B, pr, a1, a2, a3, a4, a5, a6, a7, a8, a9, a10⟩ := hlev
      refine ⟨B, a1, a2, a3, a4, a5, .inr ⟨?_, ?_⟩⟩
      · rw [a6]
        have := follow_append (m := 0) a9 (follow_none (8 - pr.length) _)
        simpa using this
      · intro q hq
        rw [a6] at hq
        rcases List.mem_append.mp hq with x | x
        · exact a10 q x
        · simpa using List.eq_of_mem_replicate x
  obtain ⟨B', eB'⟩ : ∃ B', B' = (if B.num ≤ ppb ∧ k + 1 > 1 then { B with subs := List.replicate 8 none } else B) := ⟨_, rfl⟩
  refine ⟨⟨(st.boxes.set p (merge P B)).set q B', st.sw⟩, ?_, ?_⟩
  · unfold closeStep
    rw [show k + 1 - 1 = k by omega, rd_ok hq, ok_bind, rd_ok hp, ok_bind, rd_ok B1, ok_bind, rd_ok P1, ok_bind, wr_lt plen, ok_bind,
      wr_lt (by simpa using qlen), ok_bind, ← eB']
  have gp : ((st.boxes.set p (merge P B)).set q B')[p]? = some (merge P B) := by
    rw [List.getElem?_set, if_neg (Ne.symm hpq), List.getElem?_set, if_pos rfl, if_pos plen]
  have gq : ((st.boxes.set p (merge P B)).set q B')[q]? = some B' := by
    rw [List.getElem?_set, if_pos rfl, if_pos (by simpa using qlen)]
  have go : ∀ i : Nat, i ≠ p → i ≠ q → ((st.boxes.set p (merge P B)).set q B')[i]? = st.boxes[i]? := by
    intro i i1 i2
    rw [List.getElem?_set, if_neg (Ne.symm i2), List.getElem?_set, if_neg (Ne.symm i1)]
  obtain ⟨bs, ebs⟩ : ∃ bs, bs = (st.boxes.set p (merge P B)).set q B' := ⟨_, rfl⟩
  have lbs : bs.length = st.boxes.length := by rw [ebs]; simp
  rw [← ebs] at gp gq go ⊢
  have hb : ∀ i, clOf st k i → bs[i]? = st.boxes[i]? := by
    rintro i ⟨i1, i2⟩
    exact go i (fun x => i2 (x ▸ pin)) (fun x => i2 (x ▸ qin))
  have hc : ∀ i, clOf st k i → clOf ⟨bs, st.sw⟩ (k + 1) i := by
    rintro i ⟨i1, i2⟩
    refine ⟨by rw [lbs]; exact i1, fun x => i2 ?_⟩
    show i ∈ st.sw.drop k
    have : st.sw.drop (k + 1) = (st.sw.drop k).drop 1 := by rw [List.drop_drop]
    rw [this] at x
    exact List.mem_of_mem_drop x
  have hqcl : clOf ⟨bs, st.sw⟩ (k + 1) q := ⟨by rw [lbs]; exact qlen, not_mem_drop h.nodup (by omega) hq⟩
  have b1 : B'.first = f k := by rw [eB']; split <;> exact B2
  have b2 : B'.num = j - f k := by rw [eB']; split <;> exact B3
  have b3 : ∀ i, f k ≤ i → i < j → Holds cp es B' i := by
    intro i i1 i2
    rw [eB']
    split
    · exact fun e c a b h1 h2 h3 => B5 i i1 i2 e c a b h1 h2 h3
    · exact B5 i i1 i2
  have tq : TreeIn (clOf ⟨bs, st.sw⟩ (k + 1)) cp es bs (k + 1) q := by
    refine ⟨hqcl, B', gq, by rw [b1, b2]; omega, by rw [b1, b2]; exact fun i i1 i2 => b3 i i1 (by omega), ?_⟩
    rw [b1, b2, eB']
    split
    · left
      intro o ho
      exact List.eq_of_mem_replicate ho
    · rcases B6 with x | ⟨x, y⟩
      · exact .inl x
      · exact .inr ⟨follow_frame (fun q hq => hb q (y q hq).cl_root) x, fun q hq => (y q hq).frame hb hc⟩
  refine ⟨h.len, h.nodup, ?_, h.root, hk, ⟨p, hp, ?_⟩, ?_⟩
  · intro x hx
    show x < bs.length
    rw [lbs]; exact h.lt x hx
  · unfold Level
    rw [if_neg (by omega)]
    refine ⟨merge P B, pre ++ [some q], gp, P2, ?_, by omega, ?_, ?_, ?_, ?_, ?_, ?_⟩
    · show P.num + B.num = j - f (k + 1)
      omega
    · intro i i1 i2 e c a b x y z
      by_cases hi : i < f k
      · obtain ⟨u, v⟩ := P5 i i1 hi e c a b x y z
        exact ⟨inBox_merge_left u, inBox_merge_left v⟩
      · obtain ⟨u, v⟩ := B5 i (by omega) i2 e c a b x y z
        exact ⟨inBox_merge_right u, inBox_merge_right v⟩
    · show P.subs = _
      rw [P6, List.append_assoc, List.length_append]
      simp only [List.length_singleton, List.singleton_append]
      rw [show 8 - (pre.length + 1) = 7 - pre.length by omega]
    · rw [List.length_append, List.length_singleton]; omega
    · omega
    · have x := follow_frame (boxes' := bs) (fun q hq => hb q (P10 q hq).cl_root) P9
      have y : Follow bs [some q] (f (k + 1) + (f k - f (k + 1))) (j - f k) := by
        refine ⟨B', gq, by omega, by omega, ?_⟩
        show j - f k - B'.num = 0
        omega
      have z := follow_append x y
      rw [show f k - f (k + 1) + (j - f k) = j - f (k + 1) by omega] at z
      exact z
    · intro r hr
      rcases List.mem_append.mp hr with x | x
      · exact (P10 r x).frame hb hc
      · simp only [List.mem_singleton, Option.some.injEq] at x
        rw [x]; exact tq
  · intro c c1 c2
    obtain ⟨p2, q2, x1, x2, x3⟩ := h.link c (by omega) c2
    refine ⟨p2, q2, x1, x2, x3.frame ?_ hb hc⟩
    exact go p2 (sw_ne h.nodup x1 hp (by omega)) (sw_ne h.nodup x1 hq (by omega))

theorem closeLoop_ok {L ppb : Nat} {f : Nat → Nat} {j t : Nat} (hj : j ≤ es.length) : ∀ (n k d : Nat) (st : TSt), Mid cp es L st f j t k d → k + n < L → 0 < n →
    ∃ st', closeLoop ppb n (k + 1) st = .ok st' ∧ Mid cp es L st' f j t (k + n) (t / 8 ^ (k + n - 1) % 8 + 1)
  | 0, _, _, _, _, _, h => by omega
  | n + 1, k, d, st, h, hk, _ => by
    unfold closeLoop
    obtain ⟨st', e, m⟩ := close_ok (ppb := ppb) hj h (by omega)
    rw [e, ok_bind]
    by_cases hn : n = 0
    · subst hn
      exact ⟨st', rfl, m⟩
    · obtain ⟨st'', e', m'⟩ := closeLoop_ok (ppb := ppb) hj n (k + 1) _ st' m (by omega) (by omega)
      rw [show k + (n + 1) = k + 1 + n by omega]
      exact ⟨st'', e', m'⟩

/-! ## Opening boxes -/

theorem LinkBox.mk' {k p lo hi d d' : Nat} {q : Nat} {e : Varr} (h : PartBox cl cp es boxes k p lo hi d) (hd : d ≤ d') (hd' : d' < 8)
    (hn : boxNum e k = d') (hb : ∀ i, cl i → boxes'[i]? = boxes[i]?) (hc : ∀ i, cl i → cl' i) {P : Box} (hP : boxes[p]? = some P)
    (hp : boxes'[p]? = some { P with subs := P.subs.set d' (some q) }) :
    P.subs[d']? = some none ∧ LinkBox cl' cp es boxes' k p q lo hi d' := by
  obtain ⟨B, pre, h1, h2, h3, h4, h5, h6, h7, h8, h9, h10⟩ := h
  rw [hP] at h1
  simp only [Option.some.injEq] at h1
  subst h1
  have hsplit : P.subs = (pre ++ List.replicate (d' - pre.length) none) ++ none :: List.replicate (7 - d') none := by
    rw [h6, List.append_assoc]
    congr 1
    rw [show (none : Option Nat) :: List.replicate (7 - d') none = List.replicate (7 - d' + 1) none from List.replicate_succ.symm, List.replicate_append_replicate]
    congr 1; omega
  have hl : (pre ++ List.replicate (d' - pre.length) (none : Option Nat)).length = d' := by
    rw [List.length_append, List.length_replicate]; omega
  constructor
  · rw [hsplit, List.getElem?_append_right (by omega), hl]
    simp
  · refine ⟨_, pre ++ List.replicate (d' - pre.length) none, hp, h2, h3, h4, h5, ?_, hl, hd', ?_, ?_⟩
    · show P.subs.set d' (some q) = _
      rw [hsplit, List.set_append_right _ _ (by omega), hl]
      simp
    · have x := follow_frame (boxes' := boxes') (fun q hq => hb q (h10 q hq).cl_root) h9
      have := follow_append (m := 0) x (follow_none (d' - pre.length) _)
      simpa using this
    · intro r hr
      rcases List.mem_append.mp hr with x | x
      · exact (h10 r x).frame hb hc
      · simpa using List.eq_of_mem_replicate x

/-- A new box. -/
theorem open_ok {L : Nat} {st : TSt} {f : Nat → Nat} {j t m d : Nat} {e : Varr} {a b : V3} (hcl : ∀ i, j = i → Holds cp es (initBox a b j true) i)
    (h : Mid cp es L st f j t (m + 1) d) (hd : d ≤ t / 8 ^ m % 8) (hn : boxNum e (m + 1) = t / 8 ^ m % 8) (hf : f m = j) :
    ∃ st', openStep e a b j (m + 1) st = .ok st' ∧ Mid cp es L st' f (if m = 0 then j + 1 else j) t m 0 := by
  obtain ⟨p, hp, hlev⟩ := h.level
  have hin := h.inside
  have hlen := h.len
  have hmlt : m < st.sw.length := by omega
  unfold Level at hlev
  rw [if_neg (by omega)] at hlev
  have plen := h.lt p (List.mem_of_getElem? hp)
  obtain ⟨q, eq⟩ : ∃ q, q = st.boxes.length := ⟨_, rfl⟩
  obtain ⟨P, hP⟩ : ∃ P, st.boxes[p]? = some P := ⟨_, List.getElem?_eq_getElem plen⟩
  obtain ⟨N, eN⟩ : ∃ N, N = initBox a b j (decide (m + 1 = 1)) := ⟨_, rfl⟩
  have hP' : (st.boxes ++ [N])[p]? = some P := by rw [List.getElem?_append_left plen]; exact hP
  obtain ⟨d', ed'⟩ : ∃ d', d' = t / 8 ^ m % 8 := ⟨_, rfl⟩
  have hd8 : d' < 8 := by rw [ed']; omega
  rw [← ed'] at hd hn
  obtain ⟨bs, ebs⟩ : ∃ bs, bs = (st.boxes ++ [N]).set p { P with subs := P.subs.set d' (some q) } := ⟨_, rfl⟩
  obtain ⟨sw, esw⟩ : ∃ sw, sw = st.sw.set m q := ⟨_, rfl⟩
  have lbs : bs.length = st.boxes.length + 1 := by rw [ebs]; simp
  have lsw : sw.length = L := by rw [esw]; simpa using hlen
  have gp : bs[p]? = some { P with subs := P.subs.set d' (some q) } := by
    rw [ebs, List.getElem?_set, if_pos rfl, if_pos (by simp; omega)]
  have gq : bs[q]? = some N := by
    rw [ebs, List.getElem?_set, if_neg (by omega), List.getElem?_append_right (by omega), eq]
    simp
  have go : ∀ i : Nat, i < st.boxes.length → i ≠ p → bs[i]? = st.boxes[i]? := by
    intro i i1 i2
    rw [ebs, List.getElem?_set, if_neg (Ne.symm i2), List.getElem?_append_left i1]
  have gsw : ∀ i : Nat, sw[i]? = if i = m then some q else st.sw[i]? := by
    intro i
    rw [esw, List.getElem?_set]
    by_cases hi : m = i
    · rw [if_pos hi, if_pos (by omega), if_pos hi.symm]
    · rw [if_neg hi, if_neg (Ne.symm hi)]
  have qnew : q ∉ st.sw := fun x => by have := h.lt q x; omega
  have dropsw : sw.drop m = q :: st.sw.drop (m + 1) := by
    apply List.ext_getElem?
    intro i
    rw [List.getElem?_drop, gsw]
    cases i with
    | zero => simp
    | succ i => rw [if_neg (by omega), List.getElem?_cons_succ, List.getElem?_drop, show m + (i + 1) = m + 1 + i by omega]
  have hb : ∀ i, clOf st (m + 1) i → bs[i]? = st.boxes[i]? := by
    rintro i ⟨i1, i2⟩
    exact go i i1 (fun x => i2 (x ▸ mem_drop (Nat.le_refl _) hp))
  have hc : ∀ i, clOf st (m + 1) i → clOf ⟨bs, sw⟩ m i := by
    rintro i ⟨i1, i2⟩
    refine ⟨by rw [lbs]; omega, ?_⟩
    show i ∉ sw.drop m
    rw [dropsw]
    intro x
    rcases List.mem_cons.mp x with x | x
    · omega
    · exact i2 x
  obtain ⟨hnone, hlk⟩ := LinkBox.mk' (cl' := clOf ⟨bs, sw⟩ m) hlev hd hd8 hn hb hc hP gp
  refine ⟨⟨bs, sw⟩, ?_, ?_⟩
  · unfold openStep
    rw [show m + 1 - 1 = m by omega, ← eq]
    simp only
    rw [wr_lt hmlt, ok_bind, ← esw]
    have : sw[m + 1]? = some p := by rw [gsw, if_neg (by omega)]; exact hp
    rw [rd_ok this, ok_bind, ← eN]
    rw [rd_ok hP', ok_bind, hn, rd_ok hnone, ok_bind]
    simp only
    rw [wr_lt (by simp; omega), ok_bind, ← ebs]
  · refine ⟨lsw, ?_, ?_, h.root, by omega, ⟨q, by rw [gsw, if_pos rfl], ?_⟩, ?_⟩
    · show sw.Nodup
      rw [esw]
      exact h.nodup.set qnew
    · intro x hx
      show x < bs.length
      rw [lbs]
      have hx' : x ∈ st.sw.set m q := by rw [← esw]; exact hx
      rcases List.mem_or_eq_of_mem_set hx' with y | y
      · have := h.lt x y; omega
      · omega
    · unfold Level
      by_cases hm : m = 0
      · rw [if_pos hm, if_pos hm, hf]
        refine ⟨N, gq, by rw [eN]; rfl, ?_, by omega, ?_, by rw [eN]; rfl⟩
        · rw [eN]
          unfold initBox
          simp only
          rw [if_pos (by simp [hm])]
          omega
        · intro i i1 i2
          rw [eN, hm]
          exact hcl i (by omega)
      · rw [if_neg hm, if_neg hm, hf]
        refine ⟨N, [], gq, by rw [eN]; rfl, ?_, Nat.le_refl _, by intro i i1 i2; omega, by rw [eN]; rfl, by simp, by omega, ?_, by simp⟩
        · rw [eN]
          unfold initBox
          simp only
          rw [if_neg (by simp [hm])]
          omega
        · show j - j = 0
          omega
    · intro c c1 c2
      by_cases hcm : c = m
      · subst hcm
        refine ⟨p, q, by show sw[c + 1]? = _; rw [gsw, if_neg (by omega)]; exact hp, by show sw[c]? = _; rw [gsw, if_pos rfl], ?_⟩
        rw [hf, ← ed']
        exact hlk
      · obtain ⟨p2, q2, x1, x2, x3⟩ := h.link c (by omega) c2
        refine ⟨p2, q2, by show sw[c + 1]? = _; rw [gsw, if_neg (by omega)]; exact x1, by show sw[c]? = _; rw [gsw, if_neg hcm]; exact x2, ?_⟩
        refine x3.frame ?_ hb hc
        exact go p2 (h.lt p2 (List.mem_of_getElem? x1)) (sw_ne h.nodup x1 hp (by omega))

theorem openLoop_ok {L : Nat} {f : Nat → Nat} {j t : Nat} {e : Varr} {a b : V3} (hcl : ∀ i, j = i → Holds cp es (initBox a b j true) i) :
    ∀ (m d : Nat) (st : TSt), Mid cp es L st f j t (m + 1) d → d ≤ t / 8 ^ m % 8 → (∀ c, c ≤ m → boxNum e (c + 1) = t / 8 ^ c % 8) → (∀ c, c ≤ m → f c = j) →
    ∃ st', openLoop e a b j (m + 1) st = .ok st' ∧ Mid cp es L st' f (j + 1) t 0 0
  | 0, d, st, h, hd, hn, hf => by
    obtain ⟨st', e', m'⟩ := open_ok hcl h hd (hn 0 (Nat.le_refl _)) (hf 0 (Nat.le_refl _))
    unfold openLoop
    rw [e', ok_bind]
    exact ⟨st', rfl, m'⟩
  | m + 1, d, st, h, hd, hn, hf => by
    obtain ⟨st', e', m'⟩ := open_ok hcl h hd (hn (m + 1) (Nat.le_refl _)) (hf (m + 1) (Nat.le_refl _))
    unfold openLoop
    rw [e', ok_bind]
    rw [if_neg (by omega)] at m'
    exact openLoop_ok hcl m 0 st' m' (by omega) (fun c hc => hn c (by omega)) (fun c hc => hf c (by omega))

/-! ## Tags -/

/-- The tag as one number. -/
def tag (e : Varr) : Nat := e.oct0 * 8 ^ 10 + e.oct1

theorem octLen_le : ∀ (x c m : Nat), octLen x c ≤ c + m ↔ x / 8 ^ m = 0 := by
  intro x
  induction x using Nat.strong_induction_on with
  | _ x ih =>
    intro c m
    rw [octLen]
    by_cases hx : x = 0
    · rw [if_pos hx, hx]; simp
    · rw [if_neg hx]
      have h8 : x >>> 3 = x / 8 := by rw [Nat.shiftRight_eq_div_pow]
      rw [h8]
      have hlt : x / 8 < x := Nat.div_lt_self (by omega) (by norm_num)
      cases m with
      | zero =>
        have key : c + 1 ≤ octLen (x / 8) (c + 1) := by
          by_contra hc
          have h1 := (ih (x / 8) hlt c 1).mp
          have h2 : ∀ y d, d ≤ octLen y d := by
            intro y
            induction y using Nat.strong_induction_on with
            | _ y ih2 =>
              intro d
              rw [octLen]
              by_cases hy : y = 0
              · rw [if_pos hy]
              · rw [if_neg hy]
                have h8 : y >>> 3 = y / 8 := by rw [Nat.shiftRight_eq_div_pow]
                rw [h8]
                have := ih2 (y / 8) (Nat.div_lt_self (by omega) (by norm_num)) (d + 1)
                omega
          exact hc (h2 _ _)
        constructor
        · intro h; omega
        · intro h; simp at h; omega
      | succ m =>
        rw [show c + (m + 1) = c + 1 + m by omega, ih (x / 8) hlt (c + 1) m, Nat.div_div_eq_div_mul]
        rw [show 8 * 8 ^ m = 8 ^ (m + 1) by rw [Nat.pow_succ]; ring]

theorem xor_div (a b m : Nat) : (a ^^^ b) / 8 ^ m = 0 ↔ a / 8 ^ m = b / 8 ^ m := by
  have h : (8 : Nat) ^ m = 2 ^ (3 * m) := by rw [Nat.pow_mul]
  rw [h, ← Nat.shiftRight_eq_div_pow, ← Nat.shiftRight_eq_div_pow, ← Nat.shiftRight_eq_div_pow, Nat.shiftRight_xor_distrib]
  constructor
  · intro h
    have : (a >>> (3 * m) ^^^ b >>> (3 * m)) ^^^ b >>> (3 * m) = 0 ^^^ b >>> (3 * m) := by rw [h]
    rw [Nat.xor_assoc, Nat.xor_self, Nat.xor_zero, Nat.zero_xor] at this
    exact this
  · intro h
    rw [h, Nat.xor_self]

theorem octLen_ge : ∀ (y d : Nat), d ≤ octLen y d := by
  intro y
  induction y using Nat.strong_induction_on with
  | _ y ih2 =>
    intro d
    rw [octLen]
    by_cases hy : y = 0
    · rw [if_pos hy]
    · rw [if_neg hy]
      have h8 : y >>> 3 = y / 8 := by rw [Nat.shiftRight_eq_div_pow]
      rw [h8]
      have := ih2 (y / 8) (Nat.div_lt_self (by omega) (by norm_num)) (d + 1)
      omega

theorem tag_div_low {e : Varr} (he : e.oct1 < 8 ^ 10) {c : Nat} (hc : c ≤ 10) : tag e / 8 ^ c = e.oct0 * 8 ^ (10 - c) + e.oct1 / 8 ^ c := by
  unfold tag
  rw [show (8 : Nat) ^ 10 = 8 ^ (10 - c) * 8 ^ c by rw [← Nat.pow_add, Nat.sub_add_cancel hc], ← Nat.mul_assoc, Nat.add_comm,
    Nat.add_mul_div_right _ _ (by positivity), Nat.add_comm]

theorem tag_div_high {e : Varr} (he : e.oct1 < 8 ^ 10) (c : Nat) : tag e / 8 ^ (10 + c) = e.oct0 / 8 ^ c := by
  rw [Nat.pow_add, ← Nat.div_div_eq_div_mul]
  congr 1
  unfold tag
  rw [Nat.add_comm, Nat.add_mul_div_right _ _ (by positivity), Nat.div_eq_of_lt he, Nat.zero_add]

theorem boxNum_eq {e : Varr} (he : e.oct1 < 8 ^ 10) (c : Nat) : boxNum e (c + 1) = tag e / 8 ^ c % 8 := by
  have h8 : ∀ k, (8 : Nat) ^ k = 2 ^ (3 * k) := fun k => by rw [Nat.pow_mul]
  have h7 : ∀ x : Nat, x &&& 7 = x % 8 := fun x => Nat.and_two_pow_sub_one_eq_mod x 3
  unfold boxNum
  split
  · rename_i hc
    rw [h7, show c + 1 - 10 - 1 = c - 10 by omega, Nat.shiftRight_eq_div_pow, ← h8]
    have := tag_div_high he (c - 10)
    rw [show 10 + (c - 10) = c by omega] at this
    rw [this]
  · rename_i hc
    rw [h7, show c + 1 - 1 = c by omega, Nat.shiftRight_eq_div_pow, ← h8, tag_div_low he (by omega)]
    obtain ⟨k, hk⟩ : ∃ k, 10 - c = k + 1 := ⟨9 - c, by omega⟩
    rw [hk, Nat.pow_succ, ← Nat.mul_assoc]
    omega

theorem changeLevel_le {e f : Varr} (he : e.oct1 < 8 ^ 10) (hf : f.oct1 < 8 ^ 10) (c : Nat) : changeLevel e f ≤ c ↔ tag e / 8 ^ c = tag f / 8 ^ c := by
  unfold changeLevel
  split
  · rename_i hne
    by_cases hc : 10 ≤ c
    · obtain ⟨k, rfl⟩ : ∃ k, c = 10 + k := ⟨c - 10, by omega⟩
      rw [octLen_le, xor_div, tag_div_high he, tag_div_high hf]
    · have h1 := octLen_ge (e.oct0 ^^^ f.oct0) 10
      constructor
      · intro h; omega
      · intro h
        rw [tag_div_low he (by omega), tag_div_low hf (by omega)] at h
        exfalso
        have b1 : e.oct1 / 8 ^ c < 8 ^ (10 - c) := by
          rw [Nat.div_lt_iff_lt_mul (by positivity), ← Nat.pow_add, Nat.sub_add_cancel (by omega)]; exact he
        have b2 : f.oct1 / 8 ^ c < 8 ^ (10 - c) := by
          rw [Nat.div_lt_iff_lt_mul (by positivity), ← Nat.pow_add, Nat.sub_add_cancel (by omega)]; exact hf
        have e1 : (e.oct0 * 8 ^ (10 - c) + e.oct1 / 8 ^ c) / 8 ^ (10 - c) = e.oct0 := by
          rw [Nat.add_comm, Nat.add_mul_div_right _ _ (by positivity), Nat.div_eq_of_lt b1, Nat.zero_add]
        have e2 : (f.oct0 * 8 ^ (10 - c) + f.oct1 / 8 ^ c) / 8 ^ (10 - c) = f.oct0 := by
          rw [Nat.add_comm, Nat.add_mul_div_right _ _ (by positivity), Nat.div_eq_of_lt b2, Nat.zero_add]
        rw [h, e2] at e1
        exact hne e1.symm
  · rename_i heq
    have heq : e.oct0 = f.oct0 := by simpa using heq
    have := octLen_le (e.oct1 ^^^ f.oct1) 0 c
    rw [Nat.zero_add] at this
    rw [this, xor_div]
    by_cases hc : c ≤ 10
    · rw [tag_div_low he hc, tag_div_low hf hc, heq]
      omega
    · obtain ⟨k, rfl⟩ : ∃ k, c = 10 + k := ⟨c - 10, by omega⟩
      rw [tag_div_high he, tag_div_high hf, heq]
      have : (8 : Nat) ^ 10 ≤ 8 ^ (10 + k) := Nat.pow_le_pow_right (by norm_num) (by omega)
      rw [Nat.div_eq_of_lt (by omega), Nat.div_eq_of_lt (by omega)]
      simp

theorem tag_eq {e f : Varr} (he : e.oct1 < 8 ^ 10) (hf : f.oct1 < 8 ^ 10) : tag e = tag f ↔ e.oct0 = f.oct0 ∧ e.oct1 = f.oct1 := by
  unfold tag
  constructor
  · intro h; constructor <;> omega
  · rintro ⟨a, b⟩; rw [a, b]

/-! ## The loop over the edges -/

/-- What is known of the sorted edges. -/
structure Ready (cp : List Comp) (es : List Varr) (L : Nat) : Prop where
  pos : 0 < L
  fit : ∀ e ∈ es, e.oct1 < 8 ^ 10 ∧ tag e < 8 ^ (L - 1)
  sorted : ∀ (i j : Nat) (e f : Varr), i ≤ j → es[i]? = some e → es[j]? = some f → tag e ≤ tag f
  ends : ∀ e ∈ es, ∃ (a b : V3) (c : Comp), Struts.ends cp e = .ok (a, b) ∧ cp[e.comp]? = some c ∧ EdgeAt c e.vert a b

theorem Ready.holds {L : Nat} (hR : Ready cp es L) {j : Nat} {e : Varr} {a b : V3} (he : es[j]? = some e) (hab : Struts.ends cp e = .ok (a, b)) {B : Box}
    (ha : InBox B a) (hb : InBox B b) : Holds cp es B j := by
  intro e' c a' b' h1 h2 h3
  rw [he] at h1
  simp only [Option.some.injEq] at h1
  subst h1
  obtain ⟨x, y, c', hxy, g1, g2⟩ := hR.ends e (List.mem_of_getElem? he)
  rw [hab] at hxy
  simp only [Except.ok.injEq, Prod.mk.injEq] at hxy
  obtain ⟨rfl, rfl⟩ := hxy
  rw [h2] at g1
  simp only [Option.some.injEq] at g1
  subst g1
  obtain ⟨rfl, rfl⟩ := h3.same g2
  exact ⟨ha, hb⟩

theorem absorbLoop_ok {L : Nat} (hR : Ready cp es L) {f : Nat → Nat} {t : Nat} : ∀ (k j : Nat) (st : TSt), Mid cp es L st f j t 0 0 → f 0 < j → j ≤ es.length →
    es.length ≤ j + k → (∀ (i : Nat) (e : Varr), f 0 ≤ i → i < j → es[i]? = some e → tag e = t) →
    ∃ j' st', absorbLoop cp es k j st = .ok (j', st') ∧ Mid cp es L st' f j' t 0 0 ∧ j ≤ j' ∧ j' ≤ es.length ∧
      (∀ (i : Nat) (e : Varr), f 0 ≤ i → i < j' → es[i]? = some e → tag e = t) ∧ (∀ e, es[j']? = some e → tag e ≠ t)
  | 0, j, st, h, h1, h2, h3, h4 => ⟨j, st, rfl, h, Nat.le_refl _, h2, h4, fun e he => by
      have := (List.getElem?_eq_some_iff.mp he).1
      omega⟩
  | k + 1, j, st, h, h1, h2, h3, h4 => by
    unfold absorbLoop
    by_cases hj : j < es.length
    swap
    · rw [if_neg hj]
      refine ⟨j, st, rfl, h, Nat.le_refl _, h2, h4, fun e he => ?_⟩
      have := (List.getElem?_eq_some_iff.mp he).1
      omega
    rw [if_pos hj]
    have he : es[j]? = some es[j] := List.getElem?_eq_getElem hj
    obtain ⟨e, ee⟩ : ∃ e, e = es[j] := ⟨_, rfl⟩
    rw [← ee] at he
    obtain ⟨p, hp, hlev⟩ := h.level
    unfold Level at hlev
    rw [if_pos rfl] at hlev
    obtain ⟨B, b1, b2, b3, b4, b5, b6⟩ := hlev
    have hg : es[f 0]? = some (es[f 0]'(by omega)) := List.getElem?_eq_getElem (by omega)
    obtain ⟨g, eg⟩ : ∃ g, g = es[f 0]'(by omega) := ⟨_, rfl⟩
    rw [← eg] at hg
    have tg := h4 (f 0) g (Nat.le_refl _) h1 hg
    have fe := (hR.fit e (List.mem_of_getElem? he)).1
    have fg := (hR.fit g (List.mem_of_getElem? hg)).1
    rw [rd_ok he, ok_bind, rd_ok hp, ok_bind, rd_ok b1, ok_bind, b2, rd_ok hg, ok_bind]
    by_cases hc : e.oct0 = g.oct0 ∧ e.oct1 = g.oct1
    swap
    · rw [if_neg hc]
      refine ⟨j, st, rfl, h, Nat.le_refl _, h2, h4, fun e' he' => ?_⟩
      rw [he] at he'
      simp only [Option.some.injEq] at he'
      subst he'
      rw [← tg]
      intro x
      exact hc ((tag_eq fe fg).mp x)
    rw [if_pos hc]
    have te : tag e = t := by rw [← tg]; exact (tag_eq fe fg).mpr hc
    obtain ⟨a, b, _, hab, _⟩ := hR.ends e (List.mem_of_getElem? he)
    have plen := h.lt p (List.mem_of_getElem? hp)
    rw [hab, ok_bind]
    simp only
    rw [wr_lt plen, ok_bind]
    obtain ⟨bs, ebs⟩ : ∃ bs, bs = st.boxes.set p (absorb B a b) := ⟨_, rfl⟩
    have gp : bs[p]? = some (absorb B a b) := by rw [ebs, List.getElem?_set, if_pos rfl, if_pos plen]
    have go : ∀ i : Nat, i ≠ p → bs[i]? = st.boxes[i]? := by
      intro i hi
      rw [ebs, List.getElem?_set, if_neg (Ne.symm hi)]
    have lbs : bs.length = st.boxes.length := by rw [ebs]; simp
    rw [← ebs]
    -- the box is not empty
    obtain ⟨x, hx⟩ : ∃ x, InBox B x := by
      obtain ⟨a', b', c', _, g1, g2⟩ := hR.ends g (List.mem_of_getElem? hg)
      exact ⟨a', (b5 (f 0) (Nat.le_refl _) h1 g c' a' b' hg g1 g2).1⟩
    have m' : Mid cp es L { st with boxes := bs } f (j + 1) t 0 0 := by
      have hb : ∀ i, clOf st 0 i → bs[i]? = st.boxes[i]? := by
        rintro i ⟨i1, i2⟩
        exact go i (fun x => i2 (x ▸ mem_drop (Nat.le_refl _) hp))
      have hcl : ∀ i, clOf st 0 i → clOf { st with boxes := bs } 0 i := by
        rintro i ⟨i1, i2⟩
        exact ⟨by show i < bs.length; rw [lbs]; exact i1, i2⟩
      refine ⟨h.len, h.nodup, ?_, h.root, h.inside, ⟨p, hp, ?_⟩, ?_⟩
      · intro x hx
        show x < bs.length
        rw [lbs]; exact h.lt x hx
      · unfold Level
        rw [if_pos rfl]
        refine ⟨absorb B a b, gp, b2, ?_, by omega, ?_, b6⟩
        · show B.num + 1 = j + 1 - f 0
          omega
        · intro i i1 i2
          by_cases hij : i = j
          · rw [hij]
            obtain ⟨_, u, v⟩ := inBox_absorb (a := a) (b := b) hx
            exact hR.holds he hab u v
          · intro e' c a' b' y1 y2 y3
            obtain ⟨u, v⟩ := b5 i i1 (by omega) e' c a' b' y1 y2 y3
            exact ⟨(inBox_absorb u).1, (inBox_absorb v).1⟩
      · intro c c1 c2
        obtain ⟨p2, q2, x1, x2, x3⟩ := h.link c c1 c2
        exact ⟨p2, q2, x1, x2, x3.frame (go p2 (sw_ne h.nodup x1 hp (by omega))) hb hcl⟩
    obtain ⟨j', st', r1, r2, r3, r4, r5, r6⟩ := absorbLoop_ok hR k (j + 1) _ m' (by omega) (by omega) (by omega) (by
      intro i e' i1 i2 he'
      by_cases hij : i = j
      · subst hij
        rw [he] at he'
        simp only [Option.some.injEq] at he'
        rw [← he']; exact te
      · exact h4 i e' i1 (by omega) he')
    exact ⟨j', st', r1, r2, by omega, r4, r5, r6⟩

/-- Going on with another tag above level `C`. -/
theorem Mid.change {L : Nat} {st : TSt} {f f' : Nat → Nat} {j t t' C d : Nat} (h : Mid cp es L st f j t C d) (hf : ∀ c, C ≤ c → f' c = f c)
    (ht : t' / 8 ^ C = t / 8 ^ C) : Mid cp es L st f' j t' C d := by
  have hin := h.inside
  refine ⟨h.len, h.nodup, h.lt, by rw [hf _ (by omega)]; exact h.root, hin, ?_, ?_⟩
  · rw [hf C (Nat.le_refl _)]; exact h.level
  · intro c c1 c2
    obtain ⟨p, q, x1, x2, x3⟩ := h.link c c1 c2
    refine ⟨p, q, x1, x2, ?_⟩
    rw [hf (c + 1) (by omega), hf c c1]
    have : t' / 8 ^ c = t / 8 ^ c := by
      obtain ⟨k, rfl⟩ : ∃ k, c = C + k := ⟨c - C, by omega⟩
      rw [Nat.pow_add, ← Nat.div_div_eq_div_mul, ← Nat.div_div_eq_div_mul, ht]
    rw [this]
    exact x3

theorem treeLoop_ok {L ppb : Nat} (hR : Ready cp es L) : ∀ (k j : Nat) (f : Nat → Nat) (t : Nat) (st : TSt), Mid cp es L st f j t 0 0 → f 0 < j → j ≤ es.length →
    es.length < j + k → (∀ (i : Nat) (e : Varr), f 0 ≤ i → i < j → es[i]? = some e → tag e = t) →
    ∃ st' p, treeLoop cp es L ppb k j st = .ok st' ∧ st'.sw[L - 1]? = some p ∧ OctreeOf cp es st'.boxes L p
  | 0, j, f, t, st, h, h1, h2, h3, h4 => by omega
  | k + 1, j, f, t, st, h, h1, h2, h3, h4 => by
    unfold treeLoop
    obtain ⟨j', st', r1, r2, r3, r4, r5, r6⟩ := absorbLoop_ok hR es.length j st h h1 h2 (by omega) h4
    have hL := hR.pos
    rw [r1, ok_bind]
    simp only
    by_cases hj : j' < es.length
    · rw [if_pos hj]
      have he : es[j']? = some es[j'] := List.getElem?_eq_getElem hj
      obtain ⟨e, ee⟩ : ∃ e, e = es[j'] := ⟨_, rfl⟩
      rw [← ee] at he
      obtain ⟨p, hp, hlev⟩ := r2.level
      unfold Level at hlev
      rw [if_pos rfl] at hlev
      obtain ⟨B, b1, b2, b3, b4, b5, b6⟩ := hlev
      have hg : es[f 0]? = some (es[f 0]'(by omega)) := List.getElem?_eq_getElem (by omega)
      obtain ⟨g, eg⟩ : ∃ g, g = es[f 0]'(by omega) := ⟨_, rfl⟩
      rw [← eg] at hg
      have tg := r5 (f 0) g (Nat.le_refl _) (by omega) hg
      have fe := hR.fit e (List.mem_of_getElem? he)
      have fg := hR.fit g (List.mem_of_getElem? hg)
      have hne : tag e ≠ t := r6 e he
      have hle : t ≤ tag e := by rw [← tg]; exact hR.sorted (f 0) j' g e (by omega) hg he
      have hC := changeLevel_le fe.1 fg.1
      obtain ⟨C, eC⟩ : ∃ C, C = changeLevel e g := ⟨_, rfl⟩
      rw [← eC, tg] at hC
      have c1 : C ≤ L - 1 := by
        rw [hC, Nat.div_eq_of_lt fe.2, Nat.div_eq_of_lt (by rw [← tg]; exact fg.2)]
      have c2 : 0 < C := by
        by_contra hc
        have := (hC 0).mp (by omega)
        simp at this
        exact hne this
      rw [rd_ok he, ok_bind, rd_ok hp, ok_bind, rd_ok b1, ok_bind, b2, rd_ok hg, ok_bind, ← eC, if_neg (by omega)]
      obtain ⟨s2, e2, m2⟩ := closeLoop_ok (ppb := ppb) r4 C 0 0 st' r2 (by omega) c2
      rw [Nat.zero_add] at e2 m2
      rw [e2, ok_bind]
      obtain ⟨a, b, _, hab, _⟩ := hR.ends e (List.mem_of_getElem? he)
      rw [hab, ok_bind]
      simp only
      have htop : tag e / 8 ^ C = t / 8 ^ C := (hC C).mp (Nat.le_refl _)
      have hdig : t / 8 ^ (C - 1) % 8 + 1 ≤ tag e / 8 ^ (C - 1) % 8 := by
        have hd : tag e / 8 ^ (C - 1) ≠ t / 8 ^ (C - 1) := fun x => by
          have := (hC (C - 1)).mpr x
          omega
        have hm : t / 8 ^ (C - 1) ≤ tag e / 8 ^ (C - 1) := Nat.div_le_div_right hle
        have hpw : (8 : Nat) ^ C = 8 ^ (C - 1) * 8 := by rw [← Nat.pow_succ]; congr 1; omega
        rw [hpw, ← Nat.div_div_eq_div_mul, ← Nat.div_div_eq_div_mul] at htop
        omega
      have m3 := m2.change (f' := fun c => if c < C then j' else f c) (t' := tag e) (fun c hc => by simp; omega) htop
      obtain ⟨m, hm⟩ : ∃ m, C = m + 1 := ⟨C - 1, by omega⟩
      rw [hm] at m3 hdig ⊢
      rw [show m + 1 - 1 = m by omega] at hdig m3
      obtain ⟨s4, e4, m4⟩ := openLoop_ok (e := e) (a := a) (b := b) (by
          rintro i rfl
          obtain ⟨u, v⟩ := inBox_init a b j' true
          exact hR.holds he hab u v) m _ s2 m3 hdig (fun c _ => boxNum_eq fe.1 c) (fun c hc => by simp; omega)
      rw [e4, ok_bind]
      refine treeLoop_ok hR k (j' + 1) _ (tag e) s4 m4 (by simp) (by omega) (by omega) ?_
      intro i e' i1 i2 he'
      simp at i1
      have : i = j' := by omega
      subst this
      rw [he] at he'
      simp only [Option.some.injEq] at he'
      rw [← he']
    · rw [if_neg hj]
      have hjn : j' = es.length := by omega
      -- closing everything
      have key : ∃ s2 d, closeLoop ppb (L - 1) 1 st' = .ok s2 ∧ Mid cp es L s2 f j' t (L - 1) d := by
        by_cases hz : L - 1 = 0
        · rw [hz]
          exact ⟨st', 0, rfl, r2⟩
        · obtain ⟨s2, e2, m2⟩ := closeLoop_ok (ppb := ppb) r4 (L - 1) 0 0 st' r2 (by omega) (by omega)
          rw [Nat.zero_add] at e2 m2
          exact ⟨s2, _, e2, m2⟩
      obtain ⟨s2, d, e2, m2⟩ := key
      obtain ⟨p, hp, hlev⟩ := m2.level
      refine ⟨s2, p, e2, hp, ?_⟩
      rw [m2.root] at hlev
      have fin : ∃ B, s2.boxes[p]? = some B ∧ B.first = 0 ∧ B.num = es.length ∧ (∀ i, 0 ≤ i → i < es.length → Holds cp es B i) ∧
          ((∀ o ∈ B.subs, o = none) ∨ (Follow s2.boxes B.subs 0 es.length ∧ ∀ q, some q ∈ B.subs → TreeAt cp es s2.boxes (L - 1) q)) := by
        unfold Level at hlev
        rw [hjn] at hlev
        split at hlev
        · obtain ⟨B, a1, a2, a3, a4, a5, a6⟩ := hlev
          exact ⟨B, a1, a2, by omega, a5, .inl (by rw [a6]; intro o ho; exact List.eq_of_mem_replicate ho)⟩
        · obtain ⟨B, pr, a1, a2, a3, a4, a5, a6, a7, a8, a9, a10⟩ := hlev
          refine ⟨B, a1, a2, by omega, a5, .inr ⟨?_, ?_⟩⟩
          · rw [a6]
            have := follow_append (m := 0) a9 (follow_none (8 - pr.length) _)
            simpa using this
          · intro q hq
            rw [a6] at hq
            rcases List.mem_append.mp hq with x | x
            · exact (a10 q x).at
            · simpa using List.eq_of_mem_replicate x
      obtain ⟨B, a1, a2, a3, a4, a5⟩ := fin
      refine ⟨?_, B, a1, a2, a3⟩
      rw [show L = (L - 1) + 1 by omega]
      refine ⟨B, a1, by omega, fun i e c a b _ i2 => a4 i (by omega) (by omega) e c a b, ?_⟩
      rw [a2, a3]
      exact a5

theorem boxesOf_ok {L ppb : Nat} (hR : Ready cp es L) (hn : 0 < es.length) : ∃ bs root, boxesOf cp es L ppb = .ok (bs, root) ∧ OctreeOf cp es bs L root := by
  have he : es[0]? = some es[0] := List.getElem?_eq_getElem hn
  obtain ⟨e, ee⟩ : ∃ e, e = es[0] := ⟨_, rfl⟩
  rw [← ee] at he
  obtain ⟨a, b, c0, hab, _⟩ := hR.ends e (List.mem_of_getElem? he)
  have hL := hR.pos
  have fe := hR.fit e (List.mem_of_getElem? he)
  have gb : ∀ c, c < L → ((List.range L).map (preBox e a b))[c]? = some (preBox e a b c) := by
    intro c hc
    rw [List.getElem?_map, List.getElem?_range hc]; rfl
  have hM : Mid cp es L ⟨(List.range L).map (preBox e a b), List.range L⟩ (fun _ => 0) 1 (tag e) 0 0 := by
    refine ⟨by simp, List.nodup_range, by simp, rfl, hL, ⟨0, by simp [hL], ?_⟩, ?_⟩
    · unfold Level
      rw [if_pos rfl]
      refine ⟨initBox a b 0 true, by rw [gb 0 hL]; rfl, rfl, rfl, by omega, ?_, rfl⟩
      intro i _ i2
      have : i = 0 := by omega
      subst this
      obtain ⟨u, v⟩ := inBox_init a b 0 true
      exact hR.holds he hab u v
    · intro c _ c2
      refine ⟨c + 1, c, List.getElem?_range c2, List.getElem?_range (by omega), ?_⟩
      have hd : tag e / 8 ^ c % 8 < 8 := Nat.mod_lt _ (by norm_num)
      refine ⟨_, List.replicate (tag e / 8 ^ c % 8) none, gb (c + 1) c2, rfl, rfl, Nat.le_refl _, by intro i i1 i2; omega, ?_, by simp, hd, ?_, ?_⟩
      · unfold preBox
        rw [if_neg (by omega), boxNum_eq fe.1]
        simp only
        obtain ⟨m, hm⟩ : ∃ m, m = tag e / 8 ^ c % 8 := ⟨_, rfl⟩
        rw [← hm] at hd ⊢
        rw [show (8 : Nat) = m + (7 - m + 1) by omega, ← List.replicate_append_replicate, List.set_append_right _ _ (by simp), List.length_replicate,
          Nat.sub_self, List.replicate_succ, List.set_cons_zero]
        simp
      · exact follow_none _ _
      · intro q hq
        simpa using List.eq_of_mem_replicate hq
  obtain ⟨st', p, r1, r2, r3⟩ := treeLoop_ok (ppb := ppb) hR es.length 1 (fun _ => 0) (tag e) _ hM (by omega) (by omega) (by omega) (by
    intro i e' _ i2 he'
    have : i = 0 := by omega
    subst this
    rw [he] at he'
    simp only [Option.some.injEq] at he'
    rw [← he'])
  refine ⟨st'.boxes, p, ?_, r3⟩
  unfold boxesOf
  rw [rd_ok he, ok_bind, hab, ok_bind]
  simp only
  rw [r1, ok_bind, rd_ok r2, ok_bind]

end Plc.Struts
