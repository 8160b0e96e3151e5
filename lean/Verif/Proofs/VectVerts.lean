import Verif.Proofs.VectCst

/-! # Vertices and constraint numbers in VECT files -/

namespace Plc

namespace Cst

variable {V : Type} [DecidableEq V]

/-- All constraints of the list end before vertex `vert` of component `cmp`. -/
def Past (cmp : Nat) (vert : Int) (l : List (Cst V)) : Prop :=
  ∀ c ∈ l, c.cmp < cmp ∨ (c.cmp = cmp ∧ c.vert + c.num ≤ vert)

omit [DecidableEq V] in
theorem Past.mono {cmp : Nat} {a b : Int} {l : List (Cst V)} (h : Past cmp a l) (hab : a ≤ b) : Past cmp b l := by
  intro c hc
  have := h c hc
  omega

omit [DecidableEq V] in
theorem Past.next {cmp : Nat} {a : Int} {l : List (Cst V)} (h : Past cmp a l) : Past (cmp + 1) 0 l := by
  intro c hc
  have := h c hc
  omega

/-- Setting a constraint behind all others. -/
theorem insert_end (kind : Kind) (hk : kind ≠ .unconstrained) (vect : V) (cmp : Nat) (vert num : Int) (hn : 1 ≤ num)
    (l : List (Cst V)) (ht : Tidy l) (hp : Past cmp vert l) :
    Tidy (insert kind vect cmp vert num l) ∧ Past cmp (vert + num) (insert kind vect cmp vert num l) ∧
      ∀ p v k, D (insert kind vect cmp vert num l) p v k ↔
        D l p v k ∨ (p = cmp ∧ vert ≤ v ∧ v < vert + num ∧ (kind, vect) = k) := by
  have h1 : l.takeWhile (before cmp vert) = l := by
    rw [List.takeWhile_eq_self_iff]
    intro c hc
    have := hp c hc
    simp [before]
    exact this
  have h2 : l.dropWhile (before cmp vert) = [] := by
    rw [List.dropWhile_eq_nil_iff]
    intro c hc
    have := hp c hc
    simp [before]
    exact this
  have plain : Tidy (l ++ [⟨kind, vect, cmp, vert, num⟩]) ∧ Past cmp (vert + num) (l ++ [⟨kind, vect, cmp, vert, num⟩]) ∧
      ∀ p v k, D (l ++ [⟨kind, vect, cmp, vert, num⟩]) p v k ↔
        D l p v k ∨ (p = cmp ∧ vert ≤ v ∧ v < vert + num ∧ (kind, vect) = k) := by
    refine ⟨tidy_append.2 ⟨ht, ?_, ?_⟩, ?_, ?_⟩
    · rw [tidy_cons]
      exact ⟨by simp, hn, hk, by simp [Tidy]⟩
    · intro a ha b hb
      have := hp a ha
      rw [List.mem_singleton] at hb
      subst hb
      exact this
    · intro c hc
      rcases List.mem_append.1 hc with hc | hc
      · have := hp c hc
        omega
      · rw [List.mem_singleton] at hc
        subst hc
        exact Or.inr ⟨rfl, Int.le_refl _⟩
    · intro p v k
      rw [D_append, D_cons, D_nil]
      simp only [Cov, or_false]
      constructor
      · rintro (h | ⟨⟨rfl, h1, h2⟩, h3⟩)
        · exact Or.inl h
        · exact Or.inr ⟨rfl, h1, h2, h3⟩
      · rintro (h | ⟨rfl, h1, h2, h3⟩)
        · exact Or.inl h
        · exact Or.inr ⟨⟨rfl, h1, h2⟩, h3⟩
  unfold insert
  simp only [h1, h2]
  have hplace : place kind vect cmp vert num ([] : List (Cst V)) = [⟨kind, vect, cmp, vert, num⟩] := by
    rw [place, if_pos hk]
  rw [hplace]
  cases hg : l.getLast? with
  | none =>
    have : l = [] := by simpa using hg
    subst this
    exact plain
  | some q =>
    simp only
    split_ifs with hx
    · obtain ⟨p0, hp0⟩ : ∃ p0, l = p0 ++ [q] := List.getLast?_eq_some_iff.1 hg
      subst hp0
      have hx' : kind ≠ .fixed ∧ q.kind = kind ∧ q.cmp = cmp ∧ q.vert + q.num ≥ vert ∧ q.vect = vect := by
        simpa [extPrev] using hx
      obtain ⟨-, x2, x3, x4, x5⟩ := hx'
      have hq := hp q (by simp)
      have hqv : q.vert + q.num = vert := by omega
      obtain ⟨t0, tq, t0q⟩ := tidy_append.1 ht
      have hq1 := (tq.2 q (by simp)).1
      have he : overrunList (extend q vert num) [] = [{ q with num := q.num + num }] := by
        simp only [overrunList, overrun, overlap, adjacent, extend]
        congr 2
        · omega
        · omega
      rw [List.dropLast_concat, he]
      refine ⟨tidy_append.2 ⟨t0, ?_, ?_⟩, ?_, ?_⟩
      · rw [tidy_cons]
        exact ⟨by simp, by show 1 ≤ q.num + num; omega, by show q.kind ≠ _; rw [x2]; exact hk, by simp [Tidy]⟩
      · intro a ha b hb
        have := t0q a ha q (by simp)
        rw [List.mem_singleton] at hb
        subst hb
        exact this
      · intro c hc
        rcases List.mem_append.1 hc with hc | hc
        · have := hp c (by simp [hc])
          omega
        · rw [List.mem_singleton] at hc
          subst hc
          exact Or.inr ⟨x3, by show q.vert + (q.num + num) ≤ _; omega⟩
      · intro p v k
        rw [D_append, D_append, D_cons, D_cons, D_nil]
        simp only [Cov, or_false]
        rw [x2, x5]
        constructor
        · rintro (h | ⟨⟨h1, h2, h3⟩, h4⟩)
          · exact Or.inl (Or.inl h)
          · by_cases hv : v < q.vert + q.num
            · exact Or.inl (Or.inr ⟨⟨h1, h2, hv⟩, h4⟩)
            · exact Or.inr ⟨by omega, by omega, by omega, h4⟩
        · rintro ((h | ⟨⟨h1, h2, h3⟩, h4⟩) | ⟨h1, h2, h3, h4⟩)
          · exact Or.inl h
          · exact Or.inr ⟨⟨h1, h2, by omega⟩, h4⟩
          · exact Or.inr ⟨⟨by omega, by omega, by omega⟩, h4⟩
    · exact plain

end Cst

namespace Vect

open Plc.Io Plc.Cst

variable {N : NumFmt}

/-! ## The table of constraint numbers -/

/-- The table has a row for each component and in it a number for each vertex. -/
structure TabIs (nvs : List Nat) (nums : List (List Nat)) (f : Nat → Int → Nat) : Prop where
  len : nums.length = nvs.length
  row : ∀ p m, nvs[p]? = some m → ∃ r, nums[p]? = some r ∧ r.length = m ∧ ∀ v : Nat, v < m → r[v]? = some (f p v)

theorem TabIs.congr {nvs : List Nat} {nums : List (List Nat)} {f g : Nat → Int → Nat} (h : TabIs nvs nums f)
    (e : ∀ p v, f p v = g p v) : TabIs nvs nums g := by
  have : f = g := by
    funext p v
    exact e p v
  rwa [← this]

theorem mark_ok (nvs : List Nat) (cmp k m : Nat) (hm : nvs[cmp]? = some m) :
    ∀ (n : Nat) (i : Int) (nums : List (List Nat)) (f : Nat → Int → Nat), TabIs nvs nums f → 0 ≤ i → i + n ≤ m →
    ∃ nums', mark cmp k n i nums = .ok nums' ∧
      TabIs nvs nums' (fun p v => if p = cmp ∧ i ≤ v ∧ v < i + n then k else f p v)
  | 0, i, nums, f, h, _, _ => ⟨nums, rfl, h.congr (by
      intro p v
      rw [if_neg (by omega)])⟩
  | n + 1, i, nums, f, h, h0, hi => by
    obtain ⟨r, r1, r2, r3⟩ := h.row cmp m hm
    have hlt : i.toNat < r.length := by omega
    have hc : cmp < nums.length := (List.getElem?_eq_some_iff.1 r1).1
    have ht : TabIs nvs (nums.set cmp (r.set i.toNat k)) (fun p v => if p = cmp ∧ v = i then k else f p v) := by
      refine ⟨by rw [List.length_set]; exact h.len, ?_⟩
      intro p m' hm'
      by_cases hp : p = cmp
      · subst hp
        rw [hm] at hm'
        cases hm'
        refine ⟨_, List.getElem?_set_self hc, by rw [List.length_set]; exact r2, ?_⟩
        intro v hv
        by_cases hvi : v = i.toNat
        · subst hvi
          rw [List.getElem?_set_self hlt, if_pos ⟨rfl, by omega⟩]
        · rw [List.getElem?_set_ne (by omega), r3 v hv, if_neg (by omega)]
      · obtain ⟨r', a, b, c⟩ := h.row p m' hm'
        refine ⟨r', by rw [List.getElem?_set_ne (by omega), a], b, ?_⟩
        intro v hv
        rw [c v hv, if_neg (by omega)]
    obtain ⟨nums', n1, n2⟩ := mark_ok nvs cmp k m hm n (i + 1) _ _ ht (by omega) (by omega)
    refine ⟨nums', ?_, n2.congr ?_⟩
    · have w1 : wr r i.toNat k = .ok (r.set i.toNat k) := by rw [wr, if_pos hlt]
      have w2 : wr nums cmp (r.set i.toNat k) = .ok (nums.set cmp (r.set i.toNat k)) := by rw [wr, if_pos hc]
      rw [mark, rd_ok r1, ok_bind, if_neg (by omega), w1, ok_bind]
      beta_reduce
      rw [w2, ok_bind]
      exact n1
    · intro p v
      by_cases h1 : p = cmp ∧ i + 1 ≤ v ∧ v < i + 1 + (n : Int)
      · rw [if_pos h1, if_pos (by push_cast; omega)]
      · rw [if_neg h1]
        by_cases h2 : p = cmp ∧ v = i
        · rw [if_pos h2, if_pos (by push_cast; omega)]
        · rw [if_neg h2, if_neg (by push_cast; omega)]

/-- Whether the constraint covers the vertex. -/
def covB (p : Nat) (v : Int) (c : Cst (VV N)) : Bool := c.cmp = p ∧ c.vert ≤ v ∧ v < c.vert + c.num

/-- The number, from 1 on, of the first constraint covering the vertex. -/
def numAt (cs : List (Cst (VV N))) (p : Nat) (v : Int) : Nat :=
  match cs.findIdx? (covB p v) with
  | some i => i + 1
  | none => 0

instance (c : Cst (VV N)) (p : Nat) (v : Int) : Decidable (Cov c p v) := by unfold Cov; infer_instance

theorem covB_iff (p : Nat) (v : Int) (c : Cst (VV N)) : covB p v c = true ↔ Cov c p v := by
  simp [covB, Cov]

theorem numAt_nil (p : Nat) (v : Int) : numAt ([] : List (Cst (VV N))) p v = 0 := rfl

theorem numAt_snoc {done : List (Cst (VV N))} {c : Cst (VV N)} (h : Tidy (done ++ [c])) (p : Nat) (v : Int) :
    numAt (done ++ [c]) p v = if Cov c p v then done.length + 1 else numAt done p v := by
  obtain ⟨-, -, hb⟩ := tidy_append.1 h
  unfold numAt
  rw [List.findIdx?_append]
  by_cases hc : Cov c p v
  · have hn : done.findIdx? (covB p v) = none := by
      rw [List.findIdx?_eq_none_iff]
      intro d hd
      cases hx : covB p v d with
      | false => rfl
      | true => exact ((hb d hd c (by simp)).not_cov ((covB_iff p v d).1 hx) hc).elim
    rw [hn, if_pos hc]
    simp [(covB_iff p v c).2 hc]
  · have : covB p v c = false := by
      cases hx : covB p v c with
      | false => rfl
      | true => exact absurd ((covB_iff p v c).1 hx) hc
    rw [if_neg hc]
    simp [this]

theorem numAt_pos {cs : List (Cst (VV N))} {p : Nat} {v : Int} (h : numAt cs p v ≠ 0) :
    ∃ i c, numAt cs p v = i + 1 ∧ cs[i]? = some c ∧ Cov c p v := by
  unfold numAt at h ⊢
  cases hf : cs.findIdx? (covB p v) with
  | none => rw [hf] at h; exact absurd rfl h
  | some i =>
    obtain ⟨h1, h2, -⟩ := List.findIdx?_eq_some_iff_getElem.1 hf
    exact ⟨i, cs[i], rfl, List.getElem?_eq_getElem h1, (covB_iff _ _ _).1 h2⟩

theorem numAt_zero {cs : List (Cst (VV N))} {p : Nat} {v : Int} (h : numAt cs p v = 0) (c : Cst (VV N)) (hc : c ∈ cs) :
    ¬ Cov c p v := by
  unfold numAt at h
  cases hf : cs.findIdx? (covB p v) with
  | some i => rw [hf] at h; cases h
  | none =>
    rw [List.findIdx?_eq_none_iff] at hf
    intro hx
    have := (covB_iff p v c).2 hx
    rw [hf c hc] at this
    cases this

/-- The constraints are on vertices of the curve, those that fix on one vertex. -/
def Inside (nvs : List Nat) (cs : List (Cst (VV N))) : Prop :=
  ∀ c ∈ cs, 0 ≤ c.vert ∧ (c.kind = .fixed → c.num = 1) ∧ ∃ m, nvs[c.cmp]? = some m ∧ c.vert + c.num ≤ (m : Int)

theorem writeCsts_ok (nvs : List Nat) : ∀ (cs done : List (Cst (VV N))) (nums : List (List Nat)),
    Tidy (done ++ cs) → Inside nvs cs → TabIs nvs nums (numAt done) →
    ∃ nums', writeCsts done.reverse nums cs = .ok (block (defWords (done.length + 1) cs), nums') ∧
      TabIs nvs nums' (numAt (done ++ cs))
  | [], done, nums, _, _, h => ⟨nums, rfl, by simpa using h⟩
  | c :: cs, done, nums, ht, hi, h => by
    have ht' : Tidy ((done ++ [c]) ++ cs) := by simpa using ht
    have hdc := (tidy_append.1 ht').1
    have hb := (tidy_append.1 hdc).2.2
    obtain ⟨-, c1, c2, -⟩ := tidy_cons.1 (tidy_append.1 ht).2.1
    obtain ⟨i1, -, m, i2, i3⟩ := hi c (by simp)
    obtain ⟨nums1, m1, m2⟩ := mark_ok nvs c.cmp (done.length + 1) m i2 c.num.toNat c.vert nums _ h i1 (by omega)
    have m2' : TabIs nvs nums1 (numAt (done ++ [c])) := m2.congr (by
      intro p v
      rw [numAt_snoc hdc]
      apply if_congr _ rfl rfl
      unfold Cov
      omega)
    obtain ⟨nums', w1, w2⟩ := writeCsts_ok nvs cs (done ++ [c]) nums1 ht' (fun x hx => hi x (by simp [hx])) m2'
    refine ⟨nums', ?_, by simpa using w2⟩
    have hf : done.reverse.findIdx? (twin c) = none := by
      rw [List.findIdx?_eq_none_iff]
      intro d hd
      have := hb d (by simpa using hd) c (by simp)
      have hd1 := (hdc.2 d (by simp at hd; simp [hd])).1
      unfold Bef at this
      cases hx : twin c d with
      | false => rfl
      | true =>
        simp [twin] at hx
        omega
    rw [writeCsts, (by simpa using c2 : (decide (c.kind ≠ .unconstrained)) = true), assertC_ok rfl, ok_bind, hf]
    simp only [List.length_reverse]
    rw [m1, ok_bind]
    have e : c :: done.reverse = (done ++ [c]).reverse := by simp
    rw [e, w1, ok_bind, List.length_append, List.length_singleton, cstLine_eq _ c c2]
    simp [block, defWords]

/-! ## Vertices -/

/-- The line of the vertex fits into the buffer. -/
def Fits (v : V3 N) (k : Nat) : Prop :=
  (triple N.p16 v).length + (if k = 0 then 0 else 8 + (dec k).length) ≤ 79

theorem vertLine_zero {v : V3 N} (h : Fits v 0) : vertLine v 0 = triple N.p16 v ++ '\n' :: [] := by
  unfold Fits at h
  unfold vertLine
  simp only [ne_eq, not_true_eq_false, if_false]
  rw [List.take_of_length_le (by simpa using h)]
  rfl

theorem vertLine_pos {v : V3 N} {k : Nat} (hk : k ≠ 0) (h : Fits v k) :
    vertLine v k = triple N.p16 v ++ ' ' :: cline [str "Cst:", dec k] := by
  unfold Fits at h
  rw [if_neg hk] at h
  unfold vertLine
  simp only [ne_eq, hk, not_false_eq_true, if_true]
  have h8 : (str " # Cst: ").length = 8 := by decide
  rw [List.take_of_length_le (i := 79) (l := triple N.p16 v) (by omega), List.take_of_length_le (by
    rw [List.length_append, List.length_append]
    omega), List.append_assoc]
  congr 1

theorem triple_word (v : V3 N) (t : List Char) : Stops (triple N.p16 v ++ t) := by
  unfold triple
  rw [List.append_assoc]
  exact (p16_word _).stops _

/-- Lines of words that do not end with `Cst:`. -/
def NoCst (ls : List (List (List Char))) : Prop := ∀ w ∈ ls.flatten, NoTail (str "Cst:") w

theorem vertCst_none (ls : List (List (List Char))) (h : Lines ls) (hn : NoCst ls) : vertCst (outw ls.flatten) = .ok 0 := by
  unfold vertCst
  rw [show str "Cst: " = str "Cst:" ++ [' '] by rfl, strstr_none (by decide) (by decide) _ (flatten_word h) hn]

theorem vertCst_some_gen (W : List Char) (hW : Word W) (h4 : W.length = 4) (k : Nat) (hk : k ≤ intMax) (ws : List (List Char))
    (h : ∀ w ∈ ws, Word w) (pl : List Char) (hpl : pl = W ++ ' ' :: (dec k ++ ' ' :: outw ws)) :
    (do
      let q ← need .badCstLine (strtok ⟨[], pl⟩)
      let txt ← lift (cstr q.2 5)
      let n ← lift (scanD txt)
      let n ← need .badCstNum n
      (.ok n.1 : Rd Int)) = .ok (k : Int) := by
  have hnn : ∀ d ∈ dec k ++ ' ' :: outw ws, d ≠ '\x00' := by
    intro d hd
    rcases List.mem_append.1 hd with hd | hd
    · exact ((dec_word k).2 d hd).2.2
    · rcases List.mem_cons.1 hd with rfl | hd
      · decide
      · exact outw_no_nul ws h d hd
  have hs : scanD (dec k ++ ' ' :: outw ws) = .ok (some ((k : Int), ' ' :: outw ws)) := by
    have := scanD_decI (n := (k : Int)) (r := ' ' :: outw ws) (by simpa using hk) (noDig_space (by decide) _)
    rwa [decI_nat] at this
  rw [hpl, strtok_word [] hW]
  simp only [need, okb]
  rw [cstr_todo (by simp [h4]) hnn]
  simp only [lift, okb]
  rw [hs]
  rfl

theorem vertCst_some (k : Nat) (hk : k ≤ intMax) (ws : List (List Char)) (h : ∀ w ∈ ws, Word w) :
    vertCst (outw (str "Cst:" :: dec k :: ws)) = .ok (k : Int) := by
  have e : outw (str "Cst:" :: dec k :: ws) = str "Cst:" ++ ' ' :: (dec k ++ ' ' :: outw ws) := by
    simp [outw]
  have hst : strstr (str "Cst: ") (outw (str "Cst:" :: dec k :: ws)) = some (outw (str "Cst:" :: dec k :: ws)) := by
    rw [e]
    exact strstr_here (pat := str "Cst: ")
  unfold vertCst
  rw [hst]
  exact vertCst_some_gen (str "Cst:") (by decide) (by decide) k hk ws h _ e

/-- A vertex and its constraint number. -/
theorem vert_read (e : Err) {g : List Char} (hg : Gap g) (v : V3 N) (k : Nat) (hk : k ≤ intMax) (hf : Fits v k)
    (ls : List (List (List Char))) (h : Lines ls) (hn : NoCst ls) {t : List Char} (ht : Stops t) :
    ∃ u, scan3 N e (g ++ (vertLine v k ++ (block ls ++ t))) = .ok (r3 v, u) ∧ vertCst (comment u).1 = .ok (k : Int) ∧
      (comment u).2 = t := by
  by_cases h0 : k = 0
  · subst h0
    refine ⟨_, by rw [vertLine_zero hf, List.append_assoc, List.cons_append]; exact scan3_16 e hg v (by decide) _, ?_⟩
    rw [List.nil_append, comment_block ls h (by decide) ht]
    exact ⟨vertCst_none ls h hn, rfl⟩
  · refine ⟨_, by rw [vertLine_pos h0 hf, List.append_assoc, List.cons_append]; exact scan3_16 e hg v (by decide) _, ?_⟩
    have e' : cline [str "Cst:", dec k] ++ (block ls ++ t) = block ([str "Cst:", dec k] :: ls) ++ t := by simp [block]
    have hl : Lines ([str "Cst:", dec k] :: ls) := by
      intro ws hws
      rcases List.mem_cons.1 hws with rfl | hws
      · refine ⟨by simp, ?_⟩
        intro w hw
        simp only [List.mem_cons, List.not_mem_nil, or_false] at hw
        rcases hw with rfl | rfl
        · decide
        · exact dec_word k
      · exact h ws hws
    rw [e', comment_block _ hl (by decide) ht]
    exact ⟨vertCst_some k hk _ (flatten_word h), rfl⟩

/-- What a number stands for. -/
structure Keys (tab : List (Entry N)) (nvs : List Nat) (i nv : Nat) (num : Nat → Nat) (K : Nat → Kind × VV N) : Prop where
  len : nvs[i]? = some nv
  small : ∀ v, v < nv → num v ≤ intMax
  at_ : ∀ v, v < nv → num v ≠ 0 → tab[num v]? = some (some (K (num v))) ∧ (K (num v)).1 ≠ .unconstrained
  fixed : ∀ v w, v < nv → w < nv → num v ≠ 0 → (K (num v)).1 = .fixed → num v = num w → v = w

theorem setRun_ok {tab : List (Entry N)} {nvs : List Nat} {i nv : Nat} {num : Nat → Nat} {K : Nat → Kind × VV N}
    (hK : Keys tab nvs i nv num K) (pv j prev : Nat) (h1 : pv < j) (h2 : j ≤ nv) (h3 : prev ≠ 0)
    (h4 : ∀ v, pv ≤ v → v < j → num v = prev) (cst : List (Cst (VV N))) (ht : Tidy cst) (hp : Past i pv cst) :
    ∃ cst', setRun tab nvs i pv j prev cst = .ok cst' ∧ Tidy cst' ∧ Past i j cst' ∧
      ∀ p v k, D cst' p v k ↔ D cst p v k ∨ (p = i ∧ (pv : Int) ≤ v ∧ v < (j : Int) ∧ K prev = k) := by
  have hpv := h4 pv (Nat.le_refl _) h1
  obtain ⟨a, b⟩ := hK.at_ pv (by omega) (by omega)
  rw [hpv] at a b
  obtain ⟨s1, s2, s3⟩ := insert_end (K prev).1 b (K prev).2 i pv ((j : Int) - pv) (by omega) cst ht hp
  refine ⟨_, ?_, s1, by rw [show (pv : Int) + ((j : Int) - pv) = j by omega] at s2; exact s2, ?_⟩
  · unfold setRun entry
    rw [if_neg (by omega), show Int.toNat (prev : Int) = prev from rfl, rd_ok a]
    simp only [ok_bind, lift, okb]
    have hv : valid nvs (K prev).1 i pv ((j : Int) - pv) = true := by
      unfold valid
      rw [hK.len]
      simp only [decide_eq_true_eq]
      refine ⟨by omega, by omega, by omega, by omega, ?_⟩
      by_cases hf : (K prev).1 = .fixed
      · right
        have := hK.fixed pv (j - 1) (by omega) (by omega) (by omega) (by rw [hpv]; exact hf)
          (by rw [hpv, h4 (j - 1) (by omega) (by omega)])
        omega
      · exact Or.inl hf
    rw [Cst.set, hv]
    rfl
  · intro p v k
    rw [s3]
    rw [show (pv : Int) + ((j : Int) - pv) = j by omega]

/-- The text from a vertex on: the vertices left and the block behind them, which has been read with the last
vertex. -/
def vtxt (ls : List (List (List Char))) (t : List Char) (vs : List (V3 N)) (ks : List Nat) : List Char :=
  if vs = [] then t else vertLines vs ks ++ (block ls ++ t)

theorem readVerts_ok {tab : List (Entry N)} {nvs : List Nat} {i nv : Nat} {num : Nat → Nat} {K : Nat → Kind × VV N}
    (hK : Keys tab nvs i nv num K) (ls : List (List (List Char))) (hl : Lines ls) (hn : NoCst ls) (t : List Char)
    (hs : Stops t) : ∀ (vs : List (V3 N)) (ks : List Nat) (j prev pv : Nat) (cst : List (Cst (VV N))),
    vs.length = ks.length → j + vs.length = nv → (∀ a k : Nat, ks[a]? = some k → k = num (j + a)) →
    (∀ (a : Nat) (v : V3 N) (k : Nat), vs[a]? = some v → ks[a]? = some k → Fits v k) →
    pv ≤ j → (prev ≠ 0 → pv < j) → (∀ v, pv ≤ v → v < j → num v = prev) → Tidy cst → Past i pv cst →
    ∃ cst', readVerts tab nvs i vs.length j prev pv prev cst (vtxt ls t vs ks) = .ok (vs.map r3, cst', t) ∧
      Tidy cst' ∧ Past i nv cst' ∧
      ∀ p v k, D cst' p v k ↔ D cst p v k ∨
        (p = i ∧ (pv : Int) ≤ v ∧ v < (nv : Int) ∧ num v.toNat ≠ 0 ∧ K (num v.toNat) = k)
  | [], ks, j, prev, pv, cst, _, hj, _, _, h1, h2, h3, ht, hp => by
    simp only [List.length_nil, Nat.add_zero] at hj
    subst hj
    rw [vtxt, if_pos rfl]
    show ∃ cst', readVerts tab nvs i 0 _ _ _ _ _ _ = _ ∧ _
    unfold readVerts
    by_cases hz : prev = 0
    · subst hz
      refine ⟨cst, by rw [endRun, if_neg (by simp)]; rfl, ht, hp.mono (by omega), ?_⟩
      intro p v k
      constructor
      · exact Or.inl
      · rintro (h | ⟨-, a, b, c, -⟩)
        · exact h
        · exact absurd (h3 v.toNat (by omega) (by omega)) c
    · obtain ⟨cst', c1, c2, c3, c4⟩ := setRun_ok hK pv j prev (h2 hz) (Nat.le_refl _) hz h3 cst ht hp
      refine ⟨cst', by rw [endRun, if_pos (by omega), c1]; rfl, c2, c3, ?_⟩
      intro p v k
      rw [c4]
      constructor
      · rintro (h | ⟨a, b, c, d⟩)
        · exact Or.inl h
        · have := h3 v.toNat (by omega) (by omega)
          exact Or.inr ⟨a, b, c, by omega, by rw [this]; exact d⟩
      · rintro (h | ⟨a, b, c, -, d⟩)
        · exact Or.inl h
        · have := h3 v.toNat (by omega) (by omega)
          exact Or.inr ⟨a, b, c, by rw [← this]; exact d⟩
  | x :: vs, [], _, _, _, _, h, _, _, _, _, _, _, _, _ => by simp at h
  | x :: vs, k0 :: ks, j, prev, pv, cst, hlen, hj, hks, hfit, h1, h2, h3, ht, hp => by
    simp only [List.length_cons] at hlen hj
    have hk0 := hks 0 k0 rfl
    rw [Nat.add_zero] at hk0
    have hkn : k0 ≤ intMax := by rw [hk0]; exact hK.small j (by omega)
    have hf0 := hfit 0 x k0 rfl rfl
    -- the vertex
    have hvert : ∃ u, scan3 N .badVertLine (vtxt ls t (x :: vs) (k0 :: ks)) = .ok (r3 x, u) ∧
        vertCst (comment u).1 = .ok (k0 : Int) ∧ (comment u).2 = vtxt ls t vs ks := by
      rw [vtxt, if_neg (by simp), vertLines, List.append_assoc]
      cases vs with
      | nil =>
        have : vertLines ([] : List (V3 N)) ks = [] := by unfold vertLines; rfl
        rw [this, List.nil_append]
        obtain ⟨u, a, b, c⟩ := vert_read (N := N) .badVertLine Gap.nil x k0 hkn hf0 ls hl hn hs
        exact ⟨u, a, b, by rw [c]; rfl⟩
      | cons y vs =>
        cases ks with
        | nil => simp at hlen
        | cons k1 ks =>
          have hst : Stops (vertLines (y :: vs) (k1 :: ks) ++ (block ls ++ t)) := by
            rw [vertLines, List.append_assoc]
            have hf1 := hfit 1 y k1 rfl rfl
            by_cases hz : k1 = 0
            · subst hz
              rw [vertLine_zero hf1, List.append_assoc]
              exact triple_word _ _
            · rw [vertLine_pos hz hf1, List.append_assoc]
              exact triple_word _ _
          obtain ⟨u, a, b, c⟩ := vert_read (N := N) .badVertLine Gap.nil x k0 hkn hf0 [] (by simp [Lines])
            (by simp [NoCst]) hst
          exact ⟨u, a, b, by rw [c, vtxt, if_neg (by simp)]⟩
    obtain ⟨u, u1, u2, u3⟩ := hvert
    have hks' : ∀ a k, ks[a]? = some k → k = num (j + 1 + a) := by
      intro a k h
      have := hks (a + 1) k h
      rw [this]
      congr 1
      omega
    have hfit' : ∀ (a : Nat) (v : V3 N) (k : Nat), vs[a]? = some v → ks[a]? = some k → Fits v k := fun a v k h h' => hfit (a + 1) v k h h'
    have hstep : ∀ (cst : List (Cst (VV N))) (f : Rd (List (V3 N) × List (Cst (VV N)) × List Char)),
        readVerts tab nvs i (vs.length + 1) j prev pv prev cst (vtxt ls t (x :: vs) (k0 :: ks)) =
        if (k0 : Int) ≠ prev then (do
          let cst ← endRun tab nvs i pv j prev prev cst
          let r ← readVerts tab nvs i vs.length (j + 1) k0 j k0 cst (vtxt ls t vs ks)
          .ok (r3 x :: r.1, r.2))
        else (do
          let r ← readVerts tab nvs i vs.length (j + 1) prev pv k0 cst (vtxt ls t vs ks)
          .ok (r3 x :: r.1, r.2)) := by
      intro cst _
      rw [readVerts, u1]
      simp only [okb]
      rw [u2]
      simp only [okb]
      rw [u3]
    rw [List.length_cons, hstep cst (.ok ([], [], []))]
    by_cases hkp : k0 = prev
    · rw [if_neg (by omega), hkp]
      obtain ⟨cst', c1, c2, c3, c4⟩ := readVerts_ok hK ls hl hn t hs vs ks (j + 1) prev pv cst (by omega) (by omega) hks'
        hfit' (by omega) (by omega) (by
          intro v a b
          by_cases hvj : v = j
          · rw [hvj, ← hk0, hkp]
          · exact h3 v a (by omega)) ht hp
      exact ⟨cst', by rw [c1]; rfl, c2, c3, c4⟩
    · rw [if_pos (by omega)]
      have hpre : ∃ cst1, endRun tab nvs i pv j prev prev cst = .ok cst1 ∧ Tidy cst1 ∧
          Past i j cst1 ∧ ∀ p v k, D cst1 p v k ↔ D cst p v k ∨
            (p = i ∧ (pv : Int) ≤ v ∧ v < (j : Int) ∧ num v.toNat ≠ 0 ∧ K (num v.toNat) = k) := by
        by_cases hz : prev = 0
        · subst hz
          refine ⟨cst, by rw [endRun, if_neg (by simp)], ht, hp.mono (by omega), ?_⟩
          intro p v k
          constructor
          · exact Or.inl
          · rintro (h | ⟨-, a, b, c, -⟩)
            · exact h
            · exact absurd (h3 v.toNat (by omega) (by omega)) c
        · obtain ⟨cst', c1, c2, c3, c4⟩ := setRun_ok hK pv j prev (h2 hz) (by omega) hz h3 cst ht hp
          refine ⟨cst', by rw [endRun, if_pos (by omega), c1], c2, c3, ?_⟩
          intro p v k
          rw [c4]
          constructor
          · rintro (h | ⟨a, b, c, d⟩)
            · exact Or.inl h
            · have := h3 v.toNat (by omega) (by omega)
              exact Or.inr ⟨a, b, c, by omega, by rw [this]; exact d⟩
          · rintro (h | ⟨a, b, c, -, d⟩)
            · exact Or.inl h
            · have := h3 v.toNat (by omega) (by omega)
              exact Or.inr ⟨a, b, c, by rw [← this]; exact d⟩
      obtain ⟨cst1, p1, p2, p3, p4⟩ := hpre
      obtain ⟨cst', c1, c2, c3, c4⟩ := readVerts_ok hK ls hl hn t hs vs ks (j + 1) k0 j cst1 (by omega) (by omega) hks'
        hfit' (by omega) (by omega) (by
          intro v a b
          have : v = j := by omega
          rw [this, hk0]) p2 p3
      refine ⟨cst', by rw [p1, okb, c1]; rfl, c2, c3, ?_⟩
      intro p v k
      rw [c4, p4]
      constructor
      · rintro ((h | ⟨a, b, c, d⟩) | ⟨a, b, c, d⟩)
        · exact Or.inl h
        · exact Or.inr ⟨a, b, by omega, d⟩
        · exact Or.inr ⟨a, by omega, c, d⟩
      · rintro (h | ⟨a, b, c, d⟩)
        · exact Or.inl (Or.inl h)
        · by_cases hv : v < (j : Int)
          · exact Or.inl (Or.inr ⟨a, b, hv, d⟩)
          · exact Or.inr ⟨a, by omega, c, d⟩

end Vect

end Plc
