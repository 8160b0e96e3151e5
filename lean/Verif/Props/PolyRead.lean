import Verif.Model.PolyRead
import Verif.Props.Poly
import Verif.Proofs.VectText
import Verif.Proofs.Io2

/-!
# C103: reading the output of lmpoly
-/

namespace Plc.Poly

open Plc.Io Plc.Vect

/-- A row of coefficients, for one power of `m`: those of the negative powers of `l`, that of `l^0`, those of the positive powers. -/
structure Row where
  pre : List Int
  mid : Int
  post : List Int

/-- The row as lmpoly prints it. -/
def Row.text (r : Row) : List Char :=
  r.pre.flatMap (fun v => decI v ++ [' ']) ++ '[' :: (decI r.mid ++ ']' :: r.post.flatMap (fun v => ' ' :: decI v))

/-- The rows of negative powers of `m`, that of `m^0` in brackets, those of positive powers, and a final space (or not). -/
def lmText (before : List Row) (r0 : Row) (after : List Row) (fin : Bool) : List Char :=
  before.flatMap (fun r => r.text ++ ['N']) ++ ('[' :: (r0.text ++ (']' :: 'N' :: (after.flatMap (fun r => r.text ++ ['N']) ++ if fin then [' '] else []))))

/-- Coefficients of successive powers of `l`. -/
def coefs (m : Int) : Int → List Int → List Mono
  | _, [] => []
  | l, v :: t => ⟨v, l, m⟩ :: coefs m (l + 1) t

/-- The coefficients of successive rows. -/
def allCoefs : Int → List Row → List Mono
  | _, [] => []
  | m, r :: t => coefs m (-(r.pre.length : Int)) (r.pre ++ r.mid :: r.post) ++ allCoefs (m + 1) t

/-- The monomials that the rows stand for. -/
def meant (before : List Row) (r0 : Row) (after : List Row) : List Mono :=
  (allCoefs (-(before.length : Int)) (before ++ r0 :: after)).filter (fun x => x.coeff ≠ 0)

/-- The number of monomials for which there is room. -/
def room (before : List Row) (r0 : Row) (after : List Row) (fin : Bool) : Nat :=
  ((before ++ r0 :: after).map (fun r => r.pre.length + r.post.length)).sum + 1 + (if r0.post = [] then 1 else 0) + (if fin then 1 else 0)

/-- All coefficients are values of `int` (other than `INT_MIN`). -/
def Row.Ok (r : Row) : Prop := ∀ v ∈ r.pre ++ r.mid :: r.post, v.natAbs ≤ intMax

/-! ### Characters of numbers -/

theorem decI_chars (v : Int) : ∀ c ∈ decI v, isSpace c = false ∧ c ≠ '[' ∧ c ≠ ']' ∧ c ≠ 'N' ∧ c ≠ ' ' := by
  have dig : ∀ c, isDig c = true → isSpace c = false ∧ c ≠ '[' ∧ c ≠ ']' ∧ c ≠ 'N' ∧ c ≠ ' ' := by
    intro c hc
    refine ⟨(isDig_solid hc).1, ?_, ?_, ?_, ?_⟩ <;> (rintro rfl; revert hc; decide)
  intro c hc
  unfold decI at hc
  split at hc
  · rcases List.mem_cons.mp hc with rfl | hc
    · decide
    · exact dig c (dec_isDig _ c hc)
  · exact dig c (dec_isDig _ c hc)

theorem decI_special (v : Int) (c : Char) (hc : c ∈ decI v) : special c = false := by
  obtain ⟨h1, h2, h3, h4, _⟩ := decI_chars v c hc
  simp [special, h1, h2, h3, h4]

theorem decI_cons (v : Int) : ∃ c w, decI v = c :: w := by
  cases h : decI v with
  | nil => exact absurd h (decI_word v).1
  | cons c w => exact ⟨c, w, rfl⟩

theorem special_noDig {d : Char} (h : special d = true) (r : List Char) : NoDig (d :: r) := by
  intro c t hc
  cases hc
  cases hd : isDig d with
  | false => rfl
  | true =>
    exfalso
    have h1 := (isDig_solid hd).1
    unfold special at h
    simp only [Bool.or_eq_true, h1, beq_iff_eq] at h
    rcases h with ((h | rfl) | rfl) | rfl
    · cases h
    all_goals revert hd; decide

/-! ### The first power of a row -/

theorem initL_word : ∀ (w : List Char) (p : Int) (r : List Char), (∀ c ∈ w, isSpace c = false) → initL true p (w ++ ' ' :: r) = initL false p r
  | [], p, r, _ => by rw [List.nil_append, initL, if_pos (by decide)]
  | c :: w, p, r, h => by
    rw [List.cons_append, initL, if_neg (by rw [h c (by simp)]; decide)]
    exact initL_word w p r fun d hd => h d (by simp [hd])

theorem initL_pre : ∀ (pre : List Int) (p : Int) (r : List Char),
    initL false p (pre.flatMap (fun v => decI v ++ [' ']) ++ '[' :: r) = p - pre.length
  | [], p, r => by simp [initL]
  | v :: t, p, r => by
    obtain ⟨c, w, hw⟩ := decI_cons v
    have hc := decI_chars v
    rw [hw] at hc
    obtain ⟨h1, h2, _⟩ := hc c (by simp)
    rw [List.flatMap_cons, hw]
    have e : (c :: w ++ [' '] ++ List.flatMap (fun v => decI v ++ [' ']) t) ++ '[' :: r =
      c :: (w ++ ' ' :: (List.flatMap (fun v => decI v ++ [' ']) t ++ '[' :: r)) := by simp
    rw [e, initL, if_neg h2, if_neg (by rw [h1]; decide), initL_word w _ _ (fun d hd => (hc d (by simp [hd])).1), initL_pre t, List.length_cons]
    push_cast; omega

/-! ### The search for the middle row -/

theorem scan1_plain (depth : Int) (start : Nat) (it : Bool) (mp : Int) (r : List Char) : ∀ (w : List Char) (i : Nat),
    (∀ c ∈ w, c ≠ '[' ∧ c ≠ ']' ∧ c ≠ 'N') → scan1 i depth start it mp (w ++ r) = scan1 (i + w.length) depth start it mp r
  | [], i, _ => by simp
  | c :: w, i, h => by
    obtain ⟨h1, h2, h3⟩ := h c (by simp)
    rw [List.cons_append, scan1, if_neg h1, if_neg h2, if_neg h3, scan1_plain depth start it mp r w (i + 1) (fun d hd => h d (by simp [hd])),
      List.length_cons]
    congr 1; omega

theorem plain_decI (v : Int) : ∀ c ∈ decI v, c ≠ '[' ∧ c ≠ ']' ∧ c ≠ 'N' := fun c hc =>
  ⟨(decI_chars v c hc).2.1, (decI_chars v c hc).2.2.1, (decI_chars v c hc).2.2.2.1⟩

theorem plain_pre (l : List Int) : ∀ c ∈ l.flatMap (fun v => decI v ++ [' ']), c ≠ '[' ∧ c ≠ ']' ∧ c ≠ 'N' := by
  intro c hc
  obtain ⟨v, _, hv⟩ := List.mem_flatMap.mp hc
  rcases List.mem_append.mp hv with h | h
  · exact plain_decI v c h
  · rw [List.mem_singleton] at h; subst h; decide

theorem plain_post (l : List Int) : ∀ c ∈ l.flatMap (fun v => ' ' :: decI v), c ≠ '[' ∧ c ≠ ']' ∧ c ≠ 'N' := by
  intro c hc
  obtain ⟨v, _, hv⟩ := List.mem_flatMap.mp hc
  rcases List.mem_cons.mp hv with rfl | h
  · decide
  · exact plain_decI v c h

theorem scan1_row (row : Row) (i start : Nat) (mp : Int) (r : List Char) :
    ∃ s', scan1 i 0 start false mp (row.text ++ ['N'] ++ r) = scan1 (i + (row.text ++ ['N']).length) 0 s' false (mp - 1) r := by
  have e : row.text ++ ['N'] ++ r = row.pre.flatMap (fun v => decI v ++ [' ']) ++ ('[' :: (decI row.mid ++ (']' ::
      (row.post.flatMap (fun v => ' ' :: decI v) ++ ('N' :: r))))) := by simp [Row.text]
  rw [e, scan1_plain 0 start false mp _ _ i (plain_pre _), scan1, if_pos rfl, if_pos rfl, scan1_plain _ _ _ _ _ _ _ (plain_decI _), scan1,
    if_neg (by decide), if_pos rfl, if_neg (by simp), scan1_plain _ _ _ _ _ _ _ (plain_post _), scan1, if_neg (by decide), if_neg (by decide), if_pos rfl]
  have h0 : (0 : Int) + 1 - 1 = 0 := by decide
  rw [h0]
  refine ⟨i + (row.pre.flatMap (fun v => decI v ++ [' '])).length, ?_⟩
  congr 1
  simp only [Row.text, List.length_append, List.length_cons, List.length_nil]; omega

theorem scan1_rows : ∀ (rows : List Row) (i start : Nat) (mp : Int) (r : List Char),
    ∃ s', scan1 i 0 start false mp (rows.flatMap (fun r => r.text ++ ['N']) ++ r) =
      scan1 (i + (rows.flatMap (fun r => r.text ++ ['N'])).length) 0 s' false (mp - rows.length) r
  | [], i, start, mp, r => ⟨start, by simp⟩
  | x :: t, i, start, mp, r => by
    rw [List.flatMap_cons, List.append_assoc]
    obtain ⟨s1, h1⟩ := scan1_row x i start mp (t.flatMap (fun r => r.text ++ ['N']) ++ r)
    obtain ⟨s2, h2⟩ := scan1_rows t (i + (x.text ++ ['N']).length) s1 (mp - 1) r
    refine ⟨s2, ?_⟩
    rw [h1, h2]
    congr 1
    · simp only [List.length_append]; omega
    · simp only [List.length_cons]; push_cast; omega

/-! ### The main loop -/

/-- Recording coefficients one after the other, with room for `cap` of them. -/
def fill (cap : Nat) : List Mono → List Mono → Res (List Mono)
  | acc, [] => .ok acc
  | acc, x :: t => if acc.length < cap then fill cap (if x.coeff ≠ 0 then acc ++ [x] else acc) t else .error .ub

theorem fill_append (cap : Nat) : ∀ (a b acc : List Mono), fill cap acc (a ++ b) = (fill cap acc a >>= fun acc => fill cap acc b)
  | [], b, acc => by rw [List.nil_append, fill, ok_bind]
  | x :: t, b, acc => by
    rw [List.cons_append, fill, fill]
    split
    · exact fill_append cap t b _
    · rfl

theorem fill_ok (cap : Nat) : ∀ (xs acc : List Mono), acc.length + (xs.filter (fun x => x.coeff ≠ 0)).length < cap →
    fill cap acc xs = .ok (acc ++ xs.filter (fun x => x.coeff ≠ 0))
  | [], acc, _ => by simp [fill]
  | x :: t, acc, h => by
    rw [fill, if_pos (by omega)]
    by_cases q : x.coeff = 0
    · rw [List.filter_cons_of_neg (by simp [q])] at h ⊢
      rw [if_neg (by simp [q])]
      exact fill_ok cap t acc h
    · rw [List.filter_cons_of_pos (by simp [q])] at h ⊢
      rw [if_pos q, fill_ok cap t (acc ++ [x]) (by rw [List.length_append, List.length_singleton]; rw [List.length_cons] at h; omega)]
      simp

theorem fill_ub (cap : Nat) : ∀ (xs acc : List Mono), acc.length ≤ cap → cap < acc.length + (xs.filter (fun x => x.coeff ≠ 0)).length →
    fill cap acc xs = .error .ub
  | [], acc, h1, h2 => by simp at h2; omega
  | x :: t, acc, h1, h2 => by
    rw [fill]
    split
    · by_cases q : x.coeff = 0
      · rw [List.filter_cons_of_neg (by simp [q])] at h2
        rw [if_neg (by simp [q])]
        exact fill_ub cap t acc h1 h2
      · rw [List.filter_cons_of_pos (by simp [q]), List.length_cons] at h2
        rw [if_pos q]
        exact fill_ub cap t _ (by rw [List.length_append, List.length_singleton]; omega)
          (by rw [List.length_append, List.length_singleton]; omega)
    · rfl

theorem readL_skip (cap : Nat) (mp lp : Int) (acc : List Mono) {d : Char} (hd : special d = true) (r : List Char) :
    ∀ w : List Char, (∀ c ∈ w, special c = false) → readL cap true mp lp acc (w ++ d :: r) = readL cap false mp lp acc (d :: r)
  | [], _ => by
    rw [List.nil_append, readL, readL, if_neg (by simp [hd] : ¬ (true = true ∧ special d = false)),
      if_neg (by simp : ¬ (false = true ∧ special d = false))]
  | c :: w, h => by
    rw [List.cons_append, readL, if_pos ⟨rfl, h c (by simp)⟩]
    exact readL_skip cap mp lp acc hd r w fun c hc => h c (by simp [hc])

theorem readL_num (cap : Nat) (mp lp : Int) (acc : List Mono) {v : Int} (hv : v.natAbs ≤ intMax) {d : Char} (hd : special d = true) (r : List Char) :
    readL cap false mp lp acc (decI v ++ d :: r) = (fill cap acc [⟨v, lp, mp⟩] >>= fun acc => readL cap false mp (lp + 1) acc (d :: r)) := by
  have hs := scanD_decI hv (special_noDig hd r)
  obtain ⟨c, w, hw⟩ := decI_cons v
  have hc := decI_chars v
  have hsp := decI_special v
  rw [hw] at hs hc hsp ⊢
  obtain ⟨h1, h2, h3, h4, _⟩ := hc c (by simp)
  rw [List.cons_append] at hs ⊢
  rw [readL, if_neg (by simp), if_neg h4, if_neg (by simp [h1, h2, h3]), hs]
  simp only
  rw [fill]
  by_cases q : acc.length < cap
  · rw [if_pos q, if_pos q, readL_skip cap mp (lp + 1) _ hd r w (fun c hc => hsp c (by simp [hc])), fill, ok_bind]
  · rw [if_neg q, if_neg q, error_bind]

theorem readL_gap (cap : Nat) (mp lp : Int) (acc : List Mono) {d : Char} (hd : isSpace d = true ∨ d = ']' ∨ d = '[') (r : List Char) :
    readL cap false mp lp acc (d :: r) = readL cap false mp lp acc r := by
  have : d ≠ 'N' := by rintro rfl; revert hd; decide
  rw [readL, if_neg (by simp), if_neg this, if_pos hd]

theorem bind_assoc' {α β γ : Type} (x : Res α) (f : α → Res β) (g : β → Res γ) : ((x >>= f) >>= g) = (x >>= fun a => f a >>= g) := by
  cases x <;> rfl

theorem readL_pre (cap : Nat) (mp : Int) (r : List Char) : ∀ (pre : List Int) (lp : Int) (acc : List Mono), (∀ v ∈ pre, v.natAbs ≤ intMax) →
    readL cap false mp lp acc (pre.flatMap (fun v => decI v ++ [' ']) ++ r) =
      (fill cap acc (coefs mp lp pre) >>= fun acc => readL cap false mp (lp + pre.length) acc r)
  | [], lp, acc, _ => by rw [coefs, fill, ok_bind]; simp
  | v :: t, lp, acc, h => by
    have e : (v :: t).flatMap (fun v => decI v ++ [' ']) ++ r = decI v ++ ' ' :: (t.flatMap (fun v => decI v ++ [' ']) ++ r) := by simp
    have e2 : coefs mp lp (v :: t) = [⟨v, lp, mp⟩] ++ coefs mp (lp + 1) t := rfl
    rw [e, readL_num cap mp lp acc (h v (by simp)) (by decide), e2, fill_append, bind_assoc']
    congr 1
    funext acc'
    rw [readL_gap cap mp (lp + 1) acc' (Or.inl (by decide)), readL_pre cap mp r t (lp + 1) acc' (fun u hu => h u (by simp [hu]))]
    congr 1
    funext acc''
    congr 1
    rw [List.length_cons]; push_cast; omega

theorem readL_post (cap : Nat) (mp : Int) {d : Char} (hd : special d = true) (r : List Char) : ∀ (post : List Int) (lp : Int) (acc : List Mono),
    (∀ v ∈ post, v.natAbs ≤ intMax) →
    readL cap false mp lp acc (post.flatMap (fun v => ' ' :: decI v) ++ d :: r) =
      (fill cap acc (coefs mp lp post) >>= fun acc => readL cap false mp (lp + post.length) acc (d :: r))
  | [], lp, acc, _ => by rw [coefs, fill, ok_bind]; simp
  | v :: t, lp, acc, h => by
    have e : (v :: t).flatMap (fun v => ' ' :: decI v) ++ d :: r = ' ' :: (decI v ++ (t.flatMap (fun v => ' ' :: decI v) ++ d :: r)) := by simp
    have e2 : coefs mp lp (v :: t) = [⟨v, lp, mp⟩] ++ coefs mp (lp + 1) t := rfl
    obtain ⟨d', r', h1, h2⟩ : ∃ d' r', t.flatMap (fun v => ' ' :: decI v) ++ d :: r = d' :: r' ∧ special d' = true := by
      cases t with
      | nil => exact ⟨d, r, rfl, hd⟩
      | cons u t => exact ⟨' ', _, by rw [List.flatMap_cons]; rfl, by decide⟩
    rw [e, readL_gap cap mp lp acc (Or.inl (by decide)), h1, readL_num cap mp lp acc (h v (by simp)) h2, e2, fill_append, bind_assoc', ← h1]
    congr 1
    funext acc'
    rw [readL_post cap mp hd r t (lp + 1) acc' (fun u hu => h u (by simp [hu]))]
    congr 1
    funext acc''
    congr 1
    rw [List.length_cons]; push_cast; omega

theorem coefs_append (m : Int) : ∀ (a b : List Int) (l : Int), coefs m l (a ++ b) = coefs m l a ++ coefs m (l + a.length) b
  | [], b, l => by simp [coefs]
  | v :: t, b, l => by
    rw [List.cons_append, coefs, coefs, coefs_append m t b, List.cons_append, List.length_cons]
    have : l + 1 + (t.length : Int) = l + ((t.length + 1 : Nat) : Int) := by push_cast; omega
    rw [this]

/-- One row, between characters that are skipped. -/
theorem readL_row (cap : Nat) (mp : Int) (acc : List Mono) (row : Row) (hrow : row.Ok) (lead trail r : List Char) (hl : lead = [] ∨ lead = [' '])
    (ht : trail = [] ∨ trail = [' '] ∨ trail = [']']) :
    readL cap false mp (-(row.pre.length : Int)) acc (lead ++ (row.text ++ (trail ++ 'N' :: r))) =
      (fill cap acc (coefs mp (-(row.pre.length : Int)) (row.pre ++ row.mid :: row.post)) >>= fun acc =>
        readL cap false (mp + 1) (initL false 0 r) acc r) := by
  have e0 : readL cap false mp (-(row.pre.length : Int)) acc (lead ++ (row.text ++ (trail ++ 'N' :: r))) =
      readL cap false mp (-(row.pre.length : Int)) acc (row.text ++ (trail ++ 'N' :: r)) := by
    rcases hl with rfl | rfl
    · rfl
    · exact readL_gap cap mp _ acc (Or.inl (by decide)) _
  obtain ⟨d, r', h1, h2⟩ : ∃ d r', trail ++ 'N' :: r = d :: r' ∧ special d = true := by
    rcases ht with rfl | rfl | rfl
    · exact ⟨'N', r, rfl, by decide⟩
    · exact ⟨' ', 'N' :: r, rfl, by decide⟩
    · exact ⟨']', 'N' :: r, rfl, by decide⟩
  have e1 : row.text ++ (trail ++ 'N' :: r) = row.pre.flatMap (fun v => decI v ++ [' ']) ++ ('[' :: (decI row.mid ++ ']' ::
      (row.post.flatMap (fun v => ' ' :: decI v) ++ d :: r'))) := by rw [h1]; simp [Row.text]
  have fin : ∀ lp acc, readL cap false mp lp acc (d :: r') = readL cap false (mp + 1) (initL false 0 r) acc r := by
    intro lp acc
    rw [← h1]
    have hN : readL cap false mp lp acc ('N' :: r) = readL cap false (mp + 1) (initL false 0 r) acc r := by
      rw [readL, if_neg (by simp), if_pos rfl]
    rcases ht with rfl | rfl | rfl
    · exact hN
    · rw [← hN]; exact readL_gap cap mp lp acc (Or.inl (by decide)) _
    · rw [← hN]; exact readL_gap cap mp lp acc (Or.inr (Or.inl rfl)) _
  have e2 : coefs mp (-(row.pre.length : Int)) (row.pre ++ row.mid :: row.post) =
      coefs mp (-(row.pre.length : Int)) row.pre ++ ([⟨row.mid, -(row.pre.length : Int) + row.pre.length, mp⟩] ++
        coefs mp (-(row.pre.length : Int) + row.pre.length + 1) row.post) := by
    rw [coefs_append]; rfl
  rw [e0, e1, readL_pre cap mp _ row.pre _ acc (fun v hv => hrow v (by simp [hv])), e2, fill_append, bind_assoc']
  congr 1
  funext acc1
  rw [readL_gap cap mp _ acc1 (Or.inr (Or.inr rfl)), readL_num cap mp _ acc1 (hrow row.mid (by simp)) (by decide), fill_append, bind_assoc']
  congr 1
  funext acc2
  rw [readL_gap cap mp _ acc2 (Or.inr (Or.inl rfl)), readL_post cap mp h2 r' row.post _ acc2 (fun v hv => hrow v (by simp [hv]))]
  congr 1
  funext acc3
  exact fin _ _

theorem initL_row (row : Row) (lead r : List Char) (hl : lead = [] ∨ lead = [' ']) : initL false 0 (lead ++ (row.text ++ r)) = -(row.pre.length : Int) := by
  have e : initL false 0 (lead ++ (row.text ++ r)) = initL false 0 (row.text ++ r) := by
    rcases hl with rfl | rfl
    · rfl
    · show initL false 0 (' ' :: (row.text ++ r)) = _
      rw [initL, if_neg (by decide), if_pos (by decide)]
  have e1 : row.text ++ r = row.pre.flatMap (fun v => decI v ++ [' ']) ++ ('[' :: (decI row.mid ++ ']' ::
      (row.post.flatMap (fun v => ' ' :: decI v) ++ r))) := by simp [Row.text]
  rw [e, e1, initL_pre]; omega

/-- Rows, each with what is skipped before and after it. -/
theorem readL_rows (cap : Nat) (fin : Bool) : ∀ (rows : List (List Char × Row × List Char)) (mp : Int) (acc : List Mono),
    (∀ x ∈ rows, (x.1 = [] ∨ x.1 = [' ']) ∧ x.2.1.Ok ∧ (x.2.2 = [] ∨ x.2.2 = [' '] ∨ x.2.2 = [']'])) →
    readL cap false mp (initL false 0 (rows.flatMap (fun x => x.1 ++ (x.2.1.text ++ (x.2.2 ++ ['N']))) ++ if fin then [' '] else [])) acc
        (rows.flatMap (fun x => x.1 ++ (x.2.1.text ++ (x.2.2 ++ ['N']))) ++ if fin then [' '] else []) =
      fill cap acc (allCoefs mp (rows.map (fun x => x.2.1)))
  | [], mp, acc, _ => by
    rw [List.map_nil, allCoefs, fill, List.flatMap_nil, List.nil_append]
    cases fin
    · simp [readL]
    · simp only [if_true]
      rw [readL_gap cap mp _ acc (Or.inl (by decide))]
      simp [readL]
  | x :: t, mp, acc, h => by
    obtain ⟨h1, h2, h3⟩ := h x (by simp)
    have e : (x :: t).flatMap (fun x => x.1 ++ (x.2.1.text ++ (x.2.2 ++ ['N']))) ++ (if fin then [' '] else []) =
        x.1 ++ (x.2.1.text ++ (x.2.2 ++ 'N' :: (t.flatMap (fun x => x.1 ++ (x.2.1.text ++ (x.2.2 ++ ['N']))) ++ if fin then [' '] else []))) := by simp
    rw [e, initL_row x.2.1 x.1 _ h1, readL_row cap mp acc x.2.1 h2 x.1 x.2.2 _ h1 h3, List.map_cons, allCoefs, fill_append]
    congr 1
    funext acc'
    exact readL_rows cap fin t (mp + 1) acc' fun y hy => h y (by simp [hy])

/-! ### The whole -/

theorem blank_at (a t : List Char) (c : Char) : blank (a ++ c :: t) a.length = a ++ ' ' :: t := by
  unfold blank
  rw [if_pos (by simp), List.set_append_right _ _ (le_refl _)]
  simp

/-- What follows the row of `m^0` after the brackets have been taken off. -/
def trail0 (r0 : Row) : List Char := if r0.post = [] then [' '] else [']']

theorem prepared (before : List Row) (r0 : Row) (after : List Row) (fin : Bool) :
    let q := scan1 0 0 0 false 0 (lmText before r0 after fin)
    q.1 = true ∧ q.2.2.2 = -(before.length : Int) ∧
    blank (blank (lmText before r0 after fin) q.2.1) q.2.2.1 =
      ((before.map (fun r => (([] : List Char), r, ([] : List Char)))) ++ ([' '], r0, trail0 r0) :: (after.map (fun r => (([] : List Char), r, ([] : List Char))))).flatMap
        (fun x => x.1 ++ (x.2.1.text ++ (x.2.2 ++ ['N']))) ++ (if fin then [' '] else []) := by
  set A := before.flatMap (fun r => r.text ++ ['N']) with hA
  set Z := after.flatMap (fun r => r.text ++ ['N']) ++ (if fin then [' '] else []) with hZ
  set P := r0.pre.flatMap (fun v => decI v ++ [' ']) with hP
  set S := r0.post.flatMap (fun v => ' ' :: decI v) with hS
  have et : lmText before r0 after fin = A ++ ('[' :: (P ++ ('[' :: (decI r0.mid ++ (']' :: (S ++ (']' :: 'N' :: Z))))))) := by
    simp [lmText, Row.text, hA, hZ, hP, hS]
  obtain ⟨s1, h1⟩ := scan1_rows before 0 0 0 ('[' :: (P ++ ('[' :: (decI r0.mid ++ (']' :: (S ++ (']' :: 'N' :: Z)))))))
  have hscan : scan1 0 0 0 false 0 (lmText before r0 after fin) =
      (true, A.length, A.length + 1 + P.length + 1 + (decI r0.mid).length + 1, -(before.length : Int)) := by
    rw [et, h1, ← hA, scan1, if_pos rfl, if_pos rfl, scan1_plain _ _ _ _ _ _ _ (plain_pre _), scan1, if_pos rfl, if_neg (by decide),
      scan1_plain _ _ _ _ _ _ _ (plain_decI _), scan1, if_neg (by decide), if_pos rfl, if_pos ⟨rfl, by decide⟩]
    simp [hP]
  simp only [hscan]
  refine ⟨trivial, trivial, ?_⟩
  have b1 : blank (lmText before r0 after fin) A.length = A ++ (' ' :: (P ++ ('[' :: (decI r0.mid ++ (']' :: (S ++ (']' :: 'N' :: Z))))))) := by
    rw [et]; exact blank_at _ _ _
  rw [b1]
  have goal2 : ((before.map (fun r => (([] : List Char), r, ([] : List Char)))) ++ ([' '], r0, trail0 r0) :: (after.map (fun r => (([] : List Char), r, ([] : List Char))))).flatMap
        (fun x => x.1 ++ (x.2.1.text ++ (x.2.2 ++ ['N']))) ++ (if fin then [' '] else []) =
      A ++ (' ' :: (P ++ ('[' :: (decI r0.mid ++ (']' :: (S ++ (trail0 r0 ++ 'N' :: Z))))))) := by
    simp [List.flatMap_append, List.flatMap_map, Row.text, hA, hZ, hP, hS]
  rw [goal2]
  set B := A ++ (' ' :: (P ++ ('[' :: (decI r0.mid ++ [']'])))) with hB
  have hBl : A.length + 1 + P.length + 1 + (decI r0.mid).length + 1 = B.length := by rw [hB]; simp; omega
  rw [hBl]
  cases hpost : r0.post with
  | nil =>
    have hS0 : S = [] := by rw [hS, hpost]; rfl
    have ht0 : trail0 r0 = [' '] := by unfold trail0; rw [if_pos hpost]
    rw [hS0, ht0]
    have := blank_at B ('N' :: Z) ']'
    rw [hB] at this ⊢
    simpa using this
  | cons v t =>
    have hS0 : S = ' ' :: (decI v ++ t.flatMap (fun v => ' ' :: decI v)) := by rw [hS, hpost]; simp
    have ht0 : trail0 r0 = [']'] := by unfold trail0; rw [if_neg (by rw [hpost]; simp)]
    rw [hS0, ht0]
    have := blank_at B (decI v ++ (t.flatMap (fun v => ' ' :: decI v) ++ (']' :: 'N' :: Z))) ' '
    rw [hB] at this ⊢
    simpa using this

theorem count_decI (v : Int) : (decI v).count ' ' = 0 := List.count_eq_zero.mpr fun h => (decI_chars v ' ' h).2.2.2.2 rfl

theorem count_pre : ∀ l : List Int, (l.flatMap (fun v => decI v ++ [' '])).count ' ' = l.length
  | [] => rfl
  | v :: t => by rw [List.flatMap_cons, List.count_append, List.count_append, count_decI, count_pre t, List.length_cons]; simp; omega

theorem count_post : ∀ l : List Int, (l.flatMap (fun v => ' ' :: decI v)).count ' ' = l.length
  | [] => rfl
  | v :: t => by rw [List.flatMap_cons, List.count_append, List.count_cons, count_decI, count_post t, List.length_cons]; simp; omega

theorem count_row (r : Row) : r.text.count ' ' = r.pre.length + r.post.length := by
  unfold Row.text
  rw [List.count_append, count_pre, List.count_cons, List.count_append, count_decI, List.count_cons, count_post]
  simp

theorem count_rows : ∀ rows : List Row, ((rows.map (fun r => (([] : List Char), r, ([] : List Char)))).flatMap
    (fun x => x.1 ++ (x.2.1.text ++ (x.2.2 ++ ['N'])))).count ' ' = (rows.map (fun r => r.pre.length + r.post.length)).sum
  | [] => rfl
  | r :: t => by
    rw [List.map_cons, List.flatMap_cons, List.count_append, count_rows t, List.map_cons, List.sum_cons]
    simp [List.count_append, count_row]

theorem ofLmpoly_eq (Q : QSort) (before : List Row) (r0 : Row) (after : List Row) (fin : Bool) (hok : ∀ r ∈ before ++ r0 :: after, r.Ok) :
    ofLmpoly Q (lmText before r0 after fin) =
      (fill (room before r0 after fin) [] (allCoefs (-(before.length : Int)) (before ++ r0 :: after)) >>= fun acc => .ok (Q.sort mle acc)) := by
  obtain ⟨h1, h2, h3⟩ := prepared before r0 after fin
  unfold ofLmpoly
  simp only
  rw [h1, if_pos rfl, h2, h3]
  set rows := (before.map (fun r => (([] : List Char), r, ([] : List Char)))) ++ ([' '], r0, trail0 r0) :: (after.map (fun r => (([] : List Char), r, ([] : List Char)))) with hrows
  have hm : rows.map (fun x => x.2.1) = before ++ r0 :: after := by
    rw [hrows]; simp [Function.comp_def]
  have hc : (rows.flatMap (fun x => x.1 ++ (x.2.1.text ++ (x.2.2 ++ ['N']))) ++ (if fin then [' '] else [])).count ' ' = room before r0 after fin := by
    rw [hrows, List.flatMap_append, List.flatMap_cons, List.count_append, List.count_append, List.count_append, count_rows, count_rows]
    unfold room trail0
    by_cases q : r0.post = [] <;> cases fin <;> simp [List.count_append, count_row, q] <;> omega
  rw [hc, readL_rows _ fin rows _ [] ?_, hm]
  intro x hx
  rw [hrows] at hx
  rcases List.mem_append.mp hx with hx | hx
  · obtain ⟨r, hr, rfl⟩ := List.mem_map.mp hx
    exact ⟨Or.inl rfl, hok r (by simp [hr]), Or.inl rfl⟩
  · rcases List.mem_cons.mp hx with rfl | hx
    · refine ⟨Or.inr rfl, hok r0 (by simp), ?_⟩
      show trail0 r0 = [] ∨ trail0 r0 = [' '] ∨ trail0 r0 = [']']
      unfold trail0; split
      · right; left; rfl
      · right; right; rfl
    · obtain ⟨r, hr, rfl⟩ := List.mem_map.mp hx
      exact ⟨Or.inl rfl, hok r (by simp [hr]), Or.inl rfl⟩

/-- **C103**: from the text of any rows `lmpoly_to_polynomial` makes the monomials that the rows stand for, all coefficients other than 0 with the right
powers, in increasing order of the powers of `l`, then `m`, if there are fewer of them than spaces. -/
theorem C103_read (Q : QSort) (before : List Row) (r0 : Row) (after : List Row) (fin : Bool) (hok : ∀ r ∈ before ++ r0 :: after, r.Ok)
    (hroom : (meant before r0 after).length < room before r0 after fin) :
    ∃ p, ofLmpoly Q (lmText before r0 after fin) = .ok p ∧ p.Perm (meant before r0 after) ∧ 
      p.Pairwise (fun a b => a.l < b.l ∨ (a.l = b.l ∧ (a.m < b.m ∨ (a.m = b.m ∧ a.coeff ≤ b.coeff)))) := by
  refine ⟨Q.sort mle (meant before r0 after), ?_, Q.perm _ _, ?_⟩
  · rw [ofLmpoly_eq Q before r0 after fin hok, fill_ok _ _ _ (by simpa [meant] using hroom), ok_bind]
    rfl
  · exact (sort_sorted Q _).imp fun h => (mle_iff _ _).mp h

/-- **C103 (refuted without the condition)**: with more monomials than spaces the function writes outside its buffer. -/
theorem C103_overrun (Q : QSort) (before : List Row) (r0 : Row) (after : List Row) (fin : Bool) (hok : ∀ r ∈ before ++ r0 :: after, r.Ok)
    (hroom : room before r0 after fin < (meant before r0 after).length) :
    ofLmpoly Q (lmText before r0 after fin) = .error .ub := by
  rw [ofLmpoly_eq Q before r0 after fin hok, fill_ub _ _ _ (by simp) (by simpa [meant] using hroom), error_bind]

/-- The trefoil, as in the comment of the code (80). -/
def trefoilRows : Row × List Row := (⟨[-1, 0, -2, 0], 0, []⟩, [⟨[], 0, []⟩, ⟨[1, 0], 0, []⟩])

example : lmText [] trefoilRows.1 trefoilRows.2 false = str "[-1 0 -2 0 [0]]N[0]N1 0 [0]N" := by decide

example : meant [] trefoilRows.1 trefoilRows.2 = [⟨-1, -4, 0⟩, ⟨-2, -2, 0⟩, ⟨1, -2, 2⟩] ∧ room [] trefoilRows.1 trefoilRows.2 false = 8 := by decide

example : ∀ r ∈ [] ++ trefoilRows.1 :: trefoilRows.2, r.Ok := by
  simp [trefoilRows, Row.Ok, intMax]
  intro v; omega

/-- Three rows of one number each. -/
example (Q : QSort) : ofLmpoly Q (str "[[1]]N[1]N[1]N") = .error .ub := by
  have := C103_overrun Q [] ⟨[], 1, []⟩ [⟨[], 1, []⟩, ⟨[], 1, []⟩] false (by simp [Row.Ok, intMax]) (by decide)
  rwa [show lmText [] ⟨[], 1, []⟩ [⟨[], 1, []⟩, ⟨[], 1, []⟩] false = str "[[1]]N[1]N[1]N" by decide] at this

end Plc.Poly
