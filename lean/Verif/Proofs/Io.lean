import Verif.Model.Io
import Verif.Proofs.Basic
import Mathlib.Tactic.IntervalCases
import Mathlib.Data.List.TakeWhile

/-! Lemmas on printing and scanning. -/

namespace Plc.Io

open Plc.Cmp

theorem digit_toNat : ∀ d, d < 10 → (Char.ofNat (48 + d)).toNat = 48 + d := by decide

theorem digit_isDig (d : Nat) (h : d < 10) : isDig (Char.ofNat (48 + d)) = true := by
  simp only [isDig, digit_toNat d h]
  simp
  omega

theorem digitsF_append (r : List Char) : ∀ (f n : Nat) (acc : List Char),
    digitsF f n acc ++ r = digitsF f n (acc ++ r) := by
  intro f
  induction f with
  | zero => intro n acc; rfl
  | succ f ih =>
    intro n acc
    unfold digitsF
    split
    · rfl
    · rw [ih]; rfl

theorem dec_append (n : Nat) (r : List Char) : dec n ++ r = digitsF (n + 1) n r := by
  unfold dec
  rw [digitsF_append]
  rfl

theorem digitsF_head : ∀ (f n : Nat) (acc : List Char), 0 < f → ∃ c t, digitsF f n acc = c :: t ∧ isDig c = true := by
  intro f
  induction f with
  | zero => intro n acc h; omega
  | succ f ih =>
    intro n acc _
    unfold digitsF
    split
    · exact ⟨_, _, rfl, digit_isDig _ (Nat.mod_lt _ (by omega))⟩
    · by_cases hf : f = 0
      · subst hf
        exact ⟨_, _, rfl, digit_isDig _ (Nat.mod_lt _ (by omega))⟩
      · exact ih _ _ (by omega)

theorem readDigits_digitsF : ∀ (f n : Nat) (acc : List Char), n < f →
    readDigits 0 (digitsF f n acc) = readDigits n acc := by
  intro f
  induction f with
  | zero => intro n acc h; omega
  | succ f ih =>
    intro n acc h
    have hd : n % 10 < 10 := Nat.mod_lt _ (by omega)
    unfold digitsF
    split
    · rw [readDigits, if_pos (digit_isDig _ hd), digit_toNat _ hd]
      congr 1
      omega
    · rw [ih _ _ (by omega), readDigits, if_pos (digit_isDig _ hd), digit_toNat _ hd]
      congr 1
      omega

/-- The text does not go on with a digit. -/
def NoDig (r : List Char) : Prop := ∀ c t, r = c :: t → isDig c = false

theorem readDigits_stop (n : Nat) {r : List Char} (h : NoDig r) : readDigits n r = (n, r) := by
  cases r with
  | nil => rfl
  | cons c t =>
    rw [readDigits, h c t rfl]
    rfl

theorem scanNum_dec {n : Nat} {r : List Char} (hn : n ≤ ulongMax) (h : NoDig r) : scanNum (dec n ++ r) = some (n, r) := by
  rw [dec_append]
  obtain ⟨c, t, h1, h2⟩ := digitsF_head (n + 1) n r (by omega)
  have h3 := readDigits_digitsF (n + 1) n r (by omega)
  rw [h1] at h3 ⊢
  rw [scanNum, if_pos h2, h3, readDigits_stop n h]
  simp [Nat.min_eq_left hn]

theorem isDig_plain {c : Char} (h : isDig c = true) : isSpace c = false ∧ c ≠ '+' ∧ c ≠ '-' := by
  refine ⟨?_, ?_, ?_⟩
  · by_contra hc
    simp only [isSpace, Bool.not_eq_false, Bool.or_eq_true, decide_eq_true_eq] at hc
    simp only [isDig, Bool.and_eq_true, decide_eq_true_eq] at h
    rcases hc with ((((rfl | rfl) | rfl) | rfl) | hc) | hc
    · exact absurd h (by decide)
    · exact absurd h (by decide)
    · exact absurd h (by decide)
    · exact absurd h (by decide)
    · omega
    · omega
  · rintro rfl; exact absurd h (by decide)
  · rintro rfl; exact absurd h (by decide)

/-- Text that starts with neither white space nor a sign. -/
def Plain (r : List Char) : Prop := ∃ c t, r = c :: t ∧ isSpace c = false ∧ c ≠ '+' ∧ c ≠ '-'

theorem plain_dec (n : Nat) (r : List Char) : Plain (dec n ++ r) := by
  rw [dec_append]
  obtain ⟨c, t, h1, h2⟩ := digitsF_head (n + 1) n r (by omega)
  exact ⟨c, t, h1, isDig_plain h2⟩

theorem skip_cons {c : Char} (t : List Char) (h : isSpace c = false) : skip (c :: t) = c :: t := by
  simp [skip, h]

theorem skip_space {c : Char} (t : List Char) (h : isSpace c = true) : skip (c :: t) = skip t := by
  simp [skip, h]

theorem Plain.skip {r : List Char} (h : Plain r) : skip r = r := by
  obtain ⟨c, t, rfl, h1, _⟩ := h
  exact skip_cons t h1

theorem skip_skip (r : List Char) : skip (skip r) = skip r := by
  induction r with
  | nil => rfl
  | cons c t ih =>
    cases h : isSpace c with
    | true => rw [skip_space _ h, ih]
    | false => rw [skip_cons _ h, skip_cons _ h]

theorem skip_dec (n : Nat) (r : List Char) : skip (dec n ++ r) = dec n ++ r := (plain_dec n r).skip

theorem scanLu_dec {n : Nat} {r : List Char} (hn : n ≤ ulongMax) (h : NoDig r) : scanLu (dec n ++ r) = some (n, r) := by
  rw [← scanNum_dec hn h]
  unfold scanLu
  rw [skip_dec]
  obtain ⟨c, t, h1, _, h3, h4⟩ := plain_dec n r
  rw [h1]
  split
  · next h => simp at h; exact absurd h.1 h3
  · next h => simp at h; exact absurd h.1 h4
  · rfl

theorem noDig_cons {c : Char} {r : List Char} (h : isDig c = false) : NoDig (c :: r) := by
  intro d t he
  simp at he
  rw [← he.1]
  exact h

@[simp] theorem scanf_ws (f : List Dir) (inp : List Char) : scanf (.ws :: f) inp = scanf f (skip inp) := rfl

@[simp] theorem scanf_nil (inp : List Char) : scanf [] inp = ([], inp) := rfl

@[simp] theorem scanf_lit (c : Char) (f : List Dir) (r : List Char) : scanf (.lit c :: f) (c :: r) = scanf f r := by
  rw [scanf]
  simp

theorem scanf_lu {n : Nat} {r : List Char} (f : List Dir) (hn : n ≤ ulongMax) (h : NoDig r) :
    scanf (.lu :: f) (dec n ++ r) = (.num n :: (scanf f r).1, (scanf f r).2) := by
  rw [scanf, scanLu_dec hn h]

/-- `" %lu "` -/
theorem scan1_num {n : Nat} {inp r : List Char} (hn : n ≤ ulongMax) (h : skip inp = dec n ++ ' ' :: r) :
    scan1 fNum inp = .ok (some (n, skip r)) := by
  have : scanf fNum inp = ([.num n], skip r) := by
    rw [fNum, scanf_ws, h, scanf_lu _ hn (noDig_cons (by decide))]
    simp only [scanf_ws, scanf_nil]
    rw [skip_space _ (by decide)]
  rw [scan1, this]

theorem bind_step {α β : Type} {x : P α} {f : α → P β} {inp r : List Char} {a : α} (h : x inp = .ok (some (a, r))) :
    (x >>= f) inp = f a r := by
  change P.bind x f inp = _
  rw [P.bind, h]

theorem pure_step {α : Type} (a : α) (inp : List Char) : (pure a : P α) inp = .ok (some (a, inp)) := rfl

theorem idx_lt {n : Nat} (h : n < 4294967296) : idx n = n := Nat.mod_eq_of_lt h

/-- The numbers of a crossing fit in 32 bits. -/
def SmallCross (c : Cross) : Prop :=
  c.e0 < 4294967296 ∧ c.e1 < 4294967296 ∧ c.e2 < 4294967296 ∧ c.e3 < 4294967296

theorem small_le {n : Nat} (h : n < 4294967296) : n ≤ ulongMax := by unfold ulongMax; omega

theorem plain_crosses (l : List Cross) {tail : List Char} (ht : Plain tail) : Plain (l.flatMap writeCross ++ tail) := by
  cases l with
  | nil => exact ht
  | cons c l =>
    rw [List.flatMap_cons, List.append_assoc]
    unfold writeCross
    simp only [List.append_assoc]
    exact plain_dec _ _

theorem readSign_plain {r : List Char} (h : Plain r) : readSign r = .ok (some (.unset, r)) := by
  obtain ⟨c, t, rfl, _, h2, h3⟩ := h
  unfold readSign
  split
  · next h => simp at h; exact absurd h.1 h2
  · next h => simp at h; exact absurd h.1 h3
  · rfl

/-- What is printed for the sign of a crossing. -/
def signText : Or → List Char
  | .pos => str "+"
  | .neg => str "-"
  | .unset => []

theorem readCrosses_ok {tail : List Char} (ht : Plain tail) : ∀ (l : List Cross) (inp : List Char),
    (∀ c ∈ l, SmallCross c) → skip inp = l.flatMap writeCross ++ tail →
    ∃ r, readCrosses l.length inp = .ok (some (l, r)) ∧ skip r = tail := by
  intro l
  induction l with
  | nil => intro inp _ h; exact ⟨inp, rfl, h⟩
  | cons c l ih =>
    intro inp hs h
    obtain ⟨s0, s1, s2, s3⟩ := hs c (by simp)
    obtain ⟨e0, e1, e2, e3, sg⟩ := c
    simp only at s0 s1 s2 s3
    have hp := plain_crosses l ht
    generalize hrest : l.flatMap writeCross ++ tail = rest at hp
    have h0 : skip inp = dec e0 ++ ' ' :: (dec e1 ++ ' ' :: (dec e2 ++ ' ' :: (dec e3 ++ ' ' ::
        (signText sg ++ '\n' :: rest)))) := by
      rw [h, List.flatMap_cons, List.append_assoc, hrest]
      cases sg <;> simp [writeCross, str, signText]
    rw [List.length_cons]
    unfold readCrosses
    rw [bind_step (scan1_num (small_le s0) h0), bind_step (scan1_num (small_le s1) (by rw [skip_skip, skip_dec])),
      bind_step (scan1_num (small_le s2) (by rw [skip_skip, skip_dec])),
      bind_step (scan1_num (small_le s3) (by rw [skip_skip, skip_dec]))]
    have hsign : ∃ r, readSign (skip (signText sg ++ '\n' :: rest)) =
        .ok (some (sg, r)) ∧ skip r = rest := by
      cases sg with
      | pos => exact ⟨'\n' :: rest, rfl, by rw [skip_space _ (by decide), hp.skip]⟩
      | neg => exact ⟨'\n' :: rest, rfl, by rw [skip_space _ (by decide), hp.skip]⟩
      | unset =>
        refine ⟨rest, ?_, hp.skip⟩
        rw [signText, List.nil_append, skip_space _ (by decide), hp.skip]
        exact readSign_plain hp
    obtain ⟨r, r1, r2⟩ := hsign
    rw [bind_step r1]
    obtain ⟨r', q1, q2⟩ := ih r (fun c hc => hs c (by simp [hc])) (by rw [r2, hrest])
    refine ⟨r', ?_, q2⟩
    rw [bind_step q1, pure_step, idx_lt s0, idx_lt s1, idx_lt s2, idx_lt s3]

/-- The numbers of an edge fit in 32 bits. -/
def SmallEdge (e : Edge) : Prop :=
  e.head < 4294967296 ∧ e.headpos < 4294967296 ∧ e.tail < 4294967296 ∧ e.tailpos < 4294967296

theorem readEdge_ok {e : Edge} {rest : List Char} (hs : SmallEdge e) (inp : List Char) (h : skip inp = writeEdge e ++ rest) :
    readEdge inp = .ok (some (e, skip rest)) := by
  obtain ⟨s0, s1, s2, s3⟩ := hs
  have h0 : skip inp = dec e.tail ++ ',' :: (dec e.tailpos ++ ' ' :: '-' :: '>' :: ' ' :: (dec e.head ++ ',' ::
      (dec e.headpos ++ ' ' :: '\n' :: rest))) := by
    rw [h]
    simp [writeEdge, str]
  have : scanf fEdge inp = ([.num e.tail, .num e.tailpos, .num e.head, .num e.headpos], skip rest) := by
    rw [fEdge, scanf_ws, h0, scanf_lu _ (small_le s2) (noDig_cons (by decide)), scanf_lit,
      scanf_lu _ (small_le s3) (noDig_cons (by decide)), scanf_ws, skip_space _ (by decide), skip_cons _ (by decide), scanf_lit,
      scanf_lit, scanf_ws, skip_space _ (by decide), skip_dec, scanf_lu _ (small_le s0) (noDig_cons (by decide)), scanf_lit,
      scanf_lu _ (small_le s1) (noDig_cons (by decide)), scanf_ws, skip_space _ (by decide), skip_space _ (by decide), scanf_nil]
  rw [readEdge, this]
  simp only [idx_lt s0, idx_lt s1, idx_lt s2, idx_lt s3]

theorem readEdges_ok {tail : List Char} : ∀ (l : List Edge) (inp : List Char),
    (∀ e ∈ l, SmallEdge e) → inp = skip (l.flatMap writeEdge ++ tail) →
    readEdges l.length inp = .ok (some (l, skip tail)) := by
  intro l
  induction l with
  | nil => intro inp _ h; rw [h]; rfl
  | cons e l ih =>
    intro inp hs h
    rw [List.length_cons]
    unfold readEdges
    have hsk : skip inp = writeEdge e ++ (l.flatMap writeEdge ++ tail) := by
      rw [h, skip_skip, List.flatMap_cons, List.append_assoc]
      unfold writeEdge
      simp only [List.append_assoc]
      rw [skip_dec]
    rw [bind_step (readEdge_ok (hs e (by simp)) inp hsk), bind_step (ih _ (fun e he => hs e (by simp [he])) rfl), pure_step]

theorem readNums_ok {tail : List Char} : ∀ (l : List Nat) (inp : List Char),
    (∀ e ∈ l, e < 4294967296) → inp = skip (writeNums l ++ tail) →
    readNums l.length inp = .ok (some (l, skip tail)) := by
  intro l
  induction l with
  | nil => intro inp _ h; rw [h]; rfl
  | cons e l ih =>
    intro inp hs h
    rw [List.length_cons]
    unfold readNums
    have he := hs e (by simp)
    have hsk : skip inp = dec e ++ ' ' :: (writeNums l ++ tail) := by
      rw [h, skip_skip, writeNums]
      simp only [List.append_assoc, str]
      exact skip_dec _ _
    rw [bind_step (scan1_num (small_le he) hsk), bind_step (ih _ (fun e he => hs e (by simp [he])) rfl), pure_step, idx_lt he]

theorem scan1_count {n : Nat} {inp r : List Char} (hn : n ≤ ulongMax) (h : skip inp = dec n ++ ' ' :: ':' :: ' ' :: r) :
    scan1 fCount inp = .ok (some (n, skip r)) := by
  have : scanf fCount inp = ([.num n], skip r) := by
    rw [fCount, scanf_ws, h, scanf_lu _ hn (noDig_cons (by decide)), scanf_ws, skip_space _ (by decide), skip_cons _ (by decide),
      scanf_lit, scanf_ws, skip_space _ (by decide), scanf_nil]
  rw [scan1, this]

theorem scan1_head {a b : Char} {s : String} (hs : s.toList = [a, b]) (ha : isSpace a = false) {n : Nat} {inp r : List Char}
    (hn : n ≤ ulongMax) (h : skip inp = a :: b :: ' ' :: (dec n ++ '\n' :: r)) :
    scan1 (fHead s) inp = .ok (some (n, skip r)) := by
  have hf : fHead s = [.ws, .lit a, .lit b, .ws, .lu, .ws] := by simp [fHead, lits, hs]
  have : scanf (fHead s) inp = ([.num n], skip r) := by
    rw [hf, scanf_ws, h, scanf_lit, scanf_lit, scanf_ws, skip_space _ (by decide), skip_dec,
      scanf_lu _ hn (noDig_cons (by decide)), scanf_ws, skip_space _ (by decide), scanf_nil]
  rw [scan1, this]

theorem readTag_ok {tag next : Nat} {inp rest : List Char} (ht : (Char.ofNat tag).toNat = tag) (hsp : isSpace (Char.ofNat tag) = false)
    (h : skip inp = 't' :: 'a' :: 'g' :: ' ' :: Char.ofNat tag :: '\n' :: rest) :
    readTag next inp = .ok (some ((tag, next), skip rest)) := by
  have hf : ([.ws] ++ lits "tag" ++ [.ws, .chr, .ws] : List Dir) = [.ws, .lit 't', .lit 'a', .lit 'g', .ws, .chr, .ws] := rfl
  have : scanf ([.ws] ++ lits "tag" ++ [.ws, .chr, .ws]) ('t' :: 'a' :: 'g' :: ' ' :: Char.ofNat tag :: '\n' :: rest) =
      ([.txt [Char.ofNat tag]], skip rest) := by
    rw [hf, scanf_ws, skip_cons _ (by decide), scanf_lit, scanf_lit, scanf_lit, scanf_ws, skip_space _ (by decide), skip_cons _ hsp]
    rw [scanf]
    simp only [scanf_ws, scanf_nil]
    rw [skip_space _ (by decide)]
  rw [readTag, h]
  simp only
  rw [this]
  simp only [ht]

/-- A component that can be written: numbers of 32 bits, a printable tag. -/
structure OkComp (maxedges : Nat) (c : Comp) : Prop where
  small : ∀ e ∈ c.edge, e < 4294967296
  len : c.edge.length ≤ maxedges
  tag : (Char.ofNat c.tag).toNat = c.tag
  print : isSpace (Char.ofNat c.tag) = false

theorem readComps_ok {maxedges : Nat} (hm : maxedges < 4294967296) {tail : List Char} : ∀ (l : List Comp) (next : Nat) (inp : List Char),
    (∀ c ∈ l, OkComp maxedges c) → inp = skip (l.flatMap writeComp ++ tail) →
    readComps maxedges l.length next inp = .ok (some (l, skip tail)) := by
  intro l
  induction l with
  | nil => intro next inp _ h; rw [h]; rfl
  | cons c l ih =>
    intro next inp hs h
    obtain ⟨c1, c2, c3, c4⟩ := hs c (by simp)
    rw [List.length_cons]
    unfold readComps
    have hsk : skip inp = dec c.edge.length ++ ' ' :: ':' :: ' ' :: (writeNums c.edge ++
        't' :: 'a' :: 'g' :: ' ' :: Char.ofNat c.tag :: '\n' :: (l.flatMap writeComp ++ tail)) := by
      rw [h, skip_skip, List.flatMap_cons, List.append_assoc]
      unfold writeComp
      simp only [List.append_assoc]
      rw [skip_dec]
      simp [str]
    rw [bind_step (scan1_count (small_le (by omega)) hsk), idx_lt (by omega), if_neg (by omega),
      bind_step (readNums_ok _ _ c1 rfl), bind_step (readTag_ok c3 c4 (by rw [skip_skip, skip_cons _ (by decide)]))]
    simp only
    rw [bind_step (ih _ _ (fun c hc => hs c (by simp [hc])) rfl), pure_step]

/-- A face that can be written. -/
structure OkFace (maxedges : Nat) (f : Face) : Prop where
  small : ∀ e ∈ f.edge, e < 4294967296
  len : f.edge.length ≤ maxedges
  olen : f.orient.length = f.edge.length
  set : ∀ o ∈ f.orient, o ≠ .unset

theorem readSigned1_ok {e : Nat} {o : Or} (ho : o ≠ .unset) (he : e < 4294967296) {inp rest : List Char}
    (h : skip inp = (if o = .pos then str "+ " else str "- ") ++ dec e ++ str " " ++ rest) :
    readSigned1 inp = .ok (some ((e, o), skip rest)) := by
  have key : ∀ (s : Char), (s = '+' ∨ s = '-') → skip inp = s :: ' ' :: (dec e ++ ' ' :: rest) →
      readSigned1 inp = .ok (some ((e, if [s] = ['+'] then .pos else .neg), skip rest)) := by
    intro s hs h0
    have h1 : scanf [.ws, .set 1 (fun c => c = '+' || c = '-'), .lit 's', .ws] inp = ([.txt [s]], ' ' :: (dec e ++ ' ' :: rest)) := by
      rw [scanf_ws, h0, scanf]
      have : takeSet (fun c => c = '+' || c = '-') 1 (s :: ' ' :: (dec e ++ ' ' :: rest)) = ([s], ' ' :: (dec e ++ ' ' :: rest)) := by
        rw [takeSet, if_pos (by rcases hs with rfl | rfl <;> decide)]
        rfl
      rw [this]
      simp only [List.cons_ne_nil, if_false]
      rw [scanf]
      simp
    have h2 : scanf fNum (' ' :: (dec e ++ ' ' :: rest)) = ([.num e], skip rest) := by
      rw [fNum, scanf_ws, skip_space _ (by decide), skip_dec, scanf_lu _ (small_le he) (noDig_cons (by decide)), scanf_ws,
        skip_space _ (by decide), scanf_nil]
    rw [readSigned1, h1]
    simp only
    rw [h2]
    simp only [idx_lt he]
  cases o with
  | unset => exact absurd rfl ho
  | pos => exact key '+' (.inl rfl) (by rw [h]; simp [str])
  | neg => exact key '-' (.inr rfl) (by rw [h]; simp [str])

theorem readSigned_ok {tail : List Char} : ∀ (l : List (Nat × Or)) (inp : List Char),
    (∀ p ∈ l, p.1 < 4294967296 ∧ p.2 ≠ .unset) → inp = skip (writeSigned l ++ tail) →
    readSigned l.length inp = .ok (some (l, skip tail)) := by
  intro l
  induction l with
  | nil => intro inp _ h; rw [h]; rfl
  | cons p l ih =>
    intro inp hs h
    obtain ⟨e, o⟩ := p
    obtain ⟨he, ho⟩ := hs (e, o) (by simp)
    rw [List.length_cons]
    unfold readSigned
    have hsk : skip inp = (if o = .pos then str "+ " else str "- ") ++ dec e ++ str " " ++ (writeSigned l ++ tail) := by
      rw [h, skip_skip, writeSigned]
      simp only [List.append_assoc]
      cases o <;> simp only [if_true, reduceCtorEq, if_false] <;> exact skip_cons _ (by decide)
    rw [bind_step (readSigned1_ok ho he hsk), bind_step (ih _ (fun p hp => hs p (by simp [hp])) rfl), pure_step]

theorem readFaces_ok {maxedges : Nat} (hm : maxedges < 4294967296) {tail : List Char} : ∀ (l : List Face) (inp : List Char),
    (∀ f ∈ l, OkFace maxedges f) → inp = skip (l.flatMap writeFace ++ tail) →
    readFaces maxedges l.length inp = .ok (some (l, skip tail)) := by
  intro l
  induction l with
  | nil => intro inp _ h; rw [h]; rfl
  | cons f l ih =>
    intro inp hs h
    obtain ⟨c1, c2, c3, c4⟩ := hs f (by simp)
    rw [List.length_cons]
    unfold readFaces
    have hsk : skip inp = dec f.edge.length ++ ' ' :: ':' :: ' ' :: (writeSigned (f.edge.zip f.orient) ++
        '\n' :: (l.flatMap writeFace ++ tail)) := by
      rw [h, skip_skip, List.flatMap_cons, List.append_assoc]
      unfold writeFace
      simp only [List.append_assoc]
      rw [skip_dec]
      simp [str]
    have hz := readSigned_ok (tail := '\n' :: (l.flatMap writeFace ++ tail)) (f.edge.zip f.orient) _ (fun p hp =>
      ⟨c1 _ (List.of_mem_zip hp).1, c4 _ (List.of_mem_zip hp).2⟩) rfl
    rw [List.length_zip, c3, Nat.min_self] at hz
    rw [bind_step (scan1_count (small_le (by omega)) hsk), idx_lt (by omega), if_neg (by omega), bind_step hz,
      skip_space _ (by decide), bind_step (ih _ (fun c hc => hs c (by simp [hc])) rfl), pure_step]
    have e1 : (f.edge.zip f.orient).map (·.1) = f.edge := List.map_fst_zip (by omega)
    have e2 : (f.edge.zip f.orient).map (·.2) = f.orient := List.map_snd_zip (by omega)
    rw [e1, e2]

end Plc.Io
