import Verif.Proofs.Io
import Verif.Proofs.RegenFix
import Verif.Proofs.Diagram

/-! The first line, and the whole file. -/

namespace Plc.Io

open Plc.Cmp Plc.Core

theorem digitsF_length : ∀ (f n : Nat) (acc : List Char) (k : Nat), n < 10 ^ k → 0 < k →
    (digitsF f n acc).length ≤ k + acc.length := by
  intro f
  induction f with
  | zero => intro n acc k _ _; unfold digitsF; omega
  | succ f ih =>
    intro n acc k h hk
    unfold digitsF
    split
    · simp; omega
    · next h0 =>
      obtain ⟨k, rfl⟩ : ∃ j, k = j + 1 := ⟨k - 1, by omega⟩
      rw [Nat.pow_succ] at h
      have hk' : 0 < k := by
        rcases Nat.eq_zero_or_pos k with rfl | h'
        · simp at h; omega
        · exact h'
      have := ih (n / 10) (Char.ofNat (48 + n % 10) :: acc) k (by omega) hk'
      simp at this
      omega

theorem dec_length {n : Nat} (h : n ≤ ulongMax) : (dec n).length ≤ 20 := by
  have := digitsF_length (n + 1) n [] 20 (by unfold ulongMax at h; omega) (by omega)
  simpa [dec] using this

theorem digitsF_isDig : ∀ (f n : Nat) (acc : List Char), (∀ c ∈ acc, isDig c = true) → ∀ c ∈ digitsF f n acc, isDig c = true := by
  intro f
  induction f with
  | zero => intro n acc h; exact h
  | succ f ih =>
    intro n acc h
    have h' : ∀ c ∈ Char.ofNat (48 + n % 10) :: acc, isDig c = true := by
      intro c hc
      rcases List.mem_cons.mp hc with rfl | hc
      · exact digit_isDig _ (Nat.mod_lt _ (by omega))
      · exact h c hc
    unfold digitsF
    split
    · exact h'
    · exact ih _ _ h'

theorem dec_isDig (n : Nat) : ∀ c ∈ dec n, isDig c = true := digitsF_isDig _ _ _ (by simp)

theorem takeLine_ok {r : List Char} : ∀ (l : List Char) (n : Nat), (∀ c ∈ l, c ≠ '\n') → l.length < n →
    takeLine n (l ++ '\n' :: r) = (l ++ ['\n'], r) := by
  intro l
  induction l with
  | nil =>
    intro n _ h
    obtain ⟨n, rfl⟩ : ∃ j, n = j + 1 := ⟨n - 1, by simp at h; omega⟩
    simp [takeLine]
  | cons c l ih =>
    intro n h1 h2
    simp only [List.length_cons] at h2
    obtain ⟨n, rfl⟩ : ∃ j, n = j + 1 := ⟨n - 1, by omega⟩
    rw [List.cons_append, takeLine, if_neg (h1 c (by simp)), ih n (fun c hc => h1 c (by simp [hc])) (by omega)]
    rfl

theorem takeSet_ok {p : Char → Bool} {x : Char} {r : List Char} (hx : p x = false) : ∀ (l : List Char) (n : Nat),
    (∀ c ∈ l, p c = true) → l.length ≤ n → takeSet p n (l ++ x :: r) = (l, x :: r) := by
  intro l
  induction l with
  | nil =>
    intro n _ _
    cases n with
    | zero => rfl
    | succ n => simp [takeSet, hx]
  | cons c l ih =>
    intro n h1 h2
    simp only [List.length_cons] at h2
    obtain ⟨n, rfl⟩ : ∃ j, n = j + 1 := ⟨n - 1, by omega⟩
    rw [List.cons_append, takeSet, if_pos (h1 c (by simp)), ih n (fun c hc => h1 c (by simp [hc])) (by omega)]

theorem isHash_plain {c : Char} (h : isHash c = true) : isSpace c = false := by
  by_contra hc
  simp only [isSpace, Bool.not_eq_false, Bool.or_eq_true, decide_eq_true_eq] at hc
  rcases hc with ((((rfl | rfl) | rfl) | rfl) | hc) | hc
  · exact absurd h (by decide)
  · exact absurd h (by decide)
  · exact absurd h (by decide)
  · exact absurd h (by decide)
  all_goals
    simp only [isHash, isDig, hc, Bool.or_eq_true, Bool.and_eq_true, decide_eq_true_eq] at h
    rcases h with ((h | h) | rfl) | rfl
    · omega
    · omega
    · exact absurd hc (by decide)
    · exact absurd hc (by decide)

theorem readHead_ok {hash : List Char} {uid : Nat} (h0 : hash ≠ []) (h1 : ∀ c ∈ hash, isHash c = true) (h2 : hash.length < 32)
    (hu : uid ≤ ulongMax) : readHead ('p' :: 'd' :: ' ' :: (hash ++ ' ' :: (dec uid ++ ['\n']))) = .ok (some (hash, uid)) := by
  have hf : ([.ws] ++ lits "pd" ++ [.ws, .set HASHSIZE isHash, .ws, .lu, .ws] : List Dir) =
    [.ws, .lit 'p', .lit 'd', .ws, .set 32 isHash, .ws, .lu, .ws] := rfl
  have hsk : skip (hash ++ ' ' :: (dec uid ++ ['\n'])) = hash ++ ' ' :: (dec uid ++ ['\n']) := by
    cases hash with
    | nil => exact absurd rfl h0
    | cons c t => exact skip_cons _ (isHash_plain (h1 c (by simp)))
  have : scanf ([.ws] ++ lits "pd" ++ [.ws, .set HASHSIZE isHash, .ws, .lu, .ws])
      ('p' :: 'd' :: ' ' :: (hash ++ ' ' :: (dec uid ++ ['\n']))) = ([.txt hash, .num uid], []) := by
    rw [hf, scanf_ws, skip_cons _ (by decide), scanf_lit, scanf_lit, scanf_ws, skip_space _ (by decide), hsk, scanf,
      takeSet_ok (by decide) _ _ h1 (by omega)]
    simp only [h0, if_false]
    rw [scanf_ws, skip_space _ (by decide), skip_dec, scanf_lu _ hu (noDig_cons (by decide)), scanf_ws, scanf_nil]
    rfl
  rw [readHead, this]
  simp only
  rw [if_pos (show hash.length < HASHSIZE from h2)]

/-- Everything printable about a diagram with crossings. -/
structure Printable (pd : Pd) : Prop where
  hash_ne : pd.hash ≠ []
  hash : ∀ c ∈ pd.hash, isHash c = true
  hash_len : pd.hash.length < 32
  uid : pd.uid ≤ ulongMax
  ne : 0 < pd.cross.length
  ncross : pd.cross.length < 1073741824
  cross : ∀ c ∈ pd.cross, SmallCross c
  edge : ∀ e ∈ pd.edge, SmallEdge e
  nedges : pd.edge.length ≤ (capsNew pd.cross.length).edges
  ncomps : pd.comp.length ≤ (capsNew pd.cross.length).comps
  nfaces : pd.face.length ≤ (capsNew pd.cross.length).faces
  comp : ∀ c ∈ pd.comp, OkComp (capsNew pd.cross.length).edges c
  face : ∀ f ∈ pd.face, OkFace (capsNew pd.cross.length).edges f

theorem lift_ok {α : Type} {x : Res α} {a : α} (h : x = .ok a) (inp : List Char) : lift x inp = .ok (some (a, inp)) := by
  unfold lift
  rw [h]
  rfl

theorem readBody_ok (qs : QSort) (ok : Pd → Bool) (rehash : Pd → List Char) {pd : Pd} (hp : Printable pd) {cr : List Cross} {ed : List Edge}
    (hre : regenCrossings qs pd.cross pd.edge = .ok (cr, ed)) (hok : ok { pd with cross := cr, edge := ed } = true)
    (inp rest : List Char)
    (h : inp = skip (pd.cross.flatMap writeCross ++
      (str "ne " ++ dec pd.edge.length ++ str "\n" ++ (pd.edge.flatMap writeEdge ++
      (str "nc " ++ dec pd.comp.length ++ str "\n" ++ (pd.comp.flatMap writeComp ++
      (str "nf " ++ dec pd.face.length ++ str "\n" ++ (pd.face.flatMap writeFace ++ rest)))))))) :
    readBody qs ok rehash pd.hash pd.uid pd.cross.length inp =
      .ok (some (.code { pd with cross := cr, edge := ed, hash := if hasUnset pd.hash then rehash { pd with cross := cr, edge := ed } else pd.hash }, skip rest)) := by
  obtain ⟨p1, p2, p3, p4, p5, p6, p7, p8, p9, p10, p11, p12, p13⟩ := hp
  have hcap : (capsNew pd.cross.length).edges < 4294967296 := by simp only [capsNew]; omega
  have hcap2 : (capsNew pd.cross.length).comps < 4294967296 := by simp only [capsNew]; omega
  have hcap3 : (capsNew pd.cross.length).faces < 4294967296 := by simp only [capsNew]; omega
  have pl : ∀ (a b : Char) (t : List Char), isSpace a = false → a ≠ '+' → a ≠ '-' → Plain (a :: b :: t) :=
    fun a b t h1 h2 h3 => ⟨a, b :: t, rfl, h1, h2, h3⟩
  have e1 : str "ne " ++ dec pd.edge.length ++ str "\n" ++ (pd.edge.flatMap writeEdge ++
      (str "nc " ++ dec pd.comp.length ++ str "\n" ++ (pd.comp.flatMap writeComp ++
      (str "nf " ++ dec pd.face.length ++ str "\n" ++ (pd.face.flatMap writeFace ++ rest))))) =
      'n' :: 'e' :: ' ' :: (dec pd.edge.length ++ '\n' :: (pd.edge.flatMap writeEdge ++
      ('n' :: 'c' :: ' ' :: (dec pd.comp.length ++ '\n' :: (pd.comp.flatMap writeComp ++
      ('n' :: 'f' :: ' ' :: (dec pd.face.length ++ '\n' :: (pd.face.flatMap writeFace ++ rest)))))))) := by
    simp [str]
  rw [e1] at h
  have hpl := pl 'n' 'e' (' ' :: (dec pd.edge.length ++ '\n' :: (pd.edge.flatMap writeEdge ++
      ('n' :: 'c' :: ' ' :: (dec pd.comp.length ++ '\n' :: (pd.comp.flatMap writeComp ++
      ('n' :: 'f' :: ' ' :: (dec pd.face.length ++ '\n' :: (pd.face.flatMap writeFace ++ rest)))))))))
      (by decide) (by decide) (by decide)
  obtain ⟨r, r1, r2⟩ := readCrosses_ok hpl pd.cross inp p7 (by rw [h, skip_skip]; exact (plain_crosses _ hpl).skip)
  have nc : ∀ (n : Nat) (r : List Char), n ≤ ulongMax → scan1 (lits "nc" ++ [.ws, .lu, .ws]) ('n' :: 'c' :: ' ' :: (dec n ++ '\n' :: r)) =
      .ok (some (n, skip r)) := by
    intro n r hn
    have : scanf (lits "nc" ++ [.ws, .lu, .ws]) ('n' :: 'c' :: ' ' :: (dec n ++ '\n' :: r)) = ([.num n], skip r) := by
      rw [show (lits "nc" ++ [.ws, .lu, .ws] : List Dir) = [.lit 'n', .lit 'c', .ws, .lu, .ws] from rfl, scanf_lit, scanf_lit, scanf_ws,
        skip_space _ (by decide), skip_dec, scanf_lu _ hn (noDig_cons (by decide)), scanf_ws, skip_space _ (by decide), scanf_nil]
    rw [scan1, this]
  unfold readBody
  simp only
  rw [bind_step r1, bind_step (scan1_head (s := "ne") rfl (by decide) (small_le (by omega)) r2), idx_lt (by omega), if_neg (by omega),
    bind_step (readEdges_ok _ _ p8 rfl), skip_cons _ (by decide), bind_step (nc _ _ (small_le (by omega))), idx_lt (by omega),
    if_neg (by omega), bind_step (readComps_ok hcap _ _ _ p12 rfl), skip_cons _ (by decide),
    bind_step (scan1_head (s := "nf") (a := 'n') (b := 'f') (n := pd.face.length) rfl (by decide) (small_le (by omega)) (by rw [skip_cons _ (by decide)])), idx_lt (by omega), if_neg (by omega),
    bind_step (readFaces_ok hcap _ _ p13 rfl), bind_step (lift_ok hre _)]
  simp only
  rw [bind_step (lift_ok (assertC_ok hok) _), pure_step]

theorem readPd_ok (qs : QSort) (ok : Pd → Bool) (rehash : Pd → List Char) (caps : Caps) {pd : Pd} (hp : Printable pd)
    (hcaps : pd.cross.length ≤ caps.verts ∧ pd.edge.length ≤ caps.edges ∧ pd.comp.length ≤ caps.comps ∧ pd.face.length ≤ caps.faces)
    {cr : List Cross} {ed : List Edge}
    (hre : regenCrossings qs pd.cross pd.edge = .ok (cr, ed)) (hok : ok { pd with cross := cr, edge := ed } = true)
    (rest : List Char) :
    readPd qs ok rehash (writePd caps pd ++ rest) =
      .ok (some (.code { pd with cross := cr, edge := ed, hash := if hasUnset pd.hash then rehash { pd with cross := cr, edge := ed } else pd.hash }, skip rest)) := by
  have hp0 := hp
  obtain ⟨p1, p2, p3, p4, p5, p6, _⟩ := hp
  have hw : writePd caps pd ++ rest = ('p' :: 'd' :: ' ' :: (pd.hash ++ ' ' :: dec pd.uid)) ++ '\n' ::
      ('n' :: 'v' :: ' ' :: (dec pd.cross.length ++ '\n' :: (pd.cross.flatMap writeCross ++
      (str "ne " ++ dec pd.edge.length ++ str "\n" ++ (pd.edge.flatMap writeEdge ++
      (str "nc " ++ dec pd.comp.length ++ str "\n" ++ (pd.comp.flatMap writeComp ++
      (str "nf " ++ dec pd.face.length ++ str "\n" ++ (pd.face.flatMap writeFace ++ rest))))))))) := by
    unfold writePd
    rw [if_neg (by omega)]
    simp [str]
  have hl := takeLine_ok (r := 'n' :: 'v' :: ' ' :: (dec pd.cross.length ++ '\n' :: (pd.cross.flatMap writeCross ++
      (str "ne " ++ dec pd.edge.length ++ str "\n" ++ (pd.edge.flatMap writeEdge ++
      (str "nc " ++ dec pd.comp.length ++ str "\n" ++ (pd.comp.flatMap writeComp ++
      (str "nf " ++ dec pd.face.length ++ str "\n" ++ (pd.face.flatMap writeFace ++ rest)))))))))
      ('p' :: 'd' :: ' ' :: (pd.hash ++ ' ' :: dec pd.uid)) 4095 (by
    intro c hc
    simp only [List.mem_cons, List.mem_append] at hc
    rcases hc with rfl | rfl | rfl | hc | rfl | hc
    · decide
    · decide
    · decide
    · rintro rfl; exact absurd (p2 _ hc) (by decide)
    · decide
    · rintro rfl; exact absurd (dec_isDig _ _ hc) (by decide)) (by
    have := dec_length p4
    simp; omega)
  rw [hw]
  unfold readPd
  have hsk : ∀ t, skip (('p' :: 'd' :: ' ' :: (pd.hash ++ ' ' :: dec pd.uid)) ++ t) =
    ('p' :: 'd' :: ' ' :: (pd.hash ++ ' ' :: dec pd.uid)) ++ t := fun t => skip_cons _ (by decide)
  simp only
  rw [hsk, hl]
  simp only
  rw [if_neg (by simp)]
  have := readHead_ok p1 p2 p3 p4
  rw [show ('p' :: 'd' :: ' ' :: (pd.hash ++ ' ' :: dec pd.uid)) ++ ['\n'] = 'p' :: 'd' :: ' ' :: (pd.hash ++ ' ' :: (dec pd.uid ++ ['\n'])) by simp,
    this]
  simp only
  rw [bind_step (scan1_head (s := "nv") (a := 'n') (b := 'v') (n := pd.cross.length) rfl (by decide) (small_le (by omega)) (by rw [skip_cons _ (by decide)])), idx_lt (by omega), if_neg (by omega)]
  exact readBody_ok qs ok rehash hp0 hre hok _ rest rfl

end Plc.Io
