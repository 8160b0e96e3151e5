import Verif.Proofs.Io2

/-! Readers do not add to the input, and `pd_read` takes something from it. -/

namespace Plc.Io

open Plc.Cmp Plc.Core

theorem skip_le (inp : List Char) : (skip inp).length ≤ inp.length := (List.dropWhile_sublist _).length_le

theorem readDigits_le : ∀ (v : Nat) (inp : List Char), (readDigits v inp).2.length ≤ inp.length
  | _, [] => Nat.le_refl _
  | v, c :: r => by
    unfold readDigits
    split
    · have := readDigits_le (10 * v + (c.toNat - 48)) r
      simp only [List.length_cons]
      omega
    · exact Nat.le_refl _

theorem scanNum_le {inp : List Char} {n : Nat} {r : List Char} (h : scanNum inp = some (n, r)) : r.length ≤ inp.length := by
  cases inp with
  | nil => simp [scanNum] at h
  | cons c t =>
    unfold scanNum at h
    simp only at h
    by_cases hd : isDig c = true
    · rw [if_pos hd] at h
      simp only [Option.some.injEq, Prod.mk.injEq] at h
      rw [← h.2]
      exact readDigits_le 0 (c :: t)
    · rw [if_neg hd] at h
      cases h

theorem scanLu_le {inp : List Char} {n : Nat} {r : List Char} (h : scanLu inp = some (n, r)) : r.length ≤ inp.length := by
  have hs := skip_le inp
  unfold scanLu at h
  split at h
  · rename_i t e
    have := scanNum_le h
    rw [e] at hs
    simp only [List.length_cons] at hs
    omega
  · rename_i t e
    rw [Option.map_eq_some_iff] at h
    obtain ⟨⟨a, b⟩, h1, h2⟩ := h
    simp only [Prod.mk.injEq] at h2
    have := scanNum_le h1
    rw [e] at hs
    simp only [List.length_cons] at hs
    rw [← h2.2]
    omega
  · have := scanNum_le h
    omega

theorem takeSet_le (p : Char → Bool) : ∀ (w : Nat) (inp : List Char), (takeSet p w inp).2.length ≤ inp.length
  | 0, _ => by unfold takeSet; exact Nat.le_refl _
  | _ + 1, [] => by unfold takeSet; exact Nat.le_refl _
  | w + 1, c :: r => by
    unfold takeSet
    split
    · have := takeSet_le p w r
      simp only [List.length_cons]
      omega
    · exact Nat.le_refl _

theorem scanf_le : ∀ (f : List Dir) (inp : List Char), (scanf f inp).2.length ≤ inp.length
  | [], _ => Nat.le_refl _
  | .ws :: f, inp => Nat.le_trans (scanf_le f (skip inp)) (skip_le inp)
  | .lit c :: f, inp => by
    unfold scanf
    cases inp with
    | nil => exact Nat.le_refl _
    | cons d r =>
      simp only
      split
      · have := scanf_le f r
        simp only [List.length_cons]
        omega
      · exact Nat.le_refl _
  | .lu :: f, inp => by
    unfold scanf
    cases h : scanLu inp with
    | none => exact Nat.le_refl _
    | some q =>
      obtain ⟨v, r⟩ := q
      have := scanf_le f r
      have := scanLu_le h
      simp only
      omega
  | .chr :: f, inp => by
    unfold scanf
    cases inp with
    | nil => exact Nat.le_refl _
    | cons d r =>
      have := scanf_le f r
      simp only [List.length_cons]
      omega
  | .set w p :: f, inp => by
    unfold scanf
    simp only
    split
    · exact Nat.le_refl _
    · have := scanf_le f (takeSet p w inp).2
      have := takeSet_le p w inp
      simp only
      omega
  | .word w :: f, inp => by
    unfold scanf
    simp only
    split
    · exact Nat.le_refl _
    · have := scanf_le f (takeSet (fun c => !isSpace c) w (skip inp)).2
      have := takeSet_le (fun c => !isSpace c) w (skip inp)
      have := skip_le inp
      simp only
      omega

/-- What is left after reading is not longer than the input. -/
def NoMore {α : Type} (x : P α) : Prop := ∀ inp a r, x inp = .ok (some (a, r)) → r.length ≤ inp.length

theorem NoMore.bind {α β : Type} {x : P α} {f : α → P β} (hx : NoMore x) (hf : ∀ a, NoMore (f a)) : NoMore (x >>= f) := by
  intro inp b r h
  change P.bind x f inp = _ at h
  unfold P.bind at h
  split at h
  · cases h
  · cases h
  · rename_i a t e
    have := hx inp a t e
    have := hf a t b r h
    omega

theorem NoMore.pure {α : Type} (a : α) : NoMore (pure a : P α) := by
  intro inp b r h
  rw [pure_step] at h
  cases h
  exact Nat.le_refl _

theorem NoMore.null {α : Type} : NoMore (null : P α) := by
  intro inp b r h
  cases h

theorem NoMore.lift {α : Type} (x : Res α) : NoMore (lift x) := by
  intro inp b r h
  unfold Io.lift at h
  cases x with
  | error e => cases h
  | ok a => cases h; exact Nat.le_refl _

theorem NoMore.ite {α : Type} {c : Prop} [Decidable c] {x y : P α} (hx : NoMore x) (hy : NoMore y) : NoMore (if c then x else y) := by
  split
  · exact hx
  · exact hy

theorem noMore_scan1 (f : List Dir) : NoMore (scan1 f) := by
  intro inp a r h
  unfold scan1 at h
  split at h
  · rename_i b t e
    cases h
    have := scanf_le f inp
    rw [e] at this
    exact this
  · cases h

theorem noMore_readSign : NoMore readSign := by
  intro inp a r h
  unfold readSign at h
  split at h <;> cases h <;> simp

theorem noMore_readCrosses : ∀ n, NoMore (readCrosses n)
  | 0 => NoMore.pure _
  | n + 1 => by
    unfold readCrosses
    exact (noMore_scan1 _).bind fun _ => (noMore_scan1 _).bind fun _ => (noMore_scan1 _).bind fun _ => (noMore_scan1 _).bind fun _ =>
      noMore_readSign.bind fun _ => (noMore_readCrosses n).bind fun _ => NoMore.pure _

theorem noMore_readEdge : NoMore readEdge := by
  intro inp a r h
  unfold readEdge at h
  split at h
  · rename_i e
    cases h
    have := scanf_le fEdge inp
    rw [e] at this
    exact this
  · cases h

theorem noMore_readEdges : ∀ n, NoMore (readEdges n)
  | 0 => NoMore.pure _
  | n + 1 => by
    unfold readEdges
    exact noMore_readEdge.bind fun _ => (noMore_readEdges n).bind fun _ => NoMore.pure _

theorem noMore_readNums : ∀ n, NoMore (readNums n)
  | 0 => NoMore.pure _
  | n + 1 => by
    unfold readNums
    exact (noMore_scan1 _).bind fun _ => (noMore_readNums n).bind fun _ => NoMore.pure _

theorem noMore_readTag (next : Nat) : NoMore (readTag next) := by
  intro inp a r h
  have hs := skip_le inp
  unfold readTag at h
  split at h
  · cases h
  · rename_i t e
    split at h
    · rename_i c u e'
      cases h
      have := scanf_le ([.ws] ++ lits "tag" ++ [.ws, .chr, .ws]) ('t' :: t)
      rw [e'] at this
      rw [e] at hs
      simp only at this
      omega
    · cases h
  · cases h
    exact hs

theorem noMore_readComps (me : Nat) : ∀ n next, NoMore (readComps me n next)
  | 0, _ => NoMore.pure _
  | n + 1, next => by
    unfold readComps
    exact (noMore_scan1 _).bind fun _ => NoMore.ite NoMore.null ((noMore_readNums _).bind fun _ => (noMore_readTag _).bind fun _ =>
      (noMore_readComps me n _).bind fun _ => NoMore.pure _)

theorem noMore_readSigned1 : NoMore readSigned1 := by
  intro inp a r h
  unfold readSigned1 at h
  split at h
  · rename_i o t e
    have h1 := scanf_le [.ws, .set 1 (fun c => c = '+' || c = '-'), .lit 's', .ws] inp
    rw [e] at h1
    split at h
    · rename_i b u e'
      have h2 := scanf_le fNum t
      rw [e'] at h2
      cases h
      simp only at h1 h2
      omega
    · cases h
  · cases h

theorem noMore_readSigned : ∀ n, NoMore (readSigned n)
  | 0 => NoMore.pure _
  | n + 1 => by
    unfold readSigned
    exact noMore_readSigned1.bind fun _ => (noMore_readSigned n).bind fun _ => NoMore.pure _

theorem noMore_readFaces (me : Nat) : ∀ n, NoMore (readFaces me n)
  | 0 => NoMore.pure _
  | n + 1 => by
    unfold readFaces
    exact (noMore_scan1 _).bind fun _ => NoMore.ite NoMore.null ((noMore_readSigned _).bind fun _ =>
      (noMore_readFaces me n).bind fun _ => NoMore.pure _)

theorem findTag_le : ∀ {inp r : List Char}, findTag inp = .ok r → r.length ≤ inp.length := by
  intro inp
  induction inp with
  | nil => intro r h; cases h
  | cons c t ih =>
    intro r h
    unfold findTag at h
    split at h
    · rename_i u e
      cases h
      rw [e]
      simp only [List.length_cons]
      omega
    · rename_i u e
      cases e
      have := ih h
      simp only [List.length_cons]
      omega
    · rename_i e
      cases e

theorem noMore_readUnknot : NoMore readUnknot := by
  intro inp a r h
  unfold readUnknot at h
  obtain ⟨t, t1, t2⟩ := bind_ok_iff.mp h
  have h1 := findTag_le t1
  have h2 := scanf_le [.ws, .chr, .ws] t
  have h3 : ∀ u : List Char, (u.dropWhile (· ≠ 'p')).length ≤ u.length := fun u => (List.dropWhile_sublist _).length_le
  generalize scanf [.ws, .chr, .ws] t = q at t2 h2
  obtain ⟨v, u⟩ := q
  have h4 : r = u.dropWhile (· ≠ 'p') := by
    split at t2 <;> · rename_i e; cases e; cases t2; rfl
  rw [h4]
  exact Nat.le_trans (h3 u) (Nat.le_trans h2 h1)

theorem noMore_readBody (qs : QSort) (ok : Pd → Bool) (rehash : Pd → List Char) (hash : List Char) (uid n : Nat) :
    NoMore (readBody qs ok rehash hash uid n) := by
  unfold readBody
  exact (noMore_readCrosses _).bind fun _ => (noMore_scan1 _).bind fun _ => NoMore.ite NoMore.null ((noMore_readEdges _).bind fun _ =>
    (noMore_scan1 _).bind fun _ => NoMore.ite NoMore.null ((noMore_readComps _ _ _).bind fun _ => (noMore_scan1 _).bind fun _ =>
      NoMore.ite NoMore.null ((noMore_readFaces _ _).bind fun _ => (NoMore.lift _).bind fun _ => (NoMore.lift _).bind fun _ =>
        NoMore.pure _)))

theorem takeLine_le : ∀ (n : Nat) (inp : List Char), (takeLine n inp).1 ≠ [] → (takeLine n inp).2.length < inp.length
  | 0, _, h => by unfold takeLine at h; exact absurd rfl h
  | _ + 1, [], h => by unfold takeLine at h; exact absurd rfl h
  | n + 1, c :: r, _ => by
    unfold takeLine
    split
    · simp
    · simp only [List.length_cons]
      by_cases h : (takeLine n r).1 = []
      · have : (takeLine n r).2.length ≤ r.length := by
          cases n with
          | zero => simp [takeLine]
          | succ n =>
            cases r with
            | nil => simp [takeLine]
            | cons d r =>
              unfold takeLine at h
              split at h <;> simp at h
        omega
      · have := takeLine_le n r h
        omega

/-- `pd_read` takes at least one character from the input. -/
theorem readPd_lt (qs : QSort) (ok : Pd → Bool) (rehash : Pd → List Char) {inp : List Char} {a : Read} {r : List Char}
    (h : readPd qs ok rehash inp = .ok (some (a, r))) : r.length < inp.length := by
  have hs := skip_le inp
  unfold readPd at h
  simp only at h
  split at h
  · cases h
  · rename_i hne
    have h1 := takeLine_le 4095 (skip inp) hne
    split at h
    · cases h
    · cases h
    · rename_i hu _
      have := (NoMore.bind (noMore_scan1 (fHead "nv")) (fun nv => NoMore.ite (c := idx nv = 0) noMore_readUnknot
        (noMore_readBody qs ok rehash hu.1 hu.2 (idx nv)))) _ _ _ h
      omega

end Plc.Io
