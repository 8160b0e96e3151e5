import Verif.Model.Hash
import Verif.Proofs.Basic
import Mathlib.Data.List.Lex
import Mathlib.Data.List.Rotate
import Mathlib.Order.Defs.LinearOrder

namespace Plc.Hash

theorem bufCmp_neg : ∀ (a b : List Nat), a.length = b.length → (bufCmp a b < 0 ↔ a < b)
  | [], [], _ => by simp [bufCmp]
  | [], b :: bs, h => by simp at h
  | a :: as, [], h => by simp at h
  | a :: as, b :: bs, h => by
    have ih := bufCmp_neg as bs (by simpa using h)
    unfold bufCmp
    rw [List.cons_lt_cons_iff]
    rcases Nat.lt_trichotomy a b with hab | hab | hab
    · rw [if_pos hab]; simp [hab]
    · subst hab
      simp only [Nat.lt_irrefl, if_false, false_or, true_and]
      exact ih
    · rw [if_neg (by omega), if_pos hab]
      constructor
      · intro h; exact absurd h (by decide)
      · intro h; omega

theorem window_ok (buf : List Nat) (i : Nat) (h : buf ≠ []) : ∀ (c j : Nat),
    window buf i c j = .ok ((List.range' j c).map (fun k => buf[(i + k) % buf.length]!))
  | 0, _ => rfl
  | c + 1, j => by
    have hl : 0 < buf.length := List.length_pos_iff.mpr h
    have hm := Nat.mod_lt (i + j) hl
    unfold window
    rw [rd_lt hm, ok_bind, window_ok buf i h c (j + 1), ok_bind, List.range'_succ, List.map_cons]
    simp [hm]

theorem window_rotate (buf : List Nat) (i : Nat) (h : buf ≠ []) :
    window buf i buf.length 0 = .ok (buf.rotate i) := by
  rw [window_ok buf i h]
  congr 1
  apply List.ext_getElem
  · simp
  · intro n h1 h2
    have hn : n < buf.length := by simpa using h2
    have hm := Nat.mod_lt (n + i) (by omega : 0 < buf.length)
    rw [List.getElem_rotate]
    simp only [List.getElem_map, List.getElem_range', Nat.zero_add, Nat.one_mul]
    rw [Nat.add_comm i n]
    simp [hm]

/-- What the loop over starting places keeps: the best buffer so far is one of those tried or
the first one, and none tried is smaller. -/
theorem tryAll_ok (buf : List Nat) (h : buf ≠ []) (rev : Bool) : ∀ (c i : Nat) (best : List Nat),
    best.length = buf.length →
    ∃ b, tryAll buf rev c i best = .ok b ∧ b.length = buf.length ∧
      (b = best ∨ ∃ k, b = if rev then (buf.rotate k).reverse else buf.rotate k) ∧
      ¬ best < b ∧
      ∀ k, i ≤ k → k < i + c → ¬ (if rev then (buf.rotate k).reverse else buf.rotate k) < b
  | 0, i, best, hb => ⟨best, rfl, hb, Or.inl rfl, lt_irrefl _, by intro k h1 h2; omega⟩
  | c + 1, i, best, hb => by
    unfold tryAll
    rw [window_rotate buf i h, ok_bind]
    simp only
    generalize hcur : (if rev = true then (buf.rotate i).reverse else buf.rotate i) = cur
    have hlen : cur.length = buf.length := by rw [← hcur]; split <;> simp
    have hsel : ∃ nb, (if bufCmp cur best < 0 then cur else best) = nb ∧ nb.length = buf.length ∧
        (nb = best ∨ nb = cur) ∧ ¬ best < nb ∧ ¬ cur < nb := by
      refine ⟨_, rfl, ?_⟩
      by_cases hc : bufCmp cur best < 0
      · rw [if_pos hc]
        rw [bufCmp_neg cur best (by omega)] at hc
        exact ⟨hlen, Or.inr rfl, not_lt_of_gt hc, lt_irrefl _⟩
      · rw [if_neg hc]
        rw [bufCmp_neg cur best (by omega)] at hc
        exact ⟨hb, Or.inl rfl, lt_irrefl _, hc⟩
    obtain ⟨nb, e, n1, n2, n3, n4⟩ := hsel
    rw [e]
    obtain ⟨b, b1, b2, b3, b4, b5⟩ := tryAll_ok buf h rev c (i + 1) nb n1
    refine ⟨b, b1, b2, ?_, ?_, ?_⟩
    · rcases b3 with rfl | b3
      · rcases n2 with rfl | rfl
        · exact Or.inl rfl
        · exact Or.inr ⟨i, hcur.symm⟩
      · exact Or.inr b3
    · rw [not_lt] at *
      exact le_trans b4 n3
    · intro k h1 h2
      by_cases hk : k = i
      · subst hk
        rw [hcur]
        rw [not_lt] at *
        exact le_trans b4 n4
      · exact b5 k (by omega) (by omega)

/-! ### Base 64 -/

theorem byte_ops : ∀ b, b < 256 → b >>> 2 = b / 4 ∧ (b &&& 0x03) <<< 4 = b % 4 * 16 ∧
    (b &&& 0xf0) >>> 4 = b / 16 ∧ (b &&& 0x0f) <<< 2 = b % 16 * 4 ∧ (b &&& 0xc0) >>> 6 = b / 64 ∧
    b &&& 0x3f = b % 64 := by decide +kernel

theorem or16 : ∀ p, p < 4 → ∀ q, q < 16 → (p * 16) ||| q = p * 16 + q := by decide
theorem or4 : ∀ p, p < 16 → ∀ q, q < 4 → (p * 4) ||| q = p * 4 + q := by decide

theorem cb64_len : cb64.length = 64 := by decide +kernel
theorem cb64_inj : ∀ i, i < 64 → ∀ j, j < 64 → cb64[i]? = cb64[j]? → i = j := by decide +kernel
theorem cb64_ok : ∀ ch ∈ cb64, ch.isAlphanum = true ∨ ch = '+' ∨ ch = '/' := by decide +kernel

theorem encodeblock_ok {a b c : Nat} (ha : a < 256) (hb : b < 256) (hc : c < 256) :
    ∃ w x y z, encodeblock a b c = .ok [w, x, y, z] ∧ cb64[a / 4]? = some w ∧
      cb64[a % 4 * 16 + b / 16]? = some x ∧ cb64[b % 16 * 4 + c / 64]? = some y ∧
      cb64[c % 64]? = some z := by
  obtain ⟨a1, a2, _⟩ := byte_ops a ha
  obtain ⟨_, _, b1, b2, _⟩ := byte_ops b hb
  obtain ⟨_, _, _, _, c1, c2⟩ := byte_ops c hc
  have l := cb64_len
  have g : ∀ i, i < 64 → ∃ ch, cb64[i]? = some ch := fun i hi =>
    ⟨cb64[i], List.getElem?_eq_getElem (by omega)⟩
  obtain ⟨w, hw⟩ := g (a / 4) (by omega)
  obtain ⟨x, hx⟩ := g (a % 4 * 16 + b / 16) (by omega)
  obtain ⟨y, hy⟩ := g (b % 16 * 4 + c / 64) (by omega)
  obtain ⟨z, hz⟩ := g (c % 64) (by omega)
  refine ⟨w, x, y, z, ?_, hw, hx, hy, hz⟩
  unfold encodeblock
  rw [a1, a2, b1, b2, c1, c2, or16 _ (by omega) _ (by omega), or4 _ (by omega) _ (by omega),
    rd_ok hw, ok_bind, rd_ok hx, ok_bind, rd_ok hy, ok_bind, rd_ok hz, ok_bind]

theorem encodeblock_inj {a b c a' b' c' : Nat} (ha : a < 256) (hb : b < 256) (hc : c < 256)
    (ha' : a' < 256) (hb' : b' < 256) (hc' : c' < 256)
    (h : encodeblock a b c = encodeblock a' b' c') : a = a' ∧ b = b' ∧ c = c' := by
  obtain ⟨w, x, y, z, e, h1, h2, h3, h4⟩ := encodeblock_ok ha hb hc
  obtain ⟨w', x', y', z', e', h1', h2', h3', h4'⟩ := encodeblock_ok ha' hb' hc'
  rw [e, e'] at h
  simp only [Except.ok.injEq, List.cons.injEq, and_true] at h
  obtain ⟨rfl, rfl, rfl, rfl⟩ := h
  have i1 := cb64_inj _ (by omega) _ (by omega) (h1.trans h1'.symm)
  have i2 := cb64_inj _ (by omega) _ (by omega) (h2.trans h2'.symm)
  have i3 := cb64_inj _ (by omega) _ (by omega) (h3.trans h3'.symm)
  have i4 := cb64_inj _ (by omega) _ (by omega) (h4.trans h4'.symm)
  omega

theorem base64encode_ok : ∀ (k : Nat) (data : List Nat), data.length = 3 * k →
    (∀ x ∈ data, x < 256) → ∃ s, base64encode data = .ok s ∧ s.length = 4 * k ∧
      ∀ ch ∈ s, ch ∈ cb64
  | 0, [], _, _ => ⟨[], rfl, rfl, by simp⟩
  | 0, _ :: _, h, _ => by simp at h
  | k + 1, a :: b :: c :: l, h, hb => by
    obtain ⟨s, s1, s2, s3⟩ := base64encode_ok k l (by simp at h; omega)
      (fun x hx => hb x (by simp [hx]))
    obtain ⟨w, x, y, z, e, h1, h2, h3, h4⟩ :=
      encodeblock_ok (hb a (by simp)) (hb b (by simp)) (hb c (by simp))
    refine ⟨[w, x, y, z] ++ s, ?_, by simp [s2]; omega, ?_⟩
    · unfold base64encode
      rw [e, ok_bind, s1, ok_bind]
    · intro ch hch
      simp only [List.cons_append, List.nil_append, List.mem_cons] at hch
      rcases hch with rfl | rfl | rfl | rfl | hch
      · exact List.mem_of_getElem? h1
      · exact List.mem_of_getElem? h2
      · exact List.mem_of_getElem? h3
      · exact List.mem_of_getElem? h4
      · exact s3 ch hch
  | k + 1, [], h, _ => by simp at h
  | k + 1, [_], h, _ => by simp at h; omega
  | k + 1, [_, _], h, _ => by simp at h; omega

theorem base64encode_inj : ∀ (k : Nat) (d e : List Nat), d.length = 3 * k → e.length = 3 * k →
    (∀ x ∈ d, x < 256) → (∀ x ∈ e, x < 256) → base64encode d = base64encode e → d = e
  | 0, [], [], _, _, _, _, _ => rfl
  | 0, _ :: _, _, h, _, _, _, _ => by simp at h
  | 0, [], _ :: _, _, h, _, _, _ => by simp at h
  | k + 1, a :: b :: c :: l, a' :: b' :: c' :: l', h, h', hd, he, heq => by
    have la := hd a (by simp); have lb := hd b (by simp); have lc := hd c (by simp)
    have la' := he a' (by simp); have lb' := he b' (by simp); have lc' := he c' (by simp)
    have hl : l.length = 3 * k := by simp at h; omega
    have hl' : l'.length = 3 * k := by simp at h'; omega
    obtain ⟨s, s1, s2, _⟩ := base64encode_ok k l hl (fun x hx => hd x (by simp [hx]))
    obtain ⟨s', s1', s2', _⟩ := base64encode_ok k l' hl' (fun x hx => he x (by simp [hx]))
    obtain ⟨w, x, y, z, e1, _⟩ := encodeblock_ok la lb lc
    obtain ⟨w', x', y', z', e2, _⟩ := encodeblock_ok la' lb' lc'
    unfold base64encode at heq
    rw [e1, e2, ok_bind, ok_bind, s1, s1', ok_bind, ok_bind] at heq
    simp only [Except.ok.injEq, List.cons_append, List.nil_append, List.cons.injEq] at heq
    obtain ⟨r1, r2, r3, r4, r5⟩ := heq
    have := encodeblock_inj la lb lc la' lb' lc' (by rw [e1, e2, r1, r2, r3, r4])
    have ih := base64encode_inj k l l' hl hl' (fun x hx => hd x (by simp [hx]))
      (fun x hx => he x (by simp [hx])) (by rw [s1, s1', r5])
    rw [this.1, this.2.1, this.2.2, ih]
  | k + 1, [], _, h, _, _, _, _ => by simp at h
  | k + 1, [_], _, h, _, _, _, _ => by simp at h; omega
  | k + 1, [_, _], _, h, _, _, _, _ => by simp at h; omega
  | k + 1, _ :: _ :: _ :: _, [], _, h, _, _, _ => by simp at h
  | k + 1, _ :: _ :: _ :: _, [_], _, h, _, _, _ => by simp at h; omega
  | k + 1, _ :: _ :: _ :: _, [_, _], _, h, _, _, _ => by simp at h; omega

end Plc.Hash
