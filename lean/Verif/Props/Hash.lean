import Verif.Proofs.Hash
import Batteries.Lean.Except

/-! # C24, C25: pieces of the hash -/

namespace Plc

open Plc.Hash

/-! ## C24: least cyclic arrangement -/

/-- One buffer read around a circle from some place, in one of the two directions, gives the
other. -/
def SameNecklace (a b : List Nat) : Prop := a ~r b ∨ a ~r b.reverse

theorem SameNecklace.symm {a b : List Nat} (h : SameNecklace a b) : SameNecklace b a := by
  rcases h with h | h
  · exact Or.inl h.symm
  · right
    have := h.symm.reverse
    rwa [List.reverse_reverse] at this

theorem SameNecklace.trans {a b c : List Nat} (h : SameNecklace a b) (h' : SameNecklace b c) :
    SameNecklace a c := by
  rcases h with h | h <;> rcases h' with h' | h'
  · exact Or.inl (h.trans h')
  · exact Or.inr (h.trans h')
  · exact Or.inr (h.trans h'.reverse)
  · left
    have := h.trans h'.reverse
    rwa [List.reverse_reverse] at this

/-- C24: `pd_canonicalorder` returns a rotation or reversed rotation of its input, and no
rotation or reversed rotation is smaller in dictionary order. -/
theorem C24_canonicalorder_least (buf : List Nat) :
    ∃ b, canonicalorder buf = .ok b ∧ SameNecklace b buf ∧
      ∀ x, SameNecklace x buf → ¬ x < b := by
  by_cases h : buf = []
  · subst h
    refine ⟨[], rfl, Or.inl (List.IsRotated.refl _), ?_⟩
    intro x hx
    rcases hx with hx | hx <;> simp at hx <;> simp [hx]
  · obtain ⟨b, b1, b2, b3, b4, b5⟩ := tryAll_ok buf h false buf.length 0 buf rfl
    obtain ⟨d, d1, d2, d3, d4, d5⟩ := tryAll_ok buf h true buf.length 0 b b2
    have hb : b ~r buf := by
      rcases b3 with rfl | ⟨k, rfl⟩
      · exact List.IsRotated.refl _
      · exact List.IsRotated.symm ⟨k, rfl⟩
    have hl : 0 < buf.length := List.length_pos_iff.mpr h
    refine ⟨d, by unfold canonicalorder; rw [b1, ok_bind, d1], ?_, ?_⟩
    · rcases d3 with rfl | ⟨k, rfl⟩
      · exact Or.inl hb
      · right
        apply List.IsRotated.reverse
        exact List.IsRotated.symm ⟨k, rfl⟩
    · intro x hx
      rcases hx with hx | hx
      · obtain ⟨k, rfl⟩ := hx.symm
        have := b5 (k % buf.length) (Nat.zero_le _) (by
          have := Nat.mod_lt k hl; omega)
        rw [List.rotate_mod] at this
        simp only [Bool.false_eq_true, if_false] at this
        rw [not_lt] at *
        exact le_trans d4 this
      · have hx' := hx.reverse
        rw [List.reverse_reverse] at hx'
        obtain ⟨k, hk⟩ := hx'.symm
        have := d5 (k % buf.length) (Nat.zero_le _) (by
          have := Nat.mod_lt k hl; omega)
        rw [List.rotate_mod, hk] at this
        simpa using this

/-- C24: two buffers get the same canonical arrangement exactly when one is a rotation or
reversed rotation of the other. -/
theorem C24_canonicalorder_canonical (a b : List Nat) :
    canonicalorder a = canonicalorder b ↔ SameNecklace a b := by
  obtain ⟨x, x1, x2, x3⟩ := C24_canonicalorder_least a
  obtain ⟨y, y1, y2, y3⟩ := C24_canonicalorder_least b
  rw [x1, y1]
  constructor
  · intro h
    cases h
    exact x2.symm.trans y2
  · intro h
    congr 1
    apply le_antisymm
    · rw [← not_lt]; exact x3 y (y2.trans h.symm)
    · rw [← not_lt]; exact y3 x (x2.trans h)

example : canonicalorder [3, 1, 2, 5, 1] = .ok [1, 2, 5, 1, 3] := by decide
example : canonicalorder [5, 2, 1, 3, 1] = .ok [1, 2, 5, 1, 3] := by decide
example : SameNecklace [3, 1, 2, 5, 1] [5, 2, 1, 3, 1] := by
  right; exact ⟨4, rfl⟩

/-! ## C25: base 64 -/

/-- C25: on bytes the encoder succeeds, three bytes give four characters of the printable
alphabet, and the input can be read back, so different data get different strings. -/
theorem C25_base64_injective (k : Nat) (data : List Nat) (hlen : data.length = 3 * k)
    (hbyte : ∀ x ∈ data, x < 256) :
    ∃ s, base64encode data = .ok s ∧ s.length = 4 * k ∧
      (∀ ch ∈ s, ch.isAlphanum = true ∨ ch = '+' ∨ ch = '/') ∧
      ∀ data', data'.length = 3 * k → (∀ x ∈ data', x < 256) → base64encode data' = .ok s →
        data' = data := by
  obtain ⟨s, s1, s2, s3⟩ := base64encode_ok k data hlen hbyte
  refine ⟨s, s1, s2, fun ch hch => cb64_ok ch (s3 ch hch), ?_⟩
  intro data' hl' hb' he
  exact base64encode_inj k data' data hl' hlen hb' hbyte (by rw [he, s1])

/-- C25: every six-bit value has its own printable character. -/
theorem C25_characters_distinct (i j : Nat) (hi : i < 64) (hj : j < 64) :
    (∃ ch, rd cb64 i = .ok ch ∧ (ch.isAlphanum = true ∨ ch = '+' ∨ ch = '/')) ∧
    (rd cb64 i = rd cb64 j → i = j) := by
  have hi' : i < cb64.length := by rw [cb64_len]; exact hi
  have hj' : j < cb64.length := by rw [cb64_len]; exact hj
  constructor
  · exact ⟨cb64[i], rd_lt hi', cb64_ok _ (List.getElem_mem hi')⟩
  · intro h
    rw [rd_lt hi', rd_lt hj'] at h
    apply cb64_inj i hi j hj
    simp [hi', hj', Except.ok.inj h]

example : base64encode [3, 6, 5, 3, 3, 2] = .ok ['A', 'w', 'Y', 'F', 'A', 'w', 'M', 'C'] := by
  decide +kernel

end Plc
