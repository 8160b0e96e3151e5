import Verif.Model.Pack
import Verif.Spec.Diagram
import Verif.Spec.Examples
import Verif.Proofs.PackDiagram

/-! # Properties C01-C04: packed diagrams (`src/pd_pack.c`) -/

namespace Plc.Pack

/-- **C01.** Packing any nonempty string of bits and unpacking the same number of bits
gives the string back; the buffer has `ceil(nbits/32)` words, each a 32-bit value, and
bit `k` of the string is bit `k % 32` of word `k / 32`. -/
theorem C01_bitstring_roundtrip (bits : List Nat) (hb : ∀ b ∈ bits, b = 0 ∨ b = 1)
    (hne : bits ≠ []) :
    ∃ ws, packbitstring bits bits.length = .ok ws ∧
      bits.length ≤ 32 * ws.length ∧ 32 * (ws.length - 1) < bits.length ∧
      (∀ w ∈ ws, w < 2 ^ 32) ∧
      (∀ k (h : k < bits.length), ∃ w, ws[k / 32]? = some w ∧
        (w.testBit (k % 32) = true ↔ bits[k] = 1)) ∧
      unpackbitstring ws bits.length = .ok bits := by
  obtain ⟨ws, h1, h2⟩ := packbitstring_packed bits hb hne
  have hpos := List.length_pos_iff.mpr hne
  refine ⟨ws, h1, ?_, ?_, h2.2.1, h2.2.2, unpackbitstring_packed bits ws hb hne h2⟩
  · have := h2.1; unfold nwords at this; omega
  · have := h2.1; unfold nwords at this; omega

/-- The hypotheses of C01 are met by a string that spans two words. -/
example : (∀ b ∈ List.replicate 33 1, b = 0 ∨ b = 1) ∧ List.replicate 33 1 ≠ ([] : List Nat) := by
  decide

/-- The excluded point of C01: on an empty string the C function falls through to
`assert(1 == 0)`. -/
theorem C01_empty_string_dies : packbitstring [] 0 = .error .die ∧ unpackbitstring [] 0 = .error .die := by
  decide

/-- **C02.** For every crossing count the field width is the least width that holds all
of `0..2n-1`, and every index survives encoding and decoding through it. -/
theorem C02_index_field (n : Nat) (hn : 0 < n) :
    ∃ w, indexbits n = .ok w ∧ 2 * n ≤ 2 ^ w ∧ (∀ w', 2 * n ≤ 2 ^ w' → w ≤ w') ∧
      ∀ i, i < 2 * n → ∃ b, idxBitencode i n = .ok b ∧ b.length = w ∧
        (∀ x ∈ b, x = 0 ∨ x = 1) ∧ idxBitdecode b n = .ok i := by
  refine ⟨ceilLog2 (2 * n), indexbits_pos hn, ceilLog2_spec _, ceilLog2_min _, ?_⟩
  intro i hi
  refine ⟨_, idxBitencode_ok hi, idxBits_length _ _, idxBits_bit _ _, ?_⟩
  simpa using idxBitdecode_append hi []

example : idxBitencode 8 5 = .ok [0, 0, 0, 1] ∧ idxBitdecode [0, 0, 0, 1] 5 = .ok 8 := by
  constructor <;> simp [idxBitencode, idxBitdecode, indexbits, ceilLog2, assertC, idxBits,
    idxUnbits, rd]

/-- **C03.** For every diagram whose edge records agree with its crossings and whose
crossings all carry a sign, packing succeeds without a fault and unpacking (up to the
final `pd_regenerate`) gives back exactly the same crossings, signs and edge records.
The packed length is the documented one. -/
theorem C03_signed_roundtrip (cross : List Cross) (edge : List Edge)
    (h : Consistent cross edge) (hne : cross ≠ []) (hbig : cross.length < 2 ^ 31)
    (hs : ∀ c ∈ cross, c.sign ≠ .unset) :
    ∃ ws, pack cross edge = .ok ws ∧ unpackRaw ws = .ok (cross, edge) ∧
      ∃ bits, packbits cross.length .signed = .ok bits ∧ ws.length = 1 + nwords bits := by
  obtain ⟨ws, h1, h2, h3⟩ := pack_unpack h hne hbig .signed (by
    intro c hc; simp [hs c hc])
  refine ⟨ws, h1, ?_, ?_⟩
  · rw [h3]
    have : cross.map (decodedCross .signed zeroCross) = cross :=
      List.map_id'' (fun _ => rfl) cross
    rw [this]
  · have hpos := List.length_pos_iff.mpr hne
    refine ⟨cross.length * crossbits (ceilLog2 (2 * cross.length)) .signed, ?_, ?_⟩
    · unfold packbits; rw [indexbits_pos hpos]; simp [crossbits, Nat.mul_add]
    · omega

example : Consistent (trefoilCross .pos) trefoilEdge ∧ trefoilCross .pos ≠ [] ∧
    (trefoilCross .pos).length < 2 ^ 31 ∧ ∀ c ∈ trefoilCross .pos, c.sign ≠ .unset := by decide

/-- **C04 (what survives).** Full claim: unset signs are still unset after packing and
unpacking. Proved part: for every consistent diagram without signs, packing and
unpacking succeed and give back the same edge numbers and edge records; every sign
comes back as `PD_NEG_ORIENTATION`. Missing: the signs themselves; the claim is false,
see `C04_unset_signs_survive_false`. -/
theorem C04_unsigned_roundtrip_partial (cross : List Cross) (edge : List Edge)
    (h : Consistent cross edge) (hne : cross ≠ []) (hbig : cross.length < 2 ^ 31)
    (hs : ∀ c ∈ cross, c.sign = .unset) :
    ∃ ws, pack cross edge = .ok ws ∧
      unpackRaw ws = .ok (cross.map (fun c => { c with sign := .neg }), edge) := by
  obtain ⟨ws, h1, _, h3⟩ := pack_unpack h hne hbig .unsigned (by
    intro c hc; simp [hs c hc])
  refine ⟨ws, h1, ?_⟩
  rw [h3]
  rfl

/-- **C04 is false of the code**, for every unsigned diagram: after packing and
unpacking no crossing is unset any more. -/
theorem C04_unset_signs_survive_false (cross : List Cross) (edge : List Edge)
    (h : Consistent cross edge) (hne : cross ≠ []) (hbig : cross.length < 2 ^ 31)
    (hs : ∀ c ∈ cross, c.sign = .unset) :
    ∃ ws cross', pack cross edge = .ok ws ∧ unpackRaw ws = .ok (cross', edge) ∧
      (∀ c ∈ cross', c.sign ≠ .unset) ∧ cross' ≠ cross := by
  obtain ⟨ws, h1, h2⟩ := C04_unsigned_roundtrip_partial cross edge h hne hbig hs
  refine ⟨ws, _, h1, h2, ?_, ?_⟩
  · intro c hc
    simp only [List.mem_map] at hc
    obtain ⟨c', _, rfl⟩ := hc
    simp
  · intro heq
    obtain ⟨c, hc⟩ := List.exists_mem_of_ne_nil _ hne
    have := hs c hc
    rw [← heq] at hc
    simp only [List.mem_map] at hc
    obtain ⟨c', _, rfl⟩ := hc
    simp at this

example : Consistent (trefoilCross .unset) trefoilEdge ∧ trefoilCross .unset ≠ [] ∧
    (trefoilCross .unset).length < 2 ^ 31 ∧ ∀ c ∈ trefoilCross .unset, c.sign = .unset := by decide

/-- A diagram without crossings cannot be packed: `pd_pack` reads `cross[0]`, which the
model treats as out of bounds. -/
theorem C03_no_crossings_faults : pack [] [] = .error .ub := by decide

end Plc.Pack
