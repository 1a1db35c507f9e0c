import Verif.Lemmas.Unicode
/-! # C04: UTF-8 encoding and decoding are inverse -/
set_option autoImplicit false
namespace Slimcc.Props
open Slimcc Slimcc.Unicode

/-- C04 (a). The encoder writes the bytes the Unicode standard prescribes (all 21-bit values,
so in particular every code point). -/
theorem C04_encode_is_utf8 (c : Nat) (h : c < 2 ^ 21) : encodeUtf8 c = Spec.utf8 c :=
  encode_eq_utf8 c h

/-- C04 (b). Decoding what was encoded gives back the code point, consumes exactly the encoded
bytes, and is indifferent to what follows. -/
theorem C04_decode_encode (c : Nat) (rest : List Nat) (h : c < 2 ^ 21) :
    decodeUtf8 (encodeUtf8 c ++ rest) = .ok (c, rest) := by
  rw [encode_eq_utf8 c h, decode_utf8_spec c rest h]

/-- C04 (c). Encoding is injective and self-delimiting. -/
theorem C04_encode_injective (c d : Nat) (hc : c < 2 ^ 21) (hd : d < 2 ^ 21) (r s : List Nat)
    (h : encodeUtf8 c ++ r = encodeUtf8 d ++ s) : c = d ∧ r = s := by
  have h1 := C04_decode_encode c r hc
  rw [h, C04_decode_encode d s hd] at h1
  cases h1; exact ⟨rfl, rfl⟩

theorem decodeCont_in_bounds : ∀ (n c : Nat) (p q : List Nat),
    decodeCont n c (p ++ 0 :: q) ≠ .ub ∧
    ∀ c' r, decodeCont n c (p ++ 0 :: q) = .ok (c', r) → ∃ p', r = p' ++ 0 :: q ∧ ∃ u, p = u ++ p'
  | 0, c, p, q => by
    simp only [decodeCont]
    refine ⟨by simp, ?_⟩
    intro c' r h; cases h; exact ⟨p, rfl, [], rfl⟩
  | n + 1, c, [], q => by
    have e : (0 : Nat) >>> 6 ≠ MASK2 1 1 := by decide
    simp only [List.nil_append, decodeCont]
    rw [if_pos e]; exact ⟨by simp, by intro c' r h; cases h⟩
  | n + 1, c, b :: p, q => by
    simp only [List.cons_append, decodeCont]
    split
    · exact ⟨by simp, by intro c' r h; cases h⟩
    · obtain ⟨h1, h2⟩ := decodeCont_in_bounds n (((c <<< 6) % 2 ^ 32) ||| (b &&& MASK 6)) p q
      refine ⟨h1, ?_⟩
      intro c' r h
      obtain ⟨p', e, u, hu⟩ := h2 c' r h
      exact ⟨p', e, b :: u, by rw [hu]; rfl⟩

/-- C04 (d). Decoding at any position of a NUL-terminated buffer before its terminator never reads
past the terminator and never moves past it, whatever the bytes are. -/
theorem C04_decode_in_bounds (b : Nat) (p q : List Nat) :
    decodeUtf8 (b :: p ++ 0 :: q) ≠ .ub ∧
    ∀ c r, decodeUtf8 (b :: p ++ 0 :: q) = .ok (c, r) → ∃ p', r = p' ++ 0 :: q ∧ ∃ u, p = u ++ p' := by
  simp only [List.cons_append, decodeUtf8]
  split
  · exact ⟨by simp, by intro c r h; cases h; exact ⟨p, rfl, [], rfl⟩⟩
  · split
    · exact decodeCont_in_bounds _ _ p q
    · split
      · exact decodeCont_in_bounds _ _ p q
      · split
        · exact decodeCont_in_bounds _ _ p q
        · exact ⟨by simp, by intro c r h; cases h⟩

/-- Deviation (negative): the decoder is not a validator. It accepts overlong forms, surrogates
and lead bytes F8..FF that are not UTF-8 at all. -/
theorem C04_decoder_accepts_ill_formed :
    decodeUtf8 [0xC0, 0x80] = .ok (0, []) ∧
    decodeUtf8 [0xED, 0xA0, 0x80] = .ok (0xD800, []) ∧
    decodeUtf8 [0xFF, 0xBF, 0xBF, 0xBF] = .ok (0x1FFFFF, []) := by decide

/-- Deviation (negative): outside 21 bits (reachable with `\U` escapes above 001FFFFF) the encoder
does not produce a sequence that decodes to the value. -/
theorem C04_encode_beyond_21_bits :
    decodeUtf8 (encodeUtf8 0x200000) ≠ .ok (0x200000, []) := by decide

/-- Non-vacuity, one value per length. -/
example : encodeUtf8 0x24 = [0x24] ∧ encodeUtf8 0xA3 = [0xC2, 0xA3] ∧
    encodeUtf8 0x20AC = [0xE2, 0x82, 0xAC] ∧ encodeUtf8 0x10348 = [0xF0, 0x90, 0x8D, 0x88] := by decide

end Slimcc.Props
