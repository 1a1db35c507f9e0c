import Verif.Props.C10
/-!
C05: UTF-16 and UTF-32 string literals carry the right code units.

`readString e pre q` models the three string readers on the text behind the opening quote; storing
more elements than the reader has allocated (including the terminating zero) is `ub`, so a result
`ok` says that the buffer was large enough.
-/
set_option autoImplicit false
namespace Slimcc.Props
open Slimcc Slimcc.Lex Slimcc.Spec

/-- A character that can be written directly in a literal: a Unicode scalar value other than the
quote, the backslash, newline and NUL. -/
def Direct (c : Nat) : Prop := IsScalar c ∧ c ≠ 0 ∧ c ≠ 10 ∧ c ≠ 34 ∧ c ≠ 92

theorem utf8_loose (c : Nat) (h : c < 0x110000) : LooseUtf8 c (utf8 c) := by
  unfold utf8
  split
  · exact Or.inl ⟨c, rfl, by assumption, rfl⟩
  · split
    · refine Or.inr (Or.inl ⟨_, _, rfl, ?_, ?_, ?_, ?_⟩) <;> (try unfold Cont) <;> omega
    · split
      · refine Or.inr (Or.inr (Or.inl ⟨_, _, _, rfl, ?_, ?_, ?_, ?_, ?_⟩)) <;> (try unfold Cont) <;> omega
      · refine Or.inr (Or.inr (Or.inr ⟨_, _, _, _, rfl, ?_, ?_, ?_, ?_, ?_⟩)) <;> (try unfold Cont) <;> omega

theorem utf8_bytes (c : Nat) (hc : Direct c) : ∀ b ∈ utf8 c, b < 256 ∧ b ≠ 0 ∧ b ≠ 10 ∧ b ≠ 34 ∧ b ≠ 92 := by
  obtain ⟨hs, h⟩ := hc
  unfold IsScalar at hs
  intro b hb
  unfold utf8 at hb
  split at hb
  · simp at hb; omega
  · split at hb
    · simp at hb; omega
    · split at hb
      · simp at hb; omega
      · simp at hb; omega

theorem scalar_lt {c : Nat} (h : IsScalar c) : c < 0x110000 := by unfold IsScalar at h; omega

theorem utf16_loose (c : Nat) (h : c < 0x110000) : looseUtf16 c = utf16 c := by
  unfold looseUtf16 utf16
  split
  · rfl
  · rw [Nat.mod_eq_of_lt (by omega)]

/-- Body of a literal written with direct characters only. -/
theorem body_direct (e : StrEnc) (f : Nat → List Nat) (hf : ∀ c, Direct c → Units e (utf8 c) (f c)) :
    ∀ cs : List Nat, (∀ c ∈ cs, Direct c) → StrBody e (cs.flatMap utf8) (cs.flatMap f)
  | [], _ => .nil
  | c :: cs, h => by
    rw [List.flatMap_cons, List.flatMap_cons]
    refine .chr _ _ _ _ (hf c (h c (by simp))) ?_ (body_direct e f hf cs (fun c hc => h c (by simp [hc])))
    rintro ⟨b, r, hb, hp⟩
    have := utf8_bytes c (h c (by simp)) b (by rw [hb]; simp)
    omega

theorem direct_bytes (cs : List Nat) (h : ∀ c ∈ cs, Direct c) : ∀ b ∈ cs.flatMap utf8, b < 256 ∧ b ≠ 0 := by
  intro b hb
  rw [List.mem_flatMap] at hb
  obtain ⟨c, hc, hb⟩ := hb
  have := utf8_bytes c (h c hc) b hb
  exact ⟨this.1, this.2.1⟩

/-- `u"..."`: the array elements are the UTF-16 encoding of the text; what follows the literal is
not consumed, and the elements with their terminator fit the allocated buffer. -/
theorem C05_utf16_units (cs : List Nat) (h : ∀ c ∈ cs, Direct c) (pre : Nat) (rest : List Nat) :
    readString .utf16 pre (cs.flatMap utf8 ++ 34 :: rest) = .ok (cs.flatMap utf16, rest) := by
  refine readString_complete _ _ _ (body_direct .utf16 utf16 ?_ cs h) (fun b hb => (direct_bytes cs h b hb).2)
    (fun b hb => (direct_bytes cs h b hb).1)
  intro c hc
  exact ⟨c, utf8_loose c (scalar_lt hc.1), (utf16_loose c (scalar_lt hc.1)).symm⟩

/-- `U"..."`: the array elements are the code points of the text. -/
theorem C05_utf32_units (cs : List Nat) (h : ∀ c ∈ cs, Direct c) (pre : Nat) (rest : List Nat) :
    readString .utf32 pre (cs.flatMap utf8 ++ 34 :: rest) = .ok (cs, rest) := by
  have := readString_complete .utf32 pre rest (body_direct .utf32 (fun c => [c])
    (fun c hc => ⟨c, utf8_loose c (scalar_lt hc.1), rfl⟩) cs h) (fun b hb => (direct_bytes cs h b hb).2)
    (fun b hb => (direct_bytes cs h b hb).1)
  simpa [List.flatMap_singleton'] using this

/-- `L"..."`: likewise. -/
theorem C05_wide_units (cs : List Nat) (h : ∀ c ∈ cs, Direct c) (pre : Nat) (rest : List Nat) :
    readString .wide pre (cs.flatMap utf8 ++ 34 :: rest) = .ok (cs, rest) := by
  have := readString_complete .wide pre rest (body_direct .wide (fun c => [c])
    (fun c hc => ⟨c, utf8_loose c (scalar_lt hc.1), rfl⟩) cs h) (fun b hb => (direct_bytes cs h b hb).2)
    (fun b hb => (direct_bytes cs h b hb).1)
  simpa [List.flatMap_singleton'] using this

/-- `"..."` and `u8"..."`: the bytes of the text itself. -/
theorem C05_narrow_bytes (bs : List Nat) (h : ∀ b ∈ bs, b < 256 ∧ b ≠ 0 ∧ b ≠ 10 ∧ b ≠ 34 ∧ b ≠ 92) (pre : Nat)
    (rest : List Nat) : readString .narrow pre (bs ++ 34 :: rest) = .ok (bs, rest) := by
  have hb : StrBody .narrow bs bs := by
    induction bs with
    | nil => exact .nil
    | cons b bs ih =>
      have hb := h b (by simp)
      have := StrBody.chr (e := .narrow) [b] [b] bs bs ⟨b, rfl, by rw [Nat.mod_eq_of_lt hb.1]⟩
        (by rintro ⟨b', r, hb', hp⟩; simp at hb'; omega) (ih (fun b hb => h b (by simp [hb])))
      exact this
  exact readString_complete .narrow pre rest hb (fun b hb => (h b hb).2.1) (fun b hb => (h b hb).1)

/-- The emitted UTF-16 can be decoded: nothing is lost. -/
theorem C05_utf16_roundtrip : ∀ cs : List Nat, (∀ c ∈ cs, IsScalar c) → fromUtf16 (cs.flatMap utf16) = cs
  | [], _ => rfl
  | c :: cs, h => by
    have ih := C05_utf16_roundtrip cs (fun c hc => h c (by simp [hc]))
    have hc := h c (by simp)
    unfold IsScalar at hc
    rw [List.flatMap_cons]
    by_cases hlt : c < 0x10000
    · have hu : utf16 c = [c] := by unfold utf16; rw [if_pos hlt]
      rw [hu, List.singleton_append]
      cases hr : cs.flatMap utf16 with
      | nil => rw [hr] at ih; simp [fromUtf16] at ih ⊢; exact ih
      | cons v r => rw [fromUtf16, if_neg (by omega), ← hr, ih]
    · have hu : utf16 c = [0xD800 + (c - 0x10000) / 1024, 0xDC00 + (c - 0x10000) % 1024] := by
        unfold utf16; rw [if_neg hlt]
      rw [hu]
      simp only [List.cons_append, List.nil_append, fromUtf16]
      rw [if_pos (by omega), ih]
      have hq : 0x10000 + (0xD800 + (c - 0x10000) / 1024 - 0xD800) * 1024 + (0xDC00 + (c - 0x10000) % 1024 - 0xDC00) = c := by
        omega
      rw [hq]

/-- In a file: a literal with an encoding prefix, on a line of its own, becomes one token with
these elements. -/
theorem C05_in_file (cs : List Nat) (h : ∀ c ∈ cs, Direct c) (tail : List Nat) :
    ∃ t e, tokenize false ([117, 34] ++ cs.flatMap utf8 ++ [34, 10] ++ 0 :: tail) = .ok [t, e] ∧
      t.val = .str .utf16 (cs.flatMap utf16) ∧ e.kind = .eof := by
  have hb := body_direct .utf16 utf16 (fun c hc => ⟨c, utf8_loose c (scalar_lt hc.1), (utf16_loose c (scalar_lt hc.1)).symm⟩) cs h
  have hd := direct_bytes cs h
  have hs : SourceText ([117, 34] ++ cs.flatMap utf8 ++ [34, 10]) := by
    refine ⟨?_, ?_, Or.inr ⟨[117, 34] ++ cs.flatMap utf8 ++ [34], by simp⟩⟩
    · intro b hb; simp only [List.mem_append, List.mem_cons, List.not_mem_nil, or_false] at hb
      rcases hb with (hb | hb) | hb
      · omega
      · exact (hd b hb).1
      · omega
    · intro b hb; simp only [List.mem_append, List.mem_cons, List.not_mem_nil, or_false] at hb
      rcases hb with (hb | hb) | hb
      · omega
      · exact (hd b hb).2
      · omega
  have htt : TokenText .str (.str .utf16 (cs.flatMap utf16)) ([117] ++ 34 :: cs.flatMap utf8 ++ [34]) [10] :=
    .str [117] .utf16 _ _ [10] (by decide) hb
  have hl := Layout.token 0 1 true false _ _ _ _ _ htt (.newline _ _ _ _ _ _ (.eof _ _ _ _))
  refine ⟨_, _, (C10_tokens_iff _ hs tail _).2 (by simpa using hl), rfl, rfl⟩

/-- Non-vacuity: "a€😀" is 4 UTF-16 units. -/
example : (∀ c ∈ [0x61, 0x20AC, 0x1F600], Direct c) ∧
    [0x61, 0x20AC, 0x1F600].flatMap utf16 = [0x61, 0x20AC, 0xD83D, 0xDE00] := by
  refine ⟨?_, by decide⟩
  intro c hc
  unfold Direct IsScalar
  simp at hc; omega

end Slimcc.Props
