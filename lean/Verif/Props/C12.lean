import Verif.Spec.PPNum
import Verif.Lemmas.LexStr
/-!
C12: integer literals have the value and type the C standard gives them.
-/
set_option autoImplicit false
namespace Slimcc.Props
open Slimcc Slimcc.Lex Slimcc.Source Slimcc.PPNum Slimcc.Spec

theorem casecmp_iff (c a : Nat) (ha : a = 120 ∨ a = 98 ∨ a = 117 ∨ a = 108) (hc : c < 256) :
    casecmp c a = true ↔ c = a ∨ c = a - 32 := by
  have h : ∀ c < 256, ∀ a ∈ [120, 98, 117, 108], casecmp c a = true ↔ c = a ∨ c = a - 32 := by decide +kernel
  exact h c hc a (by simp; exact ha)

/-- The digit predicate of a base. -/
def DigOf (base d : Nat) : Prop :=
  (base = 10 ∧ IsDigit d) ∨ (base = 8 ∧ IsOctal d) ∨ (base = 16 ∧ IsHex d) ∨ (base = 2 ∧ (d = 48 ∨ d = 49))

theorem isDig_iff (base d : Nat) (hb : base = 2 ∨ base = 8 ∨ base = 10 ∨ base = 16) :
    isDig base d = true ↔ DigOf base d := by
  unfold isDig DigOf
  rcases hb with rfl | rfl | rfl | rfl
  · simp
  · simp [isOctal_iff]
  · simp [isDigit_iff]
  · simp [isXdigit_iff]

theorem fromHex_eq (d : Nat) (h : IsHex d) : fromHex d = hexDigit d := by
  unfold IsHex IsDigit at h
  unfold fromHex hexDigit
  split
  · split <;> omega
  · split <;> split <;> try split
    all_goals omega

theorem dig_hex {base d : Nat} (h : DigOf base d) : IsHex d := by
  unfold DigOf IsDigit IsOctal IsHex IsDigit at *; omega

theorem sep_filter {P : Nat → Prop} {ds t : List Nat} (hP : ∀ d, P d → IsHex d) (h : SepDigits P ds t) :
    t.filter (fun b => b != 39) = ds ∧ ds ≠ [] ∧ ∀ d ∈ ds, P d := by
  have hne : ∀ d, P d → (d != 39) = true := by
    intro d hd; have := hP d hd; unfold IsHex IsDigit at this; simp; omega
  induction h with
  | one d hd => exact ⟨by rw [List.filter_cons, if_pos (hne d hd)]; rfl, by simp, by simpa using hd⟩
  | cons d ds t hd _ ih =>
    obtain ⟨h1, h2, h3⟩ := ih
    refine ⟨by rw [List.filter_cons, if_pos (hne d hd), h1], by simp, ?_⟩
    intro x hx; simp at hx; rcases hx with rfl | hx; exact hd; exact h3 x hx
  | sep d ds t hd _ ih =>
    obtain ⟨h1, h2, h3⟩ := ih
    refine ⟨by rw [List.filter_cons, if_pos (hne d hd), List.filter_cons, if_neg (by simp), h1], by simp, ?_⟩
    intro x hx; simp at hx; rcases hx with rfl | hx; exact hd; exact h3 x hx

theorem suffix_shape {u : Bool} {l : Nat} {t : List Nat} (h : IntSuffix u l t) :
    t.filter (fun b => b != 39) = t ∧ (∀ b ∈ t, b = 117 ∨ b = 85 ∨ b = 108 ∨ b = 76) ∧ l ≤ 2 := by
  have key : ∀ b ∈ t, b = 117 ∨ b = 85 ∨ b = 108 ∨ b = 76 := by
    intro b hb
    cases h <;> simp at hb <;> omega
  refine ⟨?_, key, by cases h <;> omega⟩
  rw [List.filter_eq_self]
  intro b hb; have := key b hb; simp; omega

theorem takeWhile_run {p : Nat → Bool} : ∀ (ds : List Nat) (r : List Nat), (∀ d ∈ ds, p d = true) →
    (∀ b r', r = b :: r' → p b = false) → (ds ++ r).takeWhile p = ds ∧ (ds ++ r).dropWhile p = r
  | [], r, _, hr => by
    cases r with
    | nil => simp
    | cons b r => simp [hr b r rfl]
  | d :: ds, r, hd, hr => by
    have ih := takeWhile_run ds r (fun d h => hd d (by simp [h])) hr
    have h := hd d (by simp)
    simp [h, ih]

theorem foldl_hex (base : Nat) : ∀ (ds : List Nat) (v : Nat), (∀ d ∈ ds, DigOf base d) →
    ds.foldl (fun v d => v * base + fromHex d) v = ds.foldl (fun v d => v * base + hexDigit d) v
  | [], v, _ => rfl
  | d :: ds, v, h => by
    rw [List.foldl_cons, List.foldl_cons, fromHex_eq d (dig_hex (h d (by simp))), foldl_hex base ds _ (fun d hd => h d (by simp [hd]))]

/-- The text behind the digits: a suffix and the NUL. -/
theorem after_digits {u : Bool} {l : Nat} {suf : List Nat} (stale : List Nat) (h : IntSuffix u l suf) :
    ∃ b r', suf ++ 0 :: stale = b :: r' ∧ (b = 0 ∨ b = 117 ∨ b = 85 ∨ b = 108 ∨ b = 76) := by
  have := (suffix_shape h).2.1
  cases suf with
  | nil => exact ⟨0, stale, rfl, Or.inl rfl⟩
  | cons b r => exact ⟨b, r ++ 0 :: stale, rfl, Or.inr (this b (by simp))⟩

theorem strtoul_digits (base : Nat) (hb : base = 2 ∨ base = 8 ∨ base = 10 ∨ base = 16) (ds : List Nat) (hne : ds ≠ [])
    (hd : ∀ d ∈ ds, DigOf base d) (b : Nat) (r : List Nat) (hbn : b = 0 ∨ b = 117 ∨ b = 85 ∨ b = 108 ∨ b = 76) :
    strtoul base (ds ++ b :: r) = .ok (min (digitsValue base ds) (2 ^ 64 - 1), b :: r) := by
  have hnd : isDig base b = false := by
    rw [← Bool.not_eq_true, isDig_iff base b hb]
    unfold DigOf IsDigit IsOctal IsHex IsDigit; omega
  obtain ⟨h1, h2⟩ := takeWhile_run ds (b :: r) (fun d h => (isDig_iff base d hb).2 (hd d h))
    (fun c r' e => by injection e with e _; rw [← e]; exact hnd)
  -- no second prefix
  have hp : skip0x base (ds ++ b :: r) = ds ++ b :: r := by
    unfold skip0x
    have h256 : ∀ x, x < 256 → ¬ (x = 120 ∨ x = 88) → casecmp x 120 = false := by
      intro x hx hn
      rw [← Bool.not_eq_true, casecmp_iff x 120 (by simp) hx]
      exact hn
    split
    · rename_i x y c r' heq
      have hy : casecmp y 120 = false := by
        rcases ds with _ | ⟨d0, _ | ⟨d1, ds⟩⟩
        · exact absurd rfl hne
        · simp at heq
          rw [← heq.2.1]
          exact h256 b (by omega) (by omega)
        · simp at heq
          rw [← heq.2.1]
          have := dig_hex (hd d1 (by simp))
          unfold IsHex IsDigit at this
          exact h256 d1 (by omega) (by omega)
      simp only [hy, Bool.and_false, Bool.false_and, Bool.false_eq_true, if_false]
    · rfl
  unfold strtoul
  simp only [hp, h1, h2]
  have he : ds.isEmpty = false := by cases ds; exact absurd rfl hne; rfl
  rw [he]
  simp only [Bool.false_eq_true, if_false]
  rw [foldl_hex base ds 0 hd]; rfl

theorem readSuffix_ok {u : Bool} {l : Nat} {suf : List Nat} (stale : List Nat) (h : IntSuffix u l suf) :
    readSuffix (suf ++ 0 :: stale) = .ok (u, l, 0 :: stale) := by
  have c1 : casecmp 117 117 = true := by decide
  have c2 : casecmp 85 117 = true := by decide
  have c3 : casecmp 108 108 = true := by decide
  have c4 : casecmp 76 108 = true := by decide
  have c5 : casecmp 108 117 = false := by decide
  have c6 : casecmp 76 117 = false := by decide
  have c7 : casecmp 0 117 = false := by decide
  have c8 : casecmp 0 108 = false := by decide
  have c9 : casecmp 117 108 = false := by decide
  have c10 : casecmp 85 108 = false := by decide
  have b1 : (108 == 117) = false := by decide
  have b2 : (108 == 85) = false := by decide
  have b3 : (76 == 117) = false := by decide
  have b4 : (76 == 85) = false := by decide
  cases h with
  | none => simp [readSuffix, rd, c7, c8]
  | u a ha => rcases ha with rfl | rfl <;> simp [readSuffix, rd, c1, c2, c8]
  | l b hb => rcases hb with rfl | rfl <;> simp [readSuffix, rd, c3, c4, c5, c6, c7]
  | ll b hb => rcases hb with rfl | rfl <;> simp [readSuffix, rd, c3, c4, c5, c6, c7]
  | ul a b ha hb => rcases ha with rfl | rfl <;> rcases hb with rfl | rfl <;> simp [readSuffix, rd, c1, c2, c3, c4]
  | ull a b ha hb => rcases ha with rfl | rfl <;> rcases hb with rfl | rfl <;> simp [readSuffix, rd, c1, c2, c3, c4]
  | lu a b ha hb => rcases ha with rfl | rfl <;> rcases hb with rfl | rfl <;> simp [readSuffix, rd, c1, c2, c3, c4, c5, c6]
  | llu a b ha hb => rcases ha with rfl | rfl <;> rcases hb with rfl | rfl <;> simp [readSuffix, rd, c1, c2, c3, c4, c5, c6]

theorem shift_s64 (v k : Nat) (hv : v < 2 ^ 64) (hk : k ≤ 63) : (s64 v >>> k ≠ 0) ↔ 2 ^ k ≤ v := by
  have hpow : (2:Int) ^ k > 0 := Int.pow_pos (by decide)
  have hle : (2:Nat) ^ k ≤ 2 ^ 63 := Nat.pow_le_pow_right (by decide) hk
  unfold s64
  rw [Int.shiftRight_eq_div_pow]
  split
  · rename_i h
    rw [show (v : Int) / ((2 ^ k : Nat) : Int) = ((v / 2 ^ k : Nat) : Int) from by simp]
    have : v / 2 ^ k ≠ 0 ↔ 2 ^ k ≤ v := by
      rw [Ne, Nat.div_eq_zero_iff]; have := Nat.pow_pos (n := k) (show 0 < 2 by decide); omega
    rw [← this]; omega
  · rename_i h
    have h1 : (v : Int) - 2 ^ 64 < 0 := by omega
    have h2 : ((v : Int) - 2 ^ 64) / ((2 ^ k : Nat) : Int) < 0 := Int.ediv_neg_of_neg_of_pos h1 (by exact_mod_cast hpow)
    constructor
    · intro _; omega
    · intro _; omega

theorem inferTy_ok (base : Nat) (u : Bool) (l v : Nat) (hl : l ≤ 2) (hv : v < 2 ^ 64) (ty : IntTy)
    (h : literalType (base == 10) u l v = some ty) : inferTy base u l (s64 v) = ty := by
  have s31 := shift_s64 v 31 hv (by decide)
  have s32 := shift_s64 v 32 hv (by decide)
  have s63 := shift_s64 v 63 hv (by decide)
  have hl3 : l = 0 ∨ l = 1 ∨ l = 2 := by omega
  unfold inferTy
  simp only [s31, s32, s63]
  have d1 : IntTy.fits .int v = !decide (2 ^ 31 ≤ v) := by
    unfold IntTy.fits; rw [← decide_not, decide_eq_decide]; simp only [IntTy.max]; omega
  have d2 : IntTy.fits .uint v = !decide (2 ^ 32 ≤ v) := by
    unfold IntTy.fits; rw [← decide_not, decide_eq_decide]; simp only [IntTy.max]; omega
  have d3 : IntTy.fits .long v = !decide (2 ^ 63 ≤ v) := by
    unfold IntTy.fits; rw [← decide_not, decide_eq_decide]; simp only [IntTy.max]; omega
  have d4 : IntTy.fits .llong v = !decide (2 ^ 63 ≤ v) := by
    unfold IntTy.fits; rw [← decide_not, decide_eq_decide]; simp only [IntTy.max]; omega
  have d5 : IntTy.fits .ulong v = true := by
    unfold IntTy.fits; rw [decide_eq_true_iff]; simp only [IntTy.max]; omega
  have d6 : IntTy.fits .ullong v = true := by
    unfold IntTy.fits; rw [decide_eq_true_iff]; simp only [IntTy.max]; omega
  have i1 : (2:Nat) ^ 32 ≤ v → (2:Nat) ^ 31 ≤ v := by omega
  have i2 : (2:Nat) ^ 63 ≤ v → (2:Nat) ^ 32 ≤ v := by omega
  by_cases c31 : 2 ^ 31 ≤ v <;> by_cases c32 : 2 ^ 32 ≤ v <;> by_cases c63 : 2 ^ 63 ≤ v <;>
    simp only [c31, c32, c63, not_true, not_false_iff, true_implies, false_implies, imp_self,
      decide_true, decide_false, Bool.not_true, Bool.not_false, if_true, if_false] at i1 i2 d1 d2 d3 d4 ⊢
  all_goals
    by_cases hb : base = 10
    · have hb' : (base == 10) = true := by simpa using hb
      rw [hb'] at h
      rcases hl3 with rfl | rfl | rfl <;> cases u <;>
        (simp only [literalType, literalTypes, List.find?, d1, d2, d3, d4, d5, d6] at h; simp_all)
    · have hb' : (base == 10) = false := by simpa using hb
      rw [hb'] at h
      rcases hl3 with rfl | rfl | rfl <;> cases u <;>
        (simp only [literalType, literalTypes, List.find?, d1, d2, d3, d4, d5, d6] at h; simp_all)

theorem readBase_ok {base : Nat} {ds t suf : List Nat} {u : Bool} {l : Nat} (stale : List Nat) (h : IntDigits base ds t)
    (hs : IntSuffix u l suf) :
    readBase ((t ++ suf).filter (fun b => b != 39) ++ 0 :: stale) = .ok (base, ds ++ (suf ++ 0 :: stale)) ∧
    (base = 2 ∨ base = 8 ∨ base = 10 ∨ base = 16) ∧ ds ≠ [] ∧ (∀ d ∈ ds, DigOf base d) := by
  obtain ⟨b, r', hb, hbn⟩ := after_digits stale hs
  have hsf := (suffix_shape hs).1
  rw [List.filter_append, hsf, List.append_assoc, hb]
  cases h with
  | dec _ _ hsep hhd =>
    obtain ⟨h1, h2, h3⟩ := sep_filter (fun d hd => by unfold IsHex; exact Or.inl hd) hsep
    rw [h1]
    refine ⟨?_, by simp, h2, fun d hd => Or.inl ⟨rfl, h3 d hd⟩⟩
    cases ds with
    | nil => exact absurd rfl h2
    | cons d ds =>
      have : d ≠ 48 := by simpa using hhd
      simp [readBase, rd, this]
  | oct _ _ hsep hhd =>
    obtain ⟨h1, h2, h3⟩ := sep_filter (fun d hd => by unfold IsOctal at hd; unfold IsHex IsDigit; omega) hsep
    rw [h1]
    refine ⟨?_, by simp, h2, fun d hd => Or.inr (Or.inl ⟨rfl, h3 d hd⟩)⟩
    have key : ∀ c1 c2 r, (c1 = 0 ∨ c1 = 117 ∨ c1 = 85 ∨ c1 = 108 ∨ c1 = 76 ∨ IsOctal c1) →
        readBase (48 :: c1 :: c2 :: r) = .ok (8, 48 :: c1 :: c2 :: r) ∧
        readBase [48, c1] = .ok (8, [48, c1]) := by
      intro c1 c2 r hc
      unfold IsOctal at hc
      have n1 : casecmp c1 120 = false := by
        rw [← Bool.not_eq_true, casecmp_iff c1 120 (by simp) (by omega)]; omega
      have n2 : casecmp c1 98 = false := by
        rw [← Bool.not_eq_true, casecmp_iff c1 98 (by simp) (by omega)]; omega
      constructor <;> simp [readBase, rd, n1, n2]
    rcases ds with _ | ⟨d0, _ | ⟨d1, ds⟩⟩
    · exact absurd rfl h2
    · have : d0 = 48 := by simpa using hhd
      subst this
      cases r' with
      | nil => exact (key b 0 [] (by omega)).2
      | cons c r' => exact (key b c r' (by omega)).1
    · have : d0 = 48 := by simpa using hhd
      subst this
      have ho := h3 d1 (by simp)
      cases ds with
      | nil => exact (key d1 b r' (by simp [ho])).1
      | cons c ds => exact (key d1 c (ds ++ b :: r') (by simp [ho])).1
  | hex x _ t' hx hsep =>
    obtain ⟨h1, h2, h3⟩ := sep_filter (fun d hd => hd) hsep
    have hx39 : (x != 39) = true := by rcases hx with rfl | rfl <;> rfl
    rw [List.filter_cons, if_pos (by decide), List.filter_cons, if_pos hx39, h1]
    refine ⟨?_, by simp, h2, fun d hd => Or.inr (Or.inr (Or.inl ⟨rfl, h3 d hd⟩))⟩
    cases ds with
    | nil => exact absurd rfl h2
    | cons d ds =>
      have hd : isXdigit d = true := (isXdigit_iff d).2 (h3 d (by simp))
      have hc : casecmp x 120 = true := by rcases hx with rfl | rfl <;> decide
      simp [readBase, rd, hc, hd]
  | bin x _ t' hx hsep =>
    obtain ⟨h1, h2, h3⟩ := sep_filter (fun d hd => by unfold IsHex IsDigit; omega) hsep
    have hx39 : (x != 39) = true := by rcases hx with rfl | rfl <;> rfl
    rw [List.filter_cons, if_pos (by decide), List.filter_cons, if_pos hx39, h1]
    refine ⟨?_, by simp, h2, fun d hd => Or.inr (Or.inr (Or.inr ⟨rfl, h3 d hd⟩))⟩
    cases ds with
    | nil => exact absurd rfl h2
    | cons d ds =>
      have hd : d = 48 ∨ d = 49 := h3 d (by simp)
      have hc : casecmp x 98 = true := by rcases hx with rfl | rfl <;> decide
      have hc' : casecmp x 120 = false := by rcases hx with rfl | rfl <;> decide
      simp [readBase, rd, hc, hc', hd]

theorem literalType_bound {dec u : Bool} {l v : Nat} {ty : IntTy} (h : literalType dec u l v = some ty) : v < 2 ^ 64 := by
  have := List.find?_some h
  have hm : IntTy.max ty < 2 ^ 64 := by cases ty <;> decide
  unfold IntTy.fits at this
  have := of_decide_eq_true this
  omega

/-- Every integer constant of C23 6.4.4.2 (with digit separators, any base, any suffix) shorter
than 227 bytes, whose value is representable in one of the types the standard lists for it, is
converted to exactly that value and the first such type. -/
theorem C12_value_and_type (base : Nat) (ds t suf stale : List Nat) (u : Bool) (l : Nat) (ty : IntTy)
    (hd : IntDigits base ds t) (hs : IntSuffix u l suf) (hlen : (t ++ suf).length < 227)
    (hty : literalType (base == 10) u l (digitsValue base ds) = some ty) :
    convertPpNumber (t ++ suf) stale = .ok (.int (digitsValue base ds) ty) := by
  obtain ⟨h1, h2, h3, h4⟩ := readBase_ok stale hd hs
  obtain ⟨b, r', hb, hbn⟩ := after_digits stale hs
  have hv := literalType_bound hty
  unfold convertPpNumber
  rw [if_neg (by omega)]
  simp only []
  have hst := strtoul_digits base h2 ds h3 h4 b r' hbn
  rw [← hb] at hst
  have hsuf := readSuffix_ok stale hs
  have hmin : min (digitsValue base ds) (2 ^ 64 - 1) = digitsValue base ds := by omega
  have hint : convertPpInt ((t ++ suf).filter (fun b => b != 39) ++ 0 :: stale)
      ((t ++ suf).filter (fun b => b != 39)).length = .ok (some (digitsValue base ds, ty)) := by
    unfold convertPpInt
    rw [h1]
    simp only []
    rw [hst, hmin]
    simp only []
    rw [hsuf]
    simp only []
    rw [if_neg (by simp only [List.length_append, List.length_cons]; omega), inferTy_ok base u l _ (suffix_shape hs).2.2 hv ty hty]
  rw [hint]

example : convertPpNumber [48, 120, 70, 70, 39, 70, 70, 70, 70, 70, 70, 117] [] = .ok (.int 0xFFFFFFFF .uint) := by decide
example : IntDigits 16 [70, 49] [48, 120, 70, 39, 49] :=
  .hex _ _ _ (Or.inl rfl) (.sep _ _ _ (by unfold IsHex; omega) (.one _ (by unfold IsHex IsDigit; omega)))

/-- The forms the compiler accepts as an integer: the standard's, and hexadecimal constants with
the prefix doubled. `pre` is the text before the digits. -/
inductive AcceptedPrefix : Nat → List Nat → List Nat → Prop
  | dec (ds : List Nat) : ds.head? ≠ some 48 → AcceptedPrefix 10 [] ds
  | oct (ds : List Nat) : ds.head? = some 48 → AcceptedPrefix 8 [] ds
  | hex (x : Nat) (ds : List Nat) : x = 120 ∨ x = 88 → AcceptedPrefix 16 [48, x] ds
  | hexhex (x y : Nat) (ds : List Nat) : x = 120 ∨ x = 88 → y = 120 ∨ y = 88 → AcceptedPrefix 16 [48, x, 48, y] ds
  | bin (x : Nat) (ds : List Nat) : x = 98 ∨ x = 66 → AcceptedPrefix 2 [48, x] ds

theorem readSuffix_inv (y stale : List Nat) (hy : ∀ b ∈ y, 0 < b ∧ b < 256) :
    ∃ u l p, readSuffix (y ++ 0 :: stale) = .ok (u, l, p) ∧ (p.length = stale.length + 1 → IntSuffix u l y) := by
  have cu : ∀ c, c < 256 → (casecmp c 117 = true ↔ c = 117 ∨ c = 85) := fun c h => casecmp_iff c 117 (by simp) h
  have cl : ∀ c, c < 256 → (casecmp c 108 = true ↔ c = 108 ∨ c = 76) := fun c h => casecmp_iff c 108 (by simp) h
  have z1 : casecmp 0 117 = false := by decide
  have z2 : casecmp 0 108 = false := by decide
  rcases y with _ | ⟨a, y⟩
  · exact ⟨false, 0, 0 :: stale, by simp [readSuffix, rd, z1, z2], fun _ => .none⟩
  have ha := hy a (by simp)
  by_cases h1 : casecmp a 117 = true
  · have ha' := (cu a ha.2).1 h1
    rcases y with _ | ⟨b, y⟩
    · exact ⟨true, 0, 0 :: stale, by simp [readSuffix, rd, h1, z2], fun _ => .u a ha'⟩
    have hb := hy b (by simp)
    by_cases h2 : casecmp b 108 = true
    · have hb' := (cl b hb.2).1 h2
      rcases y with _ | ⟨c, y⟩
      · have : (b == 0) = false := by simp; omega
        exact ⟨true, 1, 0 :: stale, by simp [readSuffix, rd, h1, h2, this], fun _ => .ul a b ha' hb'⟩
      · by_cases h3 : b = c
        · subst h3
          refine ⟨true, 2, y ++ 0 :: stale, by simp [readSuffix, rd, h1, h2], fun hl => ?_⟩
          simp at hl
          subst hl
          exact .ull a b ha' hb'
        · have h3' : (b == c) = false := by simpa using h3
          refine ⟨true, 1, c :: (y ++ 0 :: stale), by simp [readSuffix, rd, h1, h2, h3'], fun hl => ?_⟩
          simp at hl; omega
    · rw [Bool.not_eq_true] at h2
      refine ⟨true, 0, b :: (y ++ 0 :: stale), by simp [readSuffix, rd, h1, h2], fun hl => ?_⟩
      simp at hl; omega
  · rw [Bool.not_eq_true] at h1
    by_cases h2 : casecmp a 108 = true
    · have ha' := (cl a ha.2).1 h2
      rcases y with _ | ⟨b, y⟩
      · exact ⟨false, 1, 0 :: stale, by
          have : (a == 0) = false := by simp; omega
          simp [readSuffix, rd, h1, h2, this, z1], fun _ => .l a ha'⟩
      have hb := hy b (by simp)
      by_cases h3 : a = b
      · subst h3
        rcases y with _ | ⟨c, y⟩
        · exact ⟨false, 2, 0 :: stale, by simp [readSuffix, rd, h1, h2, z1], fun _ => .ll a ha'⟩
        have hc := hy c (by simp)
        by_cases h4 : casecmp c 117 = true
        · refine ⟨true, 2, y ++ 0 :: stale, by simp [readSuffix, rd, h1, h2, h4], fun hl => ?_⟩
          simp at hl; subst hl
          exact .llu c a ((cu c hc.2).1 h4) ha'
        · rw [Bool.not_eq_true] at h4
          refine ⟨false, 2, c :: (y ++ 0 :: stale), by simp [readSuffix, rd, h1, h2, h4], fun hl => ?_⟩
          simp at hl; omega
      · have h3' : (a == b) = false := by simpa using h3
        by_cases h4 : casecmp b 117 = true
        · refine ⟨true, 1, y ++ 0 :: stale, by simp [readSuffix, rd, h1, h2, h3', h4], fun hl => ?_⟩
          simp at hl; subst hl
          exact .lu b a ((cu b hb.2).1 h4) ha'
        · rw [Bool.not_eq_true] at h4
          refine ⟨false, 1, b :: (y ++ 0 :: stale), by simp [readSuffix, rd, h1, h2, h3', h4], fun hl => ?_⟩
          simp at hl; omega
    · rw [Bool.not_eq_true] at h2
      refine ⟨false, 0, a :: (y ++ 0 :: stale), by simp [readSuffix, rd, h1, h2], fun hl => ?_⟩
      simp at hl; omega

theorem span_no_nul (base : Nat) (hb : base = 2 ∨ base = 8 ∨ base = 10 ∨ base = 16) :
    ∀ (y stale : List Nat), ∃ ds y', y = ds ++ y' ∧ (∀ d ∈ ds, DigOf base d) ∧
      (y ++ 0 :: stale).takeWhile (isDig base) = ds ∧ (y ++ 0 :: stale).dropWhile (isDig base) = y' ++ 0 :: stale ∧
      (∀ b r, y = b :: r → DigOf base b → ds ≠ [])
  | [], stale => by
    have : isDig base 0 = false := by
      rw [← Bool.not_eq_true, isDig_iff base 0 hb]; unfold DigOf IsDigit IsOctal IsHex IsDigit; omega
    exact ⟨[], [], rfl, by simp, by simp [this], by simp [this], by simp⟩
  | b :: y, stale => by
    by_cases h : isDig base b = true
    · obtain ⟨ds, y', h1, h2, h3, h4, _⟩ := span_no_nul base hb y stale
      refine ⟨b :: ds, y', by simp [h1], ?_, by simp [h, h3], by simp [h, h4], by simp⟩
      intro d hd; simp at hd; rcases hd with rfl | hd
      · exact (isDig_iff base _ hb).1 h
      · exact h2 d hd
    · refine ⟨[], b :: y, rfl, by simp, by simp [h], by simp [h], ?_⟩
      intro c r e hd; injection e with e _; subst e
      exact absurd ((isDig_iff base _ hb).2 hd) h

/-- What `strtoul` consumes. -/
theorem strtoul_inv (base : Nat) (hb : base = 2 ∨ base = 8 ∨ base = 10 ∨ base = 16) (y stale : List Nat)
    (hy : ∀ b ∈ y, 0 < b ∧ b < 256) :
    ∃ v p, strtoul base (y ++ 0 :: stale) = .ok (v, p) ∧
      ((v = 0 ∧ p = y ++ 0 :: stale ∧ (∀ b r, y = b :: r → ¬ DigOf base b)) ∨
       ∃ pre ds y', y = pre ++ (ds ++ y') ∧ p = y' ++ 0 :: stale ∧ ds ≠ [] ∧ (∀ d ∈ ds, DigOf base d) ∧
         v = min (digitsValue base ds) (2 ^ 64 - 1) ∧
         (pre = [] ∨ base = 16 ∧ ∃ x, (x = 120 ∨ x = 88) ∧ pre = [48, x])) := by
  have main : ∀ pre y1, y = pre ++ y1 → skip0x base (y ++ 0 :: stale) = y1 ++ 0 :: stale →
      (pre = [] ∨ base = 16 ∧ ∃ x, (x = 120 ∨ x = 88) ∧ pre = [48, x]) →
      (pre ≠ [] → ∃ b r, y1 = b :: r ∧ DigOf base b) →
      ∃ v p, strtoul base (y ++ 0 :: stale) = .ok (v, p) ∧
        ((v = 0 ∧ p = y ++ 0 :: stale ∧ (∀ b r, y = b :: r → ¬ DigOf base b)) ∨
         ∃ pre ds y', y = pre ++ (ds ++ y') ∧ p = y' ++ 0 :: stale ∧ ds ≠ [] ∧ (∀ d ∈ ds, DigOf base d) ∧
           v = min (digitsValue base ds) (2 ^ 64 - 1) ∧
           (pre = [] ∨ base = 16 ∧ ∃ x, (x = 120 ∨ x = 88) ∧ pre = [48, x])) := by
    intro pre y1 hy1 hskip hpre hdig
    obtain ⟨ds, y', h1, h2, h3, h4, h5⟩ := span_no_nul base hb y1 stale
    have hst : strtoul base (y ++ 0 :: stale) = if ds.isEmpty then .ok (0, y ++ 0 :: stale) else
        .ok (min (digitsValue base ds) (2 ^ 64 - 1), y' ++ 0 :: stale) := by
      unfold strtoul
      rw [hskip, h3, h4]
      have hfold := foldl_hex base ds 0 h2
      simp only []
      cases y' with
      | nil => simp only [List.nil_append, hfold]; rfl
      | cons c y' => simp only [List.cons_append, hfold]; rfl
    by_cases hds : ds = []
    · subst hds
      have hpe : pre = [] := by
        cases pre with
        | nil => rfl
        | cons a q => obtain ⟨b, r, e, hd⟩ := hdig (by simp); exact absurd rfl (h5 b r e hd)
      subst hpe
      refine ⟨0, y ++ 0 :: stale, by simpa using hst, Or.inl ⟨rfl, rfl, ?_⟩⟩
      intro b r e hd
      exact absurd rfl (h5 b r (by rw [← e, hy1]; rfl) hd)
    · refine ⟨_, _, by rw [hst, if_neg (by simpa using hds)], Or.inr ⟨pre, ds, y', by rw [hy1, h1], rfl, hds, h2, rfl, hpre⟩⟩
  rcases y with _ | ⟨a, _ | ⟨b, _ | ⟨c, y⟩⟩⟩
  · apply main [] [] rfl _ (Or.inl rfl) (by simp)
    unfold skip0x
    rcases stale with _ | ⟨_, _ | _⟩ <;> simp
  · apply main [] [a] rfl _ (Or.inl rfl) (by simp)
    unfold skip0x
    rcases stale with _ | ⟨s, r⟩
    · rfl
    · have : casecmp 0 120 = false := by decide
      simp [this]
  · apply main [] [a, b] rfl _ (Or.inl rfl) (by simp)
    unfold skip0x
    have : isXdigit 0 = false := by decide
    simp [this]
  · by_cases hc : (base = 16 && a == 48 && casecmp b 120 && isXdigit c) = true
    · have hc' := hc
      simp only [Bool.and_eq_true, decide_eq_true_eq, beq_iff_eq] at hc'
      obtain ⟨⟨⟨hc1, rfl⟩, hc3⟩, hc4⟩ := hc'
      have hb256 := (hy b (by simp)).2
      have hbx := (casecmp_iff b 120 (by simp) hb256).1 hc3
      apply main [48, b] (c :: y) rfl _ (Or.inr ⟨hc1, b, hbx, rfl⟩)
        (fun _ => ⟨c, y, rfl, Or.inr (Or.inr (Or.inl ⟨hc1, (isXdigit_iff c).1 hc4⟩))⟩)
      simp only [List.cons_append, skip0x]
      rw [if_pos hc]
    · apply main [] (a :: b :: c :: y) rfl _ (Or.inl rfl) (by simp)
      simp only [List.cons_append, skip0x]
      rw [if_neg hc]

/-- Soundness and totality: on every preprocessing number (it begins with a digit or a dot, and
has no NUL) the conversion stays inside its buffer; and if it produces an integer, the text without
its quotes is prefix, digits, suffix of one of the listed forms, and the value is that of the
digits, cut off at 2^64 - 1. -/
theorem C12_only_integers (text stale : List Nat) (hb : ∀ b ∈ text, 0 < b ∧ b < 256)
    (hd : ∃ b r, text = b :: r ∧ (IsDigit b ∨ b = 46)) (hlen : text.length < 227) :
    convertPpNumber text stale = .ok .notInt ∨
    ∃ base pre ds suf u l v ty, convertPpNumber text stale = .ok (.int v ty) ∧
      text.filter (fun b => b != 39) = pre ++ (ds ++ suf) ∧ AcceptedPrefix base pre ds ∧ ds ≠ [] ∧
      (∀ d ∈ ds, DigOf base d) ∧ IntSuffix u l suf ∧ v = min (digitsValue base ds) (2 ^ 64 - 1) ∧
      ty = inferTy base u l (s64 v) := by
  obtain ⟨s, hs⟩ : ∃ s, s = text.filter (fun b => b != 39) := ⟨_, rfl⟩
  have hsb : ∀ b ∈ s, 0 < b ∧ b < 256 := by
    intro b h; rw [hs] at h; exact hb b (List.mem_filter.1 h).1
  obtain ⟨b0, r0, hs0, hb0⟩ : ∃ b r, s = b :: r ∧ (IsDigit b ∨ b = 46) := by
    obtain ⟨b, r, e, h⟩ := hd
    refine ⟨b, r.filter (fun b => b != 39), ?_, h⟩
    rw [hs, e, List.filter_cons, if_pos]
    unfold IsDigit at h; simp; omega
  -- the base, with the text before the digits
  have hbase : ∃ base pre y, readBase (s ++ 0 :: stale) = .ok (base, y ++ 0 :: stale) ∧ s = pre ++ y ∧
      (base = 2 ∨ base = 8 ∨ base = 10 ∨ base = 16) ∧
      ((base = 10 ∧ pre = [] ∧ b0 ≠ 48) ∨ (base = 8 ∧ pre = [] ∧ b0 = 48) ∨
       (base = 16 ∧ (∃ x, (x = 120 ∨ x = 88) ∧ pre = [48, x]) ∧ ∃ b r, y = b :: r ∧ DigOf base b) ∨
       (base = 2 ∧ (∃ x, (x = 98 ∨ x = 66) ∧ pre = [48, x]) ∧ ∃ b r, y = b :: r ∧ DigOf base b)) := by
    subst hs0
    by_cases h48 : b0 = 48
    · subst h48
      have z1 : casecmp 0 120 = false := by decide
      have z2 : casecmp 0 98 = false := by decide
      rcases r0 with _ | ⟨c1, r0⟩
      · exact ⟨8, [], [48], by simp [readBase, rd, z1, z2], rfl, by simp, by simp⟩
      have hc1 := (hsb c1 (by simp)).2
      by_cases hx : casecmp c1 120 = true
      · have hx' := (casecmp_iff c1 120 (by simp) hc1).1 hx
        have hnb : casecmp c1 98 = false := by rcases hx' with rfl | rfl <;> decide
        rcases r0 with _ | ⟨c2, r0⟩
        · have z3 : isXdigit 0 = false := by decide
          exact ⟨8, [], [48, c1], by simp [readBase, rd, hx, hnb, z3], rfl, by simp, by simp⟩
        by_cases h2 : isXdigit c2 = true
        · exact ⟨16, [48, c1], c2 :: r0, by simp [readBase, rd, hx, h2], rfl, by simp, Or.inr (Or.inr (Or.inl
            ⟨rfl, ⟨c1, hx', rfl⟩, c2, r0, rfl, Or.inr (Or.inr (Or.inl ⟨rfl, (isXdigit_iff c2).1 h2⟩))⟩))⟩
        · exact ⟨8, [], 48 :: c1 :: c2 :: r0, by simp [readBase, rd, hx, hnb, h2], rfl, by simp, by simp⟩
      · rw [Bool.not_eq_true] at hx
        by_cases hbb : casecmp c1 98 = true
        · have hb' := (casecmp_iff c1 98 (by simp) hc1).1 hbb
          rcases r0 with _ | ⟨c2, r0⟩
          · exact ⟨8, [], [48, c1], by simp [readBase, rd, hx, hbb], rfl, by simp, by simp⟩
          by_cases h2 : c2 = 48 ∨ c2 = 49
          · exact ⟨2, [48, c1], c2 :: r0, by simp [readBase, rd, hx, hbb, h2], rfl, by simp, Or.inr (Or.inr (Or.inr
              ⟨rfl, ⟨c1, hb', rfl⟩, c2, r0, rfl, Or.inr (Or.inr (Or.inr ⟨rfl, h2⟩))⟩))⟩
          · exact ⟨8, [], 48 :: c1 :: c2 :: r0, by simp [readBase, rd, hx, hbb, h2], rfl, by simp, by simp⟩
        · rw [Bool.not_eq_true] at hbb
          exact ⟨8, [], 48 :: c1 :: r0, by simp [readBase, rd, hx, hbb], rfl, by simp, by simp⟩
    · exact ⟨10, [], b0 :: r0, by simp [readBase, rd, h48], rfl, by simp, by simp [h48]⟩
  obtain ⟨base, pre, y, hrb, hsy, hbb, hcase⟩ := hbase
  have hyb : ∀ b ∈ y, 0 < b ∧ b < 256 := fun b h => hsb b (by rw [hsy]; simp [h])
  obtain ⟨v, p, hst, hp⟩ := strtoul_inv base hbb y stale hyb
  have hconv : ∀ u l q, readSuffix p = .ok (u, l, q) →
      convertPpNumber text stale = if q.length ≠ stale.length + 1 then .ok .notInt
        else .ok (.int v (inferTy base u l (s64 v))) := by
    intro u l q h
    unfold convertPpNumber
    rw [if_neg (by omega)]
    simp only []
    rw [← hs]
    unfold convertPpInt
    rw [hrb]; simp only []
    rw [hst]; simp only []
    rw [h]; simp only []
    have : (s ++ 0 :: stale).length - s.length = stale.length + 1 := by simp
    rw [this]
    by_cases hq : q.length = stale.length + 1
    · simp [hq]
    · simp [hq]
  rw [← hs]
  rcases hp with ⟨rfl, rfl, hnd⟩ | ⟨pre', ds, y', hy, rfl, hne, hdig, hv, hpre'⟩
  · left
    obtain ⟨u, l, q, h1, h2⟩ := readSuffix_inv y stale hyb
    rw [hconv u l q h1]
    by_cases hq : q.length = stale.length + 1
    · exfalso
      have hsuf := h2 hq
      rcases hcase with ⟨_, rfl, _⟩ | ⟨rfl, rfl, h0⟩ | ⟨_, _, b, r, e, hd'⟩ | ⟨_, _, b, r, e, hd'⟩
      · have hb1 := (suffix_shape hsuf).2.1 b0 (by rw [show y = b0 :: r0 from by rw [← hs0, hsy]; rfl]; simp)
        unfold IsDigit at hb0; omega
      · exact hnd b0 r0 (by rw [← hs0, hsy]; rfl) (Or.inr (Or.inl ⟨rfl, by rw [h0]; unfold IsOctal; omega⟩))
      · exact hnd b r e hd'
      · exact hnd b r e hd'
    · simp [hq]
  · obtain ⟨u, l, q, h1, h2⟩ := readSuffix_inv y' stale (fun b h => hyb b (by rw [hy]; simp [h]))
    rw [hconv u l q h1]
    by_cases hq : q.length = stale.length + 1
    · right
      refine ⟨base, pre ++ pre', ds, y', u, l, v, inferTy base u l (s64 v), by simp [hq], by rw [hsy, hy]; simp, ?_, hne, hdig, h2 hq, hv, rfl⟩
      have hhead : pre = [] → pre' = [] → ds.head? = some b0 := by
        intro e1 e2
        rw [hs0] at hsy; rw [e1, hy, e2] at hsy
        cases ds with
        | nil => exact absurd rfl hne
        | cons d ds => simp at hsy; simp [hsy.1]
      rcases hcase with ⟨rfl, rfl, h48⟩ | ⟨rfl, rfl, h48⟩ | ⟨rfl, ⟨x, hx, rfl⟩, _⟩ | ⟨rfl, ⟨x, hx, rfl⟩, _⟩
      · rcases hpre' with rfl | ⟨h, _⟩
        · exact .dec ds (by rw [hhead rfl rfl]; simpa using h48)
        · exact absurd h (by decide)
      · rcases hpre' with rfl | ⟨h, _⟩
        · exact .oct ds (by rw [hhead rfl rfl, h48])
        · exact absurd h (by decide)
      · rcases hpre' with rfl | ⟨_, x', hx', rfl⟩
        · exact .hex x ds hx
        · exact .hexhex x x' ds hx hx'
      · rcases hpre' with rfl | ⟨h, _⟩
        · exact .bin x ds hx
        · exact absurd h (by decide)
    · left; simp [hq]

/-- Deviations, each on a concrete text.
`0x0x10` is accepted, as 16. -/
theorem C12_double_prefix : convertPpNumber [48, 120, 48, 120, 49, 48] [] = .ok (.int 16 .int) := by decide

/-- A constant of value 2^64 is not diagnosed: it becomes 2^64 - 1 (typed `ulong` with `u`). -/
theorem C12_saturates :
    convertPpNumber [49, 56, 52, 52, 54, 55, 52, 52, 48, 55, 51, 55, 48, 57, 53, 53, 49, 54, 49, 54, 117] []
      = .ok (.int (2 ^ 64 - 1) .ulong) := by decide

/-- An unsuffixed decimal constant of value 2^63, for which no type in the standard's list is
large enough, gets type `long`, so its value is negative. -/
theorem C12_decimal_too_large :
    convertPpNumber [57, 50, 50, 51, 51, 55, 50, 48, 51, 54, 56, 53, 52, 55, 55, 53, 56, 48, 56] []
      = .ok (.int (2 ^ 63) .long) ∧ s64 (2 ^ 63) < 0 ∧ literalType true false 0 (2 ^ 63) = none := by decide

/-- `08` is not an octal constant; the compiler hands it to the floating point conversion instead
of rejecting it. -/
theorem C12_bad_octal_not_integer : convertPpNumber [48, 56] [] = .ok .notInt := by decide

end Slimcc.Props
