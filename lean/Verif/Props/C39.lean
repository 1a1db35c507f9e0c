import Verif.Model.Enum
import Verif.Lemmas.CInt
/-!
C39: enumeration constants keep their values and the enumeration type can represent them.
-/
set_option autoImplicit false
namespace Slimcc.Props
open Slimcc Slimcc.Spec Slimcc.Spec.CTy Slimcc.Ty

/-- C23 6.7.3.3: the values of the enumerators; `next` is the value a first enumerator without `=`
would get. -/
def enumValues (next : Int) : List Enumerator → List Int
  | [] => []
  | e :: es =>
    let v := match e.expl with
      | some (v, _) => v
      | none => next
    v :: enumValues (v + 1) es

/-- Explicit values are values of a 64-bit (or smaller) type of the stated sign. -/
def ExplicitOk (es : List Enumerator) : Prop :=
  ∀ e ∈ es, ∀ v u, e.expl = some (v, u) → (u = true → 0 ≤ v ∧ v < 2 ^ 64) ∧ (u = false → -2 ^ 63 ≤ v ∧ v < 2 ^ 63)

theorem toS64_id (v : Int) (h1 : -2 ^ 63 ≤ v) (h2 : v < 2 ^ 63) : toS64 v = v := by unfold toS64; omega

theorem inTy_int (v : Int) : inTyRange v ty_int = true ↔ -2147483648 ≤ v ∧ v ≤ 2147483647 := by
  simp [inTyRange, evalCast, evalSignExtend, ty_int, ITy.size, IKind.size]; omega
theorem inTy_uint (v : Int) : inTyRange v ty_uint = true ↔ 0 ≤ v ∧ v ≤ 4294967295 := by
  simp [inTyRange, evalCast, evalSignExtend, ty_uint, ITy.size, IKind.size]; omega
theorem inTy_long (v : Int) : inTyRange v ty_long = true := by
  simp [inTyRange, evalCast, evalSignExtend, ty_long, ITy.size, IKind.size]
theorem inTy_ulong (v : Int) : inTyRange v ty_ulong = true := by
  simp [inTyRange, evalCast, evalSignExtend, ty_ulong, ITy.size, IKind.size]

/-- What the loop knows about the values so far. -/
def EnumInv (s : EnumSt) (seen : List Int) : Prop :=
  (∀ v ∈ seen, v < 0 → s.neg = true) ∧
  ((s.base = ty_int ∧ s.unsg = false ∧ ∀ v ∈ seen, -2147483648 ≤ v ∧ v ≤ 2147483647) ∨
   (s.base = ty_uint ∧ s.unsg = true ∧ s.neg = false ∧ ∀ v ∈ seen, 0 ≤ v ∧ v ≤ 4294967295) ∨
   (s.base = ty_long) ∨
   (s.base = ty_ulong ∧ s.unsg = true))

theorem enumStep_signed (s : EnumSt) (seen : List Int) (e : Enumerator) (v : Int)
    (hv : v = match e.expl with | some (v, _) => v | none => s.val)
    (hneg : e.expl = none → s.val < 0 → s.neg = true)
    (hr : -2 ^ 63 ≤ v ∧ v < 2 ^ 63) (hex : ∀ v u, e.expl = some (v, u) → u = true → 0 ≤ v)
    (hi : EnumInv s seen) :
    ∃ s', enumStep false s e = some (s', v) ∧ s'.val = toS64 (v + 1) ∧ EnumInv s' (v :: seen) ∧ (v < 0 → s'.neg = true) := by
  obtain ⟨hi1, hi2⟩ := hi
  have hval : enumVal s e = v := by
    unfold enumVal
    cases he : e.expl with
    | none => rw [he] at hv; simp only at hv ⊢; exact hv.symm
    | some p => rw [he] at hv; simp only at hv ⊢; rw [← hv, toS64_id _ hr.1 hr.2]
  have hnegv : v < 0 → enumNeg s e = true := by
    intro h0
    unfold enumNeg
    cases he : e.expl with
    | none => rw [he] at hv; simp only at hv ⊢; exact hneg he (by omega)
    | some p =>
      obtain ⟨w, u⟩ := p
      rw [he] at hv; simp only at hv ⊢
      subst hv
      have hu : u = false := by
        cases u
        · rfl
        · have := hex v true he rfl; omega
      rw [toS64_id _ hr.1 hr.2]; simp [hu, h0]
  have hneg2 : s.neg = true → enumNeg s e = true := by
    intro h0
    unfold enumNeg
    cases he : e.expl with
    | none => simpa using h0
    | some p => simp [h0]
  have hneg3 : ∀ b, enumNeg s e = b → b = true → v < 0 ∨ s.neg = true := by
    intro b hb hbt
    unfold enumNeg at hb
    subst hbt
    cases he : e.expl with
    | none => rw [he] at hb; simp only at hb; exact Or.inr hb
    | some p =>
      obtain ⟨w, u⟩ := p
      rw [he] at hb hv; simp only at hb hv
      subst hv
      rw [toS64_id _ hr.1 hr.2] at hb
      by_cases h : v < 0
      · exact Or.inl h
      · simp [h] at hb; exact Or.inr hb
  unfold enumStep
  simp only [hval]
  generalize hng : enumNeg s e = ng at *
  have hng3 := hneg3 ng rfl
  have hseen : ∀ x ∈ v :: seen, x < 0 → ng = true := by
    intro x hx h0
    rcases List.mem_cons.1 hx with rfl | hx
    · exact hnegv h0
    · exact hneg2 (hi1 x hx h0)
  by_cases hin : inTyRange v s.base = true
  · simp only [hin, Bool.not_true, Bool.false_eq_true, if_false]
    refine ⟨_, rfl, rfl, ⟨hseen, ?_⟩, hnegv⟩
    rcases hi2 with ⟨hb, hu, ha⟩ | ⟨hb, hu, hn, ha⟩ | hb | ⟨hb, hu⟩
    · left
      rw [hb, inTy_int] at hin
      exact ⟨hb, hu, fun x hx => by rcases List.mem_cons.1 hx with rfl | hx; exact hin; exact ha x hx⟩
    · right; left
      rw [hb, inTy_uint] at hin
      refine ⟨hb, hu, ?_, fun x hx => by rcases List.mem_cons.1 hx with rfl | hx; exact hin; exact ha x hx⟩
      cases ng with
      | false => rfl
      | true => rcases hng3 rfl with h | h
                · omega
                · rw [hn] at h; cases h
    · right; right; left; exact hb
    · right; right; right; exact ⟨hb, hu⟩
  · rw [Bool.not_eq_true] at hin
    simp only [hin, Bool.not_false, if_true, Bool.false_eq_true, if_false]
    cases ng with
    | true =>
      simp only [if_true]
      refine ⟨_, rfl, rfl, ⟨hseen, ?_⟩, fun _ => rfl⟩
      rcases hi2 with ⟨hb, hu, ha⟩ | ⟨hb, hu, hn, ha⟩ | hb | ⟨hb, hu⟩
      · rw [hb] at hin
        right; right; left
        simp [hin]
      · right; right; left; simp [hu]
      · rw [hb, inTy_long] at hin; cases hin
      · rw [hb, inTy_ulong] at hin; cases hin
    | false =>
      simp only [Bool.false_eq_true, if_false]
      refine ⟨_, rfl, rfl, ⟨hseen, ?_⟩, hnegv⟩
      have hnn : ∀ x ∈ v :: seen, 0 ≤ x := by
        intro x hx
        by_cases h : x < 0
        · exact absurd (hseen x hx h) (by simp)
        · omega
      by_cases hu : inTyRange v ty_uint = true
      · simp only [hu, if_true]
        right; left
        refine ⟨trivial, trivial, trivial, ?_⟩
        rw [inTy_uint] at hu
        rcases hi2 with ⟨hb, hu', ha⟩ | ⟨hb, hu', hn, ha⟩ | hb | ⟨hb, hu'⟩
        · intro x hx
          rcases List.mem_cons.1 hx with rfl | hx'
          · exact hu
          · have := ha x hx'; have := hnn x hx; omega
        · intro x hx
          rcases List.mem_cons.1 hx with rfl | hx'
          · exact hu
          · exact ha x hx'
        · rw [hb, inTy_long] at hin; cases hin
        · rw [hb, inTy_ulong] at hin; cases hin
      · simp only [hu]
        right; right; right
        simp

theorem enumLoop_signed (es : List Enumerator) : ∀ (s : EnumSt) (seen : List Int) (next : Int),
    ExplicitOk es → (∀ v ∈ enumValues next es, -2 ^ 63 ≤ v ∧ v < 2 ^ 63) →
    s.val = toS64 next → (next < 0 → s.neg = true) → EnumInv s seen →
    ∃ s', enumLoop false s es = some (s', enumValues next es) ∧ EnumInv s' ((enumValues next es).reverse ++ seen) := by
  induction es with
  | nil => intro s seen next _ _ _ _ h; exact ⟨s, rfl, by simpa [enumValues] using h⟩
  | cons e es ih =>
    intro s seen next hex hr hval hneg hi
    obtain ⟨v, hv⟩ : ∃ v, v = match e.expl with | some (v, _) => v | none => next := ⟨_, rfl⟩
    have hvs : enumValues next (e :: es) = v :: enumValues (v + 1) es := by rw [enumValues, ← hv]
    rw [hvs] at hr ⊢
    have hrv := hr v (by simp)
    have hnext : e.expl = none → next = v := by intro h; rw [hv, h]
    have hv2 : v = match e.expl with | some (v, _) => v | none => s.val := by
      cases he : e.expl with
      | none =>
        simp only
        have := hnext he
        rw [hval, this, toS64_id _ hrv.1 hrv.2]
      | some p => rw [he] at hv; exact hv
    obtain ⟨s', h1, h2, h3, h4⟩ := enumStep_signed s seen e v hv2
      (by intro h h0; apply hneg; have := hnext h; rw [hval, this, toS64_id _ hrv.1 hrv.2] at h0; omega)
      hrv (fun w u he hu => ((hex e (by simp) w u he).1 hu).1) hi
    obtain ⟨s'', h5, h6⟩ := ih s' (v :: seen) (v + 1) (fun e he => hex e (by simp [he]))
      (fun w hw => hr w (by simp [hw])) h2 (by intro h; exact h4 (by omega)) h3
    refine ⟨s'', ?_, by simpa using h6⟩
    rw [enumLoop, h1]
    simp only
    rw [h5]

/-- If every enumerator value is in the range of a signed 64-bit integer, the recorded values are
the values of the standard and the type chosen represents all of them. -/
theorem C39_signed_values (es : List Enumerator) (hex : ExplicitOk es)
    (hr : ∀ v ∈ enumValues 0 es, -2 ^ 63 ≤ v ∧ v < 2 ^ 63) :
    ∃ ty, enumSpecifier es = some (enumValues 0 es, ty) ∧ ∀ v ∈ enumValues 0 es, InRange (cty ty) v := by
  obtain ⟨s, h1, h2⟩ := enumLoop_signed es ⟨0, false, false, ty_int⟩ [] 0 hex hr (by decide) (by decide)
    ⟨by simp, Or.inl ⟨rfl, rfl, by simp⟩⟩
  refine ⟨enumFinalTy s, by unfold enumSpecifier; rw [h1], ?_⟩
  rw [List.append_nil] at h2
  obtain ⟨i1, i2⟩ := h2
  intro v hv
  have hv' : v ∈ (enumValues 0 es).reverse := by simpa using hv
  have hb := hr v hv
  have hn := i1 v hv'
  unfold enumFinalTy
  rcases i2 with ⟨hb', hu, ha⟩ | ⟨hb', hu, hng, ha⟩ | hb' | ⟨hb', hu⟩
  · have := ha v hv'
    cases hneg : s.neg
    · have : ¬ v < 0 := fun h => by rw [hneg] at hn; exact absurd (hn h) (by simp)
      rw [if_pos (by simp [hb', hu, ty_int])]
      show InRange .uint v
      rw [range_uint]; omega
    · rw [if_neg (by simp), if_neg (by simp [hu]), hb']
      show InRange .int v
      rw [range_int]; omega
  · have := ha v hv'
    rw [if_neg (by simp [hu]), if_neg (by simp [hng]), hb']
    show InRange .uint v
    rw [range_uint]; omega
  · have hl : InRange (cty ty_long) v := by show InRange .long v; rw [range_long]; omega
    rw [if_neg (by simp [hb', ty_long])]
    split
    · exact hl
    · rw [hb']; exact hl
  · rw [if_neg (by simp [hb', ty_ulong])]
    cases hneg : s.neg
    · have : ¬ v < 0 := fun h => by rw [hneg] at hn; exact absurd (hn h) (by simp)
      rw [if_neg (by simp), hb']
      show InRange .ulong v
      rw [range_ulong]; omega
    · rw [if_pos (by simp [hu])]
      show InRange .long v
      rw [range_long]; omega

/-! ### Values up to 2^64 -/

def EnumInvU (s : EnumSt) (seen : List Int) : Prop :=
  s.neg = false ∧
  ((s.base = ty_int ∧ s.unsg = false ∧ ∀ v ∈ seen, 0 ≤ v ∧ v ≤ 2147483647) ∨
   (s.base = ty_uint ∧ s.unsg = true ∧ ∀ v ∈ seen, 0 ≤ v ∧ v ≤ 4294967295) ∨
   (s.base = ty_ulong ∧ s.unsg = true))

theorem enumLoop_unsigned (es : List Enumerator) : ∀ (s : EnumSt) (seen : List Int) (next : Int),
    ExplicitOk es → (∀ v ∈ enumValues next es, 0 ≤ v ∧ v < 2 ^ 64 - 2 ^ 31) →
    s.val = toS64 next → EnumInvU s seen →
    ∃ s', enumLoop false s es = some (s', (enumValues next es).map toS64) ∧ EnumInvU s' ((enumValues next es).reverse ++ seen) := by
  induction es with
  | nil => intro s seen next _ _ _ h; exact ⟨s, rfl, by simpa [enumValues] using h⟩
  | cons e es ih =>
    intro s seen next hex hr hval hi
    obtain ⟨hneg, hb⟩ := hi
    obtain ⟨v, hv⟩ : ∃ v, v = match e.expl with | some (v, _) => v | none => next := ⟨_, rfl⟩
    have hvs : enumValues next (e :: es) = v :: enumValues (v + 1) es := by rw [enumValues, ← hv]
    rw [hvs] at hr ⊢
    have hrv := hr v (by simp)
    have hval2 : enumVal s e = toS64 v := by
      unfold enumVal
      cases he : e.expl with
      | none => rw [he] at hv; simp only at hv ⊢; rw [hval, hv]
      | some p => rw [he] at hv; simp only at hv ⊢; rw [hv]
    have hng : enumNeg s e = false := by
      unfold enumNeg
      cases he : e.expl with
      | none => simpa using hneg
      | some p =>
        obtain ⟨w, u⟩ := p
        rw [he] at hv; simp only at hv; subst hv
        simp only
        cases u with
        | true => simpa using hneg
        | false =>
          have := (hex e (by simp) v false he).2 rfl
          rw [toS64_id _ this.1 this.2, if_neg]
          · exact hneg
          · simp; omega
    have hi' : inTyRange (toS64 v) ty_int = true ↔ v ≤ 2147483647 := by
      rw [inTy_int]; unfold toS64; omega
    have hu' : inTyRange (toS64 v) ty_uint = true ↔ v ≤ 4294967295 := by
      rw [inTy_uint]; unfold toS64; omega
    have hstep : ∃ s', enumStep false s e = some (s', toS64 v) ∧ s'.val = toS64 (v + 1) ∧ EnumInvU s' (v :: seen) := by
      unfold enumStep
      simp only [hval2, hng]
      have hsucc : toS64 (toS64 v + 1) = toS64 (v + 1) := by unfold toS64; omega
      by_cases hin : inTyRange (toS64 v) s.base = true
      · simp only [hin, Bool.not_true, Bool.false_eq_true, if_false]
        refine ⟨_, rfl, hsucc, rfl, ?_⟩
        rcases hb with ⟨hb, hu, ha⟩ | ⟨hb, hu, ha⟩ | ⟨hb, hu⟩
        · left
          rw [hb, hi'] at hin
          exact ⟨hb, hu, fun x hx => by rcases List.mem_cons.1 hx with rfl | hx; exact ⟨hrv.1, hin⟩; exact ha x hx⟩
        · right; left
          rw [hb, hu'] at hin
          exact ⟨hb, hu, fun x hx => by rcases List.mem_cons.1 hx with rfl | hx; exact ⟨hrv.1, hin⟩; exact ha x hx⟩
        · right; right; exact ⟨hb, hu⟩
      · rw [Bool.not_eq_true] at hin
        simp only [hin, Bool.not_false, if_true, Bool.false_eq_true, if_false]
        refine ⟨_, rfl, hsucc, rfl, ?_⟩
        by_cases hu : inTyRange (toS64 v) ty_uint = true
        · simp only [hu, if_true]
          rw [hu'] at hu
          right; left
          refine ⟨trivial, trivial, ?_⟩
          rcases hb with ⟨hb, _, ha⟩ | ⟨hb, _, ha⟩ | ⟨hb, _⟩
          · intro x hx
            rcases List.mem_cons.1 hx with rfl | hx
            · exact ⟨hrv.1, hu⟩
            · have := ha x hx; omega
          · intro x hx
            rcases List.mem_cons.1 hx with rfl | hx
            · exact ⟨hrv.1, hu⟩
            · exact ha x hx
          · rw [hb, inTy_ulong] at hin; cases hin
        · simp only [hu]
          right; right; simp
    obtain ⟨s', h1, h2, h3⟩ := hstep
    obtain ⟨s'', h5, h6⟩ := ih s' (v :: seen) (v + 1) (fun e he => hex e (by simp [he])) (fun w hw => hr w (by simp [hw])) h2 h3
    refine ⟨s'', ?_, by simpa using h6⟩
    rw [enumLoop, h1]
    simp only
    rw [h5]
    rfl

/-- If every value is non-negative and below 2^64 - 2^31, the type chosen represents all of them,
and the recorded 64-bit patterns are those of the values. -/
theorem C39_unsigned_values (es : List Enumerator) (hex : ExplicitOk es)
    (hr : ∀ v ∈ enumValues 0 es, 0 ≤ v ∧ v < 2 ^ 64 - 2 ^ 31) :
    ∃ vs ty, enumSpecifier es = some (vs, ty) ∧ vs.map (· % 2 ^ 64) = enumValues 0 es ∧
      ∀ v ∈ enumValues 0 es, InRange (cty ty) v := by
  obtain ⟨s, h1, h2⟩ := enumLoop_unsigned es ⟨0, false, false, ty_int⟩ [] 0 hex hr (by decide)
    ⟨rfl, Or.inl ⟨rfl, rfl, by simp⟩⟩
  refine ⟨_, enumFinalTy s, by unfold enumSpecifier; rw [h1], ?_, ?_⟩
  · rw [List.map_map]
    conv => rhs; rw [← List.map_id (enumValues 0 es)]
    apply List.map_congr_left
    intro v hv
    have := hr v hv
    simp only [Function.comp, toS64, id]; omega
  · rw [List.append_nil] at h2
    obtain ⟨hneg, i2⟩ := h2
    intro v hv
    have hv' : v ∈ (enumValues 0 es).reverse := by simpa using hv
    have hb := hr v hv
    unfold enumFinalTy
    rcases i2 with ⟨hb', hu, ha⟩ | ⟨hb', hu, ha⟩ | ⟨hb', hu⟩
    · have := ha v hv'
      rw [if_pos (by simp [hb', hu, hneg, ty_int])]
      show InRange .uint v
      rw [range_uint]; omega
    · have := ha v hv'
      rw [if_neg (by simp [hu]), if_neg (by simp [hneg]), hb']
      show InRange .uint v
      rw [range_uint]; omega
    · rw [if_neg (by simp [hu]), if_neg (by simp [hneg]), hb']
      show InRange .ulong v
      rw [range_ulong]; omega

/-- Non-vacuity of both: `enum { A = -1, B, C = 4294967296 }` and `enum { A = 1ul << 63, B }`. -/
example : enumSpecifier [⟨some (-1, false)⟩, ⟨none⟩, ⟨some (4294967296, false)⟩] = some ([-1, 0, 4294967296], ty_long) := by decide
example : enumSpecifier [⟨some (2 ^ 63, true)⟩, ⟨none⟩] = some ([-2 ^ 63, -2 ^ 63 + 1], ty_ulong) := by decide

/-! ### Fixed underlying type -/

/-- With a fixed underlying type other than the unsigned 64-bit ones, the declaration is accepted
exactly when every value is in range, and then the values are kept. -/
theorem C39_fixed_type (ty : ITy) (hwf : ty.wf = true) (hty : ¬ (ty.uns = true ∧ ty.size = 8)) (es : List Enumerator)
    (hex : ExplicitOk es) (hr : ∀ v ∈ enumValues 0 es, -2 ^ 63 ≤ v ∧ v < 2 ^ 63) :
    enumSpecifierFixed ty es = if (∀ v ∈ enumValues 0 es, InRange (cty ty) v) then some (enumValues 0 es) else none := by
  have hrange : ∀ v : Int, -2 ^ 63 ≤ v → v < 2 ^ 63 → (inTyRange v ty = true ↔ InRange (cty ty) v) := by
    intro v h1 h2
    revert hwf hty
    obtain ⟨k, u⟩ := ty
    cases k <;> cases u <;> intro hwf hty <;>
      first
      | exact absurd hwf (by decide)
      | exact absurd ⟨rfl, rfl⟩ hty
      | (simp only [inTyRange, evalCast, evalSignExtend, ITy.size, IKind.size, cty, beq_iff_eq, reduceCtorEq, if_true, if_false,
          Nat.reduceEqDiff, Bool.false_eq_true]
         try simp only [true_iff]
         first
         | (rw [range_bool]; split <;> omega)
         | (rw [range_char]; omega)
         | (rw [range_schar]; omega)
         | (rw [range_uchar]; omega)
         | (rw [range_short]; omega)
         | (rw [range_ushort]; omega)
         | (rw [range_int]; omega)
         | (rw [range_uint]; omega)
         | (rw [range_long]; omega)
         | (rw [range_llong]; omega))
  have main : ∀ (es : List Enumerator) (s : EnumSt) (next : Int), s.base = ty → s.val = toS64 next → ExplicitOk es →
      (∀ v ∈ enumValues next es, -2 ^ 63 ≤ v ∧ v < 2 ^ 63) →
      (enumLoop true s es).map (·.2) = if (∀ v ∈ enumValues next es, InRange (cty ty) v) then some (enumValues next es) else none := by
    intro es
    induction es with
    | nil => intro s next _ _ _ _; simp [enumLoop, enumValues]
    | cons e es ih =>
      intro s next hb hval hex hr
      obtain ⟨v, hv⟩ : ∃ v, v = match e.expl with | some (v, _) => v | none => next := ⟨_, rfl⟩
      have hvs : enumValues next (e :: es) = v :: enumValues (v + 1) es := by rw [enumValues, ← hv]
      rw [hvs] at hr ⊢
      have hrv := hr v (by simp)
      have hval2 : enumVal s e = v := by
        unfold enumVal
        cases he : e.expl with
        | none => rw [he] at hv; simp only at hv ⊢; rw [hval, ← hv, toS64_id _ hrv.1 hrv.2]
        | some p => rw [he] at hv; simp only at hv ⊢; rw [← hv, toS64_id _ hrv.1 hrv.2]
      by_cases hin : InRange (cty ty) v
      · have hin' := (hrange v hrv.1 hrv.2).2 hin
        have hs : ∃ s', enumStep true s e = some (s', v) ∧ s'.base = ty ∧ s'.val = toS64 (v + 1) := by
          unfold enumStep
          simp only [hval2, hb, hin', Bool.not_true, Bool.false_eq_true, if_false]
          exact ⟨_, rfl, rfl, rfl⟩
        obtain ⟨s', h1, h2, h3⟩ := hs
        have h4 := ih s' (v + 1) h2 h3 (fun e he => hex e (by simp [he])) (fun w hw => hr w (by simp [hw]))
        rw [enumLoop, h1]
        simp only
        cases hl : enumLoop true s' es with
        | none =>
          rw [hl] at h4
          simp only [Option.map_none] at h4 ⊢
          rw [if_neg]
          intro hall
          rw [if_pos (fun w hw => hall w (by simp [hw]))] at h4
          cases h4
        | some r =>
          obtain ⟨s'', vs⟩ := r
          rw [hl] at h4
          simp only [Option.map_some] at h4 ⊢
          split at h4
          · rename_i hall
            rw [if_pos (fun w hw => by rcases List.mem_cons.1 hw with rfl | hw; exact hin; exact hall w hw)]
            cases h4; rfl
          · cases h4
      · have hin' : inTyRange v ty = false := by
          rw [← Bool.not_eq_true]; exact fun h => hin ((hrange v hrv.1 hrv.2).1 h)
        have hs : enumStep true s e = none := by
          unfold enumStep
          simp only [hval2, hb, hin', Bool.not_false, if_true]
        rw [enumLoop, hs, if_neg (fun hall => hin (hall v (by simp)))]
        rfl
  exact main es ⟨0, false, false, ty⟩ 0 rfl rfl hex hr

example : enumSpecifierFixed ty_uchar [⟨some (255, false)⟩, ⟨none⟩] = none ∧
    enumSpecifierFixed ty_uchar [⟨some (254, false)⟩, ⟨none⟩] = some [254, 255] := by decide

/-- Deviation: `enum { A = 0xFFFFFFFFFFFFFFFF }` is given a 32-bit type, which cannot represent
the value. -/
theorem C39_top_values_lost :
    enumSpecifier [⟨some (2 ^ 64 - 1, true)⟩] = some ([-1], ty_uint) ∧ ¬ InRange (cty ty_uint) (2 ^ 64 - 1) := by decide

/-- Deviation: a fixed unsigned 64-bit type accepts negative values. -/
theorem C39_fixed_ulong_accepts_negative :
    enumSpecifierFixed ty_ulong [⟨some (-1, false)⟩] = some [-1] ∧ ¬ InRange (cty ty_ulong) (-1) := by decide

end Slimcc.Props
