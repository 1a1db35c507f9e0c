import Verif.Spec.CInt
import Verif.Model.Types
/-! Conversions are reductions modulo 2^width; the compiler's types as C types. -/
set_option autoImplicit false
namespace Slimcc
open Slimcc.Spec Slimcc.Ty

/-- The C type a compiler type stands for. -/
def cty (t : ITy) : CTy :=
  match t.kind, t.uns with
  | .bool, _ => .bool
  | .pchar, _ => .char
  | .char, false => .schar
  | .char, true => .uchar
  | .short, false => .short
  | .short, true => .ushort
  | .int, false => .int
  | .int, true => .uint
  | .long, false => .long
  | .long, true => .ulong
  | .llong, false => .llong
  | .llong, true => .ullong

def caty : ATy → CATy
  | .i t => .i (cty t)
  | .float => .float
  | .double => .double
  | .ldouble => .ldouble

namespace Spec.CTy

theorem conv_bool (v : Int) : conv bool v = if v = 0 then 0 else 1 := rfl
theorem conv_char (v : Int) : conv char v = (v + 128) % 256 - 128 := rfl
theorem conv_schar (v : Int) : conv schar v = (v + 128) % 256 - 128 := rfl
theorem conv_uchar (v : Int) : conv uchar v = v % 256 := rfl
theorem conv_short (v : Int) : conv short v = (v + 32768) % 65536 - 32768 := rfl
theorem conv_ushort (v : Int) : conv ushort v = v % 65536 := rfl
theorem conv_int (v : Int) : conv int v = (v + 2147483648) % 4294967296 - 2147483648 := rfl
theorem conv_uint (v : Int) : conv uint v = v % 4294967296 := rfl
theorem conv_long (v : Int) : conv long v = (v + 9223372036854775808) % 18446744073709551616 - 9223372036854775808 := rfl
theorem conv_ulong (v : Int) : conv ulong v = v % 18446744073709551616 := rfl
theorem conv_llong (v : Int) : conv llong v = (v + 9223372036854775808) % 18446744073709551616 - 9223372036854775808 := rfl
theorem conv_ullong (v : Int) : conv ullong v = v % 18446744073709551616 := rfl

theorem range_bool (v : Int) : InRange bool v ↔ 0 ≤ v ∧ v ≤ 1 := Iff.rfl
theorem range_char (v : Int) : InRange char v ↔ -128 ≤ v ∧ v ≤ 127 := Iff.rfl
theorem range_schar (v : Int) : InRange schar v ↔ -128 ≤ v ∧ v ≤ 127 := Iff.rfl
theorem range_uchar (v : Int) : InRange uchar v ↔ 0 ≤ v ∧ v ≤ 255 := Iff.rfl
theorem range_short (v : Int) : InRange short v ↔ -32768 ≤ v ∧ v ≤ 32767 := Iff.rfl
theorem range_ushort (v : Int) : InRange ushort v ↔ 0 ≤ v ∧ v ≤ 65535 := Iff.rfl
theorem range_int (v : Int) : InRange int v ↔ -2147483648 ≤ v ∧ v ≤ 2147483647 := Iff.rfl
theorem range_uint (v : Int) : InRange uint v ↔ 0 ≤ v ∧ v ≤ 4294967295 := Iff.rfl
theorem range_long (v : Int) : InRange long v ↔ -9223372036854775808 ≤ v ∧ v ≤ 9223372036854775807 := Iff.rfl
theorem range_ulong (v : Int) : InRange ulong v ↔ 0 ≤ v ∧ v ≤ 18446744073709551615 := Iff.rfl
theorem range_llong (v : Int) : InRange llong v ↔ -9223372036854775808 ≤ v ∧ v ≤ 9223372036854775807 := Iff.rfl
theorem range_ullong (v : Int) : InRange ullong v ↔ 0 ≤ v ∧ v ≤ 18446744073709551615 := Iff.rfl

/-- Closes goals about conversions between concrete types. -/
macro "conv_omega" : tactic => `(tactic|
  (simp only [conv_bool, conv_char, conv_schar, conv_uchar, conv_short, conv_ushort, conv_int, conv_uint,
    conv_long, conv_ulong, conv_llong, conv_ullong, range_bool, range_char, range_schar, range_uchar,
    range_short, range_ushort, range_int, range_uint, range_long, range_ulong, range_llong, range_ullong] at *;
   omega))

/-- The converted value is a value of the type. -/
theorem conv_range (t : CTy) (v : Int) : InRange t (conv t v) := by
  cases t <;> conv_omega

/-- A value of the type is unchanged. -/
theorem conv_id (t : CTy) (v : Int) (h : InRange t v) : conv t v = v := by
  cases t <;> conv_omega

/-- Apart from `bool`, conversion is congruent modulo 2^width. -/
theorem conv_congr (t : CTy) (v : Int) (h : t ≠ bool) : (conv t v - v) % 2 ^ t.width = 0 := by
  cases t <;> first | exact absurd rfl h | (simp only [width]; conv_omega)

/-- ... and it is the only value of the type that is. -/
theorem conv_unique (t : CTy) (v w : Int) (h : t ≠ bool) (hr : InRange t w) (hc : (w - v) % 2 ^ t.width = 0) :
    w = conv t v := by
  cases t <;> first | exact absurd rfl h | (simp only [width] at hc; conv_omega)

instance (t : CTy) (v : Int) : Decidable (InRange t v) := inferInstanceAs (Decidable (_ ∧ _))

theorem pow_dvd {a b : Nat} (h : a ≤ b) : (2 : Int) ^ a ∣ 2 ^ b := by
  obtain ⟨c, rfl⟩ := Nat.exists_eq_add_of_le h
  exact ⟨2 ^ c, Int.pow_add ..⟩

/-- Converting through a type that is at least as wide changes nothing. -/
theorem conv_conv (t t2 : CTy) (v : Int) (ht : t ≠ bool) (ht2 : t2 ≠ bool) (h : t.width ≤ t2.width) :
    conv t (conv t2 v) = conv t v := by
  apply conv_unique t v _ ht (conv_range _ _)
  have h1 := Int.dvd_of_emod_eq_zero (conv_congr t (conv t2 v) ht)
  have h2 := Int.dvd_trans (pow_dvd h) (Int.dvd_of_emod_eq_zero (conv_congr t2 v ht2))
  have h3 := Int.dvd_add h1 h2
  apply Int.emod_eq_zero_of_dvd
  have e : conv t (conv t2 v) - conv t2 v + (conv t2 v - v) = conv t (conv t2 v) - v := by omega
  rwa [e] at h3

/-- Values congruent modulo 2^width are converted alike. -/
theorem conv_eq_of_congr (t : CTy) (a b : Int) (ht : t ≠ bool) (h : (2 : Int) ^ t.width ∣ a - b) :
    conv t a = conv t b := by
  apply conv_unique t b _ ht (conv_range _ _)
  have h1 := Int.dvd_of_emod_eq_zero (conv_congr t a ht)
  have h3 := Int.dvd_add h1 h
  apply Int.emod_eq_zero_of_dvd
  have e : conv t a - a + (a - b) = conv t a - b := by omega
  rwa [e] at h3

end Spec.CTy

/-- All integer types of the compiler. -/
def allTys : List ITy := [ty_bool, ty_pchar, ty_char, ty_short, ty_int, ty_long, ty_llong, ty_uchar,
  ty_ushort, ty_uint, ty_ulong, ty_ullong]

theorem mem_allTys (t : ITy) (h : t.wf = true) : t ∈ allTys := by
  obtain ⟨k, u⟩ := t
  cases k <;> cases u <;> first | exact absurd h (by decide) | decide

theorem cty_bool (t : ITy) : cty t = .bool ↔ t.kind = .bool := by
  obtain ⟨k, u⟩ := t
  cases k <;> cases u <;> decide

theorem cty_width (t : ITy) (h : t.kind ≠ .bool) : (cty t).width = 8 * t.size := by
  obtain ⟨k, u⟩ := t
  cases k <;> cases u <;> first | exact absurd rfl h | rfl

/-- On well-formed types no information is lost. -/
theorem cty_inj (t t' : ITy) (h : t.wf = true) (h' : t'.wf = true) (e : cty t = cty t') : t = t' := by
  have key : ∀ t ∈ allTys, ∀ t' ∈ allTys, cty t = cty t' → t = t' := by decide
  exact key t (mem_allTys t h) t' (mem_allTys t' h') e

end Slimcc
