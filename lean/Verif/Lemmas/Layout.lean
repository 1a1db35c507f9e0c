import Verif.Spec.Layout
/-! Proofs about structure layout. -/
set_option autoImplicit false
namespace Slimcc.Layout
open Slimcc.Spec

theorem int_ok (x : Int) (h1 : -2147483648 ≤ x) (h2 : x ≤ 2147483647) : int x = .ok x := by
  unfold int; rw [if_pos ⟨h1, h2⟩]

theorem int_nat (n : Nat) (h : n ≤ 2147483647) : int (n : Int) = .ok (n : Int) := int_ok _ (by omega) (by omega)

theorem toInt_nat (n : Nat) (h : n ≤ 2147483647) : toInt (n : Int) = n := by
  unfold toInt; rw [Int.bmod_def]; omega

/-- Rounding up. -/
def up (n a : Nat) : Nat := (n + a - 1) / a * a

theorem up_dvd (n a : Nat) : a ∣ up n a := ⟨(n + a - 1) / a, Nat.mul_comm _ _⟩

theorem up_ge (n a : Nat) (h : 0 < a) : n ≤ up n a := by
  have h1 := Nat.div_add_mod (n + a - 1) a
  have h2 := Nat.mod_lt (n + a - 1) h
  unfold up
  rw [Nat.mul_comm] at h1; omega

theorem up_lt (n a : Nat) (h : 0 < a) : up n a ≤ n + a - 1 := by
  unfold up; exact Nat.div_mul_le_self _ _

theorem up_least (n a m : Nat) (h : 0 < a) (hd : a ∣ m) (hm : n ≤ m) : up n a ≤ m := by
  obtain ⟨k, rfl⟩ := hd
  have : (n + a - 1) / a ≤ k := by
    have : (n + a - 1) / a < k + 1 := by
      rw [Nat.div_lt_iff_lt_mul h]
      rw [Nat.add_mul, Nat.mul_comm k a]; omega
    omega
  unfold up
  rw [Nat.mul_comm a k]
  exact Nat.mul_le_mul_right a this

theorem up_self (n a : Nat) (h : 0 < a) (hd : a ∣ n) : up n a = n :=
  Nat.le_antisymm (up_least n a n h hd (Nat.le_refl _)) (up_ge n a h)

theorem alignTo_nat (n a : Nat) (h : 0 < a) (hs : n + a ≤ 2147483647) : alignTo n a = .ok (up n a : Nat) := by
  have e1 : ((n : Int) + a - 1) = ((n + a - 1 : Nat) : Int) := by omega
  have h1 := up_lt n a h
  unfold alignTo
  rw [int_ok _ (by omega) (by omega)]
  show (int ((n : Int) + a - 1) >>= _) = _
  rw [int_ok _ (by omega) (by omega)]
  show (if (a : Int) = 0 then Outcome.ub else _) = _
  rw [if_neg (by omega), e1, ← Int.ofNat_tdiv]
  have e2 : (((n + a - 1) / a : Nat) : Int) * (a : Int) = ((up n a : Nat) : Int) := by
    unfold up; rw [Int.natCast_mul]
  rw [e2, int_ok _ (by omega) (by omega)]

theorem alignDown_nat (n a : Nat) (h : 0 < a) (hn : n < 2147483647) (ha : a ≤ 2147483647) : alignDown n a = .ok (n / a * a : Nat) := by
  have e1 : ((n : Int) - a + 1 + a - 1) = ((n : Nat) : Int) := by omega
  have h1 : n / a * a ≤ n := Nat.div_mul_le_self _ _
  unfold alignDown
  rw [int_ok _ (by omega) (by omega)]
  show (int ((n : Int) - a + 1) >>= _) = _
  rw [int_ok _ (by omega) (by omega)]
  show alignTo _ _ = _
  unfold alignTo
  rw [int_ok _ (by omega) (by omega)]
  show (int ((n : Int) - a + 1 + a - 1) >>= _) = _
  rw [e1, int_ok _ (by omega) (by omega)]
  show (if (a : Int) = 0 then Outcome.ub else _) = _
  rw [if_neg (by omega), ← Int.ofNat_tdiv]
  have e2 : ((n / a : Nat) : Int) * (a : Int) = ((n / a * a : Nat) : Int) := by rw [Int.natCast_mul]
  rw [e2, int_ok _ (by omega) (by omega)]

theorem _root_.Slimcc.Spec.PowTwo.pos {a : Nat} (h : PowTwo a) : 0 < a := by
  obtain ⟨k, rfl⟩ := h; exact Nat.pow_pos (by omega)

theorem _root_.Slimcc.Spec.PowTwo.dvd {a b : Nat} (ha : PowTwo a) (hb : PowTwo b) (h : a ≤ b) : a ∣ b := by
  obtain ⟨i, rfl⟩ := ha; obtain ⟨j, rfl⟩ := hb
  exact Nat.pow_dvd_pow 2 ((Nat.pow_le_pow_iff_right (by omega)).1 h)

theorem _root_.Slimcc.Spec.PowTwo.max {a b : Nat} (ha : PowTwo a) (hb : PowTwo b) : PowTwo (max a b) := by
  rcases Nat.le_total a b with h | h
  · rwa [Nat.max_eq_right h]
  · rwa [Nat.max_eq_left h]

/-- The position after the explicit alignment. -/
def pre (f : Field) (e : Nat) : Nat :=
  if f.alt ≠ 0 ∧ (f.alt > f.align ∨ f.aggregate = false) then up e (8 * f.alt) else e

theorem alignMember_eq (f : Field) (e : Nat) (hs : e + 8 * f.alt ≤ 2147483647) :
    alignMember f.member e = .ok (pre f e : Nat) := by
  unfold alignMember pre
  by_cases h : f.alt ≠ 0 ∧ (f.alt > f.align ∨ f.aggregate = false)
  · have h' : f.member.altAlign ≠ 0 ∧ (f.member.altAlign > f.member.align ∨ f.member.aggregate = false) := by
      obtain ⟨a, b⟩ := h
      refine ⟨by show (f.alt : Int) ≠ 0; omega, ?_⟩
      rcases b with b | b
      · left; show (f.alt : Int) > f.align; omega
      · right; exact b
    rw [if_pos h, if_pos h', int_ok _ (by show _ ≤ (f.alt : Int) * 8; omega) (by show (f.alt : Int) * 8 ≤ _; omega)]
    show alignTo e ((f.alt : Int) * 8) = _
    have : (f.alt : Int) * 8 = ((8 * f.alt : Nat) : Int) := by omega
    rw [this, alignTo_nat _ _ (by omega) (by omega)]
  · have h' : ¬ (f.member.altAlign ≠ 0 ∧ (f.member.altAlign > f.member.align ∨ f.member.aggregate = false)) := by
      rintro ⟨a, b⟩
      refine h ⟨fun e => a (by show (f.alt : Int) = 0; omega), ?_⟩
      rcases b with b | b
      · left
        have b' : (f.alt : Int) > f.align := b
        omega
      · right; exact b
    rw [if_neg h, if_neg h']

theorem pre_bounds (f : Field) (e : Nat) : e ≤ pre f e ∧ pre f e ≤ e + 8 * f.alt := by
  unfold pre
  split
  · rename_i h
    have h0 : 0 < 8 * f.alt := by omega
    exact ⟨up_ge _ _ h0, by have := up_lt e (8 * f.alt) h0; omega⟩
  · omega

/-- The explicit alignment of the member counts: always, except for a member of structure or union
type in a packed structure that asks for no more than the alignment of its type. -/
def Honoured (packed : Bool) (f : Field) : Prop :=
  packed = true → f.aggregate = true → f.alt ≤ 1 ∨ f.align < f.alt

/-- The start of an ordinary member is the first multiple of its alignment. -/
theorem ordinary_least (packed : Bool) (f : Field) (e : Nat) (hw : f.Wf) (hn : f.width = none) (hh : Honoured packed f) :
    Least (Fits packed e f) (up (pre f e) (8 * (if packed then 1 else f.align))) := by
  have hpa := hw.align.pos
  -- the alignment of the type
  have hb : PowTwo (if packed = true then 1 else f.align) := by
    split
    · exact ⟨0, rfl⟩
    · exact hw.align
  have hb0 := hb.pos
  generalize hB : (if packed = true then 1 else f.align) = b at *
  have hreq : f.reqAlign packed = max b f.alt := by unfold Field.reqAlign; rw [hB]
  have key : Least (fun s => e ≤ s ∧ 8 * max b f.alt ∣ s) (up (pre f e) (8 * b)) := by
    have h8 : 0 < 8 * b := by omega
    by_cases hz : f.alt = 0
    · have : pre f e = e := by unfold pre; rw [if_neg (by rintro ⟨h, _⟩; exact h hz)]
      rw [this, hz, Nat.max_eq_left (by omega)]
      exact ⟨⟨up_ge _ _ h8, up_dvd _ _⟩, fun m hm => up_least _ _ _ h8 hm.2 hm.1⟩
    · have ha : PowTwo f.alt := hw.alt.resolve_left hz
      have ha0 := ha.pos
      rcases Nat.lt_or_ge b f.alt with hlt | hge
      · -- the explicit alignment is the larger one
        have hc : f.alt ≠ 0 ∧ (f.alt > f.align ∨ f.aggregate = false) := by
          refine ⟨hz, ?_⟩
          cases hp : packed with
          | false => rw [hp] at hB; left; rw [show f.align = b from hB]; exact hlt
          | true =>
            cases hg : f.aggregate with
            | false => right; rfl
            | true =>
              rw [hp] at hB
              have hB' : 1 = b := hB
              rcases hh hp hg with h | h
              · omega
              · left; omega
        have hp : pre f e = up e (8 * f.alt) := by unfold pre; rw [if_pos hc]
        have hd : 8 * b ∣ up e (8 * f.alt) := Nat.dvd_trans (Nat.mul_dvd_mul_left 8 (hb.dvd ha (by omega))) (up_dvd _ _)
        rw [hp, up_self _ _ h8 hd, Nat.max_eq_right (by omega)]
        exact ⟨⟨up_ge _ _ (by omega), up_dvd _ _⟩, fun m hm => up_least _ _ _ (by omega) hm.2 hm.1⟩
      · rw [Nat.max_eq_left hge]
        refine ⟨⟨Nat.le_trans (pre_bounds f e).1 (up_ge _ _ h8), up_dvd _ _⟩, fun m hm => up_least _ _ _ h8 hm.2 ?_⟩
        unfold pre
        split
        · exact up_least _ _ _ (by omega) (Nat.dvd_trans (Nat.mul_dvd_mul_left 8 (ha.dvd hb hge)) hm.2) hm.1
        · exact hm.1
  refine ⟨⟨key.1.1, ?_⟩, fun m hm => key.2 m ⟨hm.1, ?_⟩⟩
  · rw [hn]; show 8 * f.reqAlign packed ∣ _; rw [hreq]; exact key.1.2
  · have h2 := hm.2
    rw [hn] at h2
    have h3 : 8 * f.reqAlign packed ∣ m := h2
    rwa [hreq] at h3

/-- A bit-field has an integer type. -/
def IntField (f : Field) : Prop := f.width.isSome = true → f.aggregate = false

theorem pre_bit (f : Field) (e : Nat) (ha : f.aggregate = false) : pre f e = if f.alt ≠ 0 then up e (8 * f.alt) else e := by
  unfold pre
  by_cases h : f.alt = 0
  · simp [h]
  · rw [if_pos ⟨h, Or.inr ha⟩, if_pos h]

theorem pre_least (f : Field) (e m : Nat) (ha : f.aggregate = false) (h1 : e ≤ m) (h2 : f.alt ≠ 0 → 8 * f.alt ∣ m) : pre f e ≤ m := by
  rw [pre_bit f e ha]
  split
  · rename_i h; exact up_least _ _ _ (by omega) (h2 h) h1
  · exact h1

/-- A position aligned for the explicit alignment, moved to a multiple of a power of two, still is
the first one. -/
theorem zero_least (packed : Bool) (f : Field) (e : Nat) (hw : f.Wf) (ha : f.aggregate = false) (hn : f.width = some 0) :
    Least (Fits packed e f) (up (pre f e) (8 * f.size)) := by
  obtain ⟨hp, _, _⟩ := hw.bits 0 hn
  have hs := hp.pos
  have h8 : 0 < 8 * f.size := by omega
  have hge := up_ge (pre f e) (8 * f.size) h8
  refine ⟨⟨Nat.le_trans (pre_bounds f e).1 hge, ?_⟩, fun m hm => ?_⟩
  · rw [hn]
    refine ⟨fun hz => ?_, fun _ => up_dvd _ _, fun h => absurd rfl h⟩
    have hA := hw.alt.resolve_left hz
    have hpre : 8 * f.alt ∣ pre f e := by rw [pre_bit f e ha, if_pos hz]; exact up_dvd _ _
    rcases Nat.le_total f.alt f.size with h | h
    · exact Nat.dvd_trans (Nat.mul_dvd_mul_left 8 (hA.dvd hp h)) (up_dvd _ _)
    · rw [up_self _ _ h8 (Nat.dvd_trans (Nat.mul_dvd_mul_left 8 (hp.dvd hA h)) hpre)]; exact hpre
  · obtain ⟨h1, h2⟩ := hm
    rw [hn] at h2
    exact up_least _ _ _ h8 (h2.2.1 rfl) (pre_least f e m ha h1 h2.1)

theorem div_eq_of_le {a b c u : Nat} (h1 : a ≤ b) (h2 : b ≤ c) (h : a / u = c / u) : a / u = b / u :=
  Nat.le_antisymm (Nat.div_le_div_right h1) (by rw [h]; exact Nat.div_le_div_right h2)

/-- The start of a bit-field. -/
def bitStart (packed : Bool) (f : Field) (w e : Nat) : Nat :=
  if packed = false ∧ pre f e / (8 * f.size) ≠ (pre f e + w - 1) / (8 * f.size) then up (pre f e) (8 * f.size) else pre f e

theorem up_fits (n u w : Nat) (hu : 0 < u) (h0 : w ≠ 0) (hw : w ≤ u) : up n u / u = (up n u + w - 1) / u := by
  obtain ⟨k, hk⟩ := up_dvd n u
  rw [hk, Nat.mul_div_cancel_left k hu]
  refine (Nat.div_eq_of_lt_le ?_ ?_).symm
  · rw [Nat.mul_comm]; omega
  · rw [Nat.add_mul, Nat.mul_comm]; omega

theorem bit_least (packed : Bool) (f : Field) (w e : Nat) (hw : f.Wf) (ha : f.aggregate = false) (hn : f.width = some w) (h0 : w ≠ 0) :
    Least (Fits packed e f) (bitStart packed f w e) := by
  obtain ⟨hp, hle, _⟩ := hw.bits w hn
  have hs := hp.pos
  have h8 : 0 < 8 * f.size := by omega
  have hpre : f.alt ≠ 0 → 8 * f.alt ∣ pre f e := fun hz => by rw [pre_bit f e ha, if_pos hz]; exact up_dvd _ _
  unfold bitStart
  split
  · rename_i hc
    obtain ⟨hpk, hx⟩ := hc
    have hge := up_ge (pre f e) (8 * f.size) h8
    refine ⟨⟨Nat.le_trans (pre_bounds f e).1 hge, ?_⟩, fun m hm => ?_⟩
    · rw [hn]
      refine ⟨fun hz => ?_, fun h => absurd h h0, fun _ _ => up_fits _ _ _ h8 h0 hle⟩
      have hA := hw.alt.resolve_left hz
      rcases Nat.le_total f.alt f.size with h | h
      · exact Nat.dvd_trans (Nat.mul_dvd_mul_left 8 (hA.dvd hp h)) (up_dvd _ _)
      · rw [up_self _ _ h8 (Nat.dvd_trans (Nat.mul_dvd_mul_left 8 (hp.dvd hA h)) (hpre hz))]; exact hpre hz
    · obtain ⟨h1, h2⟩ := hm
      rw [hn] at h2
      have h3 := pre_least f e m ha h1 h2.1
      have h4 := h2.2.2 h0 hpk
      -- in the unit of `pre` nothing fits
      rcases Nat.lt_or_ge (pre f e / (8 * f.size)) (m / (8 * f.size)) with hlt | hge'
      · have : (pre f e / (8 * f.size) + 1) * (8 * f.size) ≤ m :=
          Nat.le_trans (Nat.mul_le_mul_right _ hlt) (Nat.div_mul_le_self _ _)
        refine Nat.le_trans (up_least _ _ _ h8 ⟨_, Nat.mul_comm _ _⟩ ?_) this
        have h5 := Nat.lt_mul_div_succ (pre f e) h8
        rw [Nat.mul_comm]; omega
      · exfalso
        have hq : m / (8 * f.size) = pre f e / (8 * f.size) := Nat.le_antisymm hge' (Nat.div_le_div_right h3)
        refine hx (Nat.le_antisymm (Nat.div_le_div_right (by omega)) ?_)
        rw [← hq, h4]
        exact Nat.div_le_div_right (by omega)
  · rename_i hc
    refine ⟨⟨(pre_bounds f e).1, ?_⟩, fun m hm => ?_⟩
    · rw [hn]
      refine ⟨hpre, fun h => absurd h h0, fun _ hpk => ?_⟩
      exact Classical.not_not.1 fun hx => hc ⟨hpk, hx⟩
    · obtain ⟨h1, h2⟩ := hm
      rw [hn] at h2
      exact pre_least f e m ha h1 h2.1

theorem kept_eq (f : Field) : f.member.kept = f.isMember := by
  unfold Member.kept Field.isMember Field.member
  cases f.width <;> rfl

def cost (f : Field) : Nat := 8 * f.size + (if f.width.isSome then 8 * f.size else 0) + 8 * f.align + 8 * f.alt

theorem place_none (packed : Bool) (f : Field) (e : Nat) (hw : f.Wf) (hn : f.width = none) (hh : Honoured packed f)
    (hs : e + cost f ≤ 2147483647) :
    ∃ s, Least (Fits packed e f) s ∧ placeMember packed f.member (pre f e : Nat) = .ok (record (f, s), ((s + f.len : Nat) : Int)) ∧
      s + f.len ≤ e + cost f := by
  have hpa := hw.align.pos
  have hpb := pre_bounds f e
  unfold cost at hs ⊢
  rw [hn] at hs ⊢
  simp only [Option.isSome_none, Bool.false_eq_true, if_false, Nat.add_zero] at hs ⊢
  refine ⟨_, ordinary_least packed f e hw hn hh, ?_⟩
  generalize hB : (if packed = true then 1 else f.align) = b
  have hb : 0 < b ∧ b ≤ f.align := by
    subst hB; split <;> omega
  have hu := up_lt (pre f e) (8 * b) (by omega)
  have hlen : f.len = 8 * f.size := by unfold Field.len; rw [hn]; rfl
  refine ⟨?_, by rw [hlen]; omega⟩
  have hwm : f.member.width = none := by unfold Field.member; rw [hn]; rfl
  unfold placeMember
  rw [hwm]
  have ha : (if packed = true then Outcome.ok (8 : Int) else int (f.member.align * 8)) = .ok ((8 * b : Nat) : Int) := by
    subst hB
    split
    · rfl
    · rw [int_ok _ (by show _ ≤ (f.align : Int) * 8; omega) (by show (f.align : Int) * 8 ≤ _; omega)]
      show Outcome.ok ((f.align : Int) * 8) = _
      congr 1; omega
  show ((if packed = true then Outcome.ok (8 : Int) else int (f.member.align * 8)) >>= _) = _
  rw [ha]
  show (alignTo _ _ >>= _) = _
  rw [alignTo_nat _ _ (by omega) (by omega)]
  show Outcome.ok _ = _
  unfold record
  simp only [hn, hlen]
  have e1 : ((up (pre f e) (8 * b) : Nat) : Int) + f.member.size * 8 = ((up (pre f e) (8 * b) + 8 * f.size : Nat) : Int) := by
    show _ + (f.size : Int) * 8 = _; omega
  rw [e1, toInt_nat _ (by omega)]
  congr 3

theorem record_bit (f : Field) (s w : Nat) (h : f.width = some w) :
    record (f, s) = ⟨f.member, (s / (8 * f.size) * f.size : Nat), (s % (8 * f.size) : Nat)⟩ := by
  unfold record; simp only [h]

theorem place_bit (packed : Bool) (f : Field) (w e : Nat) (hw : f.Wf) (hn : f.width = some w) (hi : f.aggregate = false) (h0 : w ≠ 0)
    (hs : e + cost f ≤ 2147483647) :
    ∃ s, Least (Fits packed e f) s ∧ placeMember packed f.member (pre f e : Nat) = .ok (record (f, s), ((s + f.len : Nat) : Int)) ∧
      s + f.len ≤ e + cost f := by
  obtain ⟨hp, hle, _⟩ := hw.bits w hn
  have hsz := hp.pos
  have hpb := pre_bounds f e
  have hpa := hw.align.pos
  unfold cost at hs ⊢
  rw [hn] at hs ⊢
  simp only [Option.isSome_some, if_true] at hs ⊢
  have hlen : f.len = w := by unfold Field.len; rw [hn]; rfl
  have hu := up_lt (pre f e) (8 * f.size) (by omega)
  have hb1 : bitStart packed f w e ≤ pre f e + 8 * f.size := by
    unfold bitStart; split <;> omega
  refine ⟨_, bit_least packed f w e hw hi hn h0, ?_, by rw [hlen]; omega⟩
  have hwm : f.member.width = some (w : Int) := by unfold Field.member; rw [hn]; rfl
  unfold placeMember
  rw [hwm]
  show (if (w : Int) = 0 then _ else _) = _
  rw [if_neg (by omega)]
  have es : toInt f.member.size = (f.size : Int) := toInt_nat _ (by omega)
  have eu : (f.size : Int) * 8 = ((8 * f.size : Nat) : Int) := by omega
  dsimp only
  rw [es]
  clear es
  rw [eu, int_nat (8 * f.size) (by omega)]
  show (if ((8 * f.size : Nat) : Int) = 0 then _ else _) = _
  have e0 : ((pre f e : Nat) : Int) + (w : Int) = ((pre f e + w : Nat) : Int) := by omega
  have e2 : ((pre f e + w : Nat) : Int) - 1 = ((pre f e + w - 1 : Nat) : Int) := by omega
  rw [if_neg (by omega), e0, int_nat (pre f e + w) (by omega)]
  show (int (((pre f e + w : Nat) : Int) - 1) >>= _) = _
  rw [e2, int_nat (pre f e + w - 1) (by omega)]
  show ((if packed = false ∧ Int.tdiv ((pre f e : Nat) : Int) ((8 * f.size : Nat) : Int) ≠ Int.tdiv ((pre f e + w - 1 : Nat) : Int) ((8 * f.size : Nat) : Int) then
    alignTo _ _ else Outcome.ok _) >>= _) = _
  rw [← Int.ofNat_tdiv, ← Int.ofNat_tdiv, alignTo_nat _ _ (by omega) (by omega)]
  have e3 : (if packed = false ∧ ((pre f e / (8 * f.size) : Nat) : Int) ≠ ((pre f e + w - 1) / (8 * f.size) : Nat) then
      Outcome.ok ((up (pre f e) (8 * f.size) : Nat) : Int) else Outcome.ok ((pre f e : Nat) : Int)) = .ok ((bitStart packed f w e : Nat) : Int) := by
    unfold bitStart
    by_cases h : packed = false ∧ pre f e / (8 * f.size) ≠ (pre f e + w - 1) / (8 * f.size)
    · rw [if_pos h, if_pos ⟨h.1, by have := h.2; omega⟩]
    · rw [if_neg h, if_neg (fun h' => h ⟨h'.1, by have := h'.2; omega⟩)]
  rw [e3]
  generalize bitStart packed f w e = s at hb1 ⊢
  show (alignDown (Int.tdiv (s : Int) 8) _ >>= _) = _
  have e4 : Int.tdiv (s : Int) 8 = ((s / 8 : Nat) : Int) := (Int.ofNat_tdiv s 8).symm
  rw [e4, alignDown_nat _ _ hsz (by omega) (by omega)]
  show (int (s + (w : Int)) >>= _) = _
  rw [show (s : Int) + (w : Int) = ((s + w : Nat) : Int) by omega, int_nat (s + w) (by omega)]
  show Outcome.ok _ = _
  rw [record_bit f s w hn, hlen, Nat.div_div_eq_div_mul]
  rfl

theorem place_zero (packed : Bool) (f : Field) (e : Nat) (hw : f.Wf) (hn : f.width = some 0) (hi : f.aggregate = false)
    (hs : e + cost f ≤ 2147483647) :
    ∃ s p, Least (Fits packed e f) s ∧ placeMember packed f.member (pre f e : Nat) = .ok (p, ((s + f.len : Nat) : Int)) ∧
      p.mem = f.member ∧ f.isMember = false ∧ s + f.len ≤ e + cost f := by
  obtain ⟨hp, hle, hnm⟩ := hw.bits 0 hn
  have hsz := hp.pos
  have hpb := pre_bounds f e
  have hpa := hw.align.pos
  unfold cost at hs ⊢
  rw [hn] at hs ⊢
  simp only [Option.isSome_some, if_true] at hs ⊢
  have hlen : f.len = 0 := by unfold Field.len; rw [hn]; rfl
  have hu := up_lt (pre f e) (8 * f.size) (by omega)
  refine ⟨_, ⟨f.member, 0, 0⟩, zero_least packed f e hw hi hn, ?_, rfl, ?_, by rw [hlen]; omega⟩
  · have hwm : f.member.width = some ((0 : Nat) : Int) := by unfold Field.member; rw [hn]; rfl
    have es : f.member.size * 8 = ((8 * f.size : Nat) : Int) := by show (f.size : Int) * 8 = _; omega
    unfold placeMember
    rw [hwm]
    show (if ((0 : Nat) : Int) = 0 then _ else _) = _
    rw [if_pos Int.natCast_zero, es, toInt_nat _ (by omega), alignTo_nat _ _ (by omega) (by omega), hlen]
    rfl
  · unfold Field.isMember; rw [hn, hnm rfl]; rfl

/-- What is needed of each member. -/
structure FieldOk (packed : Bool) (f : Field) : Prop where
  wf : f.Wf
  int : IntField f
  hon : Honoured packed f

theorem place_any (packed : Bool) (f : Field) (e : Nat) (hf : FieldOk packed f) (hs : e + cost f ≤ 2147483647) :
    ∃ s p, Least (Fits packed e f) s ∧ placeMember packed f.member (pre f e : Nat) = .ok (p, ((s + f.len : Nat) : Int)) ∧
      p.mem = f.member ∧ (f.isMember = true → p = record (f, s)) ∧ s + f.len ≤ e + cost f := by
  cases hn : f.width with
  | none =>
    obtain ⟨s, h1, h2, h3⟩ := place_none packed f e hf.wf hn hf.hon hs
    exact ⟨s, _, h1, h2, by unfold record; simp only [hn], fun _ => rfl, h3⟩
  | some w =>
    have ha := hf.int (by rw [hn]; rfl)
    by_cases h0 : w = 0
    · subst h0
      obtain ⟨s, p, h1, h2, h3, h4, h5⟩ := place_zero packed f e hf.wf hn ha hs
      exact ⟨s, p, h1, h2, h3, (fun h => by rw [h4] at h; cases h), h5⟩
    · obtain ⟨s, h1, h2, h3⟩ := place_bit packed f w e hf.wf hn ha h0 hs
      exact ⟨s, _, h1, h2, by rw [record_bit f s w hn], fun _ => rfl, h3⟩

theorem loop_ok (packed : Bool) (fs : List Field) : ∀ (alt e : Nat), (∀ f ∈ fs, FieldOk packed f) → e + room fs ≤ 2147483647 →
    ∃ ps pl used, structLoop packed (fs.map Field.member) alt e =
        .ok (ps, (fs.map Field.member).foldl (altStep packed) alt, ((used : Nat) : Int)) ∧
      Laid packed e fs pl used ∧ ps.filter (fun p => p.mem.kept) = (pl.filter (fun p => p.1.isMember)).map record ∧
      used ≤ e + room fs := by
  induction fs with
  | nil => intro alt e _ _; exact ⟨[], [], e, rfl, .nil e, rfl, by unfold room; omega⟩
  | cons f fs ih =>
    intro alt e hf hs
    have hc : room (f :: fs) = cost f + room fs := by unfold cost; rw [room]
    rw [hc] at hs ⊢
    obtain ⟨s, p, h1, h2, h3, h4, h5⟩ := place_any packed f e (hf f (.head _)) (by omega)
    have hA : altStep packed alt f.member = ((altStep packed alt f.member).toNat : Int) := by
      unfold altStep
      have : (f.member.altAlign : Int) = (f.alt : Nat) := rfl
      split
      · rw [this]; omega
      · omega
    obtain ⟨ps, pl, used, g1, g2, g3, g4⟩ := ih (altStep packed alt f.member).toNat (s + f.len) (fun g hg => hf g (.tail _ hg)) (by omega)
    refine ⟨p :: ps, (f, s) :: pl, used, ?_, .cons e f s fs pl used h1 g2, ?_, by omega⟩
    · rw [List.map_cons, structLoop, alignMember_eq f e (by unfold cost at hs; omega)]
      show (placeMember packed f.member (pre f e : Nat) >>= _) = _
      rw [h2]
      show (structLoop packed _ (altStep packed alt f.member) _ >>= _) = _
      rw [hA, g1, ← hA]
      rfl
    · rw [List.filter_cons, List.filter_cons, h3, kept_eq]
      cases hm : f.isMember with
      | false => simpa using g3
      | true => simp [g3, h4 hm]

/-- The alignment computed by the loop. -/
theorem alt_ok (packed : Bool) (fs : List Field) : ∀ (alt : Nat), ∃ a : Nat, (fs.map Field.member).foldl (altStep packed) (alt : Int) = (a : Int) ∧
    alt ≤ a ∧ (∀ f ∈ fs, f.isMember = true → f.alt ≤ a ∧ (packed = false → f.align ≤ a)) ∧
    (a = alt ∨ ∃ f ∈ fs, f.isMember = true ∧ (a = f.alt ∨ (packed = false ∧ a = f.align))) := by
  induction fs with
  | nil => intro alt; exact ⟨alt, rfl, Nat.le_refl _, (fun f h => by cases h), .inl rfl⟩
  | cons f fs ih =>
    intro alt
    rw [List.map_cons, List.foldl_cons]
    have hA : altStep packed alt f.member = ((if f.isMember = true then max (if packed = true then alt else max alt f.align) f.alt else alt : Nat) : Int) := by
      unfold altStep
      rw [kept_eq]
      have h1 : (f.member.altAlign : Int) = (f.alt : Nat) := rfl
      have h2 : (f.member.align : Int) = (f.align : Nat) := rfl
      rw [h1, h2]
      split
      · split <;> omega
      · rfl
    rw [hA]
    obtain ⟨a, h1, h2, h3, h4⟩ := ih (if f.isMember = true then max (if packed = true then alt else max alt f.align) f.alt else alt)
    refine ⟨a, h1, ?_, ?_, ?_⟩
    · revert h2; cases f.isMember <;> cases packed <;> simp <;> omega
    · intro g hg hm
      rcases List.mem_cons.1 hg with rfl | hg
      · rw [if_pos hm] at h2
        refine ⟨by omega, fun hp => ?_⟩
        subst hp
        simp only [Bool.false_eq_true, if_false] at h2; omega
      · exact h3 g hg hm
    · rcases h4 with h4 | ⟨g, hg, h⟩
      · cases hm : f.isMember with
        | false => rw [hm] at h4; left; simpa using h4
        | true =>
          rw [hm, if_pos rfl] at h4
          cases packed with
          | true =>
            simp only [if_true] at h4
            rcases Nat.le_total alt f.alt with h | h
            · right; exact ⟨f, .head _, hm, .inl (by omega)⟩
            · left; omega
          | false =>
            simp only [Bool.false_eq_true, if_false] at h4
            by_cases h5 : a = alt
            · left; exact h5
            · right
              refine ⟨f, .head _, hm, ?_⟩
              by_cases h6 : a = f.alt
              · left; exact h6
              · right; refine ⟨rfl, by omega⟩
      · right; exact ⟨g, .tail _ hg, h⟩

theorem align_is (packed : Bool) (fs : List Field) (alt : Nat) (hf : ∀ f ∈ fs, f.Wf) :
    ∃ a : Nat, AlignIs packed alt fs a ∧ 0 < a ∧
      (if (fs.map Field.member).foldl (altStep packed) (alt : Int) ≠ 0 then (fs.map Field.member).foldl (altStep packed) (alt : Int) else 1) = (a : Int) ∧
      ((fs.map Field.member).foldl (altStep packed) (alt : Int) = 0 → a = 1) := by
  obtain ⟨a, h1, h2, h3, h4⟩ := alt_ok packed fs alt
  rw [h1]
  by_cases h0 : a = 0
  · subst h0
    refine ⟨1, ⟨.inl rfl, ?_⟩, by omega, by simp, fun _ => rfl⟩
    rintro x (h | h | ⟨f, hf', hm, h⟩)
    · omega
    · omega
    · have h5 := h3 f hf' hm
      rcases h with h | ⟨hp, h⟩
      · omega
      · have := h5.2 hp; omega
  · refine ⟨a, ⟨?_, ?_⟩, by omega, by rw [if_pos (by omega)], fun h => by omega⟩
    · rcases h4 with h | ⟨f, hf', hm, h⟩
      · exact .inr (.inl h)
      · exact .inr (.inr ⟨f, hf', hm, h⟩)
    · rintro x (h | h | ⟨f, hf', hm, h⟩)
      · omega
      · omega
      · have h5 := h3 f hf' hm
        rcases h with h | ⟨hp, h⟩
        · omega
        · have := h5.2 hp; omega

theorem size_least (used a : Nat) (ha : 0 < a) : Least (fun n => a ∣ n ∧ used ≤ 8 * n) (up used (8 * a) / 8) := by
  obtain ⟨k, hk⟩ := up_dvd used (8 * a)
  have hge := up_ge used (8 * a) (by omega)
  have e : up used (8 * a) / 8 = a * k := by rw [hk, Nat.mul_assoc, Nat.mul_div_cancel_left _ (by omega)]
  rw [e]
  refine ⟨⟨⟨k, rfl⟩, by rw [← Nat.mul_assoc, ← hk]; exact hge⟩, fun m ⟨⟨j, hj⟩, hm⟩ => ?_⟩
  have := up_least used (8 * a) (8 * m) (by omega) ⟨j, by rw [hj, Nat.mul_assoc]⟩ hm
  rw [hk, Nat.mul_assoc] at this
  omega

theorem struct_ok (packed : Bool) (alt : Nat) (fs : List Field) (a : Nat) (hf : ∀ f ∈ fs, FieldOk packed f) (ha : AlignIs packed alt fs a)
    (hs : room fs + 8 * a ≤ 2147483647) :
    ∃ L pl used size, structDecl packed alt (fs.map Field.member) = .ok L ∧ Laid packed 0 fs pl used ∧
      L.members = (pl.filter (fun p => p.1.isMember)).map record ∧ L.align = ((a : Nat) : Int) ∧ L.size = ((size : Nat) : Int) ∧
      Least (fun n => a ∣ n ∧ used ≤ 8 * n) size := by
  obtain ⟨ps, pl, used, h1, h2, h3, h4⟩ := loop_ok packed fs alt 0 hf (by omega)
  obtain ⟨a', g1, g2, g3, g4⟩ := align_is packed fs alt (fun f h => (hf f h).wf)
  have haa : a' = a := Nat.le_antisymm (ha.2 a' g1.1) (g1.2 a ha.1)
  subst haa
  refine ⟨⟨ps.filter (fun p => p.mem.kept), ((up used (8 * a') / 8 : Nat) : Int), a'⟩, pl, used, _, ?_, h2, h3, rfl, rfl, size_least used a' g2⟩
  unfold structDecl
  show (structLoop packed (fs.map Field.member) alt ((0 : Nat) : Int) >>= _) = _
  rw [h1]
  have hu := up_lt used (8 * a') (by omega)
  generalize (fs.map Field.member).foldl (altStep packed) (alt : Int) = A at *
  show ((if A = 0 ∧ packed = true then alignTo used 8 else _) >>= _) = _
  have key : (if A = 0 ∧ packed = true then alignTo (used : Int) 8 else
      (int ((if A ≠ 0 then A else 1) * 8) >>= fun x => alignTo (used : Int) x)) = .ok ((up used (8 * a') : Nat) : Int) := by
    split
    · rename_i h
      have := g4 h.1
      subst this
      exact alignTo_nat used 8 (by omega) (by omega)
    · rw [g3, int_ok _ (by omega) (by omega)]
      show alignTo (used : Int) ((a' : Int) * 8) = _
      have e : (a' : Int) * 8 = ((8 * a' : Nat) : Int) := by omega
      rw [e]
      exact alignTo_nat used _ (by omega) (by omega)
  rw [key]
  show Outcome.ok _ = _
  rw [g3, show Int.tdiv ((up used (8 * a') : Nat) : Int) 8 = ((up used (8 * a') / 8 : Nat) : Int) from (Int.ofNat_tdiv _ 8).symm]

end Slimcc.Layout

namespace Slimcc.Layout
open Slimcc.Spec

theorem laid_fst {packed : Bool} {e : Nat} {fs : List Field} {pl : List (Field × Nat)} {used : Nat} (h : Laid packed e fs pl used) :
    pl.map Prod.fst = fs := by
  induction h with
  | nil => rfl
  | cons e f s fs pl used h1 h2 ih => rw [List.map_cons, ih]

theorem laid_bounds {packed : Bool} {e : Nat} {fs : List Field} {pl : List (Field × Nat)} {used : Nat} (h : Laid packed e fs pl used) :
    e ≤ used ∧ ∀ p ∈ pl, e ≤ p.2 ∧ p.2 + p.1.len ≤ used := by
  induction h with
  | nil => exact ⟨Nat.le_refl _, fun p h => by cases h⟩
  | cons e f s fs pl used h1 h2 ih =>
    have hs : e ≤ s := h1.1.1
    refine ⟨by omega, fun p hp => ?_⟩
    rcases List.mem_cons.1 hp with rfl | hp
    · exact ⟨hs, ih.1⟩
    · have := ih.2 p hp; omega

theorem laid_pairwise {packed : Bool} {e : Nat} {fs : List Field} {pl : List (Field × Nat)} {used : Nat} (h : Laid packed e fs pl used) :
    pl.Pairwise (fun a b => a.2 + a.1.len ≤ b.2) := by
  induction h with
  | nil => exact .nil
  | cons e f s fs pl used h1 h2 ih => exact .cons (fun p hp => ((laid_bounds h2).2 p hp).1) ih

theorem laid_fits {packed : Bool} {e : Nat} {fs : List Field} {pl : List (Field × Nat)} {used : Nat} (h : Laid packed e fs pl used) :
    ∀ p ∈ pl, ∃ e', Fits packed e' p.1 p.2 := by
  induction h with
  | nil => exact fun p h => by cases h
  | cons e f s fs pl used h1 h2 ih =>
    intro p hp
    rcases List.mem_cons.1 hp with rfl | hp
    · exact ⟨e, h1.1⟩
    · exact ih p hp

theorem laid_split {packed : Bool} {fs gs : List Field} : ∀ {e : Nat} {pl : List (Field × Nat)} {used : Nat}, Laid packed e (fs ++ gs) pl used →
    ∃ pl1 pl2 u, pl = pl1 ++ pl2 ∧ Laid packed e fs pl1 u ∧ Laid packed u gs pl2 used := by
  induction fs with
  | nil => intro e pl used h; exact ⟨[], pl, e, rfl, .nil e, h⟩
  | cons f fs ih =>
    intro e pl used h
    cases h with
    | cons _ _ s _ pl _ h1 h2 =>
      obtain ⟨p1, p2, u, a, b, c⟩ := ih h2
      exact ⟨(f, s) :: p1, p2, u, by rw [a]; rfl, .cons _ _ _ _ _ _ h1 b, c⟩

theorem record_mem (p : Field × Nat) : (record p).mem = p.1.member := by
  unfold record; cases p.1.width <;> rfl

theorem record_start (packed : Bool) (e : Nat) (p : Field × Nat) (hw : p.1.Wf) (hf : Fits packed e p.1 p.2) :
    startBit (record p) = (p.2 : Nat) := by
  unfold startBit record
  obtain ⟨f, s⟩ := p
  dsimp only at *
  cases hn : f.width with
  | none =>
    have h2 := hf.2
    rw [hn] at h2
    have h3 : 8 ∣ s := Nat.dvd_trans ⟨_, rfl⟩ h2
    dsimp only
    omega
  | some w =>
    dsimp only
    have h1 := Nat.div_add_mod s (8 * f.size)
    have h2 : 8 * (s / (8 * f.size) * f.size) = 8 * f.size * (s / (8 * f.size)) := by
      rw [Nat.mul_assoc, Nat.mul_comm f.size]
    omega

theorem len_cast (f : Field) : f.member.width.getD (8 * f.member.size) = ((f.len : Nat) : Int) := by
  unfold Field.len Field.member
  cases f.width with
  | none => show 8 * (f.size : Int) = ((8 * f.size : Nat) : Int); omega
  | some w => rfl

theorem record_end (packed : Bool) (e : Nat) (p : Field × Nat) (hw : p.1.Wf) (hf : Fits packed e p.1 p.2) :
    endBit (record p) = (p.2 + p.1.len : Nat) := by
  unfold endBit
  rw [record_start packed e p hw hf, record_mem, len_cast]
  omega

end Slimcc.Layout
