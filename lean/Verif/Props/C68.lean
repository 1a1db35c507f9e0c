import Verif.Spec.StrJoin
import Verif.Lemmas.LexStr
set_option autoImplicit false
/-!
C68 Adjacent string literals become one.

`joinStrings` is the compiler's joining of a run of string tokens; `Joined` says what array the literals
stand for.
-/
namespace Slimcc.Props
open Slimcc.Lex Slimcc.Spec

/-! ### Bytes -/

theorem inBytes_iff (n : Nat) : ∀ (u : Nat) (b : List Nat), InBytes n u b ↔ b = leBytes n u := by
  induction n with
  | zero =>
    intro u b
    constructor
    · intro h; exact List.length_eq_zero_iff.mp h.1
    · rintro rfl; exact ⟨rfl, fun i hi => absurd hi (Nat.not_lt_zero i)⟩
  | succ n ih =>
    intro u b
    cases b with
    | nil =>
      constructor
      · intro h; cases h.1
      · intro h; cases h
    | cons x b =>
      rw [leBytes, List.cons.injEq, ← ih]
      have e : ∀ i, u / 256 ^ (i + 1) % 256 = u / 256 / 256 ^ i % 256 := by
        intro i
        rw [Nat.pow_succ, Nat.mul_comm, Nat.div_div_eq_div_mul]
      constructor
      · rintro ⟨h1, h2⟩
        have h0 := h2 0 (by omega)
        simp only [List.getElem?_cons_zero, Nat.pow_zero, Nat.div_one, Option.some.injEq] at h0
        refine ⟨h0, by simpa using h1, fun i hi => ?_⟩
        have := h2 (i + 1) (by omega)
        rw [List.getElem?_cons_succ, e] at this
        exact this
      · rintro ⟨rfl, h1, h2⟩
        refine ⟨by simp [h1], fun i hi => ?_⟩
        cases i with
        | zero => simp
        | succ i =>
          rw [List.getElem?_cons_succ, e]
          exact h2 i (by omega)

theorem inMemory_iff (n : Nat) : ∀ (us m : List Nat), InMemory n us m ↔ m = us.flatMap (leBytes n) := by
  intro us
  induction us with
  | nil =>
    intro m
    constructor
    · intro h; cases h; rfl
    · rintro rfl; exact .nil
  | cons u us ih =>
    intro m
    rw [List.flatMap_cons]
    constructor
    · intro h
      cases h with
      | cons _ _ b bs h1 h2 => rw [(inBytes_iff n u b).mp h1, (ih bs).mp h2]
    · rintro rfl
      exact .cons u us _ _ ((inBytes_iff n u _).mpr rfl) ((ih _).mpr rfl)

theorem leBytes_len (n u : Nat) : (leBytes n u).length = n := ((inBytes_iff n u _).mpr rfl).1

theorem flat_len (n : Nat) (us : List Nat) : (us.flatMap (leBytes n)).length = n * us.length := by
  induction us with
  | nil => rfl
  | cons u us ih => rw [List.flatMap_cons, List.length_append, ih, leBytes_len, List.length_cons, Nat.mul_succ, Nat.add_comm]

/-! ### Copying -/

theorem copy_run (e : StrEnc) : ∀ (ts : List StrTok) (buf : List Nat) (i : Nat), ts ≠ [] → (∀ t ∈ ts, t.enc = e) →
    i + elemSize e * ((ts.flatMap StrTok.units).length + 1) = buf.length →
    copyAll buf i ts = .ok (buf.take i ++ (ts.flatMap StrTok.units ++ [0]).flatMap (leBytes (elemSize e))) := by
  intro ts
  induction ts with
  | nil => intro buf i h; exact absurd rfl h
  | cons t ts ih =>
    intro buf i _ he hl
    have ht : t.enc = e := he t (List.mem_cons_self ..)
    have hm : t.mem.length = elemSize e * t.units.length + elemSize e := by
      unfold StrTok.mem
      rw [ht, flat_len, List.length_append, List.length_singleton, Nat.mul_add, Nat.mul_one]
    rw [List.flatMap_cons, List.length_append, Nat.mul_add, Nat.mul_add, Nat.mul_one] at hl
    rw [copyAll, storeAt, if_pos (by omega)]
    simp only
    have hi : i + t.mem.length - elemSize t.enc = i + elemSize e * t.units.length := by rw [ht, hm]; omega
    cases hts : ts with
    | nil =>
      rw [hts] at hl
      simp only [List.flatMap_nil, List.length_nil, Nat.mul_zero, Nat.zero_add] at hl
      rw [copyAll, List.drop_eq_nil_of_le (by omega), List.append_nil]
      simp [StrTok.mem, ht]
    | cons t' ts' =>
      rw [← hts, hi, ih _ _ (by rw [hts]; simp) (fun x hx => he x (List.mem_cons_of_mem _ hx))]
      · have e1 : (buf.take i ++ t.mem ++ buf.drop (i + t.mem.length)).take (i + elemSize e * t.units.length) =
            buf.take i ++ t.units.flatMap (leBytes (elemSize e)) := by
          have hti : (buf.take i).length = i := by rw [List.length_take]; omega
          have htm : t.mem = t.units.flatMap (leBytes (elemSize e)) ++ leBytes (elemSize e) 0 := by
            unfold StrTok.mem; rw [ht]; simp
          rw [htm, ← List.append_assoc, List.append_assoc, List.take_append_of_le_length (by rw [List.length_append, hti, flat_len]; omega)]
          rw [List.take_of_length_le (by rw [List.length_append, hti, flat_len]; omega)]
        rw [e1, List.flatMap_cons]
        simp only [List.flatMap_append, List.append_assoc]
      · simp only [List.length_append, List.length_take, List.length_drop]
        rw [Nat.mul_add, Nat.mul_one]
        omega

theorem joinLen_eq (t : StrTok) (ts : List StrTok) : joinLen (t :: ts) = ((t :: ts).flatMap StrTok.units).length + 1 := by
  have : ∀ (ts : List StrTok) (n : Nat), ts.foldl (fun n t => n + (t.units.length + 1) - 1) n = n + (ts.flatMap StrTok.units).length := by
    intro ts
    induction ts with
    | nil => intro n; rfl
    | cons t ts ih =>
      intro n
      rw [List.foldl_cons, ih, List.flatMap_cons, List.length_append]
      omega
  rw [joinLen, this, List.flatMap_cons, List.length_append]
  omega

/-! ### Prefixes -/

def kindOf (p : List Nat) : StrKind :=
  if p = [] then .none else if p = [117, 56] ∨ p = [117] then .utf16 else if p = [85] then .utf32 else .wide

theorem prefix_cases {p : List Nat} {e : StrEnc} (h : prefixEnc p = some e) :
    (p = [] ∧ e = .narrow) ∨ (p = [117, 56] ∧ e = .narrow) ∨ (p = [117] ∧ e = .utf16) ∨ (p = [76] ∧ e = .wide) ∨ (p = [85] ∧ e = .utf32) := by
  have hs : strPrefixes = [([], .narrow), ([117, 56], .narrow), ([117], .utf16), ([76], .wide), ([85], .utf32)] := by decide
  unfold prefixEnc at h
  rw [Option.map_eq_some_iff] at h
  obtain ⟨x, h1, rfl⟩ := h
  have hm := List.mem_of_find?_eq_some h1
  have hp := List.find?_some h1
  simp only [decide_eq_true_eq] at hp
  rw [hs] at hm
  simp only [List.mem_cons, List.not_mem_nil, or_false] at hm
  subst hp
  rcases hm with rfl | rfl | rfl | rfl | rfl <;> simp

theorem kind_of_token {l : Lit} {t : StrTok} (h : IsTokenOf l t) : getStringKind t.loc = .ok (kindOf l.pre) := by
  obtain ⟨a, r, hl, -⟩ := h.text
  rw [hl]
  rcases prefix_cases h.enc with ⟨e, -⟩ | ⟨e, -⟩ | ⟨e, -⟩ | ⟨e, -⟩ | ⟨e, -⟩ <;> rw [e] <;> simp [getStringKind, kindOf]

/-- The prefix of the whole, from that of a part. -/
def comb : List Nat → List Lit → Option (List Nat)
  | p, [] => some p
  | p, l :: ls => if p = [] then comb l.pre ls else if l.pre ≠ [] ∧ p ≠ l.pre then none else comb p ls

/-- `u8` and `u` do not both occur. -/
def NoMix (ls : List Lit) : Prop := ¬ ((∃ l ∈ ls, l.pre = [117, 56]) ∧ ∃ l ∈ ls, l.pre = [117])

theorem kindOf_inj {p q : List Nat} {e f : StrEnc} (hp : prefixEnc p = some e) (hq : prefixEnc q = some f)
    (hm : ¬ (p = [117, 56] ∧ q = [117])) (hm' : ¬ (p = [117] ∧ q = [117, 56])) : kindOf p = kindOf q ↔ p = q := by
  rcases prefix_cases hp with ⟨rfl, -⟩ | ⟨rfl, -⟩ | ⟨rfl, -⟩ | ⟨rfl, -⟩ | ⟨rfl, -⟩ <;>
    rcases prefix_cases hq with ⟨rfl, -⟩ | ⟨rfl, -⟩ | ⟨rfl, -⟩ | ⟨rfl, -⟩ | ⟨rfl, -⟩ <;> simp_all [kindOf]

theorem kindOf_none {p : List Nat} : kindOf p = .none ↔ p = [] := by
  unfold kindOf
  constructor
  · intro h
    by_cases h0 : p = []
    · exact h0
    · rw [if_neg h0] at h
      split at h
      · cases h
      · split at h <;> cases h
  · rintro rfl; rfl

theorem joinKind_eq {ls : List Lit} {ts : List StrTok} (h : TokensOf ls ts) : ∀ (l0 : Lit) (t0 : StrTok), IsTokenOf l0 t0 →
    NoMix (l0 :: ls) → (match comb l0.pre ls with
      | some p => ∃ e, prefixEnc p = some e ∧ joinKind (kindOf l0.pre) t0.enc ts = .ok e
      | none => joinKind (kindOf l0.pre) t0.enc ts = .error) := by
  induction h with
  | nil =>
    intro l0 t0 h0 _
    exact ⟨t0.enc, h0.enc, rfl⟩
  | cons l t ls ts hl _ ih =>
    intro l0 t0 h0 hm
    have hk := kind_of_token hl
    rw [comb]
    simp only [joinKind, hk]
    by_cases e0 : l0.pre = []
    · rw [if_pos e0, if_pos (kindOf_none.mpr e0)]
      refine ih l t hl ?_
      rintro ⟨⟨a, ha, ha'⟩, b, hb, hb'⟩
      exact hm ⟨⟨a, List.mem_cons_of_mem _ ha, ha'⟩, b, List.mem_cons_of_mem _ hb, hb'⟩
    · rw [if_neg e0, if_neg (fun h => e0 (kindOf_none.mp h))]
      have inj := kindOf_inj h0.enc hl.enc
        (fun h => hm ⟨⟨l0, by simp, h.1⟩, l, by simp, h.2⟩) (fun h => hm ⟨⟨l, by simp, h.2⟩, l0, by simp, h.1⟩)
      by_cases e1 : l.pre ≠ [] ∧ l0.pre ≠ l.pre
      · rw [if_pos e1, if_pos ⟨fun h => e1.1 (kindOf_none.mp h), fun h => e1.2 (inj.mp h)⟩]
      · rw [if_neg e1, if_neg (fun h => e1 ⟨fun e => h.1 (kindOf_none.mpr e), fun e => h.2 (inj.mpr e)⟩)]
        refine ih l0 t0 h0 ?_
        rintro ⟨⟨a, ha, ha'⟩, b, hb, hb'⟩
        refine hm ⟨⟨a, ?_, ha'⟩, b, ?_, hb'⟩
        · rcases List.mem_cons.mp ha with rfl | ha
          · simp
          · simp [ha]
        · rcases List.mem_cons.mp hb with rfl | hb
          · simp
          · simp [hb]

theorem comb_whole : ∀ (ls : List Lit) (l0 : Lit) (p : List Nat), comb l0.pre ls = some p ↔ WholePrefix (l0 :: ls) p := by
  intro ls
  induction ls with
  | nil =>
    intro l0 p
    simp only [comb, Option.some.injEq, WholePrefix, List.mem_singleton, forall_eq]
    constructor
    · rintro rfl; exact ⟨.inr rfl, id⟩
    · rintro ⟨h1, h2⟩
      rcases h1 with h1 | h1
      · rw [h1, h2 h1]
      · exact h1
  | cons l ls ih =>
    intro l0 p
    rw [comb]
    by_cases e0 : l0.pre = []
    · rw [if_pos e0, ih]
      unfold WholePrefix
      simp only [List.mem_cons, forall_eq_or_imp, e0, true_or, true_and]
    · rw [if_neg e0]
      by_cases e1 : l.pre ≠ [] ∧ l0.pre ≠ l.pre
      · rw [if_pos e1]
        constructor
        · intro h; cases h
        · rintro ⟨h1, -⟩
          rcases h1 l0 (by simp) with h | h
          · exact absurd h e0
          · rcases h1 l (by simp) with h' | h'
            · exact absurd h' e1.1
            · exact absurd (h.trans h'.symm) e1.2
      · rw [if_neg e1, ih]
        unfold WholePrefix
        simp only [List.mem_cons, forall_eq_or_imp, e0, false_or, false_imp_iff, false_and, imp_true_iff, and_true]
        constructor
        · rintro ⟨h1, h2⟩
          refine ⟨h1, ?_, h2⟩
          by_cases hl : l.pre = []
          · exact .inl hl
          · exact .inr (by
              have := Classical.not_and_iff_not_or_not.mp e1
              rcases this with h | h
              · exact absurd hl h
              · rw [← h1]; exact (Classical.not_not.mp h).symm)
        · rintro ⟨h1, -, h2⟩
          exact ⟨h1, h2⟩

/-! ### Reading in another encoding -/

theorem body_unique {e : StrEnc} {t us vs : List Nat} (hz : ∀ b ∈ t, b ≠ 0 ∧ b < 256) (h : StrBody e t us) (h' : StrBody e t vs) : us = vs := by
  have a := readString_complete e 0 [] h (fun b hb => (hz b hb).1) (fun b hb => (hz b hb).2)
  have b := readString_complete e 0 [] h' (fun b hb => (hz b hb).1) (fun b hb => (hz b hb).2)
  rw [a] at b
  cases b
  rfl

theorem reread {e f : StrEnc} {body us a r : List Nat} (h : StrBody f body us) (hz : ∀ b ∈ body, b ≠ 0 ∧ b < 256) (ha : ∀ b ∈ a, b < 256) :
    (readString e 0 (body ++ 34 :: a ++ 0 :: r) = .error ∧ ¬ ∃ vs, StrBody e body vs) ∨
    ∃ vs, StrBody e body vs ∧ readString e 0 (body ++ 34 :: a ++ 0 :: r) = .ok (vs, a ++ 0 :: r) := by
  have hc : ∀ vs, StrBody e body vs → readString e 0 (body ++ 34 :: a ++ 0 :: r) = .ok (vs, a ++ 0 :: r) := by
    intro vs hv
    have := readString_complete e 0 (a ++ 0 :: r) hv (fun b hb => (hz b hb).1) (fun b hb => (hz b hb).2)
    rwa [← List.cons_append, ← List.append_assoc] at this
  by_cases hx : ∃ vs, StrBody e body vs
  · obtain ⟨vs, hv⟩ := hx
    exact .inr ⟨vs, hv, hc vs hv⟩
  · left
    refine ⟨?_, hx⟩
    have hsle : stringLiteralEnd (body ++ 34 :: a ++ 0 :: r) = .ok (34 :: a ++ 0 :: r) := by
      have := sle_body f (a ++ 0 :: r) h (fun b hb => (hz b hb).1)
      rwa [← List.cons_append, ← List.append_assoc] at this
    unfold readString
    rw [hsle]
    simp only
    rcases strLoop_sound e a r ((body ++ 34 :: a ++ 0 :: r).length + 1) (body ++ 34 :: a) (by simp; omega) (by
      intro b hb
      rcases List.mem_append.mp hb with hb | hb
      · exact (hz b hb).2
      · rcases List.mem_cons.mp hb with rfl | hb
        · decide
        · exact ha b hb) hsle with h2 | ⟨t, vs, ht, hb, -⟩
    · rw [h2]
    · have := List.append_cancel_right ht
      subst this
      exact absurd ⟨vs, hb⟩ hx

theorem elemSize_one {e : StrEnc} : elemSize e = 1 ↔ e = .narrow := by
  cases e <;> simp [elemSize]

theorem widen_eq {e : StrEnc} {p : List Nat} (hp : prefixEnc p = some e) {ls : List Lit} {ts : List StrTok} (h : TokensOf ls ts)
    (hl : ∀ l ∈ ls, l.pre = [] ∨ l.pre = p) :
    (widen e ts = .error ∧ ¬ ∃ us, Elements e ls us) ∨
    ∃ l, widen e ts = .ok l ∧ l.length = ts.length ∧ (∀ t ∈ l, t.enc = e) ∧ Elements e ls (l.flatMap StrTok.units) := by
  induction h with
  | nil => exact .inr ⟨[], rfl, rfl, by simp, .nil⟩
  | cons l t ls ts ht _ ih =>
    have ih := ih (fun x hx => hl x (List.mem_cons_of_mem _ hx))
    have one : ((if elemSize e > 1 ∧ elemSize t.enc = 1 then retokenize e t else .ok t) = .error ∧ ¬ ∃ us, StrBody e l.body us) ∨
        ∃ t', (if elemSize e > 1 ∧ elemSize t.enc = 1 then retokenize e t else .ok t) = .ok t' ∧ t'.enc = e ∧ StrBody e l.body t'.units := by
      by_cases hc : elemSize e > 1 ∧ elemSize t.enc = 1
      · rw [if_pos hc]
        have hpre : l.pre = [] := by
          rcases hl l (List.mem_cons_self ..) with h | h
          · exact h
          · exfalso
            have := ht.enc
            rw [h, hp] at this
            cases this
            omega
        obtain ⟨a, r, htx, ha⟩ := ht.text
        rw [hpre] at htx
        have he : (if elemSize e = 2 then StrEnc.utf16 else e) = e := by
          revert hc; cases e <;> simp [elemSize]
        unfold retokenize
        rw [htx, he]
        simp only [List.nil_append, List.cons_append]
        rcases reread (e := e) (r := r) ht.units ht.bytes ha with ⟨h1, h2⟩ | ⟨vs, h1, h2⟩
        · left
          rw [List.append_assoc, List.cons_append] at h1
          rw [List.append_assoc, List.cons_append, h1]
          exact ⟨rfl, h2⟩
        · right
          rw [List.append_assoc, List.cons_append] at h2
          rw [List.append_assoc, List.cons_append, h2]
          exact ⟨_, rfl, rfl, h1⟩
      · rw [if_neg hc]
        have : t.enc = e := by
          rcases hl l (List.mem_cons_self ..) with h | h
          · have hn := ht.enc
            rw [h] at hn
            rcases prefix_cases hn with ⟨-, e1⟩ | ⟨e0, -⟩ | ⟨e0, -⟩ | ⟨e0, -⟩ | ⟨e0, -⟩
            · rw [e1] at hc ⊢
              revert hc
              cases e <;> simp [elemSize]
            all_goals cases e0
          · have := ht.enc
            rw [h, hp] at this
            cases this
            rfl
        exact .inr ⟨t, rfl, this, this ▸ ht.units⟩
    rw [widen]
    rcases one with ⟨h1, h2⟩ | ⟨t', h1, h2, h3⟩
    · left
      rw [h1]
      refine ⟨rfl, ?_⟩
      rintro ⟨us, hu⟩
      cases hu with
      | cons _ _ us vs a _ => exact h2 ⟨us, a⟩
    · rw [h1]
      simp only
      rcases ih with ⟨g1, g2⟩ | ⟨m, g1, g2, g3, g4⟩
      · left
        rw [g1]
        refine ⟨rfl, ?_⟩
        rintro ⟨us, hu⟩
        cases hu with
        | cons _ _ us vs _ b => exact g2 ⟨vs, b⟩
      · right
        rw [g1]
        refine ⟨t' :: m, rfl, by simp [g2], ?_, ?_⟩
        · intro x hx
          rcases List.mem_cons.mp hx with rfl | hx
          · exact h2
          · exact g3 x hx
        · rw [List.flatMap_cons]
          exact .cons l ls _ _ h3 g4

theorem elements_unique {e : StrEnc} {ls : List Lit} {ts : List StrTok} (h : TokensOf ls ts) : ∀ {us vs : List Nat},
    Elements e ls us → Elements e ls vs → us = vs := by
  induction h with
  | nil => intro us vs h1 h2; cases h1; cases h2; rfl
  | cons l t ls ts ht _ ih =>
    intro us vs h1 h2
    cases h1 with
    | cons _ _ u1 v1 a1 b1 =>
      cases h2 with
      | cons _ _ u2 v2 a2 b2 => rw [body_unique ht.bytes a1 a2, ih b1 b2]

theorem size_bits (e : StrEnc) : elemBits e / 8 = elemSize e := by cases e <;> rfl

theorem join_cases {ls : List Lit} {ts : List StrTok} (h : TokensOf ls ts) (hne : ls ≠ []) (hm : NoMix ls) :
    (joinStrings ts = .error ∧ ¬ ∃ e n m, Joined ls e n m) ∨
    ∃ e n m, joinStrings ts = .ok (e, n, m) ∧ Joined ls e n m ∧ ∀ e' n' m', Joined ls e' n' m' → e' = e ∧ n' = n ∧ m' = m := by
  cases h with
  | nil => exact absurd rfl hne
  | cons l t ls ts hl hts =>
    have hall := TokensOf.cons l t ls ts hl hts
    have hj := joinKind_eq hts l t hl hm
    have hw := comb_whole ls l
    rw [joinStrings, kind_of_token hl]
    simp only
    cases hc : comb l.pre ls with
    | none =>
      rw [hc] at hj
      simp only at hj
      rw [hj]
      left
      refine ⟨rfl, ?_⟩
      rintro ⟨e, n, m, p, us, h1, -⟩
      rw [(hw p).mpr h1] at hc
      cases hc
    | some p =>
      rw [hc] at hj
      obtain ⟨e, hp, hj⟩ := hj
      rw [hj]
      simp only
      have whole := (hw p).mp hc
      rcases widen_eq hp hall whole.1 with ⟨h1, h2⟩ | ⟨l', h1, h2, h3, h4⟩
      · left
        rw [h1]
        refine ⟨rfl, ?_⟩
        rintro ⟨e', n, m, p', us, g1, g2, g3, -⟩
        have := (hw p').mpr g1
        rw [hc] at this
        cases this
        rw [hp] at g2
        cases g2
        exact h2 ⟨us, g3⟩
      · right
        rw [h1]
        simp only
        obtain ⟨x, xs, rfl⟩ : ∃ x xs, l' = x :: xs := by
          cases l' with
          | nil => cases h2
          | cons x xs => exact ⟨x, xs, rfl⟩
        rw [joinLen_eq, copy_run e (x :: xs) _ 0 (by simp) h3 (by simp)]
        refine ⟨e, _, _, rfl, ⟨p, _, whole, hp, h4, rfl, ?_⟩, ?_⟩
        · rw [size_bits, inMemory_iff]
          rfl
        · rintro e' n' m' ⟨p', us, g1, g2, g3, rfl, g5⟩
          have := (hw p').mpr g1
          rw [hc] at this
          cases this
          rw [hp] at g2
          cases g2
          rw [elements_unique hall g3 h4] at g5 ⊢
          refine ⟨rfl, rfl, ?_⟩
          rw [size_bits, inMemory_iff] at g5
          exact g5

/-- **C68.** Adjacent string literals become the array they stand for: the encoding is that of the one
prefix that occurs, every literal is read in that encoding by itself, there is one terminator, and
nothing is written outside the array. If they stand for no array, there is an error. (`u8` together
with `u` is excluded, see below.) -/
theorem C68_join {ls : List Lit} {ts : List StrTok} (h : TokensOf ls ts) (hne : ls ≠ [])
    (hm : ¬ ((∃ l ∈ ls, l.pre = [117, 56]) ∧ ∃ l ∈ ls, l.pre = [117])) (e : StrEnc) (n : Nat) (mem : List Nat) :
    joinStrings ts = .ok (e, n, mem) ↔ Joined ls e n mem := by
  rcases join_cases h hne hm with ⟨h1, h2⟩ | ⟨e', n', m', h1, h2, h3⟩
  · rw [h1]
    constructor
    · intro h; cases h
    · intro h; exact absurd ⟨e, n, mem, h⟩ h2
  · rw [h1]
    constructor
    · intro h; cases h; exact h2
    · intro h
      obtain ⟨rfl, rfl, rfl⟩ := h3 e n mem h
      rfl

/-- **Literals that stand for no array are refused**: two different prefixes, or a text that cannot be
read in the encoding of the whole. -/
theorem C68_error {ls : List Lit} {ts : List StrTok} (h : TokensOf ls ts) (hne : ls ≠ [])
    (hm : ¬ ((∃ l ∈ ls, l.pre = [117, 56]) ∧ ∃ l ∈ ls, l.pre = [117])) :
    joinStrings ts = .error ↔ ¬ ∃ e n mem, Joined ls e n mem := by
  rcases join_cases h hne hm with ⟨h1, h2⟩ | ⟨e', n', m', h1, h2, -⟩
  · exact ⟨fun _ => h2, fun _ => h1⟩
  · rw [h1]
    constructor
    · intro h; cases h
    · intro h; exact absurd ⟨e', n', m', h2⟩ h

/-! ### A concrete case: `"\x1" "2" u"é"` is a `char16_t[4]` holding 1, '2' and 0xe9 -/

def exToks : List StrTok :=
  [⟨[34, 92, 120, 49, 34, 32, 0], .narrow, [1]⟩, ⟨[34, 50, 34, 32, 0], .narrow, [50]⟩, ⟨[117, 34, 195, 169, 34, 10, 0], .utf16, [233]⟩]

def exLits : List Lit := [⟨[], [92, 120, 49]⟩, ⟨[], [50]⟩, ⟨[117], [195, 169]⟩]

/-- What the code computes for it. -/
theorem exToks_join : joinStrings exToks = .ok (.utf16, 4, [1, 0, 50, 0, 233, 0, 0, 0]) := by decide +kernel

theorem ex_body (e : StrEnc) (t r us : List Nat) (hz : ∀ b ∈ t, b < 256) (hr : ∀ b ∈ r, b < 256)
    (h : ∃ q, stringLiteralEnd (t ++ 34 :: r ++ 0 :: []) = .ok (34 :: r ++ 0 :: []) ∧ strLoop e (34 :: r ++ [0]).length ((t ++ 34 :: r).length + 1) (t ++ 34 :: r ++ [0]) = q ∧ q = .ok us) :
    StrBody e t us := by
  obtain ⟨q, h1, h2, h3⟩ := h
  rcases strLoop_sound e r [] ((t ++ 34 :: r).length + 1) (t ++ 34 :: r) (by omega) (by
      intro b hb
      rcases List.mem_append.mp hb with hb | hb
      · exact hz b hb
      · rcases List.mem_cons.mp hb with rfl | hb
        · decide
        · exact hr b hb) h1 with g | ⟨t', vs, ht, hb, -, g⟩
  · rw [g] at h2; rw [← h2] at h3; cases h3
  · have := List.append_cancel_right ht
    subst this
    rw [g] at h2; rw [← h2] at h3; cases h3
    exact hb

theorem exToks_ok : TokensOf exLits exToks := by
  refine .cons _ _ _ _ ⟨⟨[32], [], rfl, by decide⟩, by decide, ex_body _ _ [32] _ (by decide) (by decide) ⟨_, by decide, rfl, by decide +kernel⟩, by decide⟩
    (.cons _ _ _ _ ⟨⟨[32], [], rfl, by decide⟩, by decide, ex_body _ _ [32] _ (by decide) (by decide) ⟨_, by decide, rfl, by decide +kernel⟩, by decide⟩
    (.cons _ _ _ _ ⟨⟨[10], [], rfl, by decide⟩, by decide, ex_body _ _ [10] _ (by decide) (by decide) ⟨_, by decide, rfl, by decide +kernel⟩, by decide⟩ .nil))

theorem exToks_joined : Joined exLits .utf16 4 [1, 0, 50, 0, 233, 0, 0, 0] :=
  (C68_join exToks_ok (by decide) (by decide) _ _ _).mp exToks_join

/-- Two prefixes: `u"a" L"b"` is an error. -/
theorem exTwo : joinStrings [⟨[117, 34, 97, 34, 32, 0], .utf16, [97]⟩, ⟨[76, 34, 98, 34, 10, 0], .wide, [98]⟩] = .error := by
  decide +kernel

/-! ### Departures -/

/-- **`u8"a" u"b"` is not refused**: the `u8` literal counts as one with prefix `u` and is not widened, and
then more is copied than the array holds. -/
theorem C68_u8_u_overflows :
    joinStrings [⟨[117, 56, 34, 97, 97, 97, 34, 32, 0], .narrow, [97, 97, 97]⟩, ⟨[117, 34, 98, 34, 10, 0], .utf16, [98]⟩] = .ub := by
  decide +kernel

/-- **`u"b" u8"a"` becomes `u"b8"`**: the `u` of the second literal is taken for its opening quote, and its
opening quote for the closing one. -/
theorem C68_u_u8_wrong :
    joinStrings [⟨[117, 34, 98, 34, 32, 0], .utf16, [98]⟩, ⟨[117, 56, 34, 97, 34, 10, 0], .narrow, [97]⟩] =
      .ok (.utf16, 3, [98, 0, 56, 0, 0, 0]) := by decide +kernel

end Slimcc.Props
