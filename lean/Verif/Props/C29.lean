import Verif.Spec.PPTok
import Verif.Props.C10
/-!
C29: stringizing and joining reproduce the token spelling; the buffer is exactly large enough.
-/
set_option autoImplicit false
namespace Slimcc.Props
open Slimcc Slimcc.Lex Slimcc.PP Slimcc.Spec

/-- The text contributed by one token. -/
def tokSpelling (addSlash : Bool) (t : PTok) : List Nat :=
  if addSlash = true ∧ isLiteral t then escaped t.text else t.text

theorem slashes_iff (a : Bool) (t : PTok) : slashes a t = true ↔ a = true ∧ isLiteral t := by
  unfold slashes isLiteral
  cases a <;> simp

theorem escaped_length (t : List Nat) :
    (escaped t).length = (t.filter (fun b => b == 92 || b == 34)).length + t.length := by
  unfold escaped
  induction t with
  | nil => rfl
  | cons b t ih =>
    rw [List.flatMap_cons, List.length_append, ih]
    by_cases h : b = 92 ∨ b = 34
    · have h2 : (b == 92 || b == 34) = true := by simpa using h
      rw [if_pos h, List.filter_cons, if_pos h2]; simp; omega
    · have h2 : ¬ (b == 92 || b == 34) = true := by simpa using h
      rw [if_neg h, List.filter_cons, if_neg h2]; simp; omega

theorem tokSpelling_length (a : Bool) (t : PTok) : (tokSpelling a t).length =
    (if slashes a t then (t.text.filter (fun b => b == 92 || b == 34)).length else 0) + t.text.length := by
  unfold tokSpelling
  by_cases h : slashes a t = true
  · rw [if_pos h, if_pos ((slashes_iff a t).1 h), escaped_length]
  · rw [if_neg h, if_neg (fun e => h ((slashes_iff a t).2 e))]; simp

/-- Text appended behind a non-empty prefix. -/
def restSpelling (f : PTok → List Nat) (ts : List PTok) : List Nat :=
  ts.flatMap (fun u => (if spaced u then [32] else []) ++ f u)

theorem restSpelling_cons (f : PTok → List Nat) (t : PTok) (ts : List PTok) :
    restSpelling f (t :: ts) = (if spaced t then [32] else []) ++ f t ++ restSpelling f ts := by
  unfold restSpelling; rw [List.flatMap_cons]

theorem joinLen_rest (a : Bool) : ∀ (ts : List PTok) (len : Nat), 1 < len →
    len + (restSpelling (tokSpelling a) ts).length ≤ INT_MAX →
    joinLen a ts len = .ok (len + (restSpelling (tokSpelling a) ts).length)
  | [], len, _, _ => rfl
  | t :: ts, len, hlen, hmax => by
    rw [restSpelling_cons] at hmax ⊢
    have hsl := tokSpelling_length a t
    have hlen' : (len != 1) = true := by simp; omega
    rw [joinLen]
    simp only [hlen', Bool.and_true]
    have key : ∀ n, n = len + ((if spaced t then [32] else []) ++ tokSpelling a t).length →
        (if n ≤ INT_MAX then joinLen a ts n else .ub) =
        .ok (len + ((if spaced t then [32] else []) ++ tokSpelling a t ++ restSpelling (tokSpelling a) ts).length) := by
      intro n hn
      rw [List.length_append] at hmax ⊢
      rw [if_pos (by omega), joinLen_rest a ts n (by omega) (by omega)]
      congr 1; omega
    apply key
    rw [List.length_append, hsl]
    unfold spaced
    by_cases h1 : (t.hasSpace || t.atBol) = true
    · by_cases h2 : slashes a t = true
      · simp [h1, h2]; omega
      · simp [h1, h2]; omega
    · by_cases h2 : slashes a t = true
      · simp [h1, h2]; omega
      · simp [h1, h2]

theorem joinLen_all (a : Bool) (ts : List PTok) (hne : ∀ t ∈ ts, t.text ≠ [])
    (hmax : (spelling (tokSpelling a) ts).length < INT_MAX) :
    joinLen a ts 1 = .ok ((spelling (tokSpelling a) ts).length + 1) := by
  cases ts with
  | nil => rfl
  | cons t ts =>
    have hs : spelling (tokSpelling a) (t :: ts) = tokSpelling a t ++ restSpelling (tokSpelling a) ts := rfl
    rw [hs, List.length_append] at hmax
    have hsl := tokSpelling_length a t
    have ht : 0 < t.text.length := List.length_pos_iff.2 (hne t (by simp))
    rw [joinLen, hs, List.length_append]
    simp only [bne_self_eq_false, Bool.and_false, Bool.false_eq_true, if_false]
    have key : ∀ n, n = 1 + (tokSpelling a t).length →
        (if n ≤ INT_MAX then joinLen a ts n else .ub) =
        .ok ((tokSpelling a t).length + (restSpelling (tokSpelling a) ts).length + 1) := by
      intro n hn
      rw [if_pos (by omega), joinLen_rest a ts n (by omega) (by omega)]
      congr 1; omega
    apply key
    rw [hsl]
    by_cases h2 : slashes a t = true
    · simp [h2]; omega
    · simp [h2]

theorem putSlashed_eq (cap : Nat) : ∀ (bs out : List Nat), out.length + (escaped bs).length ≤ cap →
    putSlashed cap out bs = .ok (out ++ escaped bs)
  | [], out, _ => by simp [putSlashed, escaped]
  | b :: bs, out, h => by
    have hc : escaped (b :: bs) = (if b = 92 ∨ b = 34 then [92, b] else [b]) ++ escaped bs := by
      unfold escaped; rw [List.flatMap_cons]
    rw [hc] at h ⊢
    rw [putSlashed]
    by_cases hb : b = 92 ∨ b = 34
    · have h2 : (b == 92 || b == 34) = true := by simpa using hb
      rw [if_pos hb] at h ⊢
      rw [if_pos h2]
      simp only [List.length_append, List.length_cons, List.length_nil] at h
      have p1 : put cap out [92] = .ok (out ++ [92]) := by unfold put; rw [if_pos (by simp; omega)]
      have p2 : put cap (out ++ [92]) [b] = .ok (out ++ [92] ++ [b]) := by unfold put; rw [if_pos (by simp; omega)]
      rw [p1]; simp only; rw [p2]; simp only
      rw [putSlashed_eq cap bs _ (by simp; omega)]; simp
    · have h2 : ¬ (b == 92 || b == 34) = true := by simpa using hb
      rw [if_neg hb] at h ⊢
      rw [if_neg h2]
      simp only [List.length_append, List.length_cons, List.length_nil] at h
      have p1 : put cap out [b] = .ok (out ++ [b]) := by unfold put; rw [if_pos (by simp; omega)]
      rw [p1]; simp only
      rw [putSlashed_eq cap bs _ (by simp; omega)]; simp

theorem putTok_eq (a : Bool) (cap : Nat) (t : PTok) (out : List Nat) (h : out.length + (tokSpelling a t).length ≤ cap) :
    (if slashes a t then putSlashed cap out t.text else put cap out t.text) = .ok (out ++ tokSpelling a t) := by
  unfold tokSpelling at h ⊢
  by_cases h2 : slashes a t = true
  · rw [if_pos h2, if_pos ((slashes_iff a t).1 h2)]
    rw [if_pos ((slashes_iff a t).1 h2)] at h
    exact putSlashed_eq cap _ _ h
  · rw [if_neg h2, if_neg (fun e => h2 ((slashes_iff a t).2 e))]
    rw [if_neg (fun e => h2 ((slashes_iff a t).2 e))] at h
    unfold put; rw [if_pos h]

theorem joinCopy_rest (a : Bool) (cap : Nat) : ∀ (ts : List PTok) (out : List Nat), out ≠ [] →
    out.length + (restSpelling (tokSpelling a) ts).length ≤ cap →
    joinCopy a cap ts out = .ok (out ++ restSpelling (tokSpelling a) ts)
  | [], out, _, _ => by simp [joinCopy, restSpelling]
  | t :: ts, out, hne, h => by
    rw [restSpelling_cons] at h ⊢
    simp only [List.length_append] at h
    have hl : (out.length != 0) = true := by simp [hne]
    rw [joinCopy]
    simp only [hl, Bool.and_true]
    have hsp : (if (t.hasSpace || t.atBol) = true then put cap out [32] else .ok out) =
        .ok (out ++ if spaced t then [32] else []) := by
      unfold spaced at h ⊢
      by_cases h1 : (t.hasSpace || t.atBol) = true
      · rw [if_pos h1, if_pos h1]; rw [if_pos h1] at h; unfold put; rw [if_pos (by simp at h ⊢; omega)]
      · rw [if_neg h1, if_neg h1]; simp
    rw [hsp]
    simp only
    rw [putTok_eq a cap t _ (by simp only [List.length_append]; omega)]
    simp only
    rw [joinCopy_rest a cap ts _ (by simp [hne]) (by simp only [List.length_append]; omega)]
    simp

theorem joinCopy_all (a : Bool) (cap : Nat) (ts : List PTok) (hne : ∀ t ∈ ts, t.text ≠ [])
    (h : (spelling (tokSpelling a) ts).length ≤ cap) :
    joinCopy a cap ts [] = .ok (spelling (tokSpelling a) ts) := by
  cases ts with
  | nil => rfl
  | cons t ts =>
    have hs : spelling (tokSpelling a) (t :: ts) = tokSpelling a t ++ restSpelling (tokSpelling a) ts := rfl
    rw [hs] at h ⊢
    simp only [List.length_append] at h
    rw [joinCopy]
    simp only [List.length_nil, bne_self_eq_false, Bool.and_false, Bool.false_eq_true, if_false]
    rw [putTok_eq a cap t [] (by simp; omega)]
    simp only [List.nil_append]
    have hn : tokSpelling a t ≠ [] := by
      intro e
      have := tokSpelling_length a t
      rw [e] at this
      have ht : 0 < t.text.length := List.length_pos_iff.2 (hne t (by simp))
      simp at this; omega
    rw [joinCopy_rest a cap ts _ hn (by omega)]

/-- C29. Joining tokens gives their spellings with one space wherever the source had white space
(string and character literals escaped when `addSlash`), with no leading or trailing blank; the
buffer computed by the first pass is exactly as long as the text plus its terminator. Every token
has a non-empty text (C10), and the total must fit an `int`. -/
theorem C29_join (addSlash : Bool) (ts : List PTok) (hne : ∀ t ∈ ts, t.text ≠ [])
    (hmax : (spelling (tokSpelling addSlash) ts).length < INT_MAX) :
    joinTokens addSlash ts = .ok (spelling (tokSpelling addSlash) ts ++ [0]) := by
  unfold joinTokens
  rw [joinLen_all addSlash ts hne hmax]
  simp only
  rw [joinCopy_all addSlash _ ts hne (by omega)]
  simp only
  rw [if_pos (by omega)]
  have : (spelling (tokSpelling addSlash) ts).length + 1 - (spelling (tokSpelling addSlash) ts).length = 1 := by omega
  rw [this]; rfl

/-- White space that does not stand in front of a token's text, i.e. before the first token, has no
influence; between tokens any amount of it counts as one blank. -/
theorem C29_leading_space (addSlash : Bool) (t : PTok) (ts : List PTok) (b s : Bool) :
    spelling (tokSpelling addSlash) ({ t with atBol := b, hasSpace := s } :: ts) =
    spelling (tokSpelling addSlash) (t :: ts) := rfl

/-- Non-vacuity: `#` applied to `a  + "\n"` gives the buffer of `a + \"\\n\"`. -/
example : joinTokens true
    [⟨.ident, [97], false, true, false⟩, ⟨.punct, [43], false, true, false⟩,
     ⟨.str, [34, 92, 110, 34], false, true, false⟩] =
    .ok [97, 32, 43, 32, 92, 34, 92, 92, 110, 92, 34, 0] := by decide

end Slimcc.Props
