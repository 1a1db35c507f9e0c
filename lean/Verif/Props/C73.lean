import Verif.Model.Embed
import Verif.Spec.Embed
import Verif.Model.PPNum
set_option autoImplicit false

/-! C73: `#embed` is replaced by the bytes of the file, its parameters being honoured, and `__has_embed` says
beforehand what the directive does. -/

namespace Slimcc.Props

open Slimcc.Embed Slimcc.EmbedSpec

/-! ### Parentheses -/

theorem skipParen_bal {a : List String} (h : Balanced a) :
    ∀ (k : Nat) (r : List String), skipParen k (a ++ r) = skipParen k r := by
  induction h with
  | nil => intro k r; rfl
  | tok t l h1 h2 _ ih =>
    intro k r
    rw [List.cons_append, skipParen, if_neg (by rintro ⟨-, h⟩; exact h2 h), if_neg h1, if_neg h2]
    exact ih k r
  | paren a b _ _ iha ihb =>
    intro k r
    have e : ("(" :: (a ++ ")" :: b)) ++ r = "(" :: (a ++ (")" :: (b ++ r))) := by simp
    rw [e, skipParen, if_neg (by rintro ⟨-, h⟩; exact absurd h (by decide)), if_pos rfl, iha, skipParen,
      if_neg (by rintro ⟨h, -⟩; omega), if_neg (by decide), if_pos rfl, Nat.add_sub_cancel]
    exact ihb k r

theorem splitParen_bal {a : List String} (h : Balanced a) :
    ∀ (k : Nat) (r : List String), splitParen k (a ++ r) = (splitParen k r).map (a ++ ·) := by
  induction h with
  | nil => intro k r; simp
  | tok t l h1 h2 _ ih =>
    intro k r
    rw [List.cons_append, splitParen, if_neg (by rintro ⟨-, h⟩; exact h2 h), if_neg h1, if_neg h2, ih k r,
      Option.map_map]
    rfl
  | paren a b _ _ iha ihb =>
    intro k r
    have e : ("(" :: (a ++ ")" :: b)) ++ r = "(" :: (a ++ (")" :: (b ++ r))) := by simp
    rw [e, splitParen, if_neg (by rintro ⟨-, h⟩; exact absurd h (by decide)), if_pos rfl, iha, splitParen,
      if_neg (by rintro ⟨h, -⟩; omega), if_neg (by decide), if_pos rfl, Nat.add_sub_cancel, ihb k r]
    cases splitParen k r <;> simp

theorem skipParen_close {a : List String} (h : Balanced a) (r : List String) :
    skipParen 0 (a ++ ")" :: r) = some r := by
  rw [skipParen_bal h, skipParen, if_pos ⟨rfl, rfl⟩]

theorem splitParen_close {a : List String} (h : Balanced a) (r : List String) :
    splitParen 0 (a ++ ")" :: r) = some a := by
  rw [splitParen_bal h, splitParen, if_pos ⟨rfl, rfl⟩]; simp

theorem Balanced_append {a b : List String} (ha : Balanced a) (hb : Balanced b) : Balanced (a ++ b) := by
  induction ha with
  | nil => exact hb
  | tok t l h1 h2 _ ih => exact .tok t _ h1 h2 ih
  | paren x y hx _ _ ihy =>
    have e : ("(" :: (x ++ ")" :: y)) ++ b = "(" :: (x ++ ")" :: (y ++ b)) := by simp
    rw [e]; exact .paren x _ hx ihy

/-- The tokens up to the parenthesis which closes `k` open ones and one more. -/
def Closes : Nat → List String → Prop
  | 0, a => Balanced a
  | k + 1, a => ∃ b c, Balanced b ∧ Closes k c ∧ a = b ++ ")" :: c

theorem Closes_append {x : List String} (hx : Balanced x) :
    ∀ {k : Nat} {a : List String}, Closes k a → Closes k (x ++ a)
  | 0, _, h => Balanced_append hx h
  | _ + 1, _, ⟨b, c, hb, hc, e⟩ => ⟨x ++ b, c, Balanced_append hx hb, hc, by simp [e]⟩

theorem skipParen_inv : ∀ {s : List String} {k : Nat} {r : List String}, skipParen k s = some r →
    ∃ a, Closes k a ∧ s = a ++ ")" :: r
  | [], _, _, h => by simp [skipParen] at h
  | t :: ts, k, r, h => by
    rw [skipParen] at h
    by_cases h0 : k = 0 ∧ t = ")"
    · rw [if_pos h0] at h
      obtain ⟨rfl, rfl⟩ := h0
      injection h with h; subst h
      exact ⟨[], .nil, rfl⟩
    · rw [if_neg h0] at h
      by_cases h1 : t = "("
      · subst h1
        rw [if_pos rfl] at h
        obtain ⟨a, ⟨b, c, hb, hc, e⟩, rfl⟩ := skipParen_inv h
        refine ⟨"(" :: a, ?_, rfl⟩
        have := Closes_append (Balanced.paren b [] hb .nil) hc
        rw [e]; simpa using this
      · rw [if_neg h1] at h
        by_cases h2 : t = ")"
        · subst h2
          rw [if_pos rfl] at h
          cases k with
          | zero => exact absurd ⟨rfl, rfl⟩ h0
          | succ k =>
            obtain ⟨a, ha, rfl⟩ := skipParen_inv h
            exact ⟨")" :: a, ⟨[], a, .nil, ha, rfl⟩, rfl⟩
        · rw [if_neg h2] at h
          obtain ⟨a, ha, rfl⟩ := skipParen_inv h
          exact ⟨t :: a, Closes_append (x := [t]) (.tok t [] h1 h2 .nil) ha, rfl⟩

/-! ### The loop over the parameters -/

theorem text_cons (p : Par) (ps : List Par) (r : List String) :
    text (p :: ps) ++ r = p.name :: "(" :: (p.arg ++ ")" :: (text ps ++ r)) := by
  simp [text]

/-- Where the loop stops: at the end, or at a token which is no parameter. -/
def Stops (r : List String) : Prop :=
  ∀ t ∈ r.head?, t ∉ ["limit", "if_empty", "prefix", "suffix"]

/-- What the pointers of the loop stand for. -/
def Reads (q q' : Seqs) (ps : List Par) : Prop :=
  q'.limit.map (splitParen 0) = ((argOf "limit" ps).map some).or (q.limit.map (splitParen 0)) ∧
  q'.ifEmpty.map (splitParen 0) = ((argOf "if_empty" ps).map some).or (q.ifEmpty.map (splitParen 0)) ∧
  q'.pre.map (splitParen 0) = ((argOf "prefix" ps).map some).or (q.pre.map (splitParen 0)) ∧
  q'.suf.map (splitParen 0) = ((argOf "suffix" ps).map some).or (q.suf.map (splitParen 0))

theorem params_ok : ∀ (ps : List Par) (f : Nat) (q : Seqs) (r : List String), Standard ps → Stops r →
    (text ps ++ r).length < f → ∃ q', params f q (text ps ++ r) = some (q', r) ∧ Reads q q' ps
  | [], f, q, r, _, hr, hf => by
    refine ⟨q, ?_, by simp [Reads, argOf]⟩
    cases f with
    | zero => omega
    | succ f =>
      cases r with
      | nil => simp [text, params]
      | cons t ts =>
        have := hr t (by simp)
        simp only [List.mem_cons, List.not_mem_nil, or_false, not_or] at this
        obtain ⟨h1, h2, h3, h4⟩ := this
        simp [text, params, h1, h2, h3, h4]
  | p :: ps, f, q, r, hp, hr, hf => by
    obtain ⟨hn, hb⟩ := hp p (by simp)
    have hps : Standard ps := fun x hx => hp x (by simp [hx])
    rw [text_cons] at hf ⊢
    cases f with
    | zero => omega
    | succ f =>
      have hf' : (text ps ++ r).length < f := by
        simp only [List.length_cons, List.length_append] at hf ⊢; omega
      have hs : skip "(" ("(" :: (p.arg ++ ")" :: (text ps ++ r))) = some (p.arg ++ ")" :: (text ps ++ r)) := by
        simp [skip]
      have hk := skipParen_close hb (text ps ++ r)
      have hsp := splitParen_close hb (text ps ++ r)
      simp only [List.mem_cons, List.not_mem_nil, or_false] at hn
      rcases hn with hn | hn | hn | hn
      · obtain ⟨q', he, e1, e2, e3, e4⟩ := params_ok ps f
          { q with limit := some (p.arg ++ ")" :: (text ps ++ r)) } r hps hr hf'
        refine ⟨q', ?_, ?_, ?_, ?_, ?_⟩
        · rw [params, if_pos hn, hs]
          simp only [Option.bind_eq_bind, Option.bind_some, hk]; exact he
        · rw [e1]; simp only [Option.map_some, hsp, argOf, if_pos hn]; cases argOf "limit" ps <;> simp
        · rw [e2]; simp only [argOf, hn]; simp
        · rw [e3]; simp only [argOf, hn]; simp
        · rw [e4]; simp only [argOf, hn]; simp
      · obtain ⟨q', he, e1, e2, e3, e4⟩ := params_ok ps f
          { q with ifEmpty := some (p.arg ++ ")" :: (text ps ++ r)) } r hps hr hf'
        refine ⟨q', ?_, ?_, ?_, ?_, ?_⟩
        · rw [params, if_neg (by rw [hn]; decide), if_pos hn, hs]
          simp only [Option.bind_eq_bind, Option.bind_some, hk]; exact he
        · rw [e1]; simp only [argOf, hn]; simp
        · rw [e2]; simp only [Option.map_some, hsp, argOf, if_pos hn]; cases argOf "if_empty" ps <;> simp
        · rw [e3]; simp only [argOf, hn]; simp
        · rw [e4]; simp only [argOf, hn]; simp
      · obtain ⟨q', he, e1, e2, e3, e4⟩ := params_ok ps f
          { q with pre := some (p.arg ++ ")" :: (text ps ++ r)) } r hps hr hf'
        refine ⟨q', ?_, ?_, ?_, ?_, ?_⟩
        · rw [params, if_neg (by rw [hn]; decide), if_neg (by rw [hn]; decide), if_pos hn, hs]
          simp only [Option.bind_eq_bind, Option.bind_some, hk]; exact he
        · rw [e1]; simp only [argOf, hn]; simp
        · rw [e2]; simp only [argOf, hn]; simp
        · rw [e3]; simp only [Option.map_some, hsp, argOf, if_pos hn]; cases argOf "prefix" ps <;> simp
        · rw [e4]; simp only [argOf, hn]; simp
      · obtain ⟨q', he, e1, e2, e3, e4⟩ := params_ok ps f
          { q with suf := some (p.arg ++ ")" :: (text ps ++ r)) } r hps hr hf'
        refine ⟨q', ?_, ?_, ?_, ?_, ?_⟩
        · rw [params, if_neg (by rw [hn]; decide), if_neg (by rw [hn]; decide), if_neg (by rw [hn]; decide),
            if_pos hn, hs]
          simp only [Option.bind_eq_bind, Option.bind_some, hk]; exact he
        · rw [e1]; simp only [argOf, hn]; simp
        · rw [e2]; simp only [argOf, hn]; simp
        · rw [e3]; simp only [argOf, hn]; simp
        · rw [e4]; simp only [Option.map_some, hsp, argOf, if_pos hn]; cases argOf "suffix" ps <;> simp

theorem skip_inv {s : String} {l r : List String} (h : skip s l = some r) : l = s :: r := by
  cases l with
  | nil => simp [skip] at h
  | cons t ts =>
    rw [skip] at h
    by_cases ht : t = s
    · rw [if_pos ht] at h; injection h with h; rw [ht, h]
    · rw [if_neg ht] at h; simp at h

theorem params_step {f : Nat} {g : List String → Seqs} {ts r : List String} {q' : Seqs}
    (h : (do let s ← skip "(" ts; let x ← skipParen 0 s; params f (g s) x) = some (q', r)) :
    ∃ a x q, Balanced a ∧ ts = "(" :: (a ++ ")" :: x) ∧ params f q x = some (q', r) := by
  cases hs : skip "(" ts with
  | none => simp [hs] at h
  | some s =>
    cases hk : skipParen 0 s with
    | none => simp [hs, hk] at h
    | some x =>
      simp only [hs, hk, Option.bind_eq_bind, Option.bind_some] at h
      obtain ⟨a, ha, e⟩ := skipParen_inv hk
      exact ⟨a, x, _, ha, by rw [skip_inv hs, e], h⟩

theorem params_inv : ∀ (f : Nat) (q : Seqs) (ts : List String) {q' : Seqs} {r : List String},
    params f q ts = some (q', r) → ∃ ps, Standard ps ∧ Stops r ∧ ts = text ps ++ r
  | 0, _, _, _, _, h => by simp [params] at h
  | f + 1, q, [], q', r, h => by
    simp only [params, Option.some.injEq, Prod.mk.injEq] at h
    exact ⟨[], by simp [Standard], by simp [Stops, ← h.2], by simp [text, ← h.2]⟩
  | f + 1, q, t :: ts, q', r, h => by
    have go : ∀ {g : List String → Seqs}, t ∈ ["limit", "if_empty", "prefix", "suffix"] →
        (do let s ← skip "(" ts; let x ← skipParen 0 s; params f (g s) x) = some (q', r) →
        ∃ ps, Standard ps ∧ Stops r ∧ t :: ts = text ps ++ r := by
      intro g ht h
      obtain ⟨a, x, q1, ha, e, hx⟩ := params_step h
      obtain ⟨ps, hp, hr, e2⟩ := params_inv f q1 x hx
      refine ⟨⟨t, a⟩ :: ps, ?_, hr, ?_⟩
      · intro p hm
        rcases List.mem_cons.1 hm with rfl | hm
        · exact ⟨ht, ha⟩
        · exact hp p hm
      · rw [text_cons, e, e2]
    rw [params] at h
    by_cases h1 : t = "limit"
    · rw [if_pos h1] at h; exact go (g := fun s => { q with limit := some s }) (by simp [h1]) h
    rw [if_neg h1] at h
    by_cases h2 : t = "if_empty"
    · rw [if_pos h2] at h; exact go (g := fun s => { q with ifEmpty := some s }) (by simp [h2]) h
    rw [if_neg h2] at h
    by_cases h3 : t = "prefix"
    · rw [if_pos h3] at h; exact go (g := fun s => { q with pre := some s }) (by simp [h3]) h
    rw [if_neg h3] at h
    by_cases h4 : t = "suffix"
    · rw [if_pos h4] at h; exact go (g := fun s => { q with suf := some s }) (by simp [h4]) h
    rw [if_neg h4] at h
    simp only [Option.some.injEq, Prod.mk.injEq] at h
    refine ⟨[], by simp [Standard], ?_, by simp [text, ← h.2]⟩
    rw [← h.2]
    intro x hx
    simp only [List.head?_cons, Option.mem_some_iff] at hx
    subst hx; simp [h1, h2, h3, h4]

/-! ### The bytes -/

theorem commas_cons (b : UInt8) (bs : List UInt8) :
    commas (b :: bs) = toString b.toNat :: (if bs = [] then [] else "," :: commas bs) := by
  cases bs <;> simp [commas]

theorem readBytes_more : ∀ (l : Option Nat) (bytes : List UInt8),
    readBytes (l.map fun (n : Nat) => (n : Int)) true bytes
      = if taken l bytes = [] then [] else "," :: commas (taken l bytes)
  | l, [] => by cases l <;> simp [readBytes, taken]
  | none, b :: bs => by
    have ih := readBytes_more none bs
    simp only [Option.map_none, taken] at ih
    simp only [readBytes, Option.map_none, Option.all_none, if_pos, taken, ih]
    cases bs <;> simp [commas_cons]
  | some 0, b :: bs => by simp [readBytes, taken]
  | some (n + 1), b :: bs => by
    have ih := readBytes_more (some n) bs
    simp only [Option.map_some, taken] at ih
    have e : ((n + 1 : Nat) : Int) - 1 = n := by omega
    have hp : (0 : Int) < ((n + 1 : Nat) : Int) := by omega
    simp only [readBytes, Option.map_some, Option.all_some, e, taken, ih, List.take_succ_cons, hp, decide_true,
      if_pos]
    simp [commas_cons]

theorem readBytes_eq (l : Option Nat) (bytes : List UInt8) :
    readBytes (l.map fun (n : Nat) => (n : Int)) false bytes = commas (taken l bytes) := by
  cases bytes with
  | nil => cases l <;> simp [readBytes, taken, commas]
  | cons b bs =>
    cases l with
    | none =>
      have ih := readBytes_more none bs
      simp only [Option.map_none, taken] at ih
      simp only [readBytes, Option.map_none, Option.all_none, if_pos, taken, ih]
      cases bs <;> simp [commas_cons]
    | some n =>
      cases n with
      | zero => simp [readBytes, taken, commas]
      | succ n =>
        have ih := readBytes_more (some n) bs
        simp only [Option.map_some, taken] at ih
        have e : ((n + 1 : Nat) : Int) - 1 = n := by omega
        have hp : (0 : Int) < ((n + 1 : Nat) : Int) := by omega
        simp only [readBytes, Option.map_some, Option.all_some, e, taken, ih, List.take_succ_cons, hp, decide_true,
          if_pos]
        simp [commas_cons]

theorem commas_nil {l : List UInt8} : commas l = [] ↔ l = [] := by
  cases l with
  | nil => simp [commas]
  | cons b bs => cases bs <;> simp [commas]

/-! ### The directive -/

theorem reads_fresh {q : Seqs} {ps : List Par} (h : Reads {} q ps) :
    q.limit.map (splitParen 0) = (argOf "limit" ps).map some ∧
    q.ifEmpty.map (splitParen 0) = (argOf "if_empty" ps).map some ∧
    q.pre.map (splitParen 0) = (argOf "prefix" ps).map some ∧
    q.suf.map (splitParen 0) = (argOf "suffix" ps).map some := by
  simpa [Reads] using h

theorem field_eq {o : Option (List String)} {a : Option (List String)}
    (h : o.map (splitParen 0) = a.map some) :
    given o = some (a.getD []) := by
  cases o with
  | none => cases a with
    | none => rfl
    | some x => simp at h
  | some s => cases a with
    | none => simp at h
    | some x => simpa [given] using h

theorem limitOf_eq {ev : List String → Option Int} {q : Seqs} {ps : List Par}
    (h : q.limit.map (splitParen 0) = (argOf "limit" ps).map some) :
    limitOf ev q = (match argOf "limit" ps with | some a => ev a | none => some 0) ∧
    q.limit.isSome = (argOf "limit" ps).isSome := by
  unfold limitOf
  cases hq : q.limit with
  | none => cases ha : argOf "limit" ps with
    | none => simp
    | some x => simp [hq, ha] at h
  | some s => cases ha : argOf "limit" ps with
    | none => simp [hq, ha] at h
    | some x => simp [hq, ha] at h; simp [h]

theorem around_eq {q : Seqs} {ps : List Par} (h : Reads {} q ps) (l : Option Nat) (bytes : List UInt8)
    (cont : List String) :
    around q (commas (taken l bytes)) cont = some (replacement ps l bytes ++ cont) := by
  obtain ⟨-, h2, h3, h4⟩ := reads_fresh h
  unfold around replacement
  by_cases hb : taken l bytes = []
  · rw [if_pos (commas_nil.2 hb), if_pos hb]
    cases hq : q.ifEmpty with
    | none => cases ha : argOf "if_empty" ps with
      | none => simp
      | some x => simp [hq, ha] at h2
    | some s => cases ha : argOf "if_empty" ps with
      | none => simp [hq, ha] at h2
      | some x => simp [hq, ha] at h2; simp [h2]
  · rw [if_neg (fun e => hb (commas_nil.1 e)), if_neg hb]
    have e3 := field_eq h3
    have e4 := field_eq h4
    simp only [Option.bind_eq_bind]
    rw [e3, e4]
    simp

theorem limit_cases {ev : List String → Option Int} {q : Seqs} {ps : List Par} {l : Option Nat}
    (h : Reads {} q ps) (hl : LimitIs ev ps l) :
    ∃ v, limitOf ev q = some v ∧ (if q.limit.isSome then some v else none) = l.map (fun (n : Nat) => (n : Int)) := by
  obtain ⟨h1, h2⟩ := limitOf_eq (ev := ev) (reads_fresh h).1
  unfold LimitIs at hl
  cases ha : argOf "limit" ps with
  | none =>
    cases l with
    | none => rw [h1, h2, ha]; exact ⟨0, by simp⟩
    | some n => simp [ha] at hl
  | some a =>
    cases l with
    | none => simp [ha] at hl
    | some n => rw [h1, h2, ha]; simp only [ha] at hl; exact ⟨n, by simp [hl]⟩

/-- **C73.** `#embed` with parameters of the standard, in any order and with any balanced arguments, is
replaced by the bytes of the file as decimal constants separated by commas, no more of them than `limit`
says, between the tokens of `prefix` and of `suffix`; by the tokens of `if_empty` if there are no bytes. What
follows the directive is left as it is. -/
theorem C73_expand (ev : List String → Option Int) (ps : List Par) (l : Option Nat) (bytes : List UInt8)
    (cont : List String) (hp : Standard ps) (hl : LimitIs ev ps l) :
    embedFile ev (some cont) (text ps) (some bytes) = .toks (replacement ps l bytes ++ cont) := by
  obtain ⟨q, hq, hr⟩ := params_ok ps ((text ps).length + 1) {} [] hp (by simp [Stops]) (by simp)
  rw [List.append_nil] at hq
  obtain ⟨v, hv, he⟩ := limit_cases hr hl
  unfold embedFile
  simp only [hq, hv, he, readBytes_eq, around_eq hr]
  simp

/-- **C73.** `__has_embed` is 0 if there is no such file, 2 if the directive would embed no byte, and
otherwise 1. -/
theorem C73_has (ev : List String → Option Int) (ps : List Par) (l : Option Nat) (file : Option (List UInt8))
    (hp : Standard ps) (hl : LimitIs ev ps l) :
    embedFile ev none (text ps) file
      = .has (match file with
        | none => 0
        | some bytes => if taken l bytes = [] then 2 else 1) := by
  obtain ⟨q, hq, hr⟩ := params_ok ps ((text ps).length + 1) {} [] hp (by simp [Stops]) (by simp)
  rw [List.append_nil] at hq
  obtain ⟨v, hv, he⟩ := limit_cases hr hl
  unfold embedFile
  simp only [hq, hv]
  cases file with
  | none => simp
  | some bytes =>
    simp only [ne_eq, not_true_eq_false, if_false]
    cases l with
    | none =>
      have : q.limit.isSome = false := by
        cases h : q.limit.isSome <;> simp_all
      simp only [this, taken]
      by_cases hb : bytes = [] <;> simp [hb]
    | some n =>
      have hs : q.limit.isSome = true := by
        cases h : q.limit.isSome <;> simp_all
      have hvn : v = n := by simpa [hs] using he
      simp only [hs, taken, hvn, List.take_eq_nil_iff]
      by_cases hb : bytes = []
      · simp [hb]
      · by_cases hn : n = 0
        · simp [hn]
        · have : ¬ ((n : Int) = 0) := by omega
          simp [hb, hn]

/-- **C73.** After a token which is not a parameter of the standard the directive is refused, and
`__has_embed` says so. -/
theorem C73_unknown (ev : List String → Option Int) (ps : List Par) (l : Option Nat)
    (file : Option (List UInt8)) (t : String) (ts cont : List String) (hp : Standard ps)
    (hl : LimitIs ev ps l) (ht : t ∉ ["limit", "if_empty", "prefix", "suffix"]) :
    embedFile ev none (text ps ++ t :: ts) file = .has 0 ∧
    embedFile ev (some cont) (text ps ++ t :: ts) file = .error := by
  obtain ⟨q, hq, hr⟩ := params_ok ps ((text ps ++ t :: ts).length + 1) {} (t :: ts) hp
    (by intro x hx; simp only [List.head?_cons, Option.mem_some_iff] at hx; subst hx; exact ht) (by simp)
  obtain ⟨v, hv, he⟩ := limit_cases hr hl
  constructor <;> · unfold embedFile; simp only [hq, hv]; simp

/-- **C73.** Nothing else is accepted: a directive which is replaced has the form above, its file exists, and
its limit, if it has one, is a constant expression; if the limit is not negative the replacement is the one
above. -/
theorem C73_only (ev : List String → Option Int) (ts cont r : List String) (file : Option (List UInt8))
    (h : embedFile ev (some cont) ts file = .toks r) :
    ∃ ps bytes, file = some bytes ∧ Standard ps ∧ ts = text ps ∧
      (∀ a, argOf "limit" ps = some a → ∃ v, ev a = some v) ∧
      ∀ l, LimitIs ev ps l → r = replacement ps l bytes ++ cont := by
  have h' := h
  unfold embedFile at h
  cases hq : params (ts.length + 1) {} ts with
  | none => simp [hq] at h
  | some x =>
    obtain ⟨q, rest⟩ := x
    simp only [hq] at h
    cases hv : limitOf ev q with
    | none => simp [hv] at h
    | some v =>
      simp only [hv] at h
      by_cases hrest : rest = []
      · subst hrest
        cases file with
        | none => simp at h
        | some bytes =>
          obtain ⟨ps, hp, -, e⟩ := params_inv _ _ _ hq
          rw [List.append_nil] at e
          subst e
          refine ⟨ps, bytes, rfl, hp, rfl, ?_, ?_⟩
          · intro a ha
            obtain ⟨q2, hq2, hr⟩ := params_ok ps ((text ps).length + 1) {} [] hp (by simp [Stops]) (by simp)
            rw [List.append_nil, hq] at hq2
            simp only [Option.some.injEq, Prod.mk.injEq, and_true] at hq2
            subst hq2
            have := (limitOf_eq (ev := ev) (reads_fresh hr).1).1
            rw [hv, ha] at this
            exact ⟨v, this.symm⟩
          · intro l hl
            rw [C73_expand ev ps l bytes cont hp hl] at h'
            injection h' with h'
            exact h'.symm
      · simp [hrest] at h

/-- **C73.** Whatever is written after the name of the file, if limits are not negative: `__has_embed` is 0
only if the directive is refused, 2 only if it is replaced without a byte of the file, 1 only if it is
replaced by bytes. -/
theorem C73_agree (ev : List String → Option Int) (ts cont : List String) (file : Option (List UInt8)) (n : Nat)
    (hev : ∀ a v, ev a = some v → 0 ≤ v) (h : embedFile ev none ts file = .has n) :
    (n = 0 ∧ embedFile ev (some cont) ts file = .error) ∨
    ∃ ps l bytes, file = some bytes ∧ Standard ps ∧ ts = text ps ∧ LimitIs ev ps l ∧
      embedFile ev (some cont) ts file = .toks (replacement ps l bytes ++ cont) ∧
      ((n = 2 ∧ taken l bytes = []) ∨ (n = 1 ∧ taken l bytes ≠ [])) := by
  have h' := h
  unfold embedFile at h
  cases hq : params (ts.length + 1) {} ts with
  | none => simp [hq] at h
  | some x =>
    obtain ⟨q, rest⟩ := x
    simp only [hq] at h
    cases hv : limitOf ev q with
    | none => simp [hv] at h
    | some v =>
      simp only [hv] at h
      obtain ⟨ps, hp, hstop, e⟩ := params_inv _ _ _ hq
      by_cases hrest : rest = []
      · subst hrest
        rw [List.append_nil] at e
        subst e
        cases file with
        | none =>
          left
          simp only [ne_eq, not_true_eq_false, if_false, Out.has.injEq] at h
          refine ⟨h.symm, ?_⟩
          unfold embedFile
          simp [hq, hv]
        | some bytes =>
          right
          obtain ⟨q2, hq2, hr⟩ := params_ok ps ((text ps).length + 1) {} [] hp (by simp [Stops]) (by simp)
          rw [List.append_nil, hq] at hq2
          simp only [Option.some.injEq, Prod.mk.injEq, and_true] at hq2
          subst hq2
          have hL := (limitOf_eq (ev := ev) (reads_fresh hr).1).1
          rw [hv] at hL
          have : ∃ l, LimitIs ev ps l := by
            cases ha : argOf "limit" ps with
            | none => exact ⟨none, by simp [LimitIs, ha]⟩
            | some a =>
              rw [ha] at hL
              have := hev a v hL.symm
              refine ⟨some v.toNat, ?_⟩
              simp only [LimitIs, ha]
              rw [show ev a = some v from hL.symm, Int.toNat_of_nonneg this]
          obtain ⟨l, hl⟩ := this
          refine ⟨ps, l, bytes, rfl, hp, rfl, hl, C73_expand ev ps l bytes cont hp hl, ?_⟩
          rw [C73_has ev ps l _ hp hl] at h'
          simp only [Out.has.injEq] at h'
          by_cases hb : taken l bytes = []
          · left; rw [if_pos hb] at h'; exact ⟨h'.symm, hb⟩
          · right; rw [if_neg hb] at h'; exact ⟨h'.symm, hb⟩
      · left
        simp only [ne_eq, hrest, not_false_eq_true, if_true, Out.has.injEq] at h
        refine ⟨h.symm, ?_⟩
        unfold embedFile
        simp [hq, hv, hrest]

/-- **C73.** Each constant denotes its byte: the compiler's reading of the decimal spelling (C12) of a byte is
the value of the byte, of type `int`. -/
theorem C73_constants (b : UInt8) :
    PPNum.convertPpNumber ((toString b.toNat).toList.map Char.toNat) []
      = .ok (.int b.toNat .int) := by
  have : ∀ n : Fin 256, PPNum.convertPpNumber ((toString n.val).toList.map Char.toNat) []
      = .ok (.int n.val .int) := by decide +kernel
  exact this ⟨b.toNat, b.toNat_lt⟩

/-! ### Departures -/

/-- A negative limit is not diagnosed (6.10.4.2 forbids it): nothing is embedded although `__has_embed`
announced bytes. -/
theorem C73_negative_limit :
    let ev : List String → Option Int := fun a => if a = ["-", "1"] then some (-1) else none
    embedFile ev none ["limit", "(", "-", "1", ")"] (some [65]) = .has 1 ∧
    embedFile ev (some [";"]) ["limit", "(", "-", "1", ")"] (some [65]) = .toks [";"] := by
  decide +kernel

/-- The spelling `__limit__`, the same parameter by 6.10.1, is refused. -/
theorem C73_underscores (ev : List String → Option Int) :
    embedFile ev none ["__limit__", "(", "1", ")"] (some [65]) = .has 0 ∧
    embedFile ev (some [";"]) ["__limit__", "(", "1", ")"] (some [65]) = .error := by
  constructor <;> rfl

/-! ### Examples -/

/-- A directive with all parameters, one argument having parentheses in it. -/
def embedEx : List Par :=
  [⟨"suffix", [",", "0"]⟩, ⟨"limit", ["N"]⟩, ⟨"prefix", ["f", "(", "x", ")", ","]⟩, ⟨"if_empty", ["1"]⟩]

def embedEv : List String → Option Int := fun a => if a = ["N"] then some 2 else none

theorem embedEx_standard : Standard embedEx := by
  intro p hp
  simp only [embedEx, List.mem_cons, List.not_mem_nil, or_false] at hp
  rcases hp with rfl | rfl | rfl | rfl
  · exact ⟨by simp, .tok _ _ (by decide) (by decide) (.tok _ _ (by decide) (by decide) .nil)⟩
  · exact ⟨by simp, .tok _ _ (by decide) (by decide) .nil⟩
  · exact ⟨by simp, .tok _ _ (by decide) (by decide)
      (.paren ["x"] [","] (.tok _ _ (by decide) (by decide) .nil) (.tok _ _ (by decide) (by decide) .nil))⟩
  · exact ⟨by simp, .tok _ _ (by decide) (by decide) .nil⟩

theorem embedEx_limit : LimitIs embedEv embedEx (some 2) := by
  show embedEv ["N"] = some ((2 : Nat) : Int)
  decide +kernel

example : embedFile embedEv (some ["}", ";"]) (text embedEx) (some [7, 255, 9])
    = .toks ["f", "(", "x", ")", ",", "7", ",", "255", ",", "0", "}", ";"] := by
  rw [C73_expand embedEv embedEx (some 2) _ _ embedEx_standard embedEx_limit]
  decide +kernel

example : embedFile embedEv (some ["}", ";"]) (text embedEx) (some [])
    = .toks ["1", "}", ";"] := by
  rw [C73_expand embedEv embedEx (some 2) _ _ embedEx_standard embedEx_limit]
  decide +kernel

example : embedFile embedEv none (text embedEx) (some [7, 255, 9]) = .has 1 := by
  rw [C73_has embedEv embedEx (some 2) _ embedEx_standard embedEx_limit]
  decide +kernel

example : embedFile embedEv none (text embedEx ++ ["gnu", "::", "offset"]) (some [7]) = .has 0 :=
  (C73_unknown embedEv embedEx (some 2) _ _ _ [] embedEx_standard embedEx_limit
    (by decide)).1

end Slimcc.Props
