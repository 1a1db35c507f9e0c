import Verif.Lemmas.PpText
import Verif.Spec.Pp
set_option autoImplicit false
/-!
What the directives do on well-formed lines.
-/
namespace Slimcc.PpL
open Slimcc Slimcc.PP Slimcc.Mac Slimcc.MacL Slimcc.Pp Slimcc.Spec

theorem w_hash : word "#" = Mac.hash := by decide
theorem w_lpar : word "(" = lpar := by decide
theorem w_rpar : word ")" = rpar := by decide
theorem w_comma : word "," = comma := by decide
theorem w_dots : word "..." = dots := by decide
theorem w_va : word "__VA_ARGS__" = kwVaArgs := by decide
theorem w_if : word "if" = kwIf := by decide
theorem w_ifdef : word "ifdef" = kwIfdef := by decide
theorem w_ifndef : word "ifndef" = kwIfndef := by decide
theorem w_elif : word "elif" = kwElif := by decide
theorem w_elifdef : word "elifdef" = kwElifdef := by decide
theorem w_elifndef : word "elifndef" = kwElifndef := by decide
theorem w_else : word "else" = kwElse := by decide
theorem w_endif : word "endif" = kwEndif := by decide
theorem w_define : word "define" = kwDefine := by decide
theorem w_undef : word "undef" = kwUndef := by decide
theorem w_include : word "include" = kwInclude := by decide
theorem w_include_next : word "include_next" = kwIncludeNext := by decide
theorem w_pragma : word "pragma" = kwPragma := by decide
theorem w_once : word "once" = kwOnce := by decide
theorem w_line : word "line" = kwLine := by decide
theorem w_warning : word "warning" = kwWarning := by decide

theorem is_one (l : Line) (k : String) : l.Is [k] ↔ l.kw.text = word k := by
  constructor
  · rintro ⟨x, hx, e⟩
    rw [List.mem_singleton] at hx
    rw [e, hx]
  · intro e; exact ⟨k, List.mem_singleton.2 rfl, e⟩

theorem is_two (l : Line) (k k2 : String) : l.Is [k, k2] ↔ l.kw.text = word k ∨ l.kw.text = word k2 := by
  constructor
  · rintro ⟨x, hx, e⟩
    simp only [List.mem_cons, List.not_mem_nil, or_false] at hx
    rcases hx with rfl | rfl
    · exact .inl e
    · exact .inr e
  · rintro (e | e)
    · exact ⟨k, by simp, e⟩
    · exact ⟨k2, by simp, e⟩

theorem is_three (l : Line) (k k2 k3 : String) : l.Is [k, k2, k3] ↔ l.kw.text = word k ∨ l.kw.text = word k2 ∨ l.kw.text = word k3 := by
  constructor
  · rintro ⟨x, hx, e⟩
    simp only [List.mem_cons, List.not_mem_nil, or_false] at hx
    rcases hx with rfl | rfl | rfl
    · exact .inl e
    · exact .inr (.inl e)
    · exact .inr (.inr e)
  · rintro (e | e | e)
    · exact ⟨k, by simp, e⟩
    · exact ⟨k2, by simp, e⟩
    · exact ⟨k3, by simp, e⟩

/-- Empty, or at the beginning of a line. -/
def Bol (r : List PTok) : Prop := ∀ t ∈ r.head?, t.atBol = true
/-- Empty, or at a directive. -/
def HashNil (r : List PTok) : Prop := r = [] ∨ ∃ h u, r = h :: u ∧ StartsLine h

theorem HashNil.bol {r : List PTok} (h : HashNil r) : Bol r := by
  rcases h with rfl | ⟨h, u, rfl, hs⟩
  · intro t ht; cases ht
  · intro t ht; cases ht; exact hs.1

theorem starts_isHash {h : PTok} (hs : StartsLine h) : isHash h = true := by
  unfold Pp.isHash
  rw [hs.1, hs.2.1, w_hash]; rfl

theorem splitLine_args {args R : List PTok} (h : ∀ a ∈ args, a.atBol = false) (hR : Bol R) : splitLine (args ++ R) = (args, R) := by
  induction args with
  | nil =>
    cases R with
    | nil => rfl
    | cons t r =>
      show splitLine (t :: r) = _
      rw [splitLine, if_pos (hR t rfl)]
  | cons a args ih =>
    rw [List.cons_append, splitLine, if_neg (by rw [h a (List.mem_cons_self ..)]; simp), ih (fun x hx => h x (List.mem_cons_of_mem _ hx))]

theorem skipLine_args {args R : List PTok} (h : ∀ a ∈ args, a.atBol = false) (hR : Bol R) : skipLine (args ++ R) = R := by
  induction args with
  | nil =>
    cases R with
    | nil => rfl
    | cons t r =>
      show skipLine (t :: r) = _
      rw [skipLine, if_pos (hR t rfl)]
  | cons a args ih =>
    rw [List.cons_append, skipLine, if_neg (by rw [h a (List.mem_cons_self ..)]; simp), ih (fun x hx => h x (List.mem_cons_of_mem _ hx))]

/-! Skipping. -/

theorem skip_other {lvl : Nat} {t : PTok} {r : List PTok} (h : isHash t = false) : skipCond lvl (t :: r) = skipCond lvl r := by
  cases r with
  | nil => rw [skipCond, skipCond]
  | cons u r => rw [skipCond, if_neg (by rw [h]; simp)]

theorem skip_others {lvl : Nat} {ts r : List PTok} (h : ∀ t ∈ ts, isHash t = false) : skipCond lvl (ts ++ r) = skipCond lvl r := by
  induction ts with
  | nil => rfl
  | cons t ts ih => rw [List.cons_append, skip_other (h t (List.mem_cons_self ..)), ih fun x hx => h x (List.mem_cons_of_mem _ hx)]

theorem notHash_of_bol {t : PTok} (h : t.atBol = false) : isHash t = false := by unfold isHash; rw [h]; rfl

theorem skip_args {lvl : Nat} {args r : List PTok} (h : ∀ a ∈ args, a.atBol = false) : skipCond lvl (args ++ r) = skipCond lvl r :=
  skip_others fun t ht => notHash_of_bol (h t ht)

theorem skip_open {lvl : Nat} {l : Line} {r : List PTok} (hw : l.WF) (hk : l.Is ifWords) : skipCond lvl (l.toks ++ r) = skipCond (lvl + 1) r := by
  unfold Line.toks
  rw [List.cons_append, List.cons_append, skipCond, if_pos (starts_isHash hw.1)]
  rw [is_three, w_if, w_ifdef, w_ifndef] at hk
  rw [if_pos hk]
  exact skip_args hw.2.2

theorem skip_close {lvl : Nat} {l : Line} {r : List PTok} (hw : l.WF) (hk : l.Is ["endif"]) : skipCond (lvl + 1) (l.toks ++ r) = skipCond lvl r := by
  unfold Line.toks
  rw [List.cons_append, List.cons_append, skipCond, if_pos (starts_isHash hw.1)]
  rw [is_one, w_endif] at hk
  rw [hk, if_neg (by decide), if_pos ⟨by omega, rfl⟩]
  exact skip_args hw.2.2

theorem skip_stop {l : Line} {r : List PTok} (hw : l.WF) (hk : l.Is elifWords ∨ l.Is ["else"] ∨ l.Is ["endif"]) : skipCond 0 (l.toks ++ r) = l.toks ++ r := by
  unfold Line.toks
  rw [List.cons_append, List.cons_append, skipCond, if_pos (starts_isHash hw.1)]
  rw [is_three, is_one, is_one, w_elif, w_elifdef, w_elifndef, w_else, w_endif] at hk
  rcases hk with (hk | hk | hk) | hk | hk <;> rw [hk, if_neg (by decide), if_neg (by decide), if_pos (by decide)]

theorem skip_mid {lvl : Nat} {l : Line} {r : List PTok} (hw : l.WF) (hk : l.Is elifWords ∨ l.Is ["else"]) : skipCond (lvl + 1) (l.toks ++ r) = skipCond (lvl + 1) r := by
  unfold Line.toks
  rw [List.cons_append, List.cons_append, skipCond, if_pos (starts_isHash hw.1)]
  have : skipCond (lvl + 1) (l.kw :: (l.args ++ r)) = skipCond (lvl + 1) r := by
    rw [skip_other (notHash_of_bol hw.2.1.1)]; exact skip_args hw.2.2
  rw [is_three, is_one, w_elif, w_elifdef, w_elifndef, w_else] at hk
  rcases hk with (hk | hk | hk) | hk <;> rw [hk, if_neg (by decide), if_neg (by rintro ⟨_, h⟩; cases h), if_neg (by rintro ⟨h, _⟩; cases h)] <;> exact this

theorem skip_dir {lvl : Nat} {l : Line} {r : List PTok} (hw : l.WF) (h1 : ¬ l.Is ifWords) (h2 : ¬ l.Is elifWords) (h3 : ¬ l.Is ["else", "endif"]) :
    skipCond lvl (l.toks ++ r) = skipCond lvl r := by
  unfold Line.toks
  rw [List.cons_append, List.cons_append, skipCond, if_pos (starts_isHash hw.1)]
  have : skipCond lvl (l.kw :: (l.args ++ r)) = skipCond lvl r := by
    rw [skip_other (notHash_of_bol hw.2.1.1)]; exact skip_args hw.2.2
  rw [is_three, w_if, w_ifdef, w_ifndef] at h1
  rw [is_three, w_elif, w_elifdef, w_elifndef] at h2
  rw [is_two, w_else, w_endif] at h3
  rw [if_neg h1, if_neg (fun h => h3 (.inr h.2)), if_neg]
  · exact this
  · rintro ⟨_, h | h | h | h | h⟩
    · exact h3 (.inr h)
    · exact h3 (.inl h)
    · exact h2 (.inl h)
    · exact h2 (.inr (.inl h))
    · exact h2 (.inr (.inr h))

theorem skip_null {lvl : Nat} {h : PTok} {r : List PTok} (hr : HashNil r) : skipCond lvl (h :: r) = skipCond lvl r := by
  rcases hr with rfl | ⟨x, u, rfl, hx⟩
  · rw [skipCond, skipCond]
  · rw [skipCond]
    split
    · rw [hx.2.1, w_hash, if_neg (by decide), if_neg (by rintro ⟨_, h⟩; revert h; decide), if_neg (by rintro ⟨_, h⟩; revert h; decide)]
    · rfl

theorem line_hashNil {l : Line} (hw : l.WF) (r : List PTok) : HashNil (l.toks ++ r) := .inr ⟨l.hash, l.kw :: (l.args ++ r), rfl, hw.1⟩

theorem items_hashNil {r : Items} {rest : List PTok} (hw : r.WF) (hs : r.startsText = false) (hr : HashNil rest) : HashNil (r.flat ++ rest) := by
  cases r with
  | nil => exact hr
  | text ts r => cases hs
  | dir l r => rw [Items.WF] at hw; rw [Items.flat, List.append_assoc]; exact line_hashNil hw.1 _
  | null h r => rw [Items.WF] at hw; exact .inr ⟨_, _, rfl, hw.1⟩
  | group l body alts r => rw [Items.WF] at hw; rw [Items.flat, List.append_assoc]; exact line_hashNil hw.1 _

theorem alts_hashNil {a : Alts} {rest : List PTok} (hw : a.WF) : HashNil (a.flat ++ rest) := by
  cases a with
  | endif l => rw [Alts.WF] at hw; exact line_hashNil hw.1 _
  | elif l b a => rw [Alts.WF] at hw; rw [Alts.flat, List.append_assoc]; exact line_hashNil hw.1 _
  | els l b l2 => rw [Alts.WF] at hw; rw [Alts.flat, List.append_assoc]; exact line_hashNil hw.1 _

theorem text_notHash {ts : List PTok} (h : ∀ t ∈ ts, ¬ (t.atBol = true ∧ t.text = word "#")) : ∀ t ∈ ts, isHash t = false := by
  intro t ht
  have := h t ht
  rw [w_hash] at this
  unfold isHash
  cases hb : t.atBol with
  | false => rfl
  | true =>
    rw [Bool.true_and]
    have h2 : t.text ≠ Mac.hash := fun e => this ⟨hb, e⟩
    simpa using h2

mutual
/-- A whole sequence of lines is skipped. -/
theorem skip_items : ∀ (items : Items) (lvl : Nat) (rest : List PTok), items.WF → HashNil rest → skipCond lvl (items.flat ++ rest) = skipCond lvl rest
  | .nil, lvl, rest, _, _ => rfl
  | .text ts r, lvl, rest, hw, hr => by
    rw [Items.WF] at hw
    rw [Items.flat, List.append_assoc, skip_others (text_notHash hw.2.1)]
    exact skip_items r lvl rest hw.2.2.2 hr
  | .dir l r, lvl, rest, hw, hr => by
    rw [Items.WF] at hw
    rw [Items.flat, List.append_assoc, skip_dir hw.1 hw.2.1 hw.2.2.1 hw.2.2.2.1]
    exact skip_items r lvl rest hw.2.2.2.2 hr
  | .null h r, lvl, rest, hw, hr => by
    rw [Items.WF] at hw
    rw [Items.flat, List.cons_append, skip_null (items_hashNil hw.2.2 hw.2.1 hr)]
    exact skip_items r lvl rest hw.2.2 hr
  | .group l body alts r, lvl, rest, hw, hr => by
    rw [Items.WF] at hw
    rw [Items.flat, List.append_assoc, skip_open hw.1 hw.2.1, List.append_assoc, List.append_assoc]
    rw [skip_items body (lvl + 1) _ hw.2.2.1 (alts_hashNil hw.2.2.2.1), skip_alts alts lvl _ hw.2.2.2.1]
    exact skip_items r lvl rest hw.2.2.2.2 hr
theorem skip_alts : ∀ (alts : Alts) (lvl : Nat) (rest : List PTok), alts.WF → skipCond (lvl + 1) (alts.flat ++ rest) = skipCond lvl rest
  | .endif l, lvl, rest, hw => by
    rw [Alts.WF] at hw
    exact skip_close hw.1 hw.2
  | .elif l body alts, lvl, rest, hw => by
    rw [Alts.WF] at hw
    rw [Alts.flat, List.append_assoc, skip_mid hw.1 (.inl hw.2.1), List.append_assoc, skip_items body _ _ hw.2.2.1 (alts_hashNil hw.2.2.2)]
    exact skip_alts alts lvl rest hw.2.2.2
  | .els l body last, lvl, rest, hw => by
    rw [Alts.WF] at hw
    rw [Alts.flat, List.append_assoc, skip_mid hw.1 (.inr hw.2.1), List.append_assoc, skip_items body _ _ hw.2.2.1 (line_hashNil hw.2.2.2.1 _)]
    exact skip_close hw.2.2.2.1 hw.2.2.2.2
end

theorem skip_at_alts (alts : Alts) (rest : List PTok) (hw : alts.WF) : skipCond 0 (alts.flat ++ rest) = alts.flat ++ rest := by
  cases alts with
  | endif l => rw [Alts.WF] at hw; exact skip_stop hw.1 (.inr (.inr hw.2))
  | elif l b a => rw [Alts.WF] at hw; rw [Alts.flat, List.append_assoc]; exact skip_stop hw.1 (.inl hw.2.1)
  | els l b l2 => rw [Alts.WF] at hw; rw [Alts.flat, List.append_assoc]; exact skip_stop hw.1 (.inr (.inl hw.2.1))

/-! The definition of a macro. -/

theorem skip_hit (s : Name) (t : PTok) (r : List PTok) (h : t.text = s) : Mac.skip s (t :: r) = .done r := by
  unfold Mac.skip; simp [h]

/-- The loop of `readParams` after the comma. -/
def readParam1 (f : Nat) (ps : List Name) (ts : List PTok) : Run (List Name × Bool × List PTok) :=
  match ts with
  | [] => .fail
  | t :: r =>
    if t.kind ≠ .ident then do
      let r ← Mac.skip dots ts
      let r ← Mac.skip rpar r
      .done ((kwVaArgs :: ps).reverse, true, r)
    else if isText dots r then do
      let r ← Mac.skip rpar (r.drop 1)
      .done ((t.text :: ps).reverse, true, r)
    else readParams f (t.text :: ps) r

theorem readParams_eq (f : Nat) (ps : List Name) (ts : List PTok) : readParams (f + 1) ps ts =
    if isText rpar ts then .done (ps.reverse, false, ts.drop 1) else (if ps.isEmpty then .done ts else Mac.skip comma ts : Run (List PTok)) >>= readParam1 f ps := by
  rw [readParams]; rfl

theorem readParam1_ok (rp : PTok) (body : List PTok) (hrp : rp.text = rpar) {ts : List PTok} {ns : List Name} {va : Bool} (h : Params ts ns va) :
    ts ≠ [] → ∀ (f : Nat) (ps : List Name), ts.length ≤ f → readParam1 f ps (ts ++ rp :: body) = .done (ps.reverse ++ ns, va, body) := by
  induction h with
  | none => intro h; exact absurd rfl h
  | last t ht =>
    intro _ f ps hf
    obtain ⟨f, rfl⟩ : ∃ g, f = g + 1 := ⟨f - 1, by simp at hf; omega⟩
    have e : isText dots (rp :: body) = false := by show (rp.text == dots) = false; rw [hrp]; rfl
    show (if t.kind ≠ .ident then _ else if isText dots (rp :: body) then _ else readParams (f + 1) (t.text :: ps) (rp :: body)) = _
    rw [if_neg (by simp [ht.1]), if_neg (by rw [e]; simp), readParams_eq, if_pos (by show (rp.text == rpar) = true; rw [hrp]; rfl)]
    simp
  | dots d hd hk =>
    intro _ f ps hf
    show (if d.kind ≠ .ident then _ else _) = _
    rw [if_pos hk]
    rw [w_dots] at hd
    show (Mac.skip dots (d :: rp :: body) >>= _) = _
    rw [skip_hit _ _ _ hd, Run.bind_done, skip_hit _ _ _ hrp, Run.bind_done, w_va]
    simp
  | named t d ht hd hk =>
    intro _ f ps hf
    rw [w_dots] at hd
    show (if t.kind ≠ .ident then _ else if isText dots (d :: rp :: body) then _ else _) = _
    rw [if_neg (by simp [ht.1]), if_pos (by show (d.text == dots) = true; rw [hd]; rfl)]
    show (Mac.skip rpar (rp :: body) >>= _) = _
    rw [skip_hit _ _ _ hrp, Run.bind_done]
    simp
  | more t c ts ns va ht hc hne _ ih =>
    intro _ f ps hf
    obtain ⟨f, rfl⟩ : ∃ g, f = g + 1 := ⟨f - 1, by simp at hf; omega⟩
    rw [w_comma] at hc
    have e : isText dots (c :: (ts ++ rp :: body)) = false := by show (c.text == dots) = false; rw [hc]; rfl
    show (if t.kind ≠ .ident then _ else if isText dots (c :: (ts ++ rp :: body)) then _ else readParams (f + 1) (t.text :: ps) (c :: (ts ++ rp :: body))) = _
    rw [if_neg (by simp [ht.1]), if_neg (by rw [e]; simp), readParams_eq, if_neg (by show ¬ (c.text == rpar) = true; rw [hc]; decide), if_neg (by simp), skip_hit _ _ _ hc,
      Run.bind_done, ih hne f (t.text :: ps) (by simp at hf; omega)]
    simp

theorem readParams_ok (rp : PTok) (body : List PTok) (hrp : rp.text = rpar) {ts : List PTok} {ns : List Name} {va : Bool} (h : Params ts ns va) (f : Nat) (hf : ts.length ≤ f) :
    readParams (f + 1) [] (ts ++ rp :: body) = .done (ns, va, body) := by
  rw [readParams_eq]
  by_cases hne : ts = []
  · subst hne
    cases h
    rw [if_pos (by show (rp.text == rpar) = true; rw [hrp]; rfl)]
    rfl
  · have hx : isText rpar (ts ++ rp :: body) = false := by
      cases h with
      | none => exact absurd rfl hne
      | last t ht => have := ht.2; rw [w_rpar] at this; show (t.text == rpar) = false; simpa using this
      | dots d hd hk => show (d.text == rpar) = false; rw [hd]; decide
      | named t d ht hd hk => have := ht.2; rw [w_rpar] at this; show (t.text == rpar) = false; simpa using this
      | more t c ts ns va ht hc hne _ => have := ht.2; rw [w_rpar] at this; show (t.text == rpar) = false; simpa using this
    rw [if_neg (by rw [hx]; simp), if_pos (by rfl), Run.bind_done, readParam1_ok rp body hrp h hne f [] hf]
    rfl

theorem Params.va_ne {ts : List PTok} {ns : List Name} {va : Bool} (h : Params ts ns va) : va = true → ns ≠ [] := by
  cases h with
  | none => intro h; cases h
  | _ => intro _ h; cases h

/-- A `#define` line is read as it should be. -/
theorem define_ok (tb : Table) {args : List PTok} {n : Name} {m : Macro} (h : Defines args n m) (ha : ∀ a ∈ args, a.atBol = false) (R : List PTok) (hR : Bol R)
    (hp : args.length = 1 → ∀ p ∈ R.head?, ¬ (p.text = lpar ∧ p.hasSpace = false)) : define tb (args ++ R) = .done (tb.put n m, R) := by
  cases h with
  | obj t body ht hb =>
    have hx : ¬ (isText lpar (body ++ R) = true ∧ ∀ p ∈ (body ++ R).head?, p.hasSpace = false) := by
      rintro ⟨h1, h2⟩
      obtain ⟨p, r, e, hp1⟩ := isText_cons h1
      have h3 := h2 p (by rw [e]; rfl)
      cases body with
      | nil =>
        have e : R = p :: r := e
        exact hp rfl p (by rw [e]; rfl) ⟨hp1, h3⟩
      | cons b body =>
        cases e
        exact hb p rfl ⟨by rw [w_lpar]; exact hp1, h3⟩
    have e : readMacroName (t :: (body ++ R)) = .done (t.text, { isObj := true }, body ++ R) := by
      rw [readMacroName, if_neg (by simp [ht]), if_neg hx]
    show (readMacroName (t :: (body ++ R)) >>= _) = _
    rw [e, Run.bind_done]
    dsimp only
    rw [splitLine_args (fun a h => ha a (List.mem_cons_of_mem _ h)) hR]
  | fn t lp rp ps body ns va ht hl hs hps hrp =>
    rw [w_lpar] at hl
    rw [w_rpar] at hrp
    have e : readMacroName (t :: lp :: (ps ++ rp :: (body ++ R))) = .done (t.text, { isObj := false, params := ns, vaArg := va }, body ++ R) := by
      rw [readMacroName, if_neg (by simp [ht]), if_pos]
      · show (readParams ((lp :: (ps ++ rp :: (body ++ R))).length + 1) [] (ps ++ rp :: (body ++ R)) >>= _) = _
        rw [readParams_ok rp (body ++ R) hrp hps _ (by simp; omega), Run.bind_done]
      · refine ⟨by show (lp.text == lpar) = true; rw [hl]; rfl, ?_⟩
        intro p hp
        cases hp
        exact hs
    have e2 : t :: lp :: (ps ++ rp :: body) ++ R = t :: lp :: (ps ++ rp :: (body ++ R)) := by simp
    rw [e2]
    show (readMacroName (t :: lp :: (ps ++ rp :: (body ++ R))) >>= _) = _
    rw [e, Run.bind_done]
    dsimp only
    rw [splitLine_args (fun a h => ha a (by simp [h])) hR]

theorem Defines.va_ne {args : List PTok} {n : Name} {m : Macro} (h : Defines args n m) : m.vaArg = true → m.params ≠ [] := by
  cases h with
  | obj => intro h; cases h
  | fn t lp rp ps body ns va _ _ _ hps _ => exact Params.va_ne hps

end Slimcc.PpL
