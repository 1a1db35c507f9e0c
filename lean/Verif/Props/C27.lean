import Verif.Props.C24
import Verif.Props.C26
import Verif.Spec.PpHist
set_option autoImplicit false
/-!
C27 The macro table reflects the directives seen so far.
-/
namespace Slimcc.Props
open Slimcc Slimcc.PP Slimcc.Mac Slimcc.MacL Slimcc.Pp Slimcc.Spec Slimcc.PpL

theorem means_eq {σ : Macros} {ops : Ops} {n : Name} {v w : Option Macro} (h : Means σ ops n v) (h' : Means σ ops n w) : v = w := by
  rcases h with ⟨a, b, e, hb⟩ | ⟨hn, hv⟩
  · rcases h' with ⟨a', b', e', hb'⟩ | ⟨hn', _⟩
    · have key : ∀ (a b a' b' : Ops), a ++ (n, v) :: b = a' ++ (n, w) :: b' → (∀ p ∈ b, p.1 ≠ n) → (∀ p ∈ b', p.1 ≠ n) → v = w := by
        intro a
        induction a with
        | nil =>
          intro b a' b' e hb hb'
          cases a' with
          | nil => cases e; rfl
          | cons x a' => cases e; exact absurd rfl (hb (n, w) (by simp))
        | cons x a ih =>
          intro b a' b' e hb hb'
          cases a' with
          | nil => cases e; exact absurd rfl (hb' (n, v) (by simp))
          | cons y a' =>
            rw [List.cons_append, List.cons_append] at e
            exact ih b a' b' (List.cons.inj e).2 hb hb'
      exact key a b a' b' (e ▸ e') hb hb'
    · exact absurd rfl (hn' (n, v) (by rw [e]; simp))
  · rcases h' with ⟨a', b', e', _⟩ | ⟨_, hw⟩
    · exact absurd rfl (hn (n, w) (by rw [e']; simp))
    · rw [hv, hw]

theorem means_snoc {σ τ : Macros} {ops : Ops} (h : ∀ n, Means σ ops n (τ n)) (n : Name) (v : Option Macro) :
    ∀ x, Means σ (ops ++ [(n, v)]) x (if x = n then v else τ x) := by
  intro x
  by_cases hx : x = n
  · rw [if_pos hx, hx]
    exact .inl ⟨ops, [], rfl, fun _ h => by cases h⟩
  · rw [if_neg hx]
    rcases h x with ⟨a, b, e, hb⟩ | ⟨hn, hv⟩
    · refine .inl ⟨a, b ++ [(n, v)], by rw [e]; simp, fun p hp => ?_⟩
      rcases List.mem_append.1 hp with hp | hp
      · exact hb p hp
      · rw [List.mem_singleton.1 hp]; exact Ne.symm hx
    · refine .inr ⟨fun p hp => ?_, hv⟩
      rcases List.mem_append.1 hp with hp | hp
      · exact hn p hp
      · rw [List.mem_singleton.1 hp]; exact Ne.symm hx

theorem uses_sem {L : Lang} {σ : Macros} {ops : Ops} {steps : List Step} {o : List PTok} (h : Uses L σ ops steps o) (p : Path) :
    ∀ s : PpState, (∀ n, Means σ ops n (s.macros n)) → ∃ s', Sem L p s (stepLines steps) o s' := by
  induction h with
  | nil ops => exact fun s _ => ⟨s, .nil p s⟩
  | op ops l n v r o hl hp _ ih =>
    intro s hs
    obtain ⟨s', h⟩ := ih (s.set n v) (means_snoc hs n v)
    cases hl with
    | define n m hk hd => exact ⟨s', .define p s s' l n m o _ hk hd hp h⟩
    | undef t ex hk ha ht => exact ⟨s', .undef p s s' l t ex o _ hk ha ht h⟩
  | text ops ts table r o o2 hm hh he _ ih =>
    intro s hs
    obtain ⟨s', h⟩ := ih s hs
    have : table = s.macros := funext fun n => means_eq (hm n) (hs n)
    rw [this] at he
    exact ⟨s', .text p s s' ts o o2 _ hh he h⟩
  | ifdef ops l t ex a e b last v table r o o2 hk ha ht hv hm hh he _ ih =>
    intro s hs
    obtain ⟨s', h⟩ := ih s hs
    have : table = s.macros := funext fun n => means_eq (hm n) (hs n)
    rw [this] at he
    have hv' : v = s.macros t.text := means_eq hv (hs _)
    have hT := Truth.defd (L := L) (σ := s.macros) (l := l) t ex (by obtain ⟨k, hk, e⟩ := hk; rw [List.mem_singleton.1 hk] at e; exact ⟨"ifdef", by decide, e⟩) ha ht
    rw [← hv'] at hT
    have hb := Sem.text (L := L) p s s _ o [] .nil hh he (.nil p s)
    rw [List.append_nil] at hb
    refine ⟨s', ?_⟩
    cases hx : v.isSome with
    | true =>
      rw [hx, if_pos rfl] at hb
      rw [hx] at hT
      exact .yes p s s s' l _ _ _ o o2 hT hb h
    | false =>
      rw [hx, if_neg (by simp)] at hb
      rw [hx] at hT
      exact .no p s s s' l _ _ _ o o2 hT (.els p s s e last _ o hb) h

/-- Whatever the sequence of definitions, ends of definitions, texts and `#ifdef` groups, every text is expanded with the
last definitions before it, and every group is decided by them. -/
theorem C27_last_definition_counts (E : PEnv) (tree : Path → Option Items) (hE : EnvOk E tree) (tb : Table)
    (hva : ∀ n m, tb.get n = some m → m.vaArg = true → m.params ≠ []) (root : Path) (steps : List Step) (hw : (stepLines steps).WF)
    (o : List PTok) (h : Uses (langOf E tree) tb.get [] steps o) :
    ∃ f st, ∀ k, preprocess E (f + k) tb root (stepLines steps).flat = .done (o, st) := by
  obtain ⟨s', hs⟩ := uses_sem h root ⟨tb.get, []⟩ (fun n => .inr ⟨(fun _ h => by cases h), rfl⟩)
  obtain ⟨f, st, _, g⟩ := C24_meaning E tree hE tb hva root _ hw o s' hs
  exact ⟨f, st, g⟩

/-- A name that is not defined stays as it is. -/
theorem C27_undefined_stays (E : PEnv) (σ : Macros) (t : PTok) (r o : List PTok) (hσ : σ t.text = none) :
    (∃ f, expand (E.mac σ) f [] [] (t :: r) = .done o) ↔ ∃ o', o = t :: o' ∧ ∃ f, expand (E.mac σ) f [] [] r = .done o' := by
  have hl : (E.mac σ).look t = none := by unfold Mac.Env.look; split; exact hσ; rfl
  have he : ∀ exp, expandMacro (E.mac σ) exp [] [] t r = .done (.inl t) := by
    intro exp; unfold expandMacro
    split
    · rfl
    · rw [hl]
  have key : ∀ f, expand (E.mac σ) (f + 1) [] [] (t :: r) = (do let out ← expand (E.mac σ) f [] [] r; .done (t :: out)) := by
    intro f
    rw [expand, he]; rfl
  constructor
  · rintro ⟨f, h⟩
    cases f with
    | zero => cases h
    | succ f =>
      rw [key, bind_done_iff] at h
      obtain ⟨x, h1, h2⟩ := h
      cases h2
      exact ⟨x, rfl, f, h1⟩
  · rintro ⟨o', rfl, f, h⟩
    exact ⟨f + 1, by rw [key, h]; rfl⟩

/-- With object-like definitions, a defined name is replaced by the replacement list of its definition (and what stands in it is
replaced in turn). -/
theorem C27_defined_is_replaced (E : PEnv) (σ : Macros) (hobj : ∀ n m, σ n = some m → m.isObj = true ∧ m.handler = false ∧ ∀ t ∈ m.body, t.text ≠ word "##")
    (f : Nat) (ts o : List PTok) (h : expand (E.mac σ) f [] [] ts = .done o) : Rescan (fun n => (σ n).map Macro.body) [] (ts.map bare) (o.map bare) :=
  C26_object_like (E.mac σ) hobj f ts o h

/-- `defined X` and `defined (X)` are 1 if the name is defined and 0 if not: the condition is the one that has this number
in their place. -/
theorem C27_defined_operator (E : PEnv) (σ : Macros) (d lp x rp : PTok) (r : List PTok) (hd : d.kind = .ident ∧ d.text = word "defined")
    (hu : σ (word "defined") = none) (hx : x.kind = .ident) (hxl : x.text ≠ word "(") (hlp : lp.text = word "(") (hrp : rp.text = word ")") (f : Nat) (operand : List PTok)
    (ho : operand = [x] ∨ operand = [lp, x, rp]) :
    readConst E σ (f + 1) [] (d :: operand ++ r) = (do
      let out ← readConst E σ f [] r
      .done ({ d with kind := .intNum, text := word (if (σ x.text).isSome then "1" else "0") } :: out)) := by
  have hl : (E.mac σ).look d = none := by unfold Mac.Env.look; rw [if_pos hd.1, hd.2]; exact hu
  have he : ∀ exp r, expandMacro (E.mac σ) exp [] [] d r = .done (.inl d) := by
    intro exp r; unfold expandMacro
    split
    · rfl
    · rw [hl]
  have hr : readDefined σ (operand ++ r) = .done ((σ x.text).isSome, r) := by
    unfold readDefined
    rcases ho with rfl | rfl
    · show (if x.text = lpar then _ else if x.kind ≠ .ident then _ else _) = _
      rw [if_neg (show ¬ x.text = lpar from hxl), if_neg (fun h => h hx)]; rfl
    · show (if lp.text = lpar then _ else _) = _
      rw [if_pos (show lp.text = lpar from hlp)]
      show (if x.kind ≠ .ident then _ else _) = _
      rw [if_neg (fun h => h hx)]
      show (do let r3 ← (if rp.text = rpar then Run.done ([] ++ r) else .fail); Run.done ((σ x.text).isSome, r3)) = _
      rw [if_pos (show rp.text = rpar from hrp)]
      rfl
  show readConst E σ (f + 1) [] (d :: (operand ++ r)) = _
  rw [readConst, he, Run.bind_done]
  show (if d.text = kwDefined then _ else _) = _
  rw [if_pos (show d.text = kwDefined from hd.2), hr, Run.bind_done]
  show (do let out ← readConst E σ f (popLocks r.length []) r; Run.done (toInt d (σ x.text).isSome :: out)) = _
  unfold toInt
  cases (σ x.text).isSome <;> rfl

/-- What an option does to the names. -/
inductive CliOp (one : PTok) : Opt → Name × Option Macro → Prop where
  | D (ts : List PTok) (n : Name) (m : Macro) : CliDefines one ts n m → CliOp one (.D ts) (n, some m)
  | U (n : Name) : CliOp one (.U n) (n, none)

theorem cliBody_eq (one eq : PTok) (body : List PTok) (he : eq.text = word "=") : cliBody one (eq :: body) = withSpace body := by
  unfold cliBody
  rw [if_pos (by rw [he]; rfl)]
  cases body <;> rfl

theorem defineCli_ok (one : PTok) (tb : Table) {ts : List PTok} {n : Name} {m : Macro} (h : CliDefines one ts n m) : defineCli one tb ts = .done (tb.put n m) := by
  cases h with
  | name t ht =>
    unfold defineCli readMacroName
    dsimp only
    rw [if_neg (fun h => h ht), if_neg (by simp [isText]), Run.bind_done]
    rfl
  | obj t eq body ht he =>
    unfold defineCli readMacroName
    dsimp only
    rw [if_neg (fun h => h ht), if_neg (by rintro ⟨h1, _⟩; unfold isText at h1; dsimp only at h1; rw [he] at h1; exact absurd h1 (by decide)), Run.bind_done]
    dsimp only
    rw [cliBody_eq one eq body he]
  | fn t lp rp eq ps body ns va ht hl hs hp hr he =>
    unfold defineCli readMacroName
    dsimp only
    rw [if_neg (fun h => h ht), if_pos ⟨by unfold isText; dsimp only; rw [hl]; rfl, by intro p hp; cases hp; exact hs⟩]
    rw [List.drop_one, List.tail_cons, readParams_ok rp (eq :: body) (hr.trans (by decide)) hp _ (by simp; omega), Run.bind_done]
    dsimp only
    rw [Run.bind_done]
    dsimp only
    rw [cliBody_eq one eq body he]

/-- After the options `-D` and `-U`, every name stands for what the last option on it says. -/
theorem C27_command_line (one : PTok) (args : List Opt) (ops : Ops) (h : List.Forall₂ (CliOp one) args ops) (tb : Table) :
    ∃ tb', options one tb args = .done tb' ∧ ∀ n, Means tb.get ops n (tb'.get n) := by
  have key : ∀ (args : List Opt) (ops : Ops), List.Forall₂ (CliOp one) args ops → ∀ (tb1 : Table) (done : Ops), (∀ n, Means tb.get done n (tb1.get n)) →
      ∃ tb', options one tb1 args = .done tb' ∧ ∀ n, Means tb.get (done ++ ops) n (tb'.get n) := by
    intro args ops h
    induction h with
    | nil => exact fun tb1 done hd => ⟨tb1, rfl, by rw [List.append_nil]; exact hd⟩
    | @cons x y args ops hxy _ ih =>
      intro tb1 done hd
      have : done ++ y :: ops = (done ++ [y]) ++ ops := by simp
      rw [this]
      cases hxy with
      | D ts n m hm =>
        rw [options, defineCli_ok one tb1 hm, Run.bind_done]
        refine ih _ _ (fun x => ?_)
        rw [show (tb1.put n m).get x = if x = n then some m else tb1.get x from congrFun (get_put tb1 n m) x]
        exact means_snoc hd n (some m) x
      | U n =>
        rw [options]
        refine ih _ _ (fun x => ?_)
        rw [show (tb1.del n).get x = if x = n then none else tb1.get x from congrFun (get_del tb1 n) x]
        exact means_snoc hd n none x
  obtain ⟨tb', h1, h2⟩ := key args ops h tb [] (fun n => .inr ⟨(fun _ h => by cases h), rfl⟩)
  exact ⟨tb', h1, h2⟩

/-- The source file goes on from there: its operations come after those of the command line. -/
theorem C27_then_source (σ τ : Macros) (cli ops : Ops) (h : ∀ n, Means σ cli n (τ n)) (n : Name) (v : Option Macro) (hv : Means τ ops n v) : Means σ (cli ++ ops) n v := by
  rcases hv with ⟨a, b, e, hb⟩ | ⟨hn, rfl⟩
  · exact .inl ⟨cli ++ a, b, by rw [e]; simp, hb⟩
  · rcases h n with ⟨a, b, e, hb⟩ | ⟨hm, hv⟩
    · refine .inl ⟨a, b ++ ops, by rw [e]; simp, fun p hp => ?_⟩
      rcases List.mem_append.1 hp with hp | hp
      · exact hb p hp
      · exact hn p hp
    · refine .inr ⟨fun p hp => ?_, hv⟩
      rcases List.mem_append.1 hp with hp | hp
      · exact hm p hp
      · exact hn p hp

/-! ### Examples -/

/-- `#define A 1`, `A`, `#undef A`, `#ifdef A`, `p`, `#else`, `A`, `#endif`. -/
def histSteps : List Step :=
  [.op (ppL "define" [ppI "A", ppNum "1"]), .text (ppText "A"), .op (ppL "undef" [ppI "A"]),
   .ifdef (ppL "ifdef" [ppI "A"]) (ppText "p") (ppL "else" []) (ppText "A") (ppL "endif" [])]

/-- The hypothesis of `C27_last_definition_counts` holds of it. -/
example : ∃ o, o.map PTok.text = [word "1", word "A"] ∧ Uses (langOf ppEnv (fun _ => none)) (Table.get []) [] histSteps o := by
  have h0 : ∀ n, Means (Table.get []) [] n (Table.get [] n) := fun n => .inr ⟨(fun _ h => by cases h), rfl⟩
  have h1 := means_snoc h0 (word "A") (some { isObj := true, body := [ppNum "1"] })
  have h2 := means_snoc h1 (word "A") none
  have is : ∀ k args, (ppL k args).Is [k] := fun k args => ⟨k, List.mem_singleton.2 rfl, rfl⟩
  refine ⟨[{ ppNum "1" with atBol := true, hasSpace := false }] ++ (ppText "A" ++ []), rfl, ?_⟩
  refine .op _ _ (word "A") (some { isObj := true, body := [ppNum "1"] }) _ _ (.define _ _ (is _ _) (.obj _ [ppNum "1"] rfl ?_)) (by intro h; cases h) ?_
  · intro p hp; cases hp; exact fun h => absurd h.1 (by decide)
  refine .text _ _ _ _ _ _ h1 (by decide) ⟨4, rfl⟩ ?_
  refine .op _ _ (word "A") none _ _ (.undef (ppI "A") [] (is _ _) rfl rfl) (fun _ => rfl) ?_
  exact .ifdef _ _ (ppI "A") [] _ _ _ _ none _ _ (ppText "A") [] (is _ _) rfl rfl (by have := h2 (word "A"); rw [if_pos rfl] at this; exact this) h2 (by decide) ⟨3, rfl⟩ (.nil _)

example : (stepLines histSteps).WF := by
  have no : ∀ k args ks, word k ∉ ks.map word → ¬ (ppL k args).Is ks := fun k args ks h hk => by
    obtain ⟨x, hx, e⟩ := hk
    exact h (List.mem_map.2 ⟨x, hx, e.symm⟩)
  unfold histSteps
  simp only [stepLines, Items.WF, Alts.WF, and_true]
  refine ⟨ppL_wf _ _ (by decide), no _ _ _ (by decide), no _ _ _ (by decide), no _ _ _ (by decide), ⟨_, _, rfl, rfl⟩, (by decide), rfl,
    ppL_wf _ _ (by decide), no _ _ _ (by decide), no _ _ _ (by decide), no _ _ _ (by decide), ppL_wf _ _ (by decide), ⟨"ifdef", by decide, rfl⟩,
    ⟨⟨_, _, rfl, rfl⟩, (by decide), rfl⟩, ppL_wf _ _ (by decide), ⟨"else", by decide, rfl⟩, ⟨⟨_, _, rfl, rfl⟩, (by decide), rfl⟩, ppL_wf _ _ (by decide), ⟨"endif", by decide, rfl⟩⟩

/-- `-DX=2 -DY -UX`: `X` is not defined, `Y` is 1. -/
example : ∃ tb, options (ppNum "1") [] [.D [ppI "X", ppT false .punct "=", ppNum "2"], .D [ppI "Y"], .U (word "X")] = .done tb ∧
    tb.get (word "X") = none ∧ (tb.get (word "Y")).map (fun m => m.body.map PTok.text) = some [word "1"] := ⟨_, rfl, rfl, rfl⟩

/-! ### Departures -/

/-- `#define F`, newline, `( x ) y` is read as the definition of a macro with a parameter; the text line is lost. (The parenthesis
is in the first column.) -/
theorem C27_define_takes_next_line : ∃ st,
    preprocess ppEnv 9 [] [] ((ppL "define" [ppI "F"]).toks ++ [{ ppT true .punct "(" with hasSpace := false }, ppI "x", ppT false .punct ")", ppI "y"]) = .done ([], st) ∧
      (st.macros.get (word "F")).map (fun m => (m.isObj, m.params, m.body)) = some (false, [word "x"], [ppI "y"]) := ⟨_, rfl, rfl⟩

/-- `-DX==2` (the tokens `X`, `==`, `2`) defines `X` as `== 2 1`. -/
theorem C27_option_with_two_equals : ∃ tb, options (ppNum "1") [] [.D [ppI "X", ppT false .punct "==", ppNum "2"]] = .done tb ∧
    (tb.get (word "X")).map (fun m => m.body.map PTok.text) = some [word "==", word "2", word "1"] := ⟨_, rfl, rfl⟩

end Slimcc.Props
