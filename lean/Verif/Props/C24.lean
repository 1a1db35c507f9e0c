import Verif.Lemmas.PpReach
set_option autoImplicit false
/-!
C24 Conditional inclusion selects exactly one branch.
-/
namespace Slimcc.Props
open Slimcc Slimcc.PP Slimcc.Mac Slimcc.Pp Slimcc.Spec Slimcc.PpL

/-- The preprocessor yields what the tree of groups means: of every group the lines of the first branch whose condition
holds, or of `#else`; the lines of the other branches, with the groups in them and their conditions, have no part in it. -/
theorem C24_meaning (E : PEnv) (tree : Path → Option Items) (hE : EnvOk E tree) (tb : Table) (hva : ∀ n m, tb.get n = some m → m.vaArg = true → m.params ≠ [])
    (root : Path) (items : Items) (hw : items.WF) (o : List PTok) (s' : PpState) (h : Sem (langOf E tree) root ⟨tb.get, []⟩ items o s') :
    ∃ f st, st.macros.get = s'.macros ∧ ∀ k, preprocess E (f + k) tb root items.flat = .done (o, st) := by
  obtain ⟨st', k, c, g⟩ := sem_goes hE h { macros := tb, conds := [], once := [], guards := [] } { path := root, start := items.flat.length, stop := 0, incl := false } [] []
    (ok_start hva) hw ((root_start root _).fc tree items [] (by simp)) (.of_hash (.inl rfl))
  have hx := g _ (pp_end E st' _)
  rw [List.append_nil] at hx
  obtain ⟨f, hf⟩ := preprocess_of hx
  refine ⟨f, st', k.mac, fun k => ?_⟩
  rw [hf k]
  show (if st'.conds.isEmpty = true then Run.done (o ++ [], st') else _) = _
  rw [c, List.append_nil]; rfl

/-- So the meaning is unique. -/
theorem C24_one_meaning (E : PEnv) (tree : Path → Option Items) (hE : EnvOk E tree) (tb : Table) (hva : ∀ n m, tb.get n = some m → m.vaArg = true → m.params ≠ [])
    (root : Path) (items : Items) (hw : items.WF) (o o' : List PTok) (s' s'' : PpState) (h : Sem (langOf E tree) root ⟨tb.get, []⟩ items o s')
    (h' : Sem (langOf E tree) root ⟨tb.get, []⟩ items o' s'') : o = o' ∧ s'.macros = s''.macros := by
  obtain ⟨f, st, e, hf⟩ := C24_meaning E tree hE tb hva root items hw o s' h
  obtain ⟨g, st2, e2, hg⟩ := C24_meaning E tree hE tb hva root items hw o' s'' h'
  have a := hf g
  have b := hg f
  rw [Nat.add_comm g f] at b
  rw [a] at b
  cases b
  exact ⟨rfl, e.symm.trans e2⟩

/-- From a point outside of all groups: an `#elif`, `#else` or `#endif` there is an error, whatever follows. -/
theorem C24_stray (E : PEnv) (tree : Path → Option Items) (hE : EnvOk E tree) (tb : Table) (hva : ∀ n m, tb.get n = some m → m.vaArg = true → m.params ≠ [])
    (root : Path) (items : Items) (hw : items.WF) (o : List PTok) (s' : PpState) (h : Sem (langOf E tree) root ⟨tb.get, []⟩ items o s')
    (l : Line) (hl : l.WF) (hk : l.Is elifWords ∨ l.Is ["else"] ∨ l.Is ["endif"]) (any : List PTok) :
    ∃ f, ∀ k, preprocess E (f + k) tb root (items.flat ++ (l.toks ++ any)) = .fail := by
  obtain ⟨st', k, c, g⟩ := sem_goes hE h { macros := tb, conds := [], once := [], guards := [] } { path := root, start := (items.flat ++ (l.toks ++ any)).length, stop := 0, incl := false } []
    (l.toks ++ any) (ok_start hva) hw ((root_start root _).fc tree items _ (by simp)) (.of_hash (line_hashNil hl _))
  obtain ⟨f, hf⟩ := preprocess_of (g _ (stray_fail hl hk c))
  exact ⟨f, fun k => by rw [hf k]; rfl⟩

/-- From any point inside of an `#else` branch: another `#elif` or `#else` is an error. -/
theorem C24_after_else (E : PEnv) (tree : Path → Option Items) (hE : EnvOk E tree) (tb : Table) (hva : ∀ n m, tb.get n = some m → m.vaArg = true → m.params ≠ [])
    (root : Path) (toks o : List PTok) (s1 : PpState) (open_ : List Bool) (hr : Reach (langOf E tree) root ⟨tb.get, []⟩ toks o s1 (true :: open_))
    (items : Items) (hw : items.WF) (o2 : List PTok) (s2 : PpState) (h : Sem (langOf E tree) root s1 items o2 s2)
    (l : Line) (hl : l.WF) (hk : l.Is elifWords ∨ l.Is ["else"]) (any : List PTok) :
    ∃ f, ∀ k, preprocess E (f + k) tb root (toks ++ (items.flat ++ (l.toks ++ any))) = .fail := by
  obtain ⟨st1, k1, c1, g1⟩ := reach_goes hE hr { macros := tb, conds := [], once := [], guards := [] }
    { path := root, start := (toks ++ (items.flat ++ (l.toks ++ any))).length, stop := 0, incl := false } [] (items.flat ++ (l.toks ++ any))
    (ok_start hva) rfl ⟨rfl, rfl, rfl, by simp⟩ (items_bol hw (line_hashNil hl _).bol)
  obtain ⟨st2, k2, c2, g2⟩ := sem_goes hE h st1 { path := root, start := (toks ++ (items.flat ++ (l.toks ++ any))).length, stop := 0, incl := false } []
    (l.toks ++ any) k1 hw ((root_start root _).fc tree items _ (by simp)) (.of_hash (line_hashNil hl _))
  cases hc : st1.conds with
  | nil => rw [hc] at c1; exact absurd c1 (by simp [OpenAs])
  | cons c cs =>
    rw [hc] at c1 c2
    obtain ⟨f, hf⟩ := preprocess_of (g1 _ (g2 _ (after_else_fail hl hk c2 c1.1)))
    exact ⟨f, fun k => by rw [hf k]; rfl⟩

/-- A file that ends inside of a group is an error: in the branch that is taken. -/
theorem C24_unterminated (E : PEnv) (tree : Path → Option Items) (hE : EnvOk E tree) (tb : Table) (hva : ∀ n m, tb.get n = some m → m.vaArg = true → m.params ≠ [])
    (root : Path) (toks o : List PTok) (s1 : PpState) (e : Bool) (open_ : List Bool) (hr : Reach (langOf E tree) root ⟨tb.get, []⟩ toks o s1 (e :: open_))
    (items : Items) (hw : items.WF) (o2 : List PTok) (s2 : PpState) (h : Sem (langOf E tree) root s1 items o2 s2) :
    ∃ f, ∀ k, preprocess E (f + k) tb root (toks ++ items.flat) = .fail := by
  obtain ⟨st1, k1, c1, g1⟩ := reach_goes hE hr { macros := tb, conds := [], once := [], guards := [] }
    { path := root, start := (toks ++ items.flat).length, stop := 0, incl := false } [] items.flat
    (ok_start hva) rfl ⟨rfl, rfl, rfl, by simp⟩ (by have := items_bol (rest := []) hw (fun _ h => by cases h); rw [List.append_nil] at this; exact this)
  obtain ⟨st2, k2, c2, g2⟩ := sem_goes hE h st1 { path := root, start := (toks ++ items.flat).length, stop := 0, incl := false } []
    [] k1 hw ((root_start root _).fc tree items _ (by simp)) (.of_hash (.inl rfl))
  have hx := g2 _ (pp_end E st2 _)
  rw [List.append_nil] at hx
  obtain ⟨f, hf⟩ := preprocess_of (g1 _ hx)
  refine ⟨f, fun k => ?_⟩
  rw [hf k]
  show (if st2.conds.isEmpty = true then _ else Run.fail) = _
  rw [c2]
  cases hc : st1.conds with
  | nil => rw [hc] at c1; exact absurd c1 (by simp [OpenAs])
  | cons c cs => rfl

/-- In a first branch that is skipped. -/
theorem C24_unterminated_skipped (E : PEnv) (tree : Path → Option Items) (hE : EnvOk E tree) (tb : Table) (hva : ∀ n m, tb.get n = some m → m.vaArg = true → m.params ≠ [])
    (root : Path) (toks o : List PTok) (s1 : PpState) (open_ : List Bool) (hr : Reach (langOf E tree) root ⟨tb.get, []⟩ toks o s1 open_)
    (items : Items) (hw : items.WF) (o2 : List PTok) (s2 : PpState) (h : Sem (langOf E tree) root s1 items o2 s2)
    (l : Line) (hl : l.WF) (hk : l.Is ifWords) (ht : Truth (langOf E tree) s2.macros l false) (body : Items) (hb : body.WF) :
    ∃ f, ∀ k, preprocess E (f + k) tb root (toks ++ (items.flat ++ (l.toks ++ body.flat))) = .fail := by
  obtain ⟨st1, k1, c1, g1⟩ := reach_goes hE hr { macros := tb, conds := [], once := [], guards := [] }
    { path := root, start := (toks ++ (items.flat ++ (l.toks ++ body.flat))).length, stop := 0, incl := false } [] (items.flat ++ (l.toks ++ body.flat))
    (ok_start hva) rfl ⟨rfl, rfl, rfl, by simp⟩ (items_bol hw (line_hashNil hl _).bol)
  obtain ⟨st2, k2, c2, g2⟩ := sem_goes hE h st1 { path := root, start := (toks ++ (items.flat ++ (l.toks ++ body.flat))).length, stop := 0, incl := false } []
    (l.toks ++ body.flat) k1 hw ((root_start root _).fc tree items _ (by simp)) (.of_hash (line_hashNil hl _))
  have hbol : Bol body.flat := by have := items_bol (rest := []) hb (fun _ h => by cases h); rw [List.append_nil] at this; exact this
  obtain ⟨gd, _, fu, hd⟩ := if_step (E := E) k2 hl hk ht { path := root, start := (toks ++ (items.flat ++ (l.toks ++ body.flat))).length, stop := 0, incl := false } []
    (l.toks.length + body.flat.length) body.flat hbol
  have hsk : skipCond 0 body.flat = [] := by have := skip_items body 0 [] hb (.inl rfl); rw [List.append_nil] at this; rw [this, skipCond]
  rw [if_neg (by simp), hsk] at hd
  obtain ⟨f, hf⟩ := preprocess_of (g1 _ (g2 _ (line_step hl (Nat.zero_le _) ⟨fu, hd⟩ (pp_end E _ _))))
  refine ⟨f, fun k => ?_⟩
  rw [hf k]
  rfl

/-- After the branch that has been taken. -/
theorem C24_unterminated_after (E : PEnv) (tree : Path → Option Items) (hE : EnvOk E tree) (tb : Table) (hva : ∀ n m, tb.get n = some m → m.vaArg = true → m.params ≠ [])
    (root : Path) (toks o : List PTok) (s1 : PpState) (open_ : List Bool) (hr : Reach (langOf E tree) root ⟨tb.get, []⟩ toks o s1 (false :: open_))
    (items : Items) (hw : items.WF) (o2 : List PTok) (s2 : PpState) (h : Sem (langOf E tree) root s1 items o2 s2)
    (l : Line) (hl : l.WF) (hk : l.Is elifWords ∨ l.Is ["else"]) (body : Items) (hb : body.WF) :
    ∃ f, ∀ k, preprocess E (f + k) tb root (toks ++ (items.flat ++ (l.toks ++ body.flat))) = .fail := by
  obtain ⟨st1, k1, c1, g1⟩ := reach_goes hE hr { macros := tb, conds := [], once := [], guards := [] }
    { path := root, start := (toks ++ (items.flat ++ (l.toks ++ body.flat))).length, stop := 0, incl := false } [] (items.flat ++ (l.toks ++ body.flat))
    (ok_start hva) rfl ⟨rfl, rfl, rfl, by simp⟩ (items_bol hw (line_hashNil hl _).bol)
  obtain ⟨st2, k2, c2, g2⟩ := sem_goes hE h st1 { path := root, start := (toks ++ (items.flat ++ (l.toks ++ body.flat))).length, stop := 0, incl := false } []
    (l.toks ++ body.flat) k1 hw ((root_start root _).fc tree items _ (by simp)) (.of_hash (line_hashNil hl _))
  have hbol : Bol body.flat := by have := items_bol (rest := []) hb (fun _ h => by cases h); rw [List.append_nil] at this; exact this
  have hsk : skipCond 0 body.flat = [] := by have := skip_items body 0 [] hb (.inl rfl); rw [List.append_nil] at this; rw [this, skipCond]
  cases hc : st1.conds with
  | nil => rw [hc] at c1; exact absurd c1 (by simp [OpenAs])
  | cons c cs =>
    rw [hc] at c1 c2
    have hd : ∃ c' fu, directive E fu st2 [{ path := root, start := (toks ++ (items.flat ++ (l.toks ++ body.flat))).length, stop := 0, incl := false }]
        (l.toks.length + body.flat.length) (l.kw :: (l.args ++ body.flat)) = .done ({ st2 with conds := c' :: cs },
          [{ path := root, start := (toks ++ (items.flat ++ (l.toks ++ body.flat))).length, stop := 0, incl := false }], []) := by
      rcases hk with hk | hk
      · obtain ⟨fu, hd⟩ := elif_done (E := E) (st := st2) hl hk c2 c1.1 (c1.2.1 rfl) [{ path := root, start := (toks ++ (items.flat ++ (l.toks ++ body.flat))).length, stop := 0, incl := false }]
          (l.toks.length + body.flat.length) body.flat
        rw [hsk] at hd
        exact ⟨_, fu, hd⟩
      · obtain ⟨fu, hd⟩ := else_step (E := E) (st := st2) hl hk c2 c1.1 [{ path := root, start := (toks ++ (items.flat ++ (l.toks ++ body.flat))).length, stop := 0, incl := false }]
          (l.toks.length + body.flat.length) body.flat hbol
        rw [if_pos (c1.2.1 rfl), hsk] at hd
        exact ⟨_, fu, hd⟩
    obtain ⟨c', fu, hd⟩ := hd
    obtain ⟨f, hf⟩ := preprocess_of (g1 _ (g2 _ (line_step hl (Nat.zero_le _) ⟨fu, hd⟩ (pp_end E _ _))))
    refine ⟨f, fun k => ?_⟩
    rw [hf k]
    rfl

/-! ### Examples -/

/-- A token; `b`: at the beginning of a line. -/
def ppT (b : Bool) (k : Lex.Kind) (s : String) : PTok := { kind := k, text := word s, atBol := b, hasSpace := !b }
def ppI (s : String) : PTok := ppT false .ident s
def ppHash : PTok := ppT true .punct "#"
def ppL (kw : String) (args : List PTok) : Line := ⟨ppHash, ppI kw, args⟩
def ppText (s : String) : List PTok := [ppT true .ident s]
def ppNum (s : String) : PTok := ppT false .ppNum s

/-- Conditions are single numbers; no files. -/
def ppEnv : PEnv where
  paste _ _ := .fail
  str _ := .fail
  builtin t := { t with text := [] }
  strict := false
  c23 := true
  constExpr ts := match ts with | [t] => .done (t.text != word "0") | _ => .fail
  resolve _ _ _ _ := .fail
  file _ := none
  line _ _ := true

/-- `#if 0`, a group with a senseless condition, `#elif 1`, `b`, `#elif (`, `#else`, `c`, `#endif`, `d`. -/
def ppTree : Items :=
  .group (ppL "if" [ppNum "0"]) (.group (ppL "if" [ppT false .punct "("]) (.text (ppText "a") .nil) (.endif (ppL "endif" [])) .nil)
    (.elif (ppL "elif" [ppNum "1"]) (.text (ppText "b") .nil)
      (.elif (ppL "elif" [ppT false .punct "("]) .nil (.els (ppL "else" []) (.text (ppText "c") .nil) (ppL "endif" []))))
    (.text (ppText "d") .nil)

theorem ppEnv_ok : EnvOk ppEnv (fun _ => none) := ⟨fun t => (by show ([] : List Nat) ≠ Mac.hash; decide), fun _ _ h => by cases h⟩

theorem ppL_wf (kw : String) (args : List PTok) (h : ∀ a ∈ args, a.atBol = false) : (ppL kw args).WF := ⟨⟨rfl, rfl, rfl⟩, ⟨rfl, rfl⟩, h⟩

theorem ppText_sem (E : PEnv) (tree : Path → Option Items) (p : Path) (s : PpState) (x : String) (h : s.macros (word x) = none) (hx : word x ≠ word "#") :
    Sem (langOf E tree) p s (.text (ppText x) .nil) (ppText x) s := by
  have := Sem.text (L := langOf E tree) p s s (ppText x) (ppText x) [] .nil (by intro t ht; rw [List.mem_singleton.1 ht]; exact hx) ⟨2, ?_⟩ (.nil p s)
  · exact this
  · unfold ppText
    rw [expand]
    have hl : (E.mac s.macros).look (ppT true .ident x) = none := by
      unfold Mac.Env.look
      exact (if_pos rfl).trans h
    unfold expandMacro
    rw [if_neg (by intro h; cases h), hl, Run.bind_done, expand]
    rfl

/-- The hypotheses of `C24_meaning` hold of it. -/
example : ppTree.WF ∧ ∃ s', Sem (langOf ppEnv (fun _ => none)) [] ⟨Table.get [], []⟩ ppTree (ppText "b" ++ ppText "d") s' := by
  constructor
  · have hl : ∀ kw args, (∀ a ∈ args, a.atBol = false) → (ppL kw args).WF := ppL_wf
    have ht : ∀ x, word x ≠ word "#" → (Items.text (ppText x) .nil).WF := by
      intro x hx
      rw [Items.WF]
      refine ⟨⟨_, _, rfl, rfl⟩, ?_, rfl, by rw [Items.WF]; trivial⟩
      intro t h
      rw [List.mem_singleton.1 h]
      exact fun e => hx e.2
    unfold ppTree
    simp only [Items.WF, Alts.WF, and_true]
    refine ⟨hl _ _ (by decide), ⟨"if", by decide, rfl⟩, ⟨hl _ _ (by decide), ⟨"if", by decide, rfl⟩, ?_, hl _ _ (by decide), ⟨"endif", by decide, rfl⟩⟩,
      ⟨hl _ _ (by decide), ⟨"elif", by decide, rfl⟩, ?_, hl _ _ (by decide), ⟨"elif", by decide, rfl⟩, trivial, hl _ _ (by decide), ⟨"else", by decide, rfl⟩, ?_, hl _ _ (by decide), ⟨"endif", by decide, rfl⟩⟩, ?_⟩
    · have := ht "a" (by decide); rw [Items.WF] at this; exact ⟨this.1, this.2.1, rfl⟩
    · have := ht "b" (by decide); rw [Items.WF] at this; exact ⟨this.1, this.2.1, rfl⟩
    · have := ht "c" (by decide); rw [Items.WF] at this; exact ⟨this.1, this.2.1, rfl⟩
    · have := ht "d" (by decide); rw [Items.WF] at this; exact ⟨this.1, this.2.1, rfl⟩
  · refine ⟨⟨Table.get [], []⟩, ?_⟩
    refine Sem.no _ _ ⟨Table.get [], []⟩ _ _ _ _ _ _ _ (.expr false ⟨"if", by decide, rfl⟩ ⟨3, rfl⟩) (SemAlts.yes _ _ _ _ _ _ _ (.expr true ⟨"elif", by decide, rfl⟩ ⟨3, rfl⟩) ?_) ?_
    · exact ppText_sem _ _ _ _ _ rfl (by decide)
    · exact ppText_sem _ _ _ _ _ rfl (by decide)

/-! ### Departures -/

/-- A null directive takes the first word of the next line as its keyword: `#`, `endif` is an error, although the second
line is text. -/
theorem C24_null_directive_misread : ppHash :: ppText "endif" = [ppHash, ppT true .ident "endif"] ∧
    ∀ k, preprocess ppEnv (2 + k) [] [] (ppHash :: ppText "endif") = .fail := by
  refine ⟨rfl, fun k => ?_⟩
  rw [Nat.add_comm]
  unfold preprocess
  rw [show k + 2 = (k + 1) + 1 from rfl, pp]
  rfl

/-- A `#` that comes after a macro with an empty replacement list is taken for a directive: `E # define X`, with `E` empty,
defines `X`. By C23 6.10.1 the line is not a directive, because its first token is `E`. -/
theorem C24_hash_after_empty_macro : ∃ f st,
    preprocess ppEnv f [(word "E", some { isObj := true })] [] [ppT true .ident "E", ppT false .punct "#", ppI "define", ppI "X"] = .done ([], st) ∧ (st.macros.get (word "X")).isSome = true :=
  ⟨6, _, rfl, rfl⟩

end Slimcc.Props
