import Verif.Lemmas.PpDir
set_option autoImplicit false
/-!
The preprocessor computes the meaning of the tree.
-/
namespace Slimcc.PpL
open Slimcc Slimcc.PP Slimcc.Mac Slimcc.MacL Slimcc.Pp Slimcc.Spec

/-- The language of the preprocessor: expansion, conditions, file search and `#line` as in the code; `tree` gives the lines of the files. -/
def langOf (E : PEnv) (tree : Path → Option Items) : Lang where
  expands σ ts o := ∃ f, expand (E.mac σ) f [] [] ts = .done o
  holds σ ts b := ∃ f, evalConst E σ f ts = .done b
  resolve next σ p ts q := E.resolve next σ p ts = .done q
  tree := tree
  line σ ts := E.line σ ts = true

structure Ok (tree : Path → Option Items) (s : PpState) (st : St) : Prop where
  mac : st.macros.get = s.macros
  once : st.once = s.once
  va : ∀ n m, s.macros n = some m → m.vaArg = true → m.params ≠ []
  guards : ∀ p g, (p, g) ∈ st.guards → IsGuarded tree p g

theorem Ok.conds {tree : Path → Option Items} {s : PpState} {st : St} (h : Ok tree s st) (cs : List Cond) : Ok tree s { st with conds := cs } :=
  ⟨h.mac, h.once, h.va, h.guards⟩

theorem assoc_mem {p : Path} {g : Name} : ∀ {l : List (Path × Name)}, assoc p l = some g → (p, g) ∈ l
  | [], h => by cases h
  | (q, s) :: l, h => by
    rw [assoc] at h
    split at h
    · rename_i e
      cases h
      rw [e]
      exact List.mem_cons_self ..
    · exact List.mem_cons_of_mem _ (assoc_mem h)

/-- The environment and the lines of the files. -/
structure EnvOk (E : PEnv) (tree : Path → Option Items) : Prop where
  builtin : ∀ t, (E.builtin t).text ≠ Mac.hash
  file : ∀ p items, tree p = some items → E.file p = some items.flat ∧ items.WF

/-- The file being read. -/
structure FC (tree : Path → Option Items) (f : FileE) (path : Path) (items : Items) (rest : List PTok) : Prop where
  fpath : f.path = path
  stop : f.stop ≤ rest.length
  start : items.flat.length + rest.length ≤ f.start
  whole : f.incl = true → items.flat.length + rest.length = f.start → f.stop = rest.length ∧ tree path = some items

theorem FC.inner {tree : Path → Option Items} {f : FileE} {path : Path} {items items' : Items} {rest rest' : List PTok} (h : FC tree f path items rest)
    (h1 : rest.length ≤ rest'.length) (h2 : items'.flat.length + rest'.length < items.flat.length + rest.length) : FC tree f path items' rest' :=
  ⟨h.fpath, by have := h.stop; omega, by have := h.start; omega, fun _ h3 => by have := h.start; omega⟩

theorem popFiles_self {f : FileE} {fs : Files} {n : Nat} (h : f.stop < n) : popFiles n (f :: fs) = f :: fs := by
  rw [popFiles, if_neg (by omega)]

def Goes (E : PEnv) (tree : Path → Option Items) (files : Files) (st : St) (cs : List Cond) (toks rest o : List PTok) (s' : PpState) : Prop :=
  ∃ st', Ok tree s' st' ∧ st'.conds = cs ∧ ∀ x, PpR E st' [] files rest x → PpR E st [] files (toks ++ rest) (pre o x)

/-- A directive line. -/
theorem line_step {E : PEnv} {st st1 : St} {f : FileE} {fs : Files} {files1 : Files} {l : Line} {R ts : List PTok} {x : Run (List PTok × St)} (hw : l.WF) (hs : f.stop ≤ R.length)
    (hd : ∃ fu, Pp.directive E fu st (f :: fs) (l.toks.length + R.length) (l.kw :: (l.args ++ R)) = .done (st1, files1, ts))
    (hr : PpR E st1 [] files1 ts x) : PpR E st [] (f :: fs) (l.toks ++ R) x := by
  have e : (l.kw :: (l.args ++ R)).length + 1 = l.toks.length + R.length := by unfold Line.toks; simp; omega
  refine PpR.directive (h := l.hash) (r := l.kw :: (l.args ++ R)) (starts_isHash hw.1) (by rw [hw.1.2.2]; decide) ?_ hr
  rw [e, popFiles_self (by unfold Line.toks; simp; omega)]
  exact hd

theorem line_fail {E : PEnv} {st : St} {files : Files} {l : Line} {R : List PTok} (hw : l.WF)
    (hd : ∀ files n, ∃ fu, Pp.directive E fu st files n (l.kw :: (l.args ++ R)) = .fail) : PpR E st [] files (l.toks ++ R) .fail :=
  PpR.directive_fail (h := l.hash) (r := l.kw :: (l.args ++ R)) (starts_isHash hw.1) (by rw [hw.1.2.2]; decide) (hd _ _)

/-! The keywords. -/

section
variable (E : PEnv) (f : Nat) (st : St) (files : Files) (n : Nat) (t : PTok) (r : List PTok)

theorem dir_if (h : t.text = kwIf) : directive E f st files n (t :: r) = (do
    let b ← evalConst E st.macros.get f (splitLine r).1
    .done ((pushCond st b none (splitLine r).2).1, files, (pushCond st b none (splitLine r).2).2)) := by
  unfold directive; dsimp only; rw [h]; rfl
theorem dir_ifdef (h : t.text = kwIfdef) : directive E f st files n (t :: r) =
    .done ((pushCond st (defd st.macros r) none (skipLine (r.drop 1))).1, files, (pushCond st (defd st.macros r) none (skipLine (r.drop 1))).2) := by
  unfold directive; dsimp only; rw [h]; rfl
theorem dir_ifndef (h : t.text = kwIfndef) : directive E f st files n (t :: r) =
    .done ((pushCond st (!defd st.macros r) (guardAt files n r) (skipLine (r.drop 1))).1, files, (pushCond st (!defd st.macros r) (guardAt files n r) (skipLine (r.drop 1))).2) := by
  unfold directive; dsimp only; rw [h]; rfl
theorem dir_elif (h : t.text = kwElif) : directive E f st files n (t :: r) = (do
    let (st, rest) ← elifDir st (t :: r) (fun _ => do
      let b ← evalConst E st.macros.get f (splitLine r).1
      .done (b, (splitLine r).2))
    .done (st, files, rest)) := by
  unfold directive; dsimp only; rw [h]; rfl
theorem dir_elifdef (h : t.text = kwElifdef) : directive E f st files n (t :: r) = (do
    let (st, rest) ← elifDir st (t :: r) (fun _ => .done (defd st.macros r, if defd st.macros r then skipLine (r.drop 1) else t :: r))
    .done (st, files, rest)) := by
  unfold directive; dsimp only; rw [h]; rfl
theorem dir_elifndef (h : t.text = kwElifndef) : directive E f st files n (t :: r) = (do
    let (st, rest) ← elifDir st (t :: r) (fun _ => .done (!defd st.macros r, if defd st.macros r then t :: r else skipLine (r.drop 1)))
    .done (st, files, rest)) := by
  unfold directive; dsimp only; rw [h]; rfl
theorem dir_else (h : t.text = kwElse) : directive E f st files n (t :: r) = (match st.conds with
      | [] => .fail
      | c :: cs => if c.isElse then .fail
        else .done ({ st with conds := { c with guard := none, isElse := true } :: cs }, files, if c.beenActive then skipCond 0 (skipLine r) else skipLine r)) := by
  unfold directive; dsimp only; rw [h]; rfl
theorem dir_define (h : t.text = kwDefine) : directive E f st files n (t :: r) = (do
    let (tb, rest) ← define st.macros r
    .done ({ st with macros := tb }, files, rest)) := by
  unfold directive; dsimp only; rw [h]; rfl
theorem dir_undef (h : t.text = kwUndef) (x : PTok) (r1 : List PTok) (hx : x.kind = .ident) : directive E f st files n (t :: x :: r1) =
    .done ({ st with macros := st.macros.del x.text }, files, skipLine r1) := by
  unfold directive; dsimp only; rw [h, if_neg (by decide), if_neg (by decide), if_neg (by decide), if_pos rfl, if_neg (by simp [hx])]
theorem dir_line (h : t.text = kwLine) (hl : E.line st.macros.get (splitLine r).1 = true) : directive E f st files n (t :: r) = .done (st, files, (splitLine r).2) := by
  unfold directive; dsimp only; rw [h]
  show (if E.line st.macros.get (splitLine r).1 = true then _ else _) = _
  rw [if_pos hl]
theorem dir_include (h : t.text = kwInclude ∨ t.text = kwIncludeNext) (fe : FileE) (fs0 : Files) (p : Path) (fs : Files) (ts : List PTok)
    (hp : E.resolve (t.text == kwIncludeNext) st.macros.get fe.path (splitLine r).1 = .done p)
    (hi : includeFile E st (fe :: fs0) p (splitLine r).2 = .done (fs, ts)) : directive E f st (fe :: fs0) n (t :: r) = .done (st, fs, ts) := by
  unfold directive; dsimp only
  rw [if_neg (by rcases h with h | h <;> rw [h] <;> decide), if_pos h, hp, Run.bind_done, hi, Run.bind_done]
theorem dir_pragma (h : t.text = kwPragma) (hk : t.kind ≠ .ppNum) : directive E f st files n (t :: r) =
    if isText kwOnce r then .done ({ st with once := (match files with | f :: _ => f.path | [] => []) :: st.once }, files, skipLine (r.drop 1))
    else .done (st, files, skipLine r) := by
  unfold directive; dsimp only
  have hd : ∀ k, k ≠ kwPragma → t.text ≠ k := fun k h2 e => h2 (e ▸ h)
  rw [if_neg (by rw [h]; decide), if_neg (by rw [h]; decide), if_neg (by rw [h]; decide), if_neg (by rw [h]; decide), if_neg (by rw [h]; decide), if_neg (by rw [h]; decide), if_neg (by rw [h]; decide), if_neg (by rw [h]; decide), if_neg (by rw [h]; decide), if_neg (by rw [h]; decide), if_neg (by rw [h]; decide), if_neg (by rw [h]; decide), if_neg (by rw [h]; decide), if_neg hk]
  by_cases ho : isText kwOnce r = true
  · rw [if_pos ⟨h, ho⟩, if_pos ho]; rfl
  · rw [if_neg (fun x => ho x.2), if_pos h, if_neg ho]
theorem dir_warning (h : t.text = kwWarning) (hk : t.kind ≠ .ppNum) : directive E f st files n (t :: r) = .done (st, files, skipLine r) := by
  unfold directive; dsimp only
  rw [if_neg (by rw [h]; decide), if_neg (by rw [h]; decide), if_neg (by rw [h]; decide), if_neg (by rw [h]; decide), if_neg (by rw [h]; decide), if_neg (by rw [h]; decide), if_neg (by rw [h]; decide), if_neg (by rw [h]; decide), if_neg (by rw [h]; decide), if_neg (by rw [h]; decide), if_neg (by rw [h]; decide), if_neg (by rw [h]; decide), if_neg (by rw [h]; decide), if_neg hk]
  rw [if_neg (by rw [h]; rintro ⟨h, _⟩; revert h; decide), if_neg (by rw [h]; decide), if_neg (by rw [h]; decide), if_pos h]
theorem dir_null (h : t.text = Mac.hash) (hb : t.atBol = true) (hk : t.kind ≠ .ppNum) : directive E f st files n (t :: r) = .done (st, files, t :: r) := by
  unfold directive; dsimp only
  rw [if_neg (by rw [h]; decide), if_neg (by rw [h]; decide), if_neg (by rw [h]; decide), if_neg (by rw [h]; decide), if_neg (by rw [h]; decide), if_neg (by rw [h]; decide), if_neg (by rw [h]; decide), if_neg (by rw [h]; decide), if_neg (by rw [h]; decide), if_neg (by rw [h]; decide), if_neg (by rw [h]; decide), if_neg (by rw [h]; decide), if_neg (by rw [h]; decide), if_neg hk]
  rw [if_neg (by rw [h]; rintro ⟨h, _⟩; revert h; decide), if_neg (by rw [h]; decide), if_neg (by rw [h]; decide), if_neg (by rw [h]; decide), if_pos hb]
end


/-! Lines of conditional groups. -/

theorem defd_cons (tb : Table) (t : PTok) (r : List PTok) (h : t.kind = .ident) : defd tb (t :: r) = (tb.get t.text).isSome := by
  show (decide (t.kind = .ident) && _) = _
  rw [h]; rfl

theorem isNone_not {α : Type} (o : Option α) : o.isNone = !o.isSome := by cases o <;> rfl

/-- The guard that a line may start. -/
def GuardFrom (f : FileE) (n : Nat) (l : Line) (g : Option (Path × Name)) : Prop :=
  ∀ q nm, g = some (q, nm) → f.incl = true ∧ n = f.start ∧ q = f.path ∧ l.kw.text = kwIfndef ∧ ∃ t ex, l.args = t :: ex ∧ t.kind = .ident ∧ t.text = nm

theorem if_step {E : PEnv} {tree : Path → Option Items} {s : PpState} {st : St} (hok : Ok tree s st) {l : Line} (hw : l.WF) (hk : l.Is ifWords) {b : Bool}
    (ht : Truth (langOf E tree) s.macros l b) (f : FileE) (fs : Files) (n : Nat) (R : List PTok) (hR : Bol R) :
    ∃ g, GuardFrom f n l g ∧ ∃ fu, directive E fu st (f :: fs) n (l.kw :: (l.args ++ R)) =
      .done ({ st with conds := ⟨false, b, g⟩ :: st.conds }, f :: fs, if b then R else skipCond 0 R) := by
  rw [is_three, w_if, w_ifdef, w_ifndef] at hk
  cases ht with
  | expr b hk2 hh =>
    rw [is_two, w_if, w_elif] at hk2
    have hk3 : l.kw.text = kwIf := by
      rcases hk2 with h | h
      · exact h
      · rw [h] at hk; exact absurd hk (by decide)
    obtain ⟨fu, hh⟩ := hh
    refine ⟨none, (fun _ _ h => by cases h), fu, ?_⟩
    rw [dir_if _ _ _ _ _ _ _ hk3, splitLine_args hw.2.2 hR, hok.mac]
    dsimp only
    rw [hh]
    rfl
  | defd t ex hk2 ha hi =>
    rw [is_two, w_ifdef, w_elifdef] at hk2
    have hk3 : l.kw.text = kwIfdef := by
      rcases hk2 with h | h
      · exact h
      · rw [h] at hk; exact absurd hk (by decide)
    refine ⟨none, (fun _ _ h => by cases h), 0, ?_⟩
    have hex := hw.2.2
    rw [ha] at hex
    rw [dir_ifdef _ _ _ _ _ _ _ hk3, ha, List.cons_append, defd_cons _ _ _ hi, hok.mac]
    show Run.done (_, f :: fs, if _ then skipLine (ex ++ R) else skipCond 0 (skipLine (ex ++ R))) = _
    rw [skipLine_args (fun a h => hex a (List.mem_cons_of_mem _ h)) hR]
    rfl
  | ndefd t ex hk2 ha hi =>
    rw [is_two, w_ifndef, w_elifndef] at hk2
    have hk3 : l.kw.text = kwIfndef := by
      rcases hk2 with h | h
      · exact h
      · rw [h] at hk; exact absurd hk (by decide)
    have hex := hw.2.2
    rw [ha] at hex
    refine ⟨guardAt (f :: fs) n (t :: (ex ++ R)), ?_, 0, ?_⟩
    · intro q nm h
      have h : (if f.incl ∧ n = f.start ∧ t.kind = .ident then some (f.path, t.text) else none) = some (q, nm) := h
      split at h
      · rename_i hc
        cases h
        exact ⟨hc.1, hc.2.1, rfl, hk3, t, ex, ha, hi, rfl⟩
      · cases h
    · rw [dir_ifndef _ _ _ _ _ _ _ hk3, ha, List.cons_append, defd_cons _ _ _ hi, hok.mac, isNone_not]
      show Run.done (_, f :: fs, if _ then skipLine (ex ++ R) else skipCond 0 (skipLine (ex ++ R))) = _
      rw [skipLine_args (fun a h => hex a (List.mem_cons_of_mem _ h)) hR]
      rfl

theorem skip_kw_args {l : Line} (hw : l.WF) (R : List PTok) : skipCond 0 (l.kw :: (l.args ++ R)) = skipCond 0 R := by
  rw [skip_other (notHash_of_bol hw.2.1.1)]; exact skip_args hw.2.2

theorem elif_step {E : PEnv} {tree : Path → Option Items} {s : PpState} {st : St} (hok : Ok tree s st) {l : Line} (hw : l.WF) (hk : l.Is elifWords) {b : Bool}
    (ht : Truth (langOf E tree) s.macros l b) {c : Cond} {cs : List Cond} (hc : st.conds = c :: cs) (h1 : c.isElse = false) (h2 : c.beenActive = false)
    (files : Files) (n : Nat) (R : List PTok) (hR : Bol R) :
    ∃ fu, directive E fu st files n (l.kw :: (l.args ++ R)) = .done ({ st with conds := ⟨false, b, none⟩ :: cs }, files, if b then R else skipCond 0 R) := by
  rw [is_three, w_elif, w_elifdef, w_elifndef] at hk
  have key : ∀ (test : Unit → Run (Bool × List PTok)) (R' : List PTok), test () = .done (b, R') → (b = true → R' = R) → (b = false → skipCond 0 R' = skipCond 0 R) →
      elifDir st (l.kw :: (l.args ++ R)) test = .done ({ st with conds := ⟨false, b, none⟩ :: cs }, if b then R else skipCond 0 R) := by
    intro test R' ht e1 e2
    unfold elifDir
    rw [hc]
    dsimp only
    rw [if_neg (by rw [h1]; simp), if_neg (by rw [h2]; simp), ht, Run.bind_done]
    dsimp only
    cases b with
    | true => rw [if_pos rfl, e1 rfl, h1]; rfl
    | false => rw [if_neg (by simp), e2 rfl, h1, h2]; rfl
  cases ht with
  | expr b hk2 hh =>
    rw [is_two, w_if, w_elif] at hk2
    have hk3 : l.kw.text = kwElif := by
      rcases hk2 with h | h
      · rw [h] at hk; exact absurd hk (by decide)
      · exact h
    obtain ⟨fu, hh⟩ := hh
    refine ⟨fu, ?_⟩
    rw [dir_elif _ _ _ _ _ _ _ hk3, splitLine_args hw.2.2 hR, hok.mac]
    dsimp only
    rw [key _ R (by rw [hh]; rfl) (fun _ => rfl) (fun _ => rfl)]
    rfl
  | defd t ex hk2 ha hi =>
    rw [is_two, w_ifdef, w_elifdef] at hk2
    have hk3 : l.kw.text = kwElifdef := by
      rcases hk2 with h | h
      · rw [h] at hk; exact absurd hk (by decide)
      · exact h
    have hex := hw.2.2
    rw [ha] at hex
    have hd : defd st.macros (l.args ++ R) = (s.macros t.text).isSome := by rw [ha, List.cons_append, defd_cons _ _ _ hi, hok.mac]
    have hsk : skipLine ((l.args ++ R).drop 1) = R := by rw [ha]; exact skipLine_args (fun a h => hex a (List.mem_cons_of_mem _ h)) hR
    refine ⟨0, ?_⟩
    rw [dir_elifdef _ _ _ _ _ _ _ hk3, hd, hsk]
    rw [key _ (if (s.macros t.text).isSome = true then R else l.kw :: (l.args ++ R)) rfl (fun h => by rw [if_pos h]) (fun h => by rw [h]; exact skip_kw_args hw R)]
    rfl
  | ndefd t ex hk2 ha hi =>
    rw [is_two, w_ifndef, w_elifndef] at hk2
    have hk3 : l.kw.text = kwElifndef := by
      rcases hk2 with h | h
      · rw [h] at hk; exact absurd hk (by decide)
      · exact h
    have hex := hw.2.2
    rw [ha] at hex
    have hd : defd st.macros (l.args ++ R) = (s.macros t.text).isSome := by rw [ha, List.cons_append, defd_cons _ _ _ hi, hok.mac]
    have hsk : skipLine ((l.args ++ R).drop 1) = R := by rw [ha]; exact skipLine_args (fun a h => hex a (List.mem_cons_of_mem _ h)) hR
    refine ⟨0, ?_⟩
    rw [isNone_not] at key ⊢
    rw [dir_elifndef _ _ _ _ _ _ _ hk3, hd, hsk]
    rw [key _ (if (s.macros t.text).isSome = true then l.kw :: (l.args ++ R) else R) rfl (fun h => by rw [if_neg (by simpa using h)])
      (fun h => by rw [if_pos (by simpa using h)]; exact skip_kw_args hw R)]
    rfl

/-- An `#elif` after a branch has been taken. -/
theorem elif_done {E : PEnv} {st : St} {l : Line} (hw : l.WF) (hk : l.Is elifWords) {c : Cond} {cs : List Cond} (hc : st.conds = c :: cs) (h1 : c.isElse = false)
    (h2 : c.beenActive = true) (files : Files) (n : Nat) (R : List PTok) :
    ∃ fu, directive E fu st files n (l.kw :: (l.args ++ R)) = .done ({ st with conds := { c with guard := none } :: cs }, files, skipCond 0 R) := by
  rw [is_three, w_elif, w_elifdef, w_elifndef] at hk
  have key : ∀ (test : Unit → Run (Bool × List PTok)),
      elifDir st (l.kw :: (l.args ++ R)) test = .done ({ st with conds := { c with guard := none } :: cs }, skipCond 0 R) := by
    intro test
    unfold elifDir
    rw [hc]
    dsimp only
    rw [if_neg (by rw [h1]; simp), if_pos h2, skip_kw_args hw]
  refine ⟨0, ?_⟩
  rcases hk with hk | hk | hk
  · rw [dir_elif _ _ _ _ _ _ _ hk, key]; rfl
  · rw [dir_elifdef _ _ _ _ _ _ _ hk, key]; rfl
  · rw [dir_elifndef _ _ _ _ _ _ _ hk, key]; rfl

theorem else_step {E : PEnv} {st : St} {l : Line} (hw : l.WF) (hk : l.Is ["else"]) {c : Cond} {cs : List Cond} (hc : st.conds = c :: cs) (h1 : c.isElse = false)
    (files : Files) (n : Nat) (R : List PTok) (hR : Bol R) :
    ∃ fu, directive E fu st files n (l.kw :: (l.args ++ R)) =
      .done ({ st with conds := { c with guard := none, isElse := true } :: cs }, files, if c.beenActive then skipCond 0 R else R) := by
  rw [is_one, w_else] at hk
  refine ⟨0, ?_⟩
  rw [dir_else _ _ _ _ _ _ _ hk, hc]
  dsimp only
  rw [if_neg (by rw [h1]; simp), skipLine_args hw.2.2 hR]

/-- The end of a group. -/
theorem endif_step {E : PEnv} {tree : Path → Option Items} {s : PpState} {st : St} (hok : Ok tree s st) {l : Line} (hw : l.WF) (hk : l.Is ["endif"])
    {c : Cond} {cs : List Cond} (hc : st.conds = c :: cs) (f : FileE) (fs : Files) (n : Nat) (R : List PTok) (hR : Bol R)
    (hg : ∀ q nm, c.guard = some (q, nm) → l.args.length + R.length = f.stop → IsGuarded tree q nm) :
    ∃ st', Ok tree s st' ∧ st'.conds = cs ∧ ∃ fu, directive E fu st (f :: fs) n (l.kw :: (l.args ++ R)) = .done (st', f :: fs, R) := by
  rw [is_one, w_endif] at hk
  cases hgc : c.guard with
  | none =>
    refine ⟨{ st with conds := cs }, hok.conds _, rfl, 0, ?_⟩
    unfold directive; dsimp only; rw [hk]
    show (match st.conds with | [] => _ | c :: cs => _) = _
    rw [hc]
    dsimp only
    rw [hgc, skipLine_args hw.2.2 hR]
  | some g =>
    obtain ⟨q, nm⟩ := g
    by_cases hcond : f.incl = true ∧ q = f.path ∧ (l.args ++ R).length = f.stop
    · refine ⟨{ st with conds := cs, guards := (q, nm) :: st.guards }, ⟨hok.mac, hok.once, hok.va, ?_⟩, rfl, 0, ?_⟩
      · intro p g h
        have h : (p, g) ∈ (q, nm) :: st.guards := h
        rcases List.mem_cons.1 h with h | h
        · cases h
          exact hg q _ hgc (by have := hcond.2.2; simpa using this)
        · exact hok.guards p g h
      · unfold directive; dsimp only; rw [hk]
        show (match st.conds with | [] => _ | c :: cs => _) = _
        rw [hc]
        dsimp only
        rw [hgc]
        dsimp only
        rw [if_pos hcond, skipLine_args hw.2.2 hR]
    · refine ⟨{ st with conds := cs }, hok.conds _, rfl, 0, ?_⟩
      unfold directive; dsimp only; rw [hk]
      show (match st.conds with | [] => _ | c :: cs => _) = _
      rw [hc]
      dsimp only
      rw [hgc]
      dsimp only
      rw [if_neg hcond, skipLine_args hw.2.2 hR]

end Slimcc.PpL
