import Verif.Lemmas.MacroTerm
set_option autoImplicit false
/-!
C26: macro expansion ends, and a macro is not expanded inside its own expansion.
-/
namespace Slimcc.Props
open Slimcc Slimcc.Lex Slimcc.PP Slimcc.Mac Slimcc.MacL Slimcc.Spec

/-! ### It ends -/

/-- A macro table as `#define` makes it, with a finite number of names; `paste`, `stringize` and the built-in
macros end, do not fail internally and do not make parentheses. -/
structure TableSpec (E : Mac.Env) (names : List Name) : Prop where
  names : ∀ s m, E.find s = some m → s ∈ names
  puncts : ∀ s m, E.find s = some m → ParensArePuncts m.body
  variadic : ∀ s m, E.find s = some m → m.vaArg = true → m.params ≠ []
  paste : ∀ a b, E.paste a b = .fail ∨ ∃ c, E.paste a b = .done c ∧ ∀ t ∈ [a, b, c], ¬ IsOpen t ∧ ¬ IsClose t
  str : ∀ ts, E.str ts = .fail ∨ ∃ c, E.str ts = .done c ∧ ¬ IsOpen c ∧ ¬ IsClose c
  builtin : ∀ t, ¬ IsOpen (E.builtin t) ∧ ¬ IsClose (E.builtin t) ∧ (E.builtin t).kind ≠ .ident

theorem wf_iff (ts : List PTok) : ParensArePuncts ts ↔ WfToks ts := by
  constructor
  · intro h t ht hk
    exact ⟨fun e => hk (h t ht (.inl e)), fun e => hk (h t ht (.inr e))⟩
  · intro h t ht hp
    by_cases hk : t.kind = .punct
    · exact hk
    · have := h t ht hk
      rcases hp with hp | hp
      · exact absurd hp this.1
      · exact absurd hp this.2

theorem closed_cl : ∀ (ts : List PTok), Closed ts → cl (P ts) ≠ none
  | [], _ => by simp [P_nil, cl]
  | t :: r, h => by
    have hr : cl (P r) ≠ none := closed_cl r (by
      intro a o b e ho
      exact h (t :: a) o b (by rw [e]; rfl) ho)
    by_cases h1 : IsOpen t
    · obtain ⟨ins, c, rest, e, hn, hc⟩ := h [] t r rfl h1
      have hp : par t = [true] := by unfold par; rw [if_pos (show t.text = lpar from h1)]
      have hcp : par c = [false] := by
        unfold par
        rw [if_neg (by rw [show c.text = [41] from hc]; decide), if_pos (show c.text = rpar from hc)]
      rw [P_cons, hp]
      have e2 : cl (P r) = cl (false :: P rest) := by
        rw [e, nested_cl hn, P_cons, hcp]; rfl
      rw [e2] at hr
      show cl (true :: P r) ≠ none
      rw [cl, e2]
      rw [cl] at hr ⊢
      cases hk : cl (P rest) with
      | none => rw [hk] at hr; exact absurd rfl hr
      | some k => simp
    · by_cases h2 : IsClose t
      · have hp : par t = [false] := by
          unfold par
          rw [if_neg (show ¬ t.text = lpar from h1), if_pos (show t.text = rpar from h2)]
        rw [P_cons, hp]
        show cl (false :: P r) ≠ none
        rw [cl]
        cases hk : cl (P r) with
        | none => exact absurd hk hr
        | some k => simp
      · have : NotParen t := ⟨h1, h2⟩
        rw [P_cons, this.par]
        exact hr

theorem TableSpec.total {E : Mac.Env} {names : List Name} (h : TableSpec E names) : Total E where
  paste := fun a b => by rcases h.paste a b with e | ⟨c, e, _⟩ <;> (rw [e]; exact ⟨(by intro h; cases h), (by intro h; cases h)⟩)
  str := fun ts => by rcases h.str ts with e | ⟨c, e, _⟩ <;> (rw [e]; exact ⟨(by intro h; cases h), (by intro h; cases h)⟩)

theorem TableSpec.ok {E : Mac.Env} {names : List Name} (h : TableSpec E names) (hc : ∀ s m, E.find s = some m → Closed m.body) : TableOk E where
  paste := fun a b c hh => by
    rcases h.paste a b with e | ⟨c', e, h1⟩
    · rw [e] at hh; cases hh
    · rw [e] at hh; cases hh
      exact ⟨h1 a (by simp), h1 b (by simp), h1 c (by simp)⟩
  str := fun ts c hh => by
    rcases h.str ts with e | ⟨c', e, h1⟩
    · rw [e] at hh; cases hh
    · rw [e] at hh; cases hh; exact h1
  builtin := fun t => ⟨⟨(h.builtin t).1, (h.builtin t).2.1⟩, (h.builtin t).2.2⟩
  wf := fun s m hm => (wf_iff _).1 (h.puncts s m hm)
  closed := fun s m hm => closed_cl _ (hc s m hm)
  va := h.variadic

/-- If no replacement list has an opening parenthesis without its closing one, the expansion of any token list
ends: with a list or with a diagnostic. -/
theorem C26_terminates (E : Mac.Env) (names : List Name) (hE : TableSpec E names) (hc : ∀ s m, E.find s = some m → Closed m.body)
    (toks : List PTok) (ht : ParensArePuncts toks) :
    ∃ fuel, ((∃ out, expand E fuel [] [] toks = .done out) ∨ expand E fuel [] [] toks = .fail) ∧
      ∀ more, fuel ≤ more → expand E more [] [] toks = expand E fuel [] [] toks := by
  have hI : Inv names [] [] toks := ⟨List.nodup_nil, fun s hs => by simp at hs, trivial, fun l hl => by simp at hl, (wf_iff _).1 ht⟩
  obtain ⟨f, hf⟩ := expand_ends E (hE.ok hc) hE.total names hE.names _ [] [] toks hI rfl
  have hp : popLocks toks.length [] = [] := rfl
  rw [hp] at hf
  refine ⟨f, ?_, fun g hg => expand_stable E hf.1 hg⟩
  cases h : expand E f [] [] toks with
  | done out => exact .inl ⟨out, rfl⟩
  | fail => exact .inr rfl
  | crash => exact absurd h hf.2
  | more => exact absurd h hf.1

/-! ### The internal error is not reachable -/

theorem no_crash (E : Mac.Env) (names : List Name) (hE : TableSpec E names) : ∀ (f : Nat) (outer : List Name) (locks : Locks) (toks : List PTok), Desc toks.length locks →
    expand E f outer (popLocks toks.length locks) toks ≠ .crash
  | 0, outer, locks, toks, _ => by rw [expand]; intro h; cases h
  | f + 1, outer, locks, [], hd => by
    have : popLocks ([] : List PTok).length locks = [] := popLocks_zero hd
    rw [this, expand]; intro h; cases h
  | f + 1, outer, locks, t :: r, hd => by
    have hd1 : Desc r.length (popLocks (t :: r).length locks) := popLocks_desc hd
    generalize popLocks (t :: r).length locks = L at hd1
    rw [expand]
    have hnc : ∀ o a, expand E f o [] a ≠ .crash := fun o a => no_crash E names hE f o [] a trivial
    have hstep : expandMacro E (fun o ts => expand E f o [] ts) outer L t r ≠ .crash := by
      let e2 : List Name → List PTok → Run (List PTok) := fun o a => if expand E f o [] a = .more then .fail else expand E f o [] a
      have hle : ∀ o a, RunLe Eq (expand E f o [] a) (e2 o a) := by
        intro o a
        by_cases h : expand E f o [] a = .more
        · rw [h]; exact .more _
        · have : e2 o a = expand E f o [] a := if_neg h
          rw [this]; exact RunLe.refl _
      have hends : ∀ o a, Ends (e2 o a) := by
        intro o a
        by_cases h : expand E f o [] a = .more
        · have : e2 o a = .fail := if_pos h
          rw [this]; exact .fail
        · have : e2 o a = expand E f o [] a := if_neg h
          rw [this]; exact ⟨h, hnc o a⟩
      have h1 := expandMacro_mono E hle outer L t r
      have h2 := expandMacro_ends E hE.total hE.variadic e2 outer L t r (fun m c _ a _ => hends _ _)
      intro hcr
      have := h1.eq (by rw [hcr]; intro h; cases h)
      rw [hcr] at this
      exact h2.2 this.symm
    cases hs : expandMacro E (fun o ts => expand E f o [] ts) outer L t r with
    | crash => exact absurd hs hstep
    | fail => intro h; cases h
    | more => intro h; cases h
    | done s =>
      rw [Run.bind_done]
      cases s with
      | inl t' =>
        dsimp only
        have := no_crash E names hE f outer L r hd1
        cases hr : expand E f outer (popLocks r.length L) r with
        | crash => exact absurd hr this
        | fail => intro h; cases h
        | more => intro h; cases h
        | done s => intro h; cases h
      | inr s =>
        dsimp only
        obtain ⟨_, m, hm, _, hrep⟩ := expandMacro_inr E _ _ _ _ _ _ hs
        have hent : ∀ (l : Locks) (b rest : List PTok), Desc rest.length l → Desc (enter l t b rest).2.length (enter l t b rest).1 := by
          intro l b rest h
          unfold enter
          split
          · dsimp only; rw [orFlags_length]; exact h
          · exact ⟨by simp, h⟩
        have hd2 : Desc s.2.length s.1 := by
          cases hrep with
          | builtin h =>
            cases L with
            | nil => trivial
            | cons x xs => exact ⟨by have := hd1.1; simp; omega, hd1.2⟩
          | obj b _ _ _ => exact hent _ _ _ hd1
          | fn c b _ _ _ => exact hent _ _ _ (c.locks_eq hd1).2.2
        obtain ⟨l, ts⟩ := s
        exact no_crash E names hE f outer l ts hd2

/-- `internal_error()` is not reached: when the list ends, every macro is unlocked again. -/
theorem C26_no_internal_error (E : Mac.Env) (names : List Name) (hE : TableSpec E names) (fuel : Nat) (toks : List PTok) :
    expand E fuel [] [] toks ≠ .crash :=
  no_crash E names hE fuel [] [] toks trivial

/-! ### Nothing is left to expand -/

/-- A name in the result is not one of a macro that could be expanded: it is marked because it came up inside
its own expansion, or it names no macro, or a function-like one. -/
theorem C26_fully_expanded (E : Mac.Env) (fuel : Nat) (outer : List Name) (locks : Locks) (toks out : List PTok)
    (h : expand E fuel outer locks toks = .done out) (t : PTok) (ht : t ∈ out) (hk : t.kind = .ident) (hn : t.noExpand = false) :
    E.find t.text = none ∨ ∃ m, E.find t.text = some m ∧ m.isObj = false ∧ m.handler = false := by
  induction fuel generalizing outer locks toks out with
  | zero => rw [expand] at h; cases h
  | succ f ih =>
    cases toks with
    | nil =>
      rw [expand] at h
      split at h
      · cases h; simp at ht
      · cases h
    | cons x r =>
      rw [expand] at h
      obtain ⟨s, h1, h2⟩ := (bind_done_iff _ _ _).1 h
      cases s with
      | inl t' =>
        dsimp only at h2
        obtain ⟨o1, h3, h4⟩ := (bind_done_iff _ _ _).1 h2
        cases h4
        rcases List.mem_cons.1 ht with rfl | ht
        · have hlook : E.look t = E.find t.text := by unfold Mac.Env.look; rw [if_pos hk]
          rcases expandMacro_inl E _ _ _ _ _ _ h1 with ⟨e, _⟩ | ⟨rfl, h5 | h5 | ⟨m, h5, h6, h7, _⟩⟩
          · rw [e] at hn; cases hn
          · rw [hn] at h5; cases h5
          · exact .inl (hlook ▸ h5)
          · exact .inr ⟨m, hlook ▸ h5, h7, h6⟩
        · exact ih _ _ _ _ h3 ht
      | inr s =>
        exact ih _ _ _ _ h2 ht

/-! ### Object-like macros: what the expansion is -/

def objBody (E : Mac.Env) (s : Name) : Option (List PTok) := (E.find s).map Macro.body

theorem insertObj_plain (E : Mac.Env) : ∀ (n : Nat) (acc ts : List PTok), ts.length ≤ n → (∀ t ∈ ts, t.text ≠ hashhash) → insertObj E acc ts = .done (acc.reverse ++ ts)
  | n, acc, [], _, _ => by rw [insertObj, List.append_nil]
  | n, acc, [t], _, h => by rw [insertObj, if_neg (h t (by simp))]; simp
  | 0, acc, t :: u :: r, hl, h => by simp at hl
  | n + 1, acc, t :: u :: r, hl, h => by
    rw [insertObj.eq_def]
    dsimp only
    rw [if_neg (h t (by simp)), insertObj_plain E n (t :: acc) (u :: r) (by simp at hl ⊢; omega) (fun x hx => h x (by simp [hx]))]
    simp

/-- Rescanning with locks: each ends at its position. -/
def RS (find : Name → Option (List PTok)) (outer : List Name) : Locks → List PTok → List PTok → Prop
  | [], ts, o => Rescan find outer ts o
  | l :: ls, ts, o => ∃ o1 o2, o = o1 ++ o2 ∧ Rescan find ((l :: ls).map Prod.fst ++ outer) (ts.take (ts.length - l.2)) o1 ∧
      RS find outer ls (ts.drop (ts.length - l.2)) o2

theorem rs_pop (find : Name → Option (List PTok)) (outer : List Name) (ts o : List PTok) : ∀ (ls : Locks), RS find outer (popLocks ts.length ls) ts o → RS find outer ls ts o
  | [], h => h
  | l :: ls, h => by
    rw [popLocks] at h
    split at h
    · rename_i e
      refine ⟨[], o, rfl, ?_, ?_⟩
      · rw [e, Nat.sub_self]; exact .nil _
      · rw [e, Nat.sub_self]; exact rs_pop find outer ts o ls h
    · exact h

theorem rs_cons (find : Name → Option (List PTok)) (outer : List Name) (ls : Locks) (t : PTok) (r x o : List PTok) (hd : ∀ l ∈ ls, l.2 ≤ r.length)
    (hx : ∀ r' o', Rescan find (ls.map Prod.fst ++ outer) r' o' → Rescan find (ls.map Prod.fst ++ outer) (t :: r') (x ++ o'))
    (h : RS find outer ls r o) : RS find outer ls (t :: r) (x ++ o) := by
  cases ls with
  | nil => exact hx _ _ h
  | cons l ls =>
    obtain ⟨o1, o2, e, h1, h2⟩ := h
    have e1 : (t :: r).length - l.2 = (r.length - l.2) + 1 := by have := hd l (by simp); simp; omega
    refine ⟨x ++ o1, o2, by rw [e, List.append_assoc], ?_, ?_⟩
    · rw [e1, List.take_succ_cons]; exact hx _ _ h1
    · rw [e1, List.drop_succ_cons]; exact h2

theorem bare_len (ts : List PTok) : (ts.map bare).length = ts.length := List.length_map _
theorem bare_alignHead (ts : List PTok) (u : PTok) : (alignHead ts u).map bare = ts.map bare := by cases ts <;> rfl
theorem bare_orFlags (ts : List PTok) (u : PTok) : (orFlags ts u).map bare = ts.map bare := by cases ts <;> rfl

theorem obj_rs (E : Mac.Env) (hobj : ∀ s m, E.find s = some m → m.isObj = true ∧ m.handler = false ∧ ∀ t ∈ m.body, t.text ≠ hashhash) :
    ∀ (f : Nat) (outer : List Name) (locks : Locks) (toks out : List PTok), Desc toks.length locks →
    expand E f outer (popLocks toks.length locks) toks = .done out → RS (objBody E) outer locks (toks.map bare) (out.map bare)
  | 0, outer, locks, toks, out, _, h => by rw [expand] at h; cases h
  | f + 1, outer, locks, [], out, hd, h => by
    have : popLocks ([] : List PTok).length locks = [] := popLocks_zero hd
    rw [this, expand] at h
    cases h
    refine rs_pop _ _ _ _ _ ?_
    show RS _ _ (popLocks ([] : List PTok).length locks) _ _
    rw [this]; exact .nil _
  | f + 1, outer, locks, t :: r, out, hd, h => by
    have hd1 : Desc r.length (popLocks (t :: r).length locks) := popLocks_desc hd
    refine rs_pop _ _ _ _ _ ?_
    rw [bare_len]
    generalize popLocks (t :: r).length locks = L at hd1 h
    rw [expand] at h
    have hle : ∀ l ∈ L, l.2 ≤ (r.map bare).length := by intro l hl; rw [bare_len]; exact hd1.le l hl
    obtain ⟨s, h1, h2⟩ := (bind_done_iff _ _ _).1 h
    cases s with
    | inl t' =>
      dsimp only at h2
      obtain ⟨o1, h3, h4⟩ := (bind_done_iff _ _ _).1 h2
      cases h4
      have ih := obj_rs E hobj f outer L r o1 hd1 h3
      refine rs_cons _ _ _ _ _ [bare t'] _ hle ?_ ih
      intro r' o' hr
      show Rescan _ _ _ (bare t' :: o')
      by_cases hne : t.noExpand = true
      · rcases expandMacro_inl E _ _ _ _ _ _ h1 with ⟨_, h5, h6⟩ | ⟨rfl, _⟩
        · unfold expandMacro at h1
          rw [if_pos hne] at h1
          cases h1
          exact .other _ _ _ _ (.inl hne) hr
        · exact .other _ _ _ _ (.inl hne) hr
      · have hne : t.noExpand = false := by simpa using hne
        rcases expandMacro_inl E _ _ _ _ _ _ h1 with ⟨rfl, h5, h6⟩ | ⟨rfl, h5 | h5 | ⟨m, h5, _, h6, _⟩⟩
        · obtain ⟨m, hm⟩ := Option.isSome_iff_exists.1 h6
          obtain ⟨hk, hf⟩ := look_find hm
          refine .nested _ (bare t) _ _ hne hk ?_ ?_ hr
          · show (objBody E t.text).isSome = true
            unfold objBody; rw [hf]; rfl
          · show t.text ∈ _
            unfold isLocked at h5
            simp only [Bool.or_eq_true, List.contains_iff_mem] at h5
            exact List.mem_append.2 h5.symm
        · rw [hne] at h5; cases h5
        · refine .other _ _ _ _ (.inr ?_) hr
          unfold Mac.Env.look at h5
          by_cases hk : t'.kind = .ident
          · rw [if_pos hk] at h5
            refine .inr ?_
            show objBody E t'.text = none
            unfold objBody; rw [h5]; rfl
          · exact .inl hk
        · have := (hobj _ _ (look_find h5).2).1
          rw [this] at h6; cases h6
    | inr s =>
      obtain ⟨l, ts⟩ := s
      dsimp only at h2
      obtain ⟨hne, m, hm, hlock, hrep⟩ := expandMacro_inr E _ _ _ _ _ _ h1
      obtain ⟨hk, hf⟩ := look_find hm
      obtain ⟨ho, hh, hbody⟩ := hobj _ _ hf
      have hmem : t.text ∉ L.map Prod.fst ++ outer := by
        unfold isLocked at hlock
        simp only [Bool.or_eq_false_iff] at hlock
        intro hmm
        rcases List.mem_append.1 hmm with hmm | hmm
        · have := hlock.2; rw [List.contains_iff_mem.2 hmm] at this; cases this
        · have := hlock.1; rw [List.contains_iff_mem.2 hmm] at this; cases this
      generalize hs : (l, ts) = s at hrep
      cases hrep with
      | builtin h => rw [hh] at h; cases h
      | fn c b _ h _ => rw [ho] at h; cases h
      | obj b _ _ h =>
        rw [insertObj_plain E _ _ _ (Nat.le_refl _) hbody] at h
        obtain rfl : m.body = b := by cases h; rfl
        have hob : objBody E t.text = some m.body := by unfold objBody; rw [hf]; rfl
        unfold enter at hs
        split at hs
        · rename_i he
          have he : m.body = [] := by simpa using he
          cases hs
          have ih := obj_rs E hobj f outer L (orFlags r t) out (by rw [orFlags_length]; exact hd1) h2
          rw [bare_orFlags] at ih
          refine rs_cons _ _ _ _ _ [] _ hle ?_ ih
          intro r' o' hr
          exact .macro _ (bare t) m.body _ [] _ hne hk hob hmem (by rw [he]; exact .nil _) hr
        · cases hs
          have hdn : Desc (alignHead m.body t ++ r).length ((t.text, r.length) :: L) := ⟨by simp, hd1⟩
          have ih := obj_rs E hobj f outer _ _ out hdn h2
          rw [List.map_append, bare_alignHead] at ih
          obtain ⟨o1, o2, e, g1, g2⟩ := ih
          have e1 : (m.body.map bare ++ r.map bare).length - (t.text, r.length).2 = (m.body.map bare).length := by simp
          rw [e1, List.take_left] at g1
          rw [e1, List.drop_left] at g2
          rw [e]
          refine rs_cons _ _ _ _ _ o1 _ hle ?_ g2
          intro r' o' hr
          exact .macro _ (bare t) m.body _ o1 _ hne hk hob hmem g1 hr

/-- With object-like macros only, the expansion is the one of the standard: a name is replaced by the
expansion of its replacement list in which the name itself is not replaced, and what follows is expanded
independently of it. -/
theorem C26_object_like (E : Mac.Env) (hobj : ∀ s m, E.find s = some m → m.isObj = true ∧ m.handler = false ∧ ∀ t ∈ m.body, t.text ≠ hashhash)
    (fuel : Nat) (toks out : List PTok) (h : expand E fuel [] [] toks = .done out) :
    Rescan (fun s => (E.find s).map Macro.body) [] (toks.map bare) (out.map bare) :=
  obj_rs E hobj fuel [] [] toks out trivial h

/-- The specification leaves no choice. -/
theorem C26_rescan_unique (find : Name → Option (List PTok)) (D : List Name) (ts a : List PTok) (h : Rescan find D ts a) :
    ∀ b, Rescan find D ts b → a = b := by
  induction h with
  | nil D => intro b hb; cases hb; rfl
  | other D t r o h1 _ ih =>
    intro b hb
    cases hb with
    | other _ _ _ o' _ h2 => rw [ih _ h2]
    | nested _ _ _ o' g1 g2 g3 _ _ =>
      rcases h1 with h1 | h1 | h1
      · rw [h1] at g1; cases g1
      · exact absurd g2 h1
      · rw [h1] at g3; cases g3
    | «macro» _ _ body _ o1 o2 g1 g2 g3 _ _ _ =>
      rcases h1 with h1 | h1 | h1
      · rw [h1] at g1; cases g1
      · exact absurd g2 h1
      · rw [h1] at g3; cases g3
  | nested D t r o h1 h2 h3 h4 _ ih =>
    intro b hb
    cases hb with
    | other _ _ _ o' g _ =>
      rcases g with g | g | g
      · rw [g] at h1; cases h1
      · exact absurd h2 g
      · rw [g] at h3; cases h3
    | nested _ _ _ o' _ _ _ _ h2 => rw [ih _ h2]
    | «macro» _ _ body _ o1 o2 _ _ _ g _ _ => exact absurd h4 g
  | «macro» D t body r o1 o2 h1 h2 h3 h4 _ _ ih1 ih2 =>
    intro b hb
    cases hb with
    | other _ _ _ o' g _ =>
      rcases g with g | g | g
      · rw [g] at h1; cases h1
      · exact absurd h2 g
      · rw [g] at h3; cases h3
    | nested _ _ _ o' _ _ _ g _ => exact absurd g h4
    | «macro» _ _ body' _ o1' o2' _ _ g _ g1 g2 =>
      rw [h3] at g; cases g
      rw [ih1 _ g1, ih2 _ g2]

/-! ### Without the condition on parentheses it may not end -/

def id' (s : Name) : PTok := { kind := .ident, text := s, atBol := false, hasSpace := true }
def pu (s : Name) : PTok := { kind := .punct, text := s, atBol := false, hasSpace := true }

/-- `#define g(x) x`, `#define k g ( ( l )`, `#define l g ( ( k )` -/
def loopFind (s : Name) : Option Macro :=
  if s = [103] then some { isObj := false, params := [[120]], body := [id' [120]] }
  else if s = [107] then some { isObj := true, body := [id' [103], pu lpar, pu lpar, id' [108], pu rpar] }
  else if s = [108] then some { isObj := true, body := [id' [103], pu lpar, pu lpar, id' [107], pu rpar] }
  else none

def macEnv (find : Name → Option Macro) : Mac.Env :=
  { find := find, paste := fun _ _ => .fail, str := fun _ => .fail, builtin := fun t => { t with kind := .ppNum, text := [49] }, strict := false }

theorem loop_call (exp : List Name → List PTok → Run (List PTok)) (locks : Locks) (x : PTok) (hx : x = id' [107] ∨ x = id' [108]) (n : Name)
    (hl : locks = [(n, 1)]) (hn : n ≠ [103]) (hnx : n ≠ x.text) (h : exp [] [pu lpar, x, pu rpar] = .more) (rest : List PTok) (hr : rest = [pu rpar]) :
    expandMacro (macEnv loopFind) exp [] locks (id' [103]) (pu lpar :: pu lpar :: x :: pu rpar :: rest) = .more := by
  subst hl hr
  have hlk : isLocked [] [(n, 1)] [103] = false := by unfold isLocked; simp [Ne.symm hn]
  have hlx : isLocked [] [(n, 1)] x.text = false := by unfold isLocked; simp [Ne.symm hnx]
  have hprep : prepare (macEnv loopFind) [] 0 (popLocks 5 [(n, 1)]) [pu lpar, x, pu rpar, pu rpar] = .done ([pu lpar, x, pu rpar, pu rpar], [], []) := by
    rcases hx with rfl | rfl <;>
    · have e1 : ∀ k, k ≠ 1 → popLocks k [(n, 1)] = [(n, 1)] := by intro k hk; rw [popLocks, if_neg (Ne.symm hk)]
      have e2 : popLocks 1 [(n, 1)] = [] := rfl
      have e3 : ∀ l s, paint (macEnv loopFind) [] l (pu s) = pu s := by intro l s; rfl
      rw [e1 5 (by decide)]
      rw [prepare]; dsimp only [List.length]
      rw [e1 4 (by decide), e3, prepare]; dsimp only [List.length]
      rw [e1 3 (by decide), prepare]; dsimp only [List.length]
      rw [e1 2 (by decide), prepare]; dsimp only [List.length]
      rw [e2]
      have e4 := hlx
      unfold paint
      rw [e4, Bool.and_false]
      rfl
  unfold expandMacro
  have h1 : (id' [103]).noExpand = false := rfl
  have h2 : (macEnv loopFind).look (id' [103]) = some { isObj := false, params := [[120]], body := [id' [120]] } := rfl
  rw [h1, h2]
  dsimp only
  rw [show (id' [103]).text = [103] from rfl, hlk]
  have h3 : isText lpar [pu lpar, pu lpar, x, pu rpar, pu rpar] = true := rfl
  rw [h3]
  show ((prepare (macEnv loopFind) [] 0 (popLocks 5 [(n, 1)]) [pu lpar, x, pu rpar, pu rpar]) >>= _) = _
  rw [hprep, Run.bind_done]
  dsimp only
  have h4 : readArgs (macEnv loopFind).strict { isObj := false, params := [[120]], body := [id' [120]] } [pu lpar, x, pu rpar, pu rpar] = .done ([[pu lpar, x, pu rpar]], false, []) := by
    rcases hx with rfl | rfl <;> rfl
  rw [h4, Run.bind_done]
  dsimp only
  show (Run.bind (Run.bind (exp [] [pu lpar, x, pu rpar]) _) _) = _
  rw [h]
  rfl

theorem loop_arg : ∀ f : Nat, expand (macEnv loopFind) f [] [] [pu lpar, id' [107], pu rpar] = .more ∧
    expand (macEnv loopFind) f [] [] [pu lpar, id' [108], pu rpar] = .more
  | 0 => ⟨rfl, rfl⟩
  | 1 => ⟨rfl, rfl⟩
  | 2 => ⟨rfl, rfl⟩
  | f + 3 => by
    obtain ⟨h1, h2⟩ := loop_arg f
    constructor
    · show Run.bind (Run.bind (expandMacro (macEnv loopFind) (fun o ts => expand (macEnv loopFind) f o [] ts) [] [([107], 1)] (id' [103]) [pu lpar, pu lpar, id' [108], pu rpar, pu rpar]) _) _ = _
      rw [loop_call _ _ _ (.inr rfl) [107] rfl (by decide) (by decide) h2 _ rfl]
      rfl
    · show Run.bind (Run.bind (expandMacro (macEnv loopFind) (fun o ts => expand (macEnv loopFind) f o [] ts) [] [([108], 1)] (id' [103]) [pu lpar, pu lpar, id' [107], pu rpar, pu rpar]) _) _ = _
      rw [loop_call _ _ _ (.inl rfl) [108] rfl (by decide) (by decide) h1 _ rfl]
      rfl

/-- The code does not always end: with
```
#define g(x) x
#define k g ( ( l )
#define l g ( ( k )
```
the arguments of `g` reach past the end of the replacement list of `k`, where `k` is unlocked, before they are
expanded; the expansion of `( k )` then goes on for ever. The table meets all the conditions of
`C26_terminates` but the one on parentheses. -/
theorem C26_diverges : TableSpec (macEnv loopFind) [[103], [107], [108]] ∧ ParensArePuncts [pu lpar, id' [107], pu rpar] ∧
    ∀ fuel, expand (macEnv loopFind) fuel [] [] [pu lpar, id' [107], pu rpar] = .more := by
  refine ⟨⟨?_, ?_, ?_, fun _ _ => .inl rfl, fun _ => .inl rfl, ?_⟩, ?_, fun f => (loop_arg f).1⟩
  · intro s m h
    show s ∈ [[103], [107], [108]]
    have h : loopFind s = some m := h
    unfold loopFind at h
    split at h
    · simp_all
    · split at h
      · simp_all
      · split at h
        · simp_all
        · cases h
  · intro s m h
    have h : loopFind s = some m := h
    unfold loopFind at h
    unfold ParensArePuncts IsOpen IsClose
    split at h
    · cases h; simp [id']
    · split at h
      · cases h; simp [id', pu]
      · split at h
        · cases h; simp [id', pu]
        · cases h
  · intro s m h hv
    have h : loopFind s = some m := h
    unfold loopFind at h
    split at h
    · cases h; cases hv
    · split at h
      · cases h; cases hv
      · split at h
        · cases h; cases hv
        · cases h
  · intro t
    refine ⟨(by intro h; cases h), (by intro h; cases h), (by intro h; cases h)⟩
  · unfold ParensArePuncts IsOpen IsClose
    simp [id', pu]

/-! ### Examples -/

/-- `#define f(x) x + f ( x )`, `#define A B A`, `#define B A ( B )` -/
def sampleFind (s : Name) : Option Macro :=
  if s = [102] then some { isObj := false, params := [[120]], body := [id' [120], pu [43], id' [102], pu lpar, id' [120], pu rpar] }
  else if s = [65] then some { isObj := true, body := [id' [66], id' [65]] }
  else if s = [66] then some { isObj := true, body := [id' [65], pu lpar, id' [66], pu rpar] }
  else none

theorem closed_nil : Closed [] := by
  intro a o b e _
  simp at e

theorem closed_cons {t : PTok} {r : List PTok} (ht : IsOpen t → ∃ inside c rest, r = inside ++ c :: rest ∧ Nested inside ∧ IsClose c) (hr : Closed r) : Closed (t :: r) := by
  intro a o b e ho
  cases a with
  | nil => cases e; exact ht ho
  | cons x xs =>
    simp at e
    exact hr xs o b e.2 ho

theorem sample_table : TableSpec (macEnv sampleFind) [[102], [65], [66]] ∧ (∀ s m, (macEnv sampleFind).find s = some m → Closed m.body) := by
  refine ⟨⟨?_, ?_, ?_, fun _ _ => .inl rfl, fun _ => .inl rfl, ?_⟩, ?_⟩
  · intro s m h
    show s ∈ [[102], [65], [66]]
    have h : sampleFind s = some m := h
    unfold sampleFind at h
    split at h
    · simp_all
    · split at h
      · simp_all
      · split at h
        · simp_all
        · cases h
  · intro s m h
    have h : sampleFind s = some m := h
    unfold sampleFind at h
    unfold ParensArePuncts IsOpen IsClose
    split at h
    · cases h; simp [id', pu]
    · split at h
      · cases h; simp [id']
      · split at h
        · cases h; simp [id', pu]
        · cases h
  · intro s m h hv
    have h : sampleFind s = some m := h
    unfold sampleFind at h
    split at h
    · cases h; cases hv
    · split at h
      · cases h; cases hv
      · split at h
        · cases h; cases hv
        · cases h
  · intro t
    refine ⟨(by intro h; cases h), (by intro h; cases h), (by intro h; cases h)⟩
  · intro s m h
    have h : sampleFind s = some m := h
    unfold sampleFind at h
    have n1 : Nested [id' [120]] := .tok _ _ (by intro h; cases h) (by intro h; cases h) .nil
    have n2 : Nested [id' [66]] := .tok _ _ (by intro h; cases h) (by intro h; cases h) .nil
    have np : ∀ (x : PTok) (l : List PTok), x.text ≠ [40] → IsOpen x → ∃ inside c rest, l = inside ++ c :: rest ∧ Nested inside ∧ IsClose c := fun x l h1 h2 => absurd h2 h1
    split at h
    · cases h
      exact closed_cons (np _ _ (by decide)) (closed_cons (np _ _ (by decide)) (closed_cons (np _ _ (by decide)) (closed_cons (fun _ => ⟨[id' [120]], pu rpar, [], rfl, n1, rfl⟩)
        (closed_cons (np _ _ (by decide)) (closed_cons (np _ _ (by decide)) closed_nil)))))
    · split at h
      · cases h
        exact closed_cons (np _ _ (by decide)) (closed_cons (np _ _ (by decide)) closed_nil)
      · split at h
        · cases h
          exact closed_cons (np _ _ (by decide)) (closed_cons (fun _ => ⟨[id' [66]], pu rpar, [], rfl, n2, rfl⟩)
            (closed_cons (np _ _ (by decide)) (closed_cons (np _ _ (by decide)) closed_nil)))
        · cases h

/-- The texts of a result, with a mark for those that are not expanded any more. -/
def shown (r : Run (List PTok)) : Option (List (Name × Bool)) :=
  match r with
  | .done ts => some (ts.map fun t => (t.text, t.noExpand))
  | _ => none

/-- `f ( f ( 1 ) ) A` becomes `1 + f ( 1 ) + f ( 1 + f ( 1 ) ) A ( B ) A`; `f`, `A` and `B` are marked. -/
example : shown (expand (macEnv sampleFind) 60 [] [] [id' [102], pu lpar, id' [102], pu lpar, pu [49], pu rpar, pu rpar, id' [65]]) =
    some [([49], false), ([43], false), ([102], true), ([40], false), ([49], false), ([41], false), ([43], false), ([102], true), ([40], false), ([49], false),
      ([43], false), ([102], true), ([40], false), ([49], false), ([41], false), ([41], false), ([65], true), ([40], false), ([66], true), ([41], false), ([65], true)] := by
  decide +kernel

/-- The table meets the conditions of `C26_terminates`. -/
example : ∃ fuel out, expand (macEnv sampleFind) fuel [] [] [id' [102], pu lpar, id' [65], pu rpar] = .done out := by
  obtain ⟨f, h | h, h2⟩ := C26_terminates _ _ sample_table.1 sample_table.2 [id' [102], pu lpar, id' [65], pu rpar] (by
    unfold ParensArePuncts IsOpen IsClose; simp [id', pu])
  · exact ⟨f, h⟩
  · have h3 := h2 (f + 60) (Nat.le_add_right _ _)
    have h4 : expand (macEnv sampleFind) 60 [] [] [id' [102], pu lpar, id' [65], pu rpar] ≠ .more := by decide +kernel
    have h5 := expand_stable (macEnv sampleFind) h4 (Nat.le_add_left 60 f)
    rw [h3, h] at h5
    have h6 : expand (macEnv sampleFind) 60 [] [] [id' [102], pu lpar, id' [65], pu rpar] ≠ .fail := by decide +kernel
    exact absurd h5.symm h6

/-- `#define A B A`, `#define B A 2` -/
def objFind (s : Name) : Option Macro :=
  if s = [65] then some { isObj := true, body := [id' [66], id' [65]] }
  else if s = [66] then some { isObj := true, body := [id' [65], pu [50]] }
  else none

/-- `A B` is `A 2 A B 2` by the specification, hence by the code. -/
example : Rescan (fun s => (objFind s).map Macro.body) [] ([id' [65], id' [66]].map bare)
    ([{ id' [65] with noExpand := true }, pu [50], { id' [65] with noExpand := true }, { id' [66] with noExpand := true }, { id' [65] with noExpand := true }, pu [50]].map bare) := by
  have h : expand (macEnv objFind) 30 [] [] [id' [65], id' [66]] =
      .done [{ id' [65] with noExpand := true }, pu [50], { id' [65] with noExpand := true }, { id' [66] with noExpand := true }, { id' [65] with noExpand := true }, pu [50]] := by
    decide +kernel
  refine C26_object_like (macEnv objFind) ?_ 30 _ _ h
  intro s m h
  have h : objFind s = some m := h
  unfold objFind at h
  split at h
  · cases h; simp [id']
  · split at h
    · cases h; simp [id', pu]
    · cases h

end Slimcc.Props
