import Verif.Lemmas.MacroExpand
set_option autoImplicit false
/-!
More fuel does not change an outcome, and a substitution ends if the expansions of its arguments do.
-/
namespace Slimcc.MacL
open Slimcc Slimcc.PP Slimcc.Mac Slimcc.Spec

/-- The second run is the first one with more fuel, with results that are related. -/
inductive RunLe {α : Type} (R : α → α → Prop) : Run α → Run α → Prop where
  | more (y : Run α) : RunLe R .more y
  | done (a b : α) : R a b → RunLe R (.done a) (.done b)
  | fail : RunLe R .fail .fail
  | crash : RunLe R .crash .crash

theorem RunLe.bind {α β : Type} {R : α → α → Prop} {S : β → β → Prop} {x y : Run α} {f g : α → Run β} (h : RunLe R x y)
    (hf : ∀ a b, R a b → RunLe S (f a) (g b)) : RunLe S (x >>= f) (y >>= g) := by
  cases h with
  | more y => exact .more _
  | done a b h => exact hf a b h
  | fail => exact .fail
  | crash => exact .crash

theorem RunLe.refl {α : Type} (x : Run α) : RunLe Eq x x := by
  cases x with
  | done a => exact .done a a rfl
  | fail => exact .fail
  | crash => exact .crash
  | more => exact .more _

theorem RunLe.trans {α : Type} {x y z : Run α} (h : RunLe Eq x y) (h2 : RunLe Eq y z) : RunLe Eq x z := by
  cases h with
  | more y => exact .more _
  | done a b e => subst e; exact h2
  | fail => exact h2
  | crash => exact h2

theorem RunLe.eq {α : Type} {x y : Run α} (h : RunLe Eq x y) (hx : x ≠ .more) : x = y := by
  cases h with
  | more y => exact absurd rfl hx
  | done a b e => rw [e]
  | fail => rfl
  | crash => rfl

structure ArgLe (a b : Arg) : Prop where
  raw : a.raw = b.raw
  exp : RunLe Eq a.exp b.exp

inductive ArgsLe : List Arg → List Arg → Prop where
  | nil : ArgsLe [] []
  | cons (a b : Arg) (as bs : List Arg) : ArgLe a b → ArgsLe as bs → ArgsLe (a :: as) (b :: bs)

theorem ArgsLe.get {as bs : List Arg} (h : ArgsLe as bs) : ∀ i : Nat, (as[i]? = none ∧ bs[i]? = none) ∨ ∃ a b, as[i]? = some a ∧ bs[i]? = some b ∧ ArgLe a b := by
  induction h with
  | nil => intro i; exact .inl ⟨rfl, rfl⟩
  | cons a b as bs h _ ih =>
    intro i
    cases i with
    | zero => exact .inr ⟨a, b, rfl, rfl, h⟩
    | succ i => simpa using ih i

structure CtxLe (c d : Ctx) : Prop where
  params : c.params = d.params
  va : c.vaArg = d.vaArg
  omitC : c.omitC = d.omitC
  args : ArgsLe c.args d.args

inductive FoundLe : Found → Found → Prop where
  | none : FoundLe none none
  | some (a b : Arg) (i : Option Nat) (r : List PTok) : ArgLe a b → FoundLe (some (a, i, r)) (some (b, i, r))

theorem nonEmptyVa_mono {c d : Ctx} (h : CtxLe c d) : RunLe Eq (nonEmptyVa c) (nonEmptyVa d) := by
  unfold nonEmptyVa
  rw [← h.va, ← h.params]
  split
  · rcases h.args.get (c.params.length - 1) with ⟨e1, e2⟩ | ⟨a, b, e1, e2, hab⟩
    · rw [e1, e2]; exact .crash
    · rw [e1, e2]
      refine hab.exp.bind ?_
      intro x y e; subst e; exact RunLe.refl _
  · exact RunLe.refl _

theorem findArg_mono (E : Mac.Env) {c d : Ctx} (h : CtxLe c d) (n : Nat) (hs : ∀ m, n = m + 1 → ∀ acc ts, RunLe Eq (subst E c m acc ts) (subst E d m acc ts))
    (ts : List PTok) : RunLe FoundLe (findArg E c n ts) (findArg E d n ts) := by
  cases ts with
  | nil => rw [findArg, findArg]; exact .done _ _ .none
  | cons t r =>
    rw [findArg.eq_def, findArg.eq_def]
    dsimp only
    split
    · exact .done _ _ .none
    · rw [← h.params]
      cases hi : findIdx t.text c.params 0 with
      | some i =>
        dsimp only
        rcases h.args.get i with ⟨e1, e2⟩ | ⟨a, b, e1, e2, hab⟩
        · rw [e1, e2]; exact .crash
        · rw [e1, e2]; exact .done _ _ (.some a b _ _ hab)
      | none =>
        dsimp only
        split
        · cases n with
          | zero => exact .more _
          | succ n =>
            dsimp only
            refine (RunLe.refl (readArgOne true 0 (r.drop 1))).bind ?_
            rintro ⟨a, rest⟩ _ rfl
            dsimp only
            refine (nonEmptyVa_mono h).bind ?_
            rintro ne _ rfl
            refine RunLe.bind (R := Eq) ?_ ?_
            · split
              · exact hs n rfl [] a
              · exact RunLe.refl _
            · rintro x _ rfl
              exact .done _ _ (.some _ _ _ _ ⟨rfl, RunLe.refl _⟩)
        · exact .done _ _ .none

theorem subst_mono (E : Mac.Env) {c d : Ctx} (h : CtxLe c d) : ∀ (n : Nat) (acc ts : List PTok), RunLe Eq (subst E c n acc ts) (subst E d n acc ts)
  | n, acc, [] => by rw [subst.eq_def, subst.eq_def]; exact RunLe.refl _
  | 0, acc, t :: r => by rw [subst.eq_def, subst.eq_def]; exact .more _
  | n + 1, acc, t :: r => by
    have ih := subst_mono E h n
    have hf := findArg_mono E h n (fun m e => by subst e; exact fun acc ts => subst_mono E h m acc ts)
    rw [subst.eq_def, subst.eq_def]
    dsimp only
    split
    · refine (hf r).bind ?_
      intro a b hab
      cases hab with
      | none => exact .fail
      | some a b i rest hab =>
        dsimp only
        rw [hab.raw]
        refine (RunLe.refl _).bind ?_
        rintro s _ rfl
        exact ih _ _
    · refine RunLe.bind (R := Eq) ?_ ?_
      · rw [← h.va]
        split
        · refine (hf _).bind ?_
          intro a b hab
          cases hab with
          | none => exact RunLe.refl _
          | some a b i rest hab =>
            cases i with
            | none => exact RunLe.refl _
            | some i => dsimp only; rw [h.params]; exact RunLe.refl _
        · exact RunLe.refl _
      · rintro gnu _ rfl
        rw [← h.omitC]
        split
        · split
          · exact ih _ _
          · exact ih _ _
        · split
          · split
            · exact .fail
            · exact .fail
            · rename_i cur acc' u r'
              split
              · exact ih _ _
              · refine (hf _).bind ?_
                intro a b hab
                cases hab with
                | none =>
                  dsimp only
                  refine (RunLe.refl _).bind ?_
                  rintro y _ rfl
                  exact ih _ _
                | some a b i rest hab =>
                  dsimp only
                  rw [← hab.raw]
                  cases a.raw with
                  | nil => exact ih _ _
                  | cons x xs =>
                    dsimp only
                    split
                    · refine (RunLe.refl _).bind ?_
                      rintro y _ rfl
                      exact ih _ _
                    · exact ih _ _
          · refine (hf _).bind ?_
            intro a b hab
            cases hab with
            | none => exact ih _ _
            | some a b i rest hab =>
              dsimp only
              refine RunLe.bind (R := Eq) ?_ ?_
              · rw [← hab.raw]
                split
                · exact RunLe.refl _
                · exact hab.exp
              · rintro ts _ rfl
                split
                · exact ih _ _
                · exact ih _ _

theorem expandMacro_mono (E : Mac.Env) {e1 e2 : List Name → List PTok → Run (List PTok)} (he : ∀ o a, RunLe Eq (e1 o a) (e2 o a)) (outer : List Name) (locks : Locks)
    (t : PTok) (r : List PTok) : RunLe Eq (expandMacro E e1 outer locks t r) (expandMacro E e2 outer locks t r) := by
  unfold expandMacro
  split
  · exact RunLe.refl _
  · split
    · exact RunLe.refl _
    · rename_i m hm
      split
      · exact RunLe.refl _
      · split
        · exact RunLe.refl _
        · split
          · exact RunLe.refl _
          · split
            · refine (RunLe.refl _).bind ?_
              rintro ⟨as, rest, l⟩ _ rfl
              dsimp only
              refine (RunLe.refl _).bind ?_
              rintro ⟨args, o, tl⟩ _ rfl
              dsimp only
              have hargs : ArgsLe (args.map fun a => { raw := a, exp := e1 (l.map Prod.fst ++ outer) a })
                  (args.map fun a => { raw := a, exp := e2 (l.map Prod.fst ++ outer) a }) := by
                induction args with
                | nil => exact .nil
                | cons a as ih => exact .cons _ _ _ _ ⟨rfl, he _ _⟩ ih
              have hs : ∀ x y : List Arg, ArgsLe x y → RunLe Eq (subst E ⟨m.params, m.vaArg, x, o⟩ m.body.length [] m.body)
                  (subst E ⟨m.params, m.vaArg, y, o⟩ m.body.length [] m.body) := by
                intro x y hxy; apply subst_mono; exact ⟨rfl, rfl, rfl, hxy⟩
              refine RunLe.bind (R := Eq) (hs _ _ hargs) ?_
              rintro b _ rfl
              exact RunLe.refl _
            · exact RunLe.refl _

theorem expand_mono1 (E : Mac.Env) : ∀ (f : Nat) (outer : List Name) (locks : Locks) (toks : List PTok), RunLe Eq (expand E f outer locks toks) (expand E (f + 1) outer locks toks)
  | 0, outer, locks, toks => by rw [expand]; exact .more _
  | f + 1, outer, locks, [] => by rw [expand, expand]; exact RunLe.refl _
  | f + 1, outer, locks, t :: r => by
    rw [expand, expand]
    refine (expandMacro_mono E (fun o a => expand_mono1 E f o [] a) outer locks t r).bind ?_
    rintro s _ rfl
    cases s with
    | inl t' =>
      dsimp only
      refine (expand_mono1 E f _ _ _).bind ?_
      rintro s _ rfl
      exact RunLe.refl _
    | inr s => exact expand_mono1 E f _ _ _

theorem expand_mono (E : Mac.Env) (f : Nat) (outer : List Name) (locks : Locks) (toks : List PTok) : ∀ (k : Nat), RunLe Eq (expand E f outer locks toks) (expand E (f + k) outer locks toks)
  | 0 => RunLe.refl _
  | k + 1 => (expand_mono E f outer locks toks k).trans (expand_mono1 E (f + k) outer locks toks)

/-- Once a run has ended, more fuel does not change it. -/
theorem expand_stable (E : Mac.Env) {f g : Nat} {outer : List Name} {locks : Locks} {toks : List PTok} (h : expand E f outer locks toks ≠ .more) (hg : f ≤ g) :
    expand E g outer locks toks = expand E f outer locks toks := by
  obtain ⟨k, rfl⟩ := Nat.le.dest hg
  exact ((expand_mono E f outer locks toks k).eq h).symm

/-! ### Substitutions end -/

/-- The tokenizer ends, and does not fail internally. -/
structure Total (E : Mac.Env) : Prop where
  paste : ∀ a b, E.paste a b ≠ .more ∧ E.paste a b ≠ .crash
  str : ∀ ts, E.str ts ≠ .more ∧ E.str ts ≠ .crash

/-- Neither out of fuel nor an internal error. -/
def Ends {α : Type} (x : Run α) : Prop := x ≠ .more ∧ x ≠ .crash

theorem Ends.done {α : Type} (a : α) : Ends (Run.done a) := ⟨(by intro h; cases h), (by intro h; cases h)⟩
theorem Ends.fail {α : Type} : Ends (Run.fail : Run α) := ⟨(by intro h; cases h), (by intro h; cases h)⟩
theorem Ends.bind {α β : Type} {x : Run α} {f : α → Run β} (hx : Ends x) (hf : ∀ a, x = .done a → Ends (f a)) : Ends (x >>= f) := by
  cases x with
  | done a => exact hf a rfl
  | fail => exact .fail
  | crash => exact absurd rfl hx.2
  | more => exact absurd rfl hx.1

structure CtxEnds (c : Ctx) : Prop where
  len : c.args.length = c.params.length
  va : c.vaArg = true → c.params ≠ []
  exp : ∀ a ∈ c.args, Ends a.exp

theorem findIdx_lt (s : Name) : ∀ (ps : List Name) (k i : Nat), findIdx s ps k = some i → i < k + ps.length
  | [], k, i, h => by cases h
  | p :: ps, k, i, h => by
    rw [findIdx] at h
    split at h
    · cases h; simp
    · have := findIdx_lt s ps _ _ h; simp; omega

theorem ends_readArgOne (rr : Bool) (ts : List PTok) (k : Nat) : Ends (readArgOne rr k ts) := by
  rcases Props.readArgOne_ends rr ts k with ⟨p, h⟩ | h
  · rw [h]; exact .done _
  · rw [h]; exact .fail

theorem ends_readArgs (strict : Bool) (m : Macro) (ts : List PTok) : Ends (readArgs strict m ts) := by
  by_cases h : ∃ p, readArgs strict m ts = .done p
  · obtain ⟨p, h⟩ := h; rw [h]; exact .done _
  · rw [Props.C28_diagnosed strict m ts (fun p hp => h ⟨p, hp⟩)]; exact .fail

theorem nonEmptyVa_ends {c : Ctx} (h : CtxEnds c) : Ends (nonEmptyVa c) := by
  unfold nonEmptyVa
  split
  · rename_i hv
    have hp : 0 < c.params.length := List.length_pos_iff.2 (h.va hv)
    have hlt : c.params.length - 1 < c.args.length := by rw [h.len]; omega
    rw [List.getElem?_eq_getElem hlt]
    dsimp only
    exact (h.exp _ (List.getElem_mem hlt)).bind (fun a _ => .done _)
  · exact .done _

theorem findArg_ends (E : Mac.Env) {c : Ctx} (h : CtxEnds c) (n : Nat)
    (hs : ∀ m, n = m + 1 → ∀ acc ts, ts.length ≤ m → Ends (subst E c m acc ts)) (ts : List PTok) (hl : ts.length ≤ n + 1) :
    Ends (findArg E c n ts) ∧ ∀ a i rest, findArg E c n ts = .done (some (a, i, rest)) → rest.length < ts.length ∧ Ends a.exp := by
  cases ts with
  | nil =>
    rw [findArg]
    exact ⟨.done _, fun a i rest h => by cases h⟩
  | cons t r =>
    rw [findArg.eq_def]
    dsimp only
    split
    · exact ⟨.done _, fun a i rest h => by cases h⟩
    · cases hi : findIdx t.text c.params 0 with
      | some i =>
        dsimp only
        have hlt : i < c.args.length := by have := findIdx_lt _ _ _ _ hi; rw [h.len]; omega
        rw [List.getElem?_eq_getElem hlt]
        refine ⟨.done _, fun a i rest hh => ?_⟩
        cases hh
        exact ⟨by simp, h.exp _ (List.getElem_mem hlt)⟩
      | none =>
        dsimp only
        split
        · rename_i hv
          obtain ⟨p, r', rfl, hp⟩ := isText_cons hv.2
          cases n with
          | zero => simp at hl
          | succ n =>
            dsimp only
            have key : ∀ a rest, readArgOne true 0 ((p :: r').drop 1) = .done (a, rest) → a.length ≤ n ∧ rest.length ≤ r'.length := by
              intro a rest hh
              obtain ⟨e, _⟩ := (var_iff _ _ _).1 hh
              have : r' = a ++ rest := e
              have : r'.length = a.length + rest.length := by rw [this]; simp
              simp at hl
              omega
            refine ⟨?_, ?_⟩
            · refine (ends_readArgOne true _ 0).bind ?_
              rintro ⟨a, rest⟩ hh
              dsimp only
              refine (nonEmptyVa_ends h).bind ?_
              intro ne _
              refine Ends.bind ?_ (fun a _ => .done _)
              split
              · exact hs n rfl [] a (key a rest hh).1
              · exact .done _
            · intro a i rest hh
              obtain ⟨⟨a1, rest1⟩, h1, h2⟩ := (bind_done_iff _ _ _).1 hh
              obtain ⟨ne, h3, h4⟩ := (bind_done_iff _ _ _).1 h2
              obtain ⟨a2, h5, h6⟩ := (bind_done_iff _ _ _).1 h4
              cases h6
              have := (key a1 rest1 h1).2
              refine ⟨?_, .done _⟩
              simp
              omega
        · exact ⟨.done _, fun a i rest h => by cases h⟩

theorem subst_ends (E : Mac.Env) (hT : Total E) {c : Ctx} (h : CtxEnds c) : ∀ (n : Nat) (acc ts : List PTok), ts.length ≤ n → Ends (subst E c n acc ts)
  | n, acc, [], _ => by rw [subst.eq_def]; exact .done _
  | 0, acc, t :: r, hl => by simp at hl
  | n + 1, acc, t :: r, hl => by
    have ih := subst_ends E hT h n
    have hf := findArg_ends E h n (fun m e => by subst e; exact fun acc ts hl => subst_ends E hT h m acc ts hl)
    have hl' : r.length ≤ n := by simpa using hl
    rw [subst.eq_def]
    dsimp only
    split
    · refine (hf r (by omega)).1.bind ?_
      rintro (_ | ⟨a, i, rest⟩) e
      · exact .fail
      · dsimp only
        have := ((hf r (by omega)).2 _ _ _ e).1
        exact Ends.bind (hT.str _) (fun s _ => ih _ _ (by omega))
    · refine Ends.bind ?_ ?_
      · split
        · refine (hf _ (by simp; omega)).1.bind ?_
          rintro (_ | ⟨a, _ | i, rest⟩) e
          · exact .done _
          · exact .done _
          · exact .done _
        · exact .done _
      · intro gnu _
        split
        · split
          · exact ih _ _ (by simp; omega)
          · exact ih _ _ (by simp; omega)
        · split
          · split
            · exact .fail
            · exact .fail
            · rename_i cur acc' u r'
              split
              · exact ih _ _ hl'
              · refine (hf _ (by omega)).1.bind ?_
                rintro (_ | ⟨a, i, rest⟩) e
                · dsimp only
                  exact Ends.bind (hT.paste _ _) (fun y _ => ih _ _ (by simp at hl'; omega))
                · dsimp only
                  have := ((hf _ (by omega)).2 _ _ _ e).1
                  cases a.raw with
                  | nil => exact ih _ _ (by omega)
                  | cons x xs =>
                    dsimp only
                    split
                    · exact Ends.bind (hT.paste _ _) (fun y _ => ih _ _ (by omega))
                    · exact ih _ _ (by omega)
          · refine (hf _ hl).1.bind ?_
            rintro (_ | ⟨a, i, rest⟩) e
            · exact ih _ _ hl'
            · dsimp only
              obtain ⟨h1, h2⟩ := (hf _ hl).2 _ _ _ e
              have h1 : rest.length ≤ n := by simp at h1; omega
              refine Ends.bind ?_ ?_
              · split
                · exact .done _
                · exact h2
              · intro ts _
                split
                · exact ih _ _ h1
                · exact ih _ _ h1

theorem insertObj_ends (E : Mac.Env) (hT : Total E) : ∀ (n : Nat) (acc ts : List PTok), ts.length ≤ n → Ends (insertObj E acc ts)
  | n, acc, [], _ => by rw [insertObj]; exact .done _
  | n, acc, [t], _ => by
    rw [insertObj]
    split
    · exact .fail
    · exact .done _
  | 0, acc, t :: u :: r, h => by simp at h
  | n + 1, acc, t :: u :: r, h => by
    simp at h
    rw [insertObj.eq_def]
    dsimp only
    split
    · cases acc with
      | nil => exact .fail
      | cons cur acc' => exact Ends.bind (hT.paste _ _) (fun y _ => insertObj_ends E hT n _ _ (by omega))
    · exact insertObj_ends E hT n _ _ (by simp; omega)

theorem prepare_ends (E : Mac.Env) (outer : List Name) : ∀ (ts : List PTok) (k : Nat) (locks : Locks), Ends (prepare E outer k locks ts)
  | [], k, locks => by rw [prepare]; exact .fail
  | t :: r, k, locks => by
    rw [prepare]
    dsimp only
    split
    · exact .done _
    · exact (prepare_ends E outer r _ _).bind (fun _ _ => .done _)

/-- One replacement ends if the expansions of the arguments do. -/
theorem expandMacro_ends (E : Mac.Env) (hT : Total E) (hva : ∀ s m, E.find s = some m → m.vaArg = true → m.params ≠ []) (exp : List Name → List PTok → Run (List PTok)) (outer : List Name) (locks : Locks)
    (t : PTok) (r : List PTok)
    (ha : ∀ m (c : Call E exp outer locks t r m), E.find t.text = some m → ∀ a ∈ c.args, Ends (exp (c.l.map Prod.fst ++ outer) a)) :
    Ends (expandMacro E exp outer locks t r) := by
  unfold expandMacro
  split
  · exact .done _
  · split
    · exact .done _
    · rename_i m hm
      have hfind := (look_find hm).2
      split
      · exact .done _
      · split
        · exact .done _
        · split
          · exact (insertObj_ends E hT _ _ _ (Nat.le_refl _)).bind (fun _ _ => .done _)
          · split
            · rename_i hp
              obtain ⟨p, r1, e, hp'⟩ := isText_cons hp
              subst e
              refine (prepare_ends E outer _ _ _).bind ?_
              rintro ⟨as, rest, l⟩ h1
              dsimp only
              refine (ends_readArgs _ _ _).bind ?_
              rintro ⟨args, o, tl⟩ h2
              dsimp only
              let c : Call E exp outer locks t (p :: r1) m := ⟨p, r1, as, rest, l, args, o, tl, rfl, hp', h1, h2⟩
              have hc := ha m c hfind
              refine (subst_ends E hT ⟨?_, ?_, ?_⟩ _ _ _ (Nat.le_refl _)).bind (fun _ _ => .done _)
              · show (args.map _).length = m.params.length
                rw [List.length_map]
                obtain ⟨_, _, _, _, _, hh, _⟩ := c.facts (hva _ _ hfind)
                exact hh
              · exact hva _ _ hfind
              · intro a haa
                obtain ⟨x, hx, rfl⟩ := List.mem_map.1 haa
                exact hc x hx
            · exact .done _

end Slimcc.MacL
