import Verif.Props.C27
import Verif.Spec.IfLine
/-!
C24, continued: the condition of `#if` and `#elif` is the constant expression that the line stands for.
-/
set_option autoImplicit false
namespace Slimcc.Props
open Slimcc Slimcc.PP Slimcc.Lex Slimcc.Mac Slimcc.MacL Slimcc.Pp Slimcc.PpL Slimcc.Spec Slimcc.IfLine

theorem rc_up {E : PEnv} {tb : Macros} {g : Nat} {locks : Locks} {ts o : List PTok} (h : readConst E tb g locks ts = .done o) :
    ∀ k, readConst E tb (g + k) locks ts = .done o
  | 0 => h
  | k + 1 => ((readConst_mono1 E tb (g + k) locks ts).eq (by rw [rc_up h k]; intro e; cases e)).symm.trans (rc_up h k)

/-- Ordinary text in front of something that starts with no parenthesis. -/
theorem rc_text (E : PEnv) (tb : Macros) (hva : ∀ s m, tb s = some m → m.vaArg = true → m.params ≠ []) (o : List PTok) : ∀ (f : Nat) (locks : Locks) (toks out rest : List PTok),
    expand (E.mac tb) f [] (popLocks toks.length locks) toks = .done out → Desc toks.length locks → (∀ t ∈ out, t.text ≠ kwDefined) → isText lpar rest = false →
    (∀ rest', SameHead rest rest' → ∃ g o', readConst E tb g [] rest' = .done o' ∧ o'.map bare = o) →
    ∃ g o', readConst E tb g (shift rest.length (popLocks toks.length locks)) (toks ++ rest) = .done o' ∧
      o'.map bare = out.map (fun t => bare (operandOf E.c23 t)) ++ o
  | 0, locks, toks, out, rest, h, _, _, _, _ => by rw [expand] at h; cases h
  | f + 1, locks, [], out, rest, h, hd, _, _, hk => by
    have : popLocks ([] : List PTok).length locks = [] := popLocks_zero hd
    rw [this] at h ⊢
    rw [expand] at h
    cases h
    exact hk rest (.refl _)
  | f + 1, locks, t :: r, out, rest, h, hd, hn, hp, hk => by
    have hd1 : Desc r.length (popLocks (t :: r).length locks) := popLocks_desc hd
    generalize popLocks (t :: r).length locks = L at hd1 h
    rw [expand] at h
    obtain ⟨s, h1, h2⟩ := (bind_done_iff _ _ _).1 h
    obtain ⟨rest', g1, g2, g3⟩ := expandMacro_frame _ _ L t r rest s hp h1
    have e : ∀ k, expandMacro (E.mac tb) (fun o ts => expand (E.mac tb) (f + k) o [] ts) [] (shift rest.length L) t (r ++ rest) = .done (frameRes rest.length rest' s) := fun k =>
      ((expandMacro_mono _ (fun o a => expand_mono _ f o [] a k) [] (shift rest.length L) t (r ++ rest)).eq (ne_more g2)).symm.trans g2
    cases s with
    | inl t' =>
      dsimp only at h2
      obtain ⟨o1, h3, h4⟩ := (bind_done_iff _ _ _).1 h2
      cases h4
      obtain ⟨g, o', i1, i2⟩ := rc_text E tb hva o f L r o1 rest h3 hd1 (fun x hx => hn x (by simp [hx])) hp hk
      refine ⟨f + g + 1, operandOf E.c23 t' :: o', ?_, ?_⟩
      · rw [List.cons_append, readConst, e g, Run.bind_done]
        show (if t'.text = kwDefined then _ else _) = _
        rw [if_neg (hn t' (by simp)), List.length_append, shift_pop, show f + g = g + f from Nat.add_comm _ _, rc_up i1 f, Run.bind_done]
        rfl
      · rw [List.map_cons, i2]; rfl
    | inr s =>
      obtain ⟨l, ts⟩ := s
      dsimp only at h2
      obtain ⟨_, m, hm, _, hrep⟩ := expandMacro_inr _ _ _ _ _ _ _ h1
      obtain ⟨hk2, hf2⟩ := look_find hm
      have hd3 : Desc ts.length l := by
        have hent : ∀ (l : Locks) (b rest : List PTok), Desc rest.length l → Desc (enter l t b rest).2.length (enter l t b rest).1 := by
          intro l b rest h
          unfold enter
          split
          · dsimp only; rw [orFlags_length]; exact h
          · exact ⟨by simp, h⟩
        generalize hs : (l, ts) = s at hrep
        have : Desc s.2.length s.1 := by
          cases hrep with
          | builtin _ =>
            cases L with
            | nil => trivial
            | cons x xs => exact ⟨by have := hd1.1; simp; omega, hd1.2⟩
          | obj b _ _ _ => exact hent _ _ _ hd1
          | fn c b _ _ _ => exact hent _ _ _ (c.locks_eq hd1).2.2
        rw [← hs] at this
        exact this
      obtain ⟨g, o', i1, i2⟩ := rc_text E tb hva o f l ts out rest' h2 hd3 hn (by rw [g1.isText]; exact hp) (fun r'' hs => hk r'' (g1.trans hs))
      refine ⟨f + g + 1, o', ?_, i2⟩
      rw [List.cons_append, readConst, e g, Run.bind_done]
      dsimp only [frameRes]
      rw [List.length_append, ← g1.len, shift_pop, show f + g = g + f from Nat.add_comm _ _, rc_up i1 f]

/-- **The condition of `#if` is the one that the line stands for.** -/
theorem C24_condition (E : PEnv) (σ : Macros) (hva : ∀ s m, σ s = some m → m.vaArg = true → m.params ≠ []) (hu : σ wDefined = none) (line o : List PTok)
    (h : Reads E.c23 (fun x => (σ x).isSome) (fun ts es => ∃ f, expand (E.mac σ) f [] [] ts = .done es) line o)
    (hb : ∀ ts, E.constExpr ts = E.constExpr (ts.map bare)) (hne : o ≠ []) :
    ∃ f, ∀ k, evalConst E σ (f + k) line = E.constExpr o := by
  have key : (∃ g o', readConst E σ g [] line = .done o' ∧ o'.map bare = o) ∧
      ((line = [] ∨ ∃ d r', line = d :: r' ∧ d.text = wDefined) → ∀ line', SameHead line line' → ∃ g o', readConst E σ g [] line' = .done o' ∧ o'.map bare = o) := by
    clear hne
    induction h with
    | nil =>
      refine ⟨⟨1, [], rfl, rfl⟩, fun _ line' hl => ?_⟩
      cases hl
      exact ⟨1, [], rfl, rfl⟩
    | defd d x operand r o hd1 hd2 hx ho hxl _ ih =>
      obtain ⟨⟨g, o', i1, i2⟩, _⟩ := ih
      have go : ∀ d' : PTok, d'.kind = .ident → d'.text = wDefined → d'.noExpand = d.noExpand →
          ∃ g o', readConst E σ g [] (d' :: operand ++ r) = .done o' ∧ o'.map bare = bare (number d (σ x.text).isSome) :: o := by
        intro d' k1 k2 k3
        refine ⟨g + 1, number d' (σ x.text).isSome :: o', ?_, ?_⟩
        · rcases ho with e | ⟨lp, rp, e1, e2, e⟩
          · rw [C27_defined_operator E σ d' { d with text := [40] } x { d with text := [41] } r ⟨k1, k2⟩ hu hx hxl rfl rfl g operand (.inl e), i1, Run.bind_done]
            unfold number
            cases (σ x.text).isSome <;> rfl
          · rw [C27_defined_operator E σ d' lp x rp r ⟨k1, k2⟩ hu hx hxl e1 e2 g operand (.inr e), i1, Run.bind_done]
            unfold number
            cases (σ x.text).isSome <;> rfl
        · rw [List.map_cons, i2]
          unfold bare number
          rw [k3]
      refine ⟨go d hd1 hd2 rfl, fun _ line' hl => ?_⟩
      cases hl with
      | refl => exact go d hd1 hd2 rfl
      | head _ h' _ e1 e2 e3 _ => exact go h' (e2.trans hd1) (e1.trans hd2) e3
    | text ts es r o he hes hr hrd ih =>
      obtain ⟨f, he⟩ := he
      have hlp : isText lpar r = false := by
        rcases hr with rfl | ⟨d, r', rfl, hd⟩
        · rfl
        · show (d.text == lpar) = false
          rw [hd]; rfl
      have h1 : ∃ g o', readConst E σ g [] (ts ++ r) = .done o' ∧ o'.map bare = es.map (fun t => bare (operandOf E.c23 t)) ++ o :=
        rc_text E σ hva o f [] ts es r he trivial hes hlp (ih.2 hr)
      refine ⟨h1, fun hs line' hl => ?_⟩
      -- the text is empty, or begins with `defined`
      cases ts with
      | nil =>
        have : es = [] := by
          cases f with
          | zero => rw [expand] at he; cases he
          | succ f => rw [expand] at he; cases he; rfl
        rw [this]
        exact ih.2 hr line' hl
      | cons d ts =>
        exfalso
        have hd : d.text = wDefined := by
          rcases hs with e | ⟨d', r', e, e2⟩
          · cases e
          · cases e; exact e2
        have hl : (E.mac σ).look d = none := by
          unfold Mac.Env.look
          split
          · show σ d.text = none
            rw [hd]; exact hu
          · rfl
        cases f with
        | zero => rw [expand] at he; cases he
        | succ f =>
          have hx : expandMacro (E.mac σ) (fun o ts => expand (E.mac σ) f o [] ts) [] [] d ts = .done (.inl d) := by
            unfold expandMacro
            split
            · rfl
            · rw [hl]
          rw [expand, hx, Run.bind_done] at he
          obtain ⟨o1, _, h4⟩ := (bind_done_iff _ _ _).1 he
          cases h4
          exact hes d (by simp) hd
  obtain ⟨⟨g, o', h1, h2⟩, _⟩ := key
  refine ⟨g, fun k => ?_⟩
  unfold evalConst
  rw [rc_up h1 k, Run.bind_done]
  have : o' ≠ [] := by intro e; rw [e] at h2; exact hne h2.symm
  rw [if_neg (by cases o' <;> simp_all), hb, h2]

/-- `#if defined A && f(B)` with `#define A` and `#define f(x) x C`: the condition is `1 && 0 0`. -/
def ifFind (s : Name) : Option Macro :=
  if s = [65] then some { isObj := true, body := [] }
  else if s = [102] then some { isObj := false, params := [[120]], body := [id' [120], id' [67]] }
  else none

example (E : PEnv) : Reads E.c23 (fun x => (ifFind x).isSome) (fun ts es => ∃ f, expand (E.mac ifFind) f [] [] ts = .done es)
    [id' wDefined, id' [65], pu [38, 38], id' [102], pu [40], id' [66], pu [41]]
    ([bare (number (id' wDefined) true)] ++ ([pu [38, 38], id' [66], id' [67]].map (fun t => bare (operandOf E.c23 t)) ++ [])) := by
  have h1 : Reads E.c23 (fun x => (ifFind x).isSome) (fun ts es => ∃ f, expand (E.mac ifFind) f [] [] ts = .done es)
      ([pu [38, 38], id' [102], pu [40], id' [66], pu [41]] ++ []) ([pu [38, 38], id' [66], id' [67]].map (fun t => bare (operandOf E.c23 t)) ++ []) :=
    .text _ _ _ _ ⟨20, rfl⟩ (by decide) (.inl rfl) .nil
  exact .defd (id' wDefined) (id' [65]) [id' [65]] _ _ rfl rfl rfl (.inl rfl) (by unfold IsOpen; decide) h1

example : (([pu [38, 38], id' [66], id' [67]] : List PTok).map fun t => (bare (operandOf false t)).text) = [[38, 38], [48], [48]] := rfl

end Slimcc.Props
