import Verif.Lemmas.MacroClosed
import Verif.Props.C28
set_option autoImplicit false
namespace Slimcc.MacL
open Slimcc Slimcc.PP Slimcc.Mac Slimcc.Spec

/-- The context in which the body of `m` is substituted. -/
def ctx (exp : List Name → List PTok → Run (List PTok)) (outer : List Name) (l : Locks) (m : Macro) (args : List (List PTok)) (o : Bool) : Ctx :=
  { params := m.params, vaArg := m.vaArg, omitC := o, args := args.map fun a => { raw := a, exp := exp (l.map Prod.fst ++ outer) a } }

/-- What a function-like replacement consists of. -/
structure Call (E : Mac.Env) (exp : List Name → List PTok → Run (List PTok)) (outer : List Name) (locks : Locks) (t : PTok) (r : List PTok)
    (m : Macro) where
  p : PTok
  r1 : List PTok
  as : List PTok
  rest : List PTok
  l : Locks
  args : List (List PTok)
  o : Bool
  tl : List PTok
  hr : r = p :: r1
  hp : p.text = lpar
  prep : prepare E outer 0 (popLocks r.length locks) r1 = .done (as, rest, l)
  read : readArgs E.strict m as = .done (args, o, tl)

inductive Repl (E : Mac.Env) (exp : List Name → List PTok → Run (List PTok)) (outer : List Name) (locks : Locks) (t : PTok) (r : List PTok) (m : Macro) :
    Locks × List PTok → Prop where
  | builtin : m.handler = true → Repl E exp outer locks t r m (locks, align (E.builtin t) t :: r)
  | obj (b : List PTok) : m.handler = false → m.isObj = true → insertObj E [] m.body = .done b → Repl E exp outer locks t r m (enter locks t b r)
  | fn (c : Call E exp outer locks t r m) (b : List PTok) : m.handler = false → m.isObj = false →
      subst E (ctx exp outer c.l m c.args c.o) m.body.length [] m.body = .done b →
      Repl E exp outer locks t r m (enter c.l t (b.filter fun t => t.kind ≠ .pmark) c.rest)

theorem expandMacro_inr (E : Mac.Env) (exp : List Name → List PTok → Run (List PTok)) (outer : List Name) (locks : Locks) (t : PTok) (r : List PTok)
    (s : Locks × List PTok) (h : expandMacro E exp outer locks t r = .done (.inr s)) :
    t.noExpand = false ∧ ∃ m, E.look t = some m ∧ isLocked outer locks t.text = false ∧ Repl E exp outer locks t r m s := by
  unfold expandMacro at h
  split at h
  · cases h
  · rename_i hn
    refine ⟨by simpa using hn, ?_⟩
    split at h
    · cases h
    · rename_i m hm
      refine ⟨m, hm, ?_⟩
      split at h
      · cases h
      · rename_i hl
        refine ⟨by simpa using hl, ?_⟩
        split at h
        · rename_i hh; cases h; exact .builtin hh
        · rename_i hh
          have hh : m.handler = false := by simpa using hh
          split at h
          · rename_i ho
            obtain ⟨b, h1, h2⟩ := (bind_done_iff _ _ _).1 h
            cases h2
            exact .obj b hh ho h1
          · rename_i ho
            have ho : m.isObj = false := by simpa using ho
            split at h
            · rename_i hp
              obtain ⟨p, r1, rfl, hp'⟩ := isText_cons hp
              obtain ⟨⟨as, rest, l⟩, h1, h2⟩ := (bind_done_iff _ _ _).1 h
              obtain ⟨⟨args, o, tl⟩, h3, h4⟩ := (bind_done_iff _ _ _).1 h2
              obtain ⟨b, h5, h6⟩ := (bind_done_iff _ _ _).1 h4
              cases h6
              exact .fn ⟨p, r1, as, rest, l, args, o, tl, rfl, hp', h1, h3⟩ b hh ho h5
            · cases h

theorem expandMacro_inl (E : Mac.Env) (exp : List Name → List PTok → Run (List PTok)) (outer : List Name) (locks : Locks) (t t' : PTok) (r : List PTok)
    (h : expandMacro E exp outer locks t r = .done (.inl t')) :
    (t' = { t with noExpand := true } ∧ isLocked outer locks t.text = true ∧ (E.look t).isSome = true) ∨
    (t' = t ∧ (t.noExpand = true ∨ E.look t = none ∨ ∃ m, E.look t = some m ∧ m.handler = false ∧ m.isObj = false ∧ isText lpar r = false)) := by
  unfold expandMacro at h
  split at h
  · rename_i hn; cases h; exact .inr ⟨rfl, .inl hn⟩
  · split at h
    · rename_i hm; cases h; exact .inr ⟨rfl, .inr (.inl hm)⟩
    · rename_i m hm
      split at h
      · rename_i hl; cases h; exact .inl ⟨rfl, hl, by rw [hm]; rfl⟩
      · split at h
        · cases h
        · rename_i hh
          split at h
          · obtain ⟨b, h1, h2⟩ := (bind_done_iff _ _ _).1 h
            cases h2
          · rename_i ho
            split at h
            · obtain ⟨⟨as, rest, l⟩, h1, h2⟩ := (bind_done_iff _ _ _).1 h
              obtain ⟨⟨args, o, tl⟩, h3, h4⟩ := (bind_done_iff _ _ _).1 h2
              obtain ⟨b, h5, h6⟩ := (bind_done_iff _ _ _).1 h4
              cases h6
            · rename_i hp; cases h
              exact .inr ⟨rfl, .inr (.inr ⟨m, hm, by simpa using hh, by simpa using ho, by simpa using hp⟩)⟩

/-- What is assumed of the macro table: only punctuators are parentheses, and no body has an unmatched
opening parenthesis. -/
structure TableOk (E : Mac.Env) : Prop extends TokOk E where
  wf : ∀ s m, E.find s = some m → WfToks m.body
  closed : ∀ s m, E.find s = some m → cl (P m.body) ≠ none
  va : ∀ s m, E.find s = some m → m.vaArg = true → m.params ≠ []

theorem look_find {E : Mac.Env} {t : PTok} {m : Macro} (h : E.look t = some m) : t.kind = .ident ∧ E.find t.text = some m := by
  unfold Mac.Env.look at h
  split at h
  · rename_i hk; exact ⟨hk, h⟩
  · cases h

theorem enter_toks (l : Locks) (t : PTok) (b rest : List PTok) (hb : WfToks b) (hr : WfToks rest) :
    WfToks (enter l t b rest).2 ∧ P (enter l t b rest).2 = P b ++ P rest := by
  unfold enter
  split
  · rename_i h
    have : b = [] := by simpa using h
    subst this
    exact ⟨wf_orFlags t hr, by rw [P_orFlags]; rfl⟩
  · exact ⟨wf_append.2 ⟨wf_alignHead t hb, hr⟩, by rw [P_append, P_alignHead]⟩

theorem wf_unpaint {a b : List PTok} (h : a.map (fun t => ({ t with noExpand := false } : PTok)) = b.map (fun t => { t with noExpand := false })) :
    WfToks b → WfToks a := by
  intro hb t ht
  have h1 : ({ t with noExpand := false } : PTok) ∈ a.map (fun t => ({ t with noExpand := false } : PTok)) := List.mem_map_of_mem ht
  rw [h] at h1
  obtain ⟨u, hu, e⟩ := List.mem_map.1 h1
  have hk : t.kind = u.kind := by have := congrArg PTok.kind e; exact this.symm
  have ht : t.text = u.text := by have := congrArg PTok.text e; exact this.symm
  have := hb u hu
  unfold WfTok NotParen at this ⊢
  rw [hk, ht]; exact this

theorem P_unpaint {a b : List PTok} (h : a.map (fun t => ({ t with noExpand := false } : PTok)) = b.map (fun t => { t with noExpand := false })) : P a = P b := by
  have key : ∀ a : List PTok, P a = P (a.map (fun t => ({ t with noExpand := false } : PTok))) := by
    intro a
    induction a with
    | nil => rfl
    | cons t r ih => rw [List.map_cons, P_cons, P_cons, ih]; rfl
  rw [key a, h, ← key b]

/-- The arguments of a call are parts of the text between its parentheses. -/
theorem Call.facts {E : Mac.Env} {exp : List Name → List PTok → Run (List PTok)} {outer : List Name} {locks : Locks} {t : PTok} {r : List PTok}
    {m : Macro} (c : Call E exp outer locks t r m) (hm : m.vaArg = true → m.params ≠ []) :
    ∃ text q, r = c.p :: (text ++ q :: c.rest) ∧ IsClose q ∧ Nested text ∧ c.args.length = m.params.length ∧
      (∀ a ∈ c.args, Nested a ∧ a.length ≤ text.length ∧ (∀ x ∈ a, ∃ y ∈ text, ({ x with noExpand := false } : PTok) = { y with noExpand := false })) ∧
      c.as.length = text.length + 1 := by
  obtain ⟨text, q, e, hq, hn, hmap⟩ := Props.C28_extent E outer _ _ _ _ _ c.prep
  refine ⟨text, q, by rw [← e]; exact c.hr, hq, hn, ?_⟩
  have hlen : c.as.length = text.length + 1 := by
    have := congrArg List.length hmap
    simpa using this
  -- the text of the arguments inside `as`
  have hcommas : ∀ (args : List (List PTok)) (body : List PTok), Commas args body → ∀ a ∈ args, a.length ≤ body.length ∧ ∀ x ∈ a, x ∈ body := by
    intro args body h
    induction h with
    | one a => intro b hb; simp at hb; subst hb; exact ⟨Nat.le_refl _, fun x h => h⟩
    | more a d args ts hd _ ih =>
      intro b hb
      rcases List.mem_cons.1 hb with rfl | hb
      · exact ⟨by simp, fun x h => by simp [h]⟩
      · obtain ⟨h1, h2⟩ := ih b hb
        exact ⟨by simp; omega, fun x h => by simp [h2 x h]⟩
  -- `body` is what `text` is, up to the marks
  have main : ∀ body d, c.as = body ++ d :: c.tl → IsClose d → Nested body → body.length = text.length ∧
      ∀ x ∈ body, ∃ y ∈ text, ({ x with noExpand := false } : PTok) = { y with noExpand := false } := by
    intro body d e2 hd hb
    have hsplit : body.length = text.length := by
      -- both are cut at the first closing parenthesis of level 0
      have key : ∀ (a b : List PTok) (k : Nat) (u v : PTok) (w : List PTok), Lv true k a → Lv true k b → IsClose u → IsClose v →
          (a ++ u :: w).map (fun t => ({ t with noExpand := false } : PTok)) = (b ++ [v]).map (fun t => { t with noExpand := false }) → a.length = b.length := by
        intro a
        induction a with
        | nil =>
          intro b k u v w ha hb hu hv e
          cases b with
          | nil => rfl
          | cons y ys =>
            exfalso
            have ha : k = 0 := ha
            subst ha
            simp only [List.nil_append, List.map_cons, List.cons_append, List.cons.injEq] at e
            have hy : y.text = rpar := by
              have := congrArg PTok.text e.1
              exact this ▸ hu
            unfold Lv at hb
            rw [if_neg (by rw [hy]; decide), if_pos hy] at hb
            exact hb.1 rfl
        | cons x xs ih =>
          intro b k u v w ha hb hu hv e
          cases b with
          | nil =>
            exfalso
            simp at e
          | cons y ys =>
            simp only [List.map_cons, List.cons_append, List.cons.injEq] at e
            have hxy : x.text = y.text := by have := congrArg PTok.text e.1; exact this
            unfold Lv at ha hb
            rw [hxy] at ha
            have := e.2
            by_cases p1 : y.text = lpar
            · rw [if_pos p1] at ha hb
              simpa using ih ys _ u v w ha hb hu hv e.2
            · by_cases p2 : y.text = rpar
              · rw [if_neg p1, if_pos p2] at ha hb
                simpa using ih ys _ u v w ha.2 hb.2 hu hv e.2
              · rw [if_neg p1, if_neg p2] at ha hb
                simpa using ih ys _ u v w ha.2 hb.2 hu hv e.2
      have hb' : Lv true 0 body := by have := lv_nested hb true 0 [] (.inr rfl) rfl; rwa [List.append_nil] at this
      have ht' : Lv true 0 text := by have := lv_nested hn true 0 [] (.inr rfl) rfl; rwa [List.append_nil] at this
      exact key body text 0 d q c.tl hb' ht' hd hq (by rw [← e2]; exact hmap)
    refine ⟨hsplit, ?_⟩
    intro x hx
    have hmb : body.map (fun t => ({ t with noExpand := false } : PTok)) = text.map (fun t => { t with noExpand := false }) := by
      rw [e2, List.map_append, List.map_append] at hmap
      exact (List.append_inj hmap (by simpa using hsplit)).1
    have h1 : ({ x with noExpand := false } : PTok) ∈ body.map (fun t => ({ t with noExpand := false } : PTok)) := List.mem_map_of_mem hx
    rw [hmb] at h1
    obtain ⟨y, hy, e3⟩ := List.mem_map.1 h1
    exact ⟨y, hy, e3.symm⟩
  have nestedCommas : ∀ (args : List (List PTok)) (body : List PTok), Commas args body → (∀ a ∈ args, Nested a) → Nested body := by
    intro args body h
    induction h with
    | one a => intro h; exact h a (by simp)
    | more a d args ts hd _ ih =>
      intro h
      refine nested_append (h a (by simp)) (.tok d _ ?_ ?_ (ih fun x hx => h x (by simp [hx])))
      · intro (hh : d.text = [40]); rw [show d.text = [44] from hd] at hh; cases hh
      · intro (hh : d.text = [41]); rw [show d.text = [44] from hd] at hh; cases hh
  have fin : ∀ body d, c.as = body ++ d :: c.tl → IsClose d → Nested body → c.args.length = m.params.length →
      (∀ a ∈ c.args, Nested a) → (∀ a ∈ c.args, a.length ≤ body.length ∧ ∀ x ∈ a, x ∈ body) →
      c.args.length = m.params.length ∧
      (∀ a ∈ c.args, Nested a ∧ a.length ≤ text.length ∧ (∀ x ∈ a, ∃ y ∈ text, ({ x with noExpand := false } : PTok) = { y with noExpand := false })) ∧
      c.as.length = text.length + 1 := by
    intro body d e2 hd hb h1 h2 h3
    obtain ⟨m1, m2⟩ := main body d e2 hd hb
    refine ⟨h1, fun a ha => ⟨h2 a ha, by have := (h3 a ha).1; omega, fun x hx => m2 x ((h3 a ha).2 x hx)⟩, hlen⟩
  cases hva : m.vaArg with
  | false =>
    obtain ⟨_, body, d, e2, hd, h1, h2, h3⟩ := (Props.C28_fixed E.strict m hva _ _ _ _).1 c.read
    have hnest : ∀ a ∈ c.args, Nested a := fun a ha => NoTopComma.nested (h2 a ha)
    by_cases hz : m.params.length = 0
    · rw [if_pos hz] at h3
      have : c.args = [] := List.length_eq_zero_iff.1 (h1.trans hz)
      refine fin body d e2 hd (by rw [h3]; exact .nil) h1 hnest ?_
      intro a ha; rw [this] at ha; simp at ha
    · rw [if_neg hz] at h3
      exact fin body d e2 hd (nestedCommas _ _ h3 hnest) h1 hnest (hcommas _ _ h3)
  | true =>
    obtain ⟨body, d, om, e2, hd, ⟨fixed, va, e3, h1, h2, h3, h4⟩, _⟩ := (Props.C28_variadic E.strict m hva (hm hva) _ _ _ _).1 c.read
    have hnest : ∀ a ∈ c.args, Nested a := by
      intro a ha
      rw [e3] at ha
      rcases List.mem_append.1 ha with ha | ha
      · exact NoTopComma.nested (h2 a ha)
      · simp at ha; subst ha; exact h3
    cases om with
    | false =>
      simp only [Bool.false_eq_true, if_false] at h4
      exact fin body d e2 hd (nestedCommas _ _ h4 hnest) h1 hnest (hcommas _ _ h4)
    | true =>
      rw [if_pos rfl] at h4
      obtain ⟨rfl, h4⟩ := h4
      have hnf : ∀ a ∈ fixed, Nested a := fun a ha => NoTopComma.nested (h2 a ha)
      split at h4
      · rename_i hf
        subst hf
        refine fin body d e2 hd (by rw [h4]; exact .nil) h1 hnest ?_
        intro a ha
        rw [e3] at ha; simp at ha; subst ha
        exact ⟨by simp, fun x hx => by simp at hx⟩
      · refine fin body d e2 hd (nestedCommas _ _ h4 hnf) h1 hnest ?_
        intro a ha
        rw [e3] at ha
        rcases List.mem_append.1 ha with ha | ha
        · exact hcommas _ _ h4 a ha
        · simp at ha; subst ha; exact ⟨by simp, fun x hx => by simp at hx⟩

theorem nested_cl0 {a : List PTok} (h : Nested a) : cl (P a) = some 0 := by
  have := nested_cl h []
  rwa [List.append_nil] at this

/-- An expansion of lists keeps the parentheses closed. -/
def KeepsClosed (exp : List Name → List PTok → Run (List PTok)) : Prop :=
  ∀ o a e, exp o a = .done e → WfToks a → WfToks e ∧ Cl (P a) (P e)

theorem Call.argOk {E : Mac.Env} {exp : List Name → List PTok → Run (List PTok)} {outer : List Name} {locks : Locks} {t : PTok} {r : List PTok}
    {m : Macro} (c : Call E exp outer locks t r m) (hm : m.vaArg = true → m.params ≠ []) (hexp : KeepsClosed exp) (hw : WfToks r) :
    CtxOk (ctx exp outer c.l m c.args c.o) := by
  obtain ⟨text, q, e, hq, hn, _, ha, _⟩ := c.facts hm
  intro a haa
  obtain ⟨x, hx, rfl⟩ := List.mem_map.1 haa
  obtain ⟨h1, h2, h3⟩ := ha x hx
  have hwx : WfToks x := by
    intro y hy
    obtain ⟨z, hz, ez⟩ := h3 y hy
    have hz' : z ∈ r := by rw [e]; simp [hz]
    have := hw z hz'
    have e1 : y.kind = z.kind := by have := congrArg PTok.kind ez; exact this
    have e2 : y.text = z.text := by have := congrArg PTok.text ez; exact this
    unfold WfTok NotParen at this ⊢
    rw [e1, e2]; exact this
  refine ⟨hwx, ?_, ?_⟩
  · show cl (P x) ≠ none
    rw [nested_cl0 h1]; simp
  · intro ee he
    obtain ⟨g1, g2⟩ := hexp _ _ _ he hwx
    obtain ⟨k, _, hk⟩ := g2 0 (nested_cl0 h1)
    exact ⟨g1, by rw [hk]; simp⟩

/-- A replacement is the insertion of a list without unmatched opening parentheses. -/
theorem Repl.shape {E : Mac.Env} (hE : TableOk E) {exp : List Name → List PTok → Run (List PTok)} (hexp : KeepsClosed exp) {outer : List Name} {locks : Locks}
    {t : PTok} {r : List PTok} {m : Macro} {s : Locks × List PTok} (hm : E.find t.text = some m) (hk : t.kind = .ident) (hw : WfToks (t :: r))
    (h : Repl E exp outer locks t r m s) :
    (m.handler = true ∧ s = (locks, align (E.builtin t) t :: r)) ∨
    (∃ b, s = enter locks t b r ∧ WfToks b ∧ cl (P b) ≠ none) ∨
    (∃ (c : Call E exp outer locks t r m) (b : List PTok), s = enter c.l t b c.rest ∧ WfToks b ∧ cl (P b) ≠ none) := by
  cases h with
  | builtin h => exact .inl ⟨h, rfl⟩
  | obj b h1 h2 h3 =>
    obtain ⟨g1, g2⟩ := insertObj_ok E hE.toTokOk _ _ _ h3 (fun _ h => by simp at h) (hE.wf _ _ hm)
    exact .inr (.inl ⟨b, rfl, g1, by rw [g2]; exact hE.closed _ _ hm⟩)
  | fn c b h1 h2 h3 =>
    have hctx := c.argOk (hE.va _ _ hm) hexp (wf_cons.1 hw).2
    obtain ⟨g1, q, g2, g3⟩ := (subst_ok E hE.toTokOk _ hctx m.body.length).1 _ _ _ h3 (fun _ h => by simp at h) (hE.wf _ _ hm)
    refine .inr (.inr ⟨c, _, rfl, ?_, ?_⟩)
    · intro x hx; exact g1 x (List.mem_filter.1 hx).1
    · rw [P_filter g1, g2]
      cases hc : cl (P m.body) with
      | none => exact absurd hc (hE.closed _ _ hm)
      | some k =>
        obtain ⟨k', _, e⟩ := g3 k hc
        intro hh
        have : P ([] : List PTok).reverse ++ q = q := rfl
        rw [this, e] at hh; cases hh

theorem call_cl {E : Mac.Env} {exp : List Name → List PTok → Run (List PTok)} {outer : List Name} {locks : Locks} {t : PTok} {r : List PTok}
    {m : Macro} (c : Call E exp outer locks t r m) (hm : m.vaArg = true → m.params ≠ []) (ht : NotParen t) : cl (P (t :: r)) = cl (P c.rest) := by
  obtain ⟨text, q, e, hq, hn, _⟩ := c.facts hm
  have hp := c.hp
  generalize c.p = p at e hp
  generalize c.rest = rest at e ⊢
  subst e
  exact vaopt_cl ht hp hn hq

theorem expand_closed {E : Mac.Env} (hE : TableOk E) : ∀ f outer locks toks out, expand E f outer locks toks = .done out → WfToks toks →
    WfToks out ∧ Cl (P toks) (P out)
  | 0, outer, locks, toks, out, h, _ => by rw [expand] at h; cases h
  | f + 1, outer, locks, [], out, h, hw => by
    rw [expand] at h
    split at h
    · cases h; exact ⟨hw, Cl.refl _⟩
    · cases h
  | f + 1, outer, locks, t :: r, out, h, hw => by
    rw [expand] at h
    have hexp : KeepsClosed (fun o ts => expand E f o [] ts) := fun o a e he hwa => expand_closed hE f o [] a e he hwa
    obtain ⟨s, h1, h2⟩ := (bind_done_iff _ _ _).1 h
    cases s with
    | inl t' =>
      dsimp only at h2
      obtain ⟨o1, h3, h4⟩ := (bind_done_iff _ _ _).1 h2
      cases h4
      obtain ⟨g1, g2⟩ := expand_closed hE f _ _ _ _ h3 (wf_cons.1 hw).2
      have hpar : par t' = par t ∧ WfTok t' := by
        rcases expandMacro_inl E _ _ _ _ _ _ h1 with ⟨rfl, _⟩ | ⟨rfl, _⟩
        · exact ⟨rfl, (wf_cons.1 hw).1⟩
        · exact ⟨rfl, (wf_cons.1 hw).1⟩
      refine ⟨wf_cons.2 ⟨hpar.2, g1⟩, ?_⟩
      rw [P_cons, P_cons, hpar.1]
      exact g2.append_left _
    | inr s =>
      obtain ⟨l, ts⟩ := s
      dsimp only at h2
      obtain ⟨hne, m, hm, _, hr⟩ := expandMacro_inr E _ _ _ _ _ _ h1
      obtain ⟨hk, hf⟩ := look_find hm
      have hnp : NotParen t := (wf_cons.1 hw).1 (by rw [hk]; decide)
      have step : WfToks ts ∧ Cl (P (t :: r)) (P ts) := by
        rcases hr.shape hE hexp hf hk hw with ⟨_, e⟩ | ⟨b, e, hb1, hb2⟩ | ⟨c, b, e, hb1, hb2⟩
        · cases e
          refine ⟨wf_cons.2 ⟨WfTok.of_np (hE.builtin t).1, (wf_cons.1 hw).2⟩, ?_⟩
          rw [P_cons, P_cons, par_align, (hE.builtin t).1.par, hnp.par]
          exact Cl.refl _
        · have e2 : ts = (enter locks t b r).2 := by rw [← e]
          obtain ⟨g1, g2⟩ := enter_toks locks t b r hb1 (wf_cons.1 hw).2
          rw [e2]
          refine ⟨g1, ?_⟩
          rw [g2, P_cons, hnp.par]
          exact Cl.insert hb2 (Cl.refl _)
        · have e2 : ts = (enter c.l t b c.rest).2 := by rw [← e]
          have hwr : WfToks c.rest := by
            obtain ⟨text, q, er, _⟩ := c.facts (hE.va _ _ hf)
            have := (wf_cons.1 hw).2
            intro x hx
            exact this x (by rw [er]; simp [hx])
          obtain ⟨g1, g2⟩ := enter_toks c.l t b c.rest hb1 hwr
          rw [e2]
          refine ⟨g1, ?_⟩
          rw [g2]
          refine Cl.trans ?_ (Cl.insert hb2 (Cl.refl (P c.rest)))
          intro k hk
          rw [call_cl c (hE.va _ _ hf) hnp] at hk
          exact ⟨k, Nat.le_refl _, hk⟩
      obtain ⟨g1, g2⟩ := expand_closed hE f _ _ _ _ h2 step.1
      exact ⟨g1, step.2.trans g2⟩

/-! ### The locks -/

/-- The inner lock ends first. -/
def Desc : Nat → Locks → Prop
  | _, [] => True
  | n, l :: ls => l.2 ≤ n ∧ Desc l.2 ls

theorem Desc.le : ∀ {n : Nat} {ls : Locks}, Desc n ls → ∀ l ∈ ls, l.2 ≤ n
  | n, [], _, l, h => by simp at h
  | n, x :: ls, hd, l, h => by
    rcases List.mem_cons.1 h with rfl | h
    · exact hd.1
    · have := Desc.le hd.2 l h; have := hd.1; omega

theorem Desc.down {n m : Nat} {ls : Locks} (h : Desc n ls) (hl : ∀ l ∈ ls, l.2 ≤ m) : Desc m ls := by
  cases ls with
  | nil => trivial
  | cons x ls => exact ⟨hl x (by simp), h.2⟩

theorem popLocks_eq : ∀ {n : Nat} {ls : Locks}, Desc n ls → popLocks n ls = ls.filter (fun l => decide (l.2 < n)) ∧ Desc n (popLocks n ls)
  | n, [], _ => ⟨rfl, trivial⟩
  | n, x :: ls, h => by
    rw [popLocks]
    split
    · rename_i e
      have hd : Desc n ls := by have := h.2; rwa [e] at this
      obtain ⟨h1, h2⟩ := popLocks_eq hd
      refine ⟨?_, h2⟩
      rw [List.filter_cons, if_neg (by simp; omega), h1]
    · rename_i e
      have hx : x.2 < n := by have := h.1; omega
      refine ⟨?_, h⟩
      symm
      rw [List.filter_eq_self]
      intro l hl
      rcases List.mem_cons.1 hl with rfl | hl
      · simpa using hx
      · have := Desc.le h.2 l hl
        simp; omega

theorem popLocks_desc {n : Nat} {ls : Locks} (h : Desc (n + 1) ls) : Desc n (popLocks (n + 1) ls) := by
  obtain ⟨h1, h2⟩ := popLocks_eq h
  refine h2.down ?_
  intro l hl
  rw [h1] at hl
  have := (List.mem_filter.1 hl).2
  simp at this; omega

theorem popLocks_zero {ls : Locks} (h : Desc 0 ls) : popLocks 0 ls = [] := by
  rw [(popLocks_eq h).1]
  simp

theorem prepare_locks (E : Mac.Env) (outer : List Name) : ∀ (ts : List PTok) (k : Nat) (locks : Locks) (as rest : List PTok) (l : Locks),
    prepare E outer k locks ts = .done (as, rest, l) → Desc ts.length locks →
    rest.length < ts.length ∧ l = locks.filter (fun x => decide (x.2 ≤ rest.length)) ∧ Desc rest.length l
  | [], k, locks, as, rest, l, h, _ => by rw [prepare] at h; cases h
  | t :: r, k, locks, as, rest, l, h, hd => by
    have hd1 : Desc r.length (popLocks (r.length + 1) locks) := popLocks_desc hd
    have he : popLocks (r.length + 1) locks = locks.filter (fun x => decide (x.2 < r.length + 1)) := (popLocks_eq hd).1
    rw [prepare] at h
    dsimp only at h
    split at h
    · cases h
      refine ⟨by simp, ?_, hd1⟩
      rw [he]
      congr 1
      funext x
      simp; omega
    · obtain ⟨⟨as2, rest2, l2⟩, h1, h2⟩ := (bind_done_iff _ _ _).1 h
      obtain ⟨rfl, rfl⟩ : rest = rest2 ∧ l = l2 := by cases h2; exact ⟨rfl, rfl⟩
      obtain ⟨g1, g2, g3⟩ := prepare_locks E outer r _ _ _ _ _ h1 hd1
      refine ⟨by simp; omega, ?_, g3⟩
      rw [g2, he, List.filter_filter]
      congr 1
      funext x
      by_cases hx : x.2 ≤ rest.length
      · have : x.2 < r.length + 1 := by omega
        simp [hx, this]
      · simp [hx]

theorem Call.locks_eq {E : Mac.Env} {exp : List Name → List PTok → Run (List PTok)} {outer : List Name} {locks : Locks} {t : PTok} {r : List PTok}
    {m : Macro} (c : Call E exp outer locks t r m) (hd : Desc r.length locks) :
    c.rest.length < r.length ∧ c.l = locks.filter (fun x => decide (x.2 ≤ c.rest.length)) ∧ Desc c.rest.length c.l := by
  obtain ⟨p, r1, as, rest, l, args, o, tl, hr, hp, prep, read⟩ := c
  dsimp only
  subst hr
  have hd1 : Desc r1.length (popLocks (r1.length + 1) locks) := popLocks_desc hd
  have he : popLocks (r1.length + 1) locks = locks.filter (fun x => decide (x.2 < r1.length + 1)) := (popLocks_eq hd).1
  obtain ⟨g1, g2, g3⟩ := prepare_locks E outer r1 0 _ as rest l prep hd1
  refine ⟨by simp; omega, ?_, g3⟩
  refine g2.trans ?_
  show List.filter _ (popLocks (r1.length + 1) locks) = _
  rw [he, List.filter_filter]
  congr 1
  funext x
  by_cases hx : x.2 ≤ rest.length
  · have : x.2 < r1.length + 1 := by omega
    simp [hx, this]
  · simp [hx]

end Slimcc.MacL
