import Verif.Lemmas.Declarator
set_option autoImplicit false
namespace Slimcc.Declr

def Direct.isHead : Direct → Bool
  | .name _ | .abs | .paren _ => true
  | _ => false

/-- A head followed by brackets. -/
def arrs (h : Direct) : List Br → Direct
  | [] => h
  | b :: bs => arrs (.arr h b) bs

theorem arrs_snoc (b : Br) : ∀ (bs : List Br) (h : Direct), Direct.arr (arrs h bs) b = arrs h (bs ++ [b])
  | [], _ => rfl
  | _ :: bs, _ => arrs_snoc b bs _

theorem arrs_text : ∀ (bs : List Br) (h : Direct), (arrs h bs).text = h.text ++ bs.flatMap Br.text
  | [], h => by simp [arrs]
  | b :: bs, h => by rw [arrs, arrs_text bs]; simp [Direct.text]

theorem arrs_declared : ∀ (bs : List Br) (h : Direct), (arrs h bs).declared = h.declared
  | [], h => rfl
  | b :: bs, h => by rw [arrs, arrs_declared bs]; simp [Direct.declared]

theorem arrs_type (c : Bool) (t : Ty) : ∀ (bs : List Br) (h : Direct), (arrs h bs).type c t = h.type c (arrsTy bs t)
  | [], h => rfl
  | b :: bs, h => by rw [arrs, arrs_type c t bs]; simp [Direct.type, arrsTy]

/-- A direct declarator that C allows: a head, a head with brackets, or a head with parameters. -/
theorem shape (c pc cc par : Bool) : ∀ (d : Direct) (t : Ty), d.Ok c pc cc par t →
    (∃ h ps, d = .fn h ps ∧ h.isHead = true ∧ t.isFn = false ∧ t.isArr = false) ∨
    (∃ h bs, d = arrs h bs ∧ h.isHead = true ∧ (bs ≠ [] → t.isFn = false))
  | .name x, t, _ => .inr ⟨.name x, [], rfl, rfl, fun h => absurd rfl h⟩
  | .abs, t, _ => .inr ⟨.abs, [], rfl, rfl, fun h => absurd rfl h⟩
  | .paren d, t, _ => .inr ⟨.paren d, [], rfl, rfl, fun h => absurd rfl h⟩
  | .arr d b, t, h => by
    rw [Direct.Ok] at h
    obtain ⟨hf, _, _, _, h⟩ := h
    rcases shape c pc cc par d _ h with ⟨h', ps, rfl, _, _, ha⟩ | ⟨h', bs, rfl, hh, _⟩
    · simp [Br.of, Ty.isArr] at ha
    · exact .inr ⟨h', bs ++ [b], arrs_snoc b bs h', hh, fun _ => hf⟩
  | .fn d ps, t, h => by
    rw [Direct.Ok] at h
    obtain ⟨hf, ha, _, _, h⟩ := h
    rcases shape c pc cc par d _ h with ⟨h', ps', rfl, _, hfn, _⟩ | ⟨h', bs, rfl, hh, hbs⟩
    · simp [Ty.isFn] at hfn
    · cases bs with
      | nil => exact .inl ⟨h', ps, rfl, hh, hf, ha⟩
      | cons b bs => simp [Ty.isFn] at hbs

theorem arrs_last : ∀ (bs : List Br) (h : Direct), (arrs h bs).last = true → bs = []
  | [], _, _ => rfl
  | b :: bs, h, hl => by
    have := arrs_last bs (.arr h b) hl
    subst this; simp [arrs, Direct.last] at hl

theorem arrs_ok (c pc cc par : Bool) (t : Ty) (h : Direct) : ∀ (bs : List Br), (arrs h bs).Ok c pc cc par t →
    AllAllowed cc bs t ∧ h.Ok c pc cc par (arrsTy bs t) ∧ (∀ x ∈ bs.tail, x.plain = true) := by
  intro bs
  -- from the last bracket, which is applied first
  suffices H : ∀ (n : Nat) (bs : List Br) (t : Ty), bs.length = n → (arrs h bs).Ok c pc cc par t →
      AllAllowed cc bs t ∧ h.Ok c pc cc par (arrsTy bs t) ∧ (∀ x ∈ bs.tail, x.plain = true) from H _ bs t rfl
  intro n
  induction n with
  | zero =>
    intro bs t hn hk
    cases bs with
    | nil => exact ⟨trivial, hk, by simp⟩
    | cons b bs => simp at hn
  | succ n ih =>
    intro bs t hn hk
    rcases List.eq_nil_or_concat bs with rfl | ⟨bs', b, rfl⟩
    · simp at hn
    · rw [List.concat_eq_append] at *
      rw [← arrs_snoc, Direct.Ok] at hk
      obtain ⟨_, _, hp, ha, hk⟩ := hk
      obtain ⟨h1, h2, h3⟩ := ih bs' (b.of t) (by simpa using hn) hk
      have happ : ∀ l : List Br, AllAllowed cc l (b.of t) → AllAllowed cc (l ++ [b]) t := by
        intro l
        induction l with
        | nil => intro _; exact ⟨ha, trivial⟩
        | cons x l ihl =>
          intro hl
          refine ⟨?_, ihl hl.2⟩
          have := hl.1
          simpa [arrsTy] using this
      refine ⟨happ bs' h1, by simpa [arrsTy] using h2, ?_⟩
      cases bs' with
      | nil => simp
      | cons x bs' =>
        intro y hy
        simp only [List.cons_append, List.tail_cons, List.mem_append, List.mem_singleton] at hy
        rcases hy with hy | rfl
        · exact h3 y hy
        · rcases hp with hp | ⟨_, hl⟩
          · exact hp
          · have := arrs_last _ _ hl; simp at this

/-! ### What a declarator begins with -/

theorem direct_start : ∀ d : Direct, d = .abs ∨ ∃ k l, d.text = k :: l ∧ ((∃ x, k = .ident x) ∨ k = .lp ∨ k = .lb)
  | .name x => .inr ⟨.ident x, [], by simp [Direct.text], .inl ⟨x, rfl⟩⟩
  | .abs => .inl rfl
  | .paren d => .inr ⟨.lp, d.text ++ [.rp], by simp [Direct.text], .inr (.inl rfl)⟩
  | .arr d b => by
    rcases direct_start d with rfl | ⟨k, l, e, hk⟩
    · exact .inr ⟨.lb, _, by rw [Direct.text, br_text]; simp [Direct.text]; rfl, .inr (.inr rfl)⟩
    · exact .inr ⟨k, l ++ b.text, by simp [Direct.text, e], hk⟩
  | .fn d ps => by
    rcases direct_start d with rfl | ⟨k, l, e, hk⟩
    · exact .inr ⟨.lp, ps.text ++ [.rp], by simp [Direct.text], .inr (.inl rfl)⟩
    · exact .inr ⟨k, l ++ .lp :: ps.text ++ [.rp], by simp [Direct.text, e], hk⟩

theorem not_params (d : Dcl) (h : d.isEmpty = false) (r : List Tok) : startsParams (d.text ++ r) = false := by
  cases d with
  | mk ps d =>
    rw [Dcl.text]
    cases ps with
    | cons p ps => simp [ptrText, startsParams, Tok.isTypename]
    | nil =>
      rcases direct_start d with rfl | ⟨k, l, e, hk⟩
      · simp [Dcl.isEmpty] at h
      · simp only [List.flatMap_nil, List.nil_append, e, List.cons_append]
        rcases hk with ⟨x, rfl⟩ | rfl | rfl <;> simp [startsParams, Tok.isTypename]

/-! ### Parameters -/

variable (std23 gi : Bool)

/-- Declarators shorter than `n` are read as they should be. -/
def Reads (n : Nat) : Prop := ∀ (d : Dcl), d.text.length < n → ∀ (cc par : Bool) (t : Ty) (rest : List Tok) (named : Bool) (f : Nat),
  d.Ok std23 gi cc par t → Follows rest → (named = false → d.declared = none) → 8 * (d.text ++ rest).length + 4 ≤ f →
  declr std23 gi f named (d.text ++ rest) cc t = .ok (d.type std23 t, d.declared, rest)

theorem tl_ok {n : Nat} (hn : Reads std23 gi n) (rest : List Tok) : ∀ (tl : ParTl) (f : Nat), tl.text.length < n → tl.Ok std23 gi →
    8 * (tl.text ++ .rp :: rest).length + 1 ≤ f →
    paramLoop std23 gi f true (tl.text ++ .rp :: rest) = .ok (tl.params std23, tl.variadic, rest)
  | .done, f, _, _, hf => by
    obtain ⟨f, rfl⟩ : ∃ g, f = g + 1 := ⟨f - 1, by omega⟩
    simp [ParTl.text, paramLoop, ParTl.params, ParTl.variadic]
  | .dots, f, _, _, hf => by
    obtain ⟨f, rfl⟩ : ∃ g, f = g + 2 := ⟨f - 2, by simp [ParTl.text] at hf; omega⟩
    simp [ParTl.text, paramLoop, param, ParTl.params, ParTl.variadic]
  | .more s d tl, f, hl, hk, hf => by
    rw [ParTl.Ok] at hk
    simp only [ParTl.text, List.length_append, List.length_cons] at hf hl
    obtain ⟨f, rfl⟩ : ∃ g, f = g + 2 := ⟨f - 2, by omega⟩
    have hfol : Follows (tl.text ++ .rp :: rest) := by cases tl <;> simp [ParTl.text, Follows, Tok.follows]
    have h1 := hn d (by omega) gi true (.spec s) (tl.text ++ .rp :: rest) true f hk.1 hfol (by simp) (by
      simp only [List.length_append, List.length_cons]; omega)
    have h2 := tl_ok hn rest tl f (by omega) hk.2 (by simp only [List.length_append, List.length_cons]; omega)
    simp only [ParTl.text, List.cons_append, List.append_assoc, paramLoop, if_true, param, h1, h2, bind, Except.bind, paramTy_eq,
      ParTl.params, ParTl.variadic]

theorem pars_ok {n : Nat} (hn : Reads std23 gi n) (rest : List Tok) (ps : Pars) (t : Ty) (f : Nat) (hl : ps.text.length < n)
    (ha : t.isArr = false) (hk : ps.Ok std23 gi) (hf : 8 * (ps.text ++ .rp :: rest).length + 2 ≤ f) :
    funcParams std23 gi f (ps.text ++ .rp :: rest) t =
      .ok (.fn t.unqual (ps.params std23) ps.variadic (ps.oldstyle std23), rest) := by
  obtain ⟨f, rfl⟩ : ∃ g, f = g + 1 := ⟨f - 1, by omega⟩
  cases ps with
  | empty => simp [Pars.text, funcParams, ha, unqualified_eq t ha, Pars.params, Pars.variadic, Pars.oldstyle]
  | void => simp [Pars.text, funcParams, ha, unqualified_eq t ha, Pars.params, Pars.variadic, Pars.oldstyle]
  | dots => simp [Pars.text, funcParams, ha, unqualified_eq t ha, Pars.params, Pars.variadic, Pars.oldstyle]
  | list s d tl =>
    rw [Pars.Ok] at hk
    simp only [Pars.text, List.length_append, List.length_cons] at hf hl
    obtain ⟨f, rfl⟩ : ∃ g, f = g + 2 := ⟨f - 2, by omega⟩
    have hfol : Follows (tl.text ++ .rp :: rest) := by cases tl <;> simp [ParTl.text, Follows, Tok.follows]
    have h1 := hn d (by omega) gi true (.spec s) (tl.text ++ .rp :: rest) true f hk.1 hfol (by simp) (by
      simp only [List.length_append, List.length_cons]; omega)
    have h2 := tl_ok std23 gi hn rest tl f (by omega) hk.2.1 (by simp only [List.length_append, List.length_cons]; omega)
    have h3 : paramLoop std23 gi (f + 2) false (.spec s :: (d.text ++ (tl.text ++ .rp :: rest))) =
        .ok ((d.declared, (d.type std23 (.spec s)).adjust) :: tl.params std23, tl.variadic, rest) := by
      simp [paramLoop, param, h1, h2, bind, Except.bind, paramTy_eq]
    simp only [Pars.text, List.cons_append, List.append_assoc]
    have hnv : ∀ r, .spec s :: (d.text ++ (tl.text ++ .rp :: rest)) ≠ .spec .void :: .rp :: r := by
      intro r e
      injection e with e1 e2
      injection e1 with e1
      subst e1
      have hm := hk.2.2
      cases d with
      | mk pp dd =>
        cases pp with
        | cons p pp => simp [Dcl.text, ptrText] at e2
        | nil =>
          rcases direct_start dd with rfl | ⟨k, l, e, hkk⟩
          · cases tl with
            | done => simp [soleVoid] at hm
            | dots => simp [Dcl.text, Direct.text, ParTl.text] at e2
            | more => simp [Dcl.text, Direct.text, ParTl.text] at e2
          · simp only [Dcl.text, List.flatMap_nil, List.nil_append, e, List.cons_append] at e2
            injection e2 with e2
            subst e2
            rcases hkk with ⟨x, hx⟩ | hx | hx <;> cases hx
    rw [funcParams.eq_def]
    simp only [ha, Bool.false_eq_true, if_false]
    split
    · next heq => cases heq
    · next heq => exact absurd heq (hnv _)
    · next heq => cases heq
    · next heq =>
      injection heq with e1 e2
      subst e1; subst e2
      simp only [Tok.isTypename, if_true, h3, bind, Except.bind, unqualified_eq t ha, Pars.params, Pars.variadic, Pars.oldstyle]
    · next heq => cases heq

/-! ### Suffixes and declarators -/

theorem suffix_none (f : Nat) (rest : List Tok) (cc : Bool) (t : Ty) (h : Follows rest) :
    typeSuffix std23 gi (f + 1) rest cc t = .ok (t, rest) := by
  cases rest with
  | nil => simp [typeSuffix]
  | cons k r =>
    have : k.follows = true := h k (by simp)
    cases k <;> first | (simp [typeSuffix]; done) | (simp [Tok.follows] at this)

theorem follows_lb {rest : List Tok} (h : Follows rest) : ∀ r, rest ≠ .lb :: r := by
  rintro r rfl
  have : Tok.follows .lb = true := h .lb (by simp)
  simp [Tok.follows] at this

/-- The text, the type and the suffix of a direct declarator are those of its head and what comes after it. -/
theorem suffix_ok {n : Nat} (hn : Reads std23 gi n) (d : Direct) (cc par : Bool) (t : Ty) (hd : d.text.length ≤ n)
    (hk : d.Ok std23 gi cc par t) :
    ∃ (h : Direct) (sfx : List Tok) (u : Ty), h.isHead = true ∧ d.text = h.text ++ sfx ∧ d.type std23 t = h.type std23 u ∧
      d.declared = h.declared ∧ h.Ok std23 gi cc par u ∧
      (∀ (rest : List Tok) (f : Nat), Follows rest → 8 * (sfx ++ rest).length + 3 ≤ f →
        typeSuffix std23 gi f (sfx ++ rest) cc t = .ok (u, rest)) ∧
      (h = .abs → (sfx = [] ∨ (∃ l, sfx = .lb :: l)) ∨
        ∃ ps : Pars, ps.isDots = false ∧ sfx = .lp :: (ps.text ++ [.rp]) ∧
          ∀ (rest : List Tok) (f : Nat), 8 * (sfx ++ rest).length ≤ f →
            funcParams std23 gi f (ps.text ++ .rp :: rest) t = .ok (u, rest)) := by
  rcases shape std23 gi cc par d t hk with ⟨h, ps, rfl, hh, hf, ha⟩ | ⟨h, bs, rfl, hh, _⟩
  · rw [Direct.Ok] at hk
    obtain ⟨_, _, hdots, hps, hk⟩ := hk
    have hl : ps.text.length < n := by simp [Direct.text] at hd; omega
    refine ⟨h, .lp :: (ps.text ++ [.rp]), _, hh, by simp [Direct.text], by rw [Direct.type], by rw [Direct.declared], hk, ?_, ?_⟩
    · intro rest f _ hf
      simp only [List.cons_append, List.append_assoc, List.nil_append, List.length_cons] at hf ⊢
      obtain ⟨f, rfl⟩ : ∃ g, f = g + 1 := ⟨f - 1, by omega⟩
      rw [typeSuffix]
      exact pars_ok std23 gi hn rest ps t f hl ha hps (by omega)
    · rintro rfl
      refine .inr ⟨ps, ?_, rfl, ?_⟩
      · cases hx : ps.isDots with
        | false => rfl
        | true => have := hdots hx; simp [Direct.isAbs] at this
      · intro rest f hf
        simp only [List.cons_append, List.append_assoc, List.nil_append, List.length_cons] at hf
        exact pars_ok std23 gi hn rest ps t f hl ha hps (by omega)
  · obtain ⟨hal, hk, hp⟩ := arrs_ok std23 gi cc par t h bs hk
    refine ⟨h, bs.flatMap Br.text, arrsTy bs t, hh, arrs_text bs h, arrs_type std23 t bs h, arrs_declared bs h, hk, ?_, ?_⟩
    · intro rest f hr hf
      cases bs with
      | nil =>
        obtain ⟨f, rfl⟩ : ∃ g, f = g + 1 := ⟨f - 1, by omega⟩
        exact suffix_none std23 gi f rest cc t hr
      | cons b bs => exact suffix_arrs std23 gi cc t rest (follows_lb hr) b bs f hp hal (by omega)
    · intro _
      cases bs with
      | nil => exact .inl (.inl rfl)
      | cons b bs => exact .inl (.inr ⟨_, by rw [List.flatMap_cons, br_text]; rfl⟩)

theorem reads_all : ∀ n : Nat, Reads std23 gi n := by
  intro n
  induction n with
  | zero => intro d hd; omega
  | succ n ih =>
    intro d hd cc par t rest named f hk hr hname hf
    cases d with
    | mk ps d =>
    rw [Dcl.Ok] at hk
    simp only [Dcl.text, List.length_append] at hd hf
    obtain ⟨h, sfx, u, hh, htext, htype, hdec, hhk, hsuf, habs⟩ :=
      suffix_ok std23 gi ih d cc par (ptrTo ps t) (by omega) hk
    obtain ⟨f, rfl⟩ : ∃ g, f = g + 1 := ⟨f - 1, by omega⟩
    have hlen : d.text.length = h.text.length + sfx.length := by rw [htext, List.length_append]
    simp only [Dcl.type, Dcl.declared, htype, hdec] at *
    have hsuf := hsuf rest f hr (by simp only [List.length_append]; omega)
    have hptr : ∀ l, (∀ q r', l ≠ .qual q :: r') → (∀ r', l ≠ .star :: r') →
        pointers (ps.flatMap ptrText ++ l).length (ps.flatMap ptrText ++ l) t = (ptrTo ps t, l) := by
      intro l h1 h2
      have := stars_length ps
      exact pointers_of l h1 h2 ps _ t (by rw [List.length_append]; omega)
    have etext : (Dcl.mk ps d).text ++ rest = ps.flatMap ptrText ++ (h.text ++ (sfx ++ rest)) := by
      rw [Dcl.text, htext]; simp
    rw [etext, declr]
    cases h with
    | arr => simp [Direct.isHead] at hh
    | fn => simp [Direct.isHead] at hh
    | name x =>
      have hn : named = true := by
        cases named with
        | true => rfl
        | false => simp [Direct.declared] at hname
      rw [hptr _ (by simp [Direct.text]) (by simp [Direct.text])]
      simp [Direct.text, hn, hsuf, bind, Except.bind, Direct.type, Direct.declared]
    | paren d' =>
      rw [Direct.Ok] at hhk
      rw [hptr _ (by simp [Direct.text]) (by simp [Direct.text])]
      have hl : d'.text.length + 2 = (Direct.paren d').text.length := by simp [Direct.text]
      have h1 := ih d' (by omega) cc par u (.rp :: (sfx ++ rest)) named f hhk.2 (by simp [Follows, Tok.follows])
        (by simpa [Direct.declared] using hname) (by simp only [List.length_append, List.length_cons]; omega)
      have h2 : skipParen 0 (d'.text ++ .rp :: (sfx ++ rest)) = some (sfx ++ rest) := by
        rw [bal_dcl d']; simp [skipParen]
      have h3 := not_params d' hhk.1 (.rp :: (sfx ++ rest))
      simp only [Direct.text, List.cons_append, List.append_assoc, List.nil_append, h3, Bool.false_eq_true, if_false, h2, hsuf,
        bind, Except.bind, h1, Direct.type, Direct.declared]
    | abs =>
      simp only [Direct.text, List.nil_append, Direct.type, Direct.declared]
      rcases habs rfl with (rfl | ⟨l, rfl⟩) | ⟨ps', hnd, rfl, hfp⟩
      · simp only [List.nil_append] at hsuf ⊢
        rw [hptr rest (by rintro q r' rfl; have := hr (.qual q) (by simp); simp [Tok.follows] at this)
          (by rintro r' rfl; have := hr .star (by simp); simp [Tok.follows] at this)]
        cases rest with
        | nil => simp [hsuf, bind, Except.bind]
        | cons k r =>
          have hk : k.follows = true := hr k (by simp)
          cases k <;> first | (simp [Tok.follows] at hk; done) | (simp [hsuf, bind, Except.bind])
      · rw [hptr _ (by simp) (by simp)]
        simp only [List.cons_append] at hsuf ⊢
        simp [hsuf, bind, Except.bind]
      · rw [hptr _ (by simp) (by simp)]
        have hsp : startsParams (ps'.text ++ .rp :: rest) = true := by
          cases ps' <;> simp_all [Pars.text, startsParams, Tok.isTypename, Pars.isDots]
        have := hfp rest f (by simp only [List.length_append]; omega)
        simp only [List.cons_append, List.append_assoc, List.nil_append, hsp, if_true, this, bind, Except.bind]

end Slimcc.Declr
