import Verif.Lemmas.Globals
/-! File scope declarations: the invariant is kept. -/
set_option autoImplicit false
namespace Slimcc.Globals
open Slimcc.Spec.Link

theorem align_mono {a b : List Event} {t : STy} {m : Nat} (h : t.align a = some m) : t.align (a ++ b) = some m := by
  cases t with
  | tag s =>
    unfold STy.align at h ⊢
    dsimp only at h ⊢
    rw [tagOf_append]
    cases ht : tagOf a s with
    | none => rw [ht] at h; cases h
    | some p => rw [ht] at h; exact h
  | _ => exact h

theorem known_prefix {a b : List Event} {x : Nat} (h : Known (a ++ b) x) : Known a x :=
  fun p d q e => h p d (q ++ b) (by rw [e]; simp)

theorem Inv.step {a : List Event} {s s' : St} {e : Event} {x i : Nat} {g' : GObj} (h : Inv a s)
    (hO : ∀ y, y ≠ x → objDecls [e] y = [] ∧ fnDecls [e] y = [])
    (htags : ∀ t, s'.tags t = tagOf (a ++ [e]) t)
    (hlook : look s'.file x = some (.obj i)) (hg' : s'.objs[i]? = some g') (hname : g'.name = x)
    (hfile : ∀ y, y ≠ x → look s'.file y = look s.file y)
    (hobjs : ∀ j g, j ≠ i → s.objs[j]? = some g → s'.objs[j]? = some g)
    (hold : ∀ j g, j ≠ i → s'.objs[j]? = some g → g.isDef = true → s.objs[j]? = some g)
    (hx : look s.file x = some (.obj i) ∨ look s.file x = none)
    (hni : ∀ g, s.objs[i]? = some g → g.name = x)
    (hsome : objDecls (a ++ [e]) x ≠ [] ∨ fnDecls (a ++ [e]) x ≠ [])
    (hobj : objDecls (a ++ [e]) x ≠ [] → ObjSum (objDecls (a ++ [e]) x) g')
    (hfn : fnDecls (a ++ [e]) x ≠ [] → FnSum (fnDecls (a ++ [e]) x) g')
    (hal : ∀ d, (objDecls (a ++ [e]) x).head? = some d → Known (a ++ [e]) x → d.ty.align (a ++ [e]) = some g'.align) :
    Inv (a ++ [e]) s' := by
  have same : ∀ y, y ≠ x → objDecls (a ++ [e]) y = objDecls a y ∧ fnDecls (a ++ [e]) y = fnDecls a y := by
    intro y hy
    rw [objDecls_append, fnDecls_append, (hO y hy).1, (hO y hy).2, List.append_nil, List.append_nil]
    exact ⟨rfl, rfl⟩
  have other : ∀ y j g, y ≠ x → look s.file y = some (.obj j) → s.objs[j]? = some g → s'.objs[j]? = some g := by
    intro y j g hy hl hg
    refine hobjs j g (fun e => ?_) hg
    subst e
    obtain ⟨i', g2, e1, e2, e3⟩ := h.idx y _ hl
    injection e1 with e1; subst e1
    rw [hg] at e2; injection e2 with e2; subst e2
    exact hy (e3.symm.trans (hni _ hg))
  refine ⟨htags, ?_, ?_, ?_, ?_, ?_, ?_⟩
  · intro y e' hl
    by_cases hy : y = x
    · subst hy
      rw [hlook] at hl; injection hl with hl; subst hl
      exact ⟨i, g', rfl, hg', hname⟩
    · rw [hfile y hy] at hl
      obtain ⟨j, g, rfl, e2, e3⟩ := h.idx y _ hl
      exact ⟨j, g, rfl, other y j g hy hl e2, e3⟩
  · intro y hne
    by_cases hy : y = x
    · subst hy
      exact ⟨i, g', hlook, hg', hobj hne⟩
    · rw [(same y hy).1] at hne ⊢
      obtain ⟨j, g, e1, e2, e3⟩ := h.obj y hne
      exact ⟨j, g, by rw [hfile y hy]; exact e1, other y j g hy e1 e2, e3⟩
  · intro y hne
    by_cases hy : y = x
    · subst hy
      exact ⟨i, g', hlook, hg', hfn hne⟩
    · rw [(same y hy).2] at hne ⊢
      obtain ⟨j, g, e1, e2, e3⟩ := h.func y hne
      exact ⟨j, g, by rw [hfile y hy]; exact e1, other y j g hy e1 e2, e3⟩
  · intro y h1 h2
    by_cases hy : y = x
    · subst hy
      rcases hsome with hs | hs
      · exact absurd h1 hs
      · exact absurd h2 hs
    · rw [(same y hy).1] at h1
      rw [(same y hy).2] at h2
      rw [hfile y hy]
      exact h.free y h1 h2
  · intro j g hg hd
    by_cases hj : j = i
    · subst hj
      rw [hg'] at hg; injection hg with hg; subst hg
      rw [hname]; exact hlook
    · have hl := h.only j g (hold j g hj hg hd) hd
      by_cases hn : g.name = x
      · rw [hn] at hl
        rcases hx with hx | hx
        · rw [hx] at hl; injection hl with hl; injection hl with hl; exact absurd hl.symm hj
        · rw [hx] at hl; cases hl
      · rw [hfile _ hn]; exact hl
  · intro y j g d hl hg hh hk
    by_cases hy : y = x
    · subst hy
      rw [hlook] at hl; injection hl with hl; injection hl with hl; subst hl
      rw [hg'] at hg; injection hg with hg; subst hg
      exact hal d hh hk
    · rw [hfile y hy] at hl
      rw [(same y hy).1] at hh
      obtain ⟨j', g2, e1, e2, _⟩ := h.idx y _ hl
      injection e1 with e1; subst e1
      have := other y _ g2 hy hl e2
      rw [hg] at this; injection this with this; subst this
      exact align_mono (h.align y _ _ d hl e2 hh (known_prefix hk))

theorem set_get {l : List GObj} {i : Nat} {g g' : GObj} (h : l[i]? = some g) : (l.set i g')[i]? = some g' := by
  rw [List.getElem?_set_self (List.getElem?_eq_some_iff.1 h).1]

theorem alignNow_eq {a : List Event} {s : St} (h : ∀ t, s.tags t = tagOf a t) (t : STy) (ht : ∀ s', t = .tag s' → (tagOf a s').isSome = true) :
    t.align a = some (alignNow s.tags t) := by
  cases t with
  | tag s' =>
    unfold STy.align alignNow
    dsimp only
    rw [h]
    have := ht s' rfl
    cases hc : tagOf a s' with
    | none => rw [hc] at this; cases this
    | some p => rfl
  | _ => rfl

theorem declare_name (g : GObj) (d : ObjDecl) (b : Bool) : (declare g d b).name = g.name := by
  unfold declare; cases d.init <;> rfl
theorem declare_align (g : GObj) (d : ObjDecl) (b : Bool) : (declare g d b).align = g.align := by
  unfold declare; cases d.init <;> rfl

/-- A declaration of an object. -/
theorem inv_obj {a : List Event} {s : St} (h : Inv a s) (d : ObjDecl) (hk : fnDecls a d.name = [])
    (hs : ¬ (d.static = true ∧ d.extern = true))
    (h1 : d.init ≠ none → ∀ d' ∈ objDecls a d.name, d'.init = none)
    (h2 : d.static = true → objDecls a d.name ≠ [] → Internal a d.name)
    (h3 : d.static = false → Internal a d.name → d.extern = true ∧ d.init = none) :
    ∃ s', event (.obj d) s = some s' ∧ Inv (a ++ [.obj d]) s' := by
  have hO : ∀ y, y ≠ d.name → objDecls [.obj d] y = [] ∧ fnDecls [.obj d] y = [] := by
    intro y hy
    rw [objDecls_obj, if_neg (fun e => hy e.symm)]
    exact ⟨rfl, rfl⟩
  have hself : objDecls (a ++ [.obj d]) d.name = objDecls a d.name ++ [d] := by
    rw [objDecls_append, objDecls_obj, if_pos rfl]
  have hfn : fnDecls (a ++ [.obj d]) d.name = [] := by
    rw [fnDecls_append, hk]; rfl
  have htg : ∀ t, tagOf (a ++ [.obj d]) t = tagOf a t := by
    intro t; rw [tagOf_append, tagOf_obj]; cases tagOf a t <;> rfl
  show ∃ s', globalObj d s = some s' ∧ _
  unfold globalObj
  by_cases hn : objDecls a d.name = []
  · have hl := h.free d.name hn hk
    rw [hl]
    refine ⟨_, rfl, ?_⟩
    have hnew : (s.objs ++ [declare (newGvar s false d.name d.ty) d (!d.extern || d.init.isSome)])[s.objs.length]? = some (declare (newGvar s false d.name d.ty) d (!d.extern || d.init.isSome)) := by
      simp
    refine h.step (x := d.name) (i := s.objs.length) (g' := declare (newGvar s false d.name d.ty) d (!d.extern || d.init.isSome)) hO ?_ ?_ hnew
      (declare_name _ _ _) ?_ ?_ ?_ (.inr hl) ?_ (.inl (by rw [hself]; simp)) ?_ (fun hc => absurd hfn hc) ?_
    · intro t; rw [htg]; exact h.tags t
    · rw [look_cons, if_pos rfl]
    · intro y hy; rw [look_cons, if_neg (fun e => hy e.symm)]
    · intro j g _ hg
      show (s.objs ++ _)[j]? = _
      rw [List.getElem?_append_left (List.getElem?_eq_some_iff.1 hg).1]; exact hg
    · intro j g hj hg _
      have hg : (s.objs ++ _)[j]? = some g := hg
      have hlt : j < s.objs.length := by
        have := (List.getElem?_eq_some_iff.1 hg).1
        rw [List.length_append, List.length_singleton] at this
        omega
      rwa [List.getElem?_append_left hlt] at hg
    · intro g hg
      have := (List.getElem?_eq_some_iff.1 hg).1
      omega
    · intro _
      rw [hself, hn]
      exact objSum_new s d hs
    · intro d' hh hkn
      rw [hself, hn] at hh
      injection hh with hh; subst hh
      rw [declare_align]
      apply align_mono
      exact alignNow_eq h.tags d.ty fun t ht => hkn a d [] rfl rfl hn t ht
  · obtain ⟨i, g, hl, hg, hsum⟩ := h.obj d.name hn
    have hgn : g.name = d.name := by
      obtain ⟨i', g2, e1, e2, e3⟩ := h.idx _ _ hl
      injection e1 with e1; subst e1
      rw [hg] at e2; injection e2 with e2; subst e2; exact e3
    have hhead : ∀ d', (objDecls (a ++ [.obj d]) d.name).head? = some d' → (objDecls a d.name).head? = some d' := by
      intro d' hh
      rw [hself] at hh
      cases ho : objDecls a d.name with
      | nil => exact absurd ho hn
      | cons d0 l => rw [ho] at hh; exact hh
    have keep : ObjSum (objDecls a d.name ++ [d]) g → Inv (a ++ [.obj d]) s := by
      intro hsum'
      refine h.step (x := d.name) (i := i) (g' := g) hO ?_ hl hg hgn (fun _ _ => rfl) (fun _ _ _ h => h) (fun _ _ _ h _ => h) (.inl hl) ?_
        (.inl (by rw [hself]; simp)) ?_ (fun hc => absurd hfn hc) ?_
      · intro t; rw [htg]; exact h.tags t
      · intro g2 h2; rw [hg] at h2; injection h2 with h2; subst h2; exact hgn
      · intro _; rw [hself]; exact hsum'
      · intro d' hh hkn
        exact align_mono (h.align _ _ _ d' hl hg (hhead d' hh) (known_prefix hkn))
    rw [hl]
    dsimp only
    rw [hg]
    dsimp only
    split
    · rename_i hd
      have hd : (!d.extern || d.init.isSome) = false := by simpa using hd
      refine ⟨s, rfl, keep (objSum_extern hsum d hd ?_)⟩
      cases hst : d.static with
      | false => rfl
      | true =>
        exfalso
        cases he : d.extern with
        | true => exact hs ⟨hst, he⟩
        | false => rw [he] at hd; simp at hd
    · rename_i hd
      have hd : (!d.extern || d.init.isSome) = true := by
        cases hc : (!d.extern || d.init.isSome) with
        | true => rfl
        | false => rw [hc] at hd; exact absurd rfl hd
      split
      · rename_i hgd
        have hgd : g.isDef = true ∧ g.isTent = false := by simpa using hgd
        have hin : d.init = none := by
          cases hi : d.init with
          | none => rfl
          | some v =>
            exfalso
            have hne : g.init ≠ none := by
              intro e
              have := (hsum.tent hgd.1).2 e
              rw [hgd.2] at this; cases this
            cases hgi : g.init with
            | none => exact hne hgi
            | some w =>
              obtain ⟨d', hd', e⟩ := findSome_some (hsum.init.symm.trans hgi)
              have := h1 (by rw [hi]; simp) d' hd'
              rw [this] at e; cases e
        rw [if_neg (by rw [hin]; simp)]
        exact ⟨s, rfl, keep (objSum_again hsum d hin hgd fun hst => h2 hst hn)⟩
      · rename_i hgd
        have hgd : ¬ (g.isDef = true ∧ g.isTent = false) := by simpa using hgd
        rw [hd]
        have hst : (∃ d' ∈ objDecls a d.name, d'.static = true) → d.static = true := by
          intro hint
          cases hst : d.static with
          | true => rfl
          | false =>
            obtain ⟨e1, e2⟩ := h3 hst hint
            rw [e1, e2] at hd; cases hd
        have hsum' := objSum_redecl hsum d hd hgd hst
        refine ⟨_, rfl, ?_⟩
        refine h.step (x := d.name) (i := i) hO ?_ hl (set_get hg) ?_ (fun _ _ => rfl) ?_ ?_ (.inl hl) ?_
          (.inl (by rw [hself]; simp)) ?_ (fun hc => absurd hfn hc) ?_
        · intro t; rw [htg]; exact h.tags t
        · rw [declare_name]; exact hgn
        · intro j g2 hj hg2
          show (s.objs.set i _)[j]? = _
          rw [List.getElem?_set_ne (fun e => hj e.symm)]; exact hg2
        · intro j g2 hj hg2 _
          have hg2 : (s.objs.set i _)[j]? = some g2 := hg2
          rwa [List.getElem?_set_ne (fun e => hj e.symm)] at hg2
        · intro g2 h2; rw [hg] at h2; injection h2 with h2; subst h2; exact hgn
        · intro _; rw [hself]; exact hsum'
        · intro d' hh hkn
          rw [declare_align]
          exact align_mono (h.align _ _ g d' hl hg (hhead d' hh) (known_prefix hkn))

/-- The completion of a structure. -/
theorem inv_tag {a : List Event} {s : St} (h : Inv a s) (t n m : Nat) (ht : tagOf a t = none) :
    ∃ s', event (.tag t n m) s = some s' ∧ Inv (a ++ [.tag t n m]) s' := by
  refine ⟨_, rfl, ?_⟩
  have ho : ∀ x, objDecls (a ++ [.tag t n m]) x = objDecls a x := by intro x; rw [objDecls_append, objDecls_tag, List.append_nil]
  have hf : ∀ x, fnDecls (a ++ [.tag t n m]) x = fnDecls a x := by intro x; rw [fnDecls_append, fnDecls_tag, List.append_nil]
  refine ⟨?_, h.idx, ?_, ?_, ?_, h.only, ?_⟩
  · intro t'
    show (if t' = t then some (n, m) else s.tags t') = _
    rw [tagOf_append, tagOf_tag]
    by_cases e : t' = t
    · subst e; rw [ht, if_pos rfl, if_pos rfl]; rfl
    · rw [if_neg e, if_neg (fun e' => e e'.symm), h.tags]; cases tagOf a t' <;> rfl
  · intro x; rw [ho]; exact h.obj x
  · intro x; rw [hf]; exact h.func x
  · intro x; rw [ho, hf]; exact h.free x
  · intro x i g d h1 h2 h3 h4
    rw [ho] at h3
    exact align_mono (h.align x i g d h1 h2 h3 (known_prefix h4))

/-- Not only inline. -/
def Real (d : FnDecl) : Prop := d.body.isSome = true ∧ (d.gnu && d.inline && d.extern) = false

structure Proto (a : List Event) (s : St) (d : FnDecl) (i : Nat) (s1 : St) (g1 : GObj) : Prop where
  get : s1.objs[i]? = some g1
  name : g1.name = d.name
  fn : g1.fn = true
  look : look s1.file d.name = some (.obj i)
  tags : s1.tags = s.tags
  file : ∀ y, y ≠ d.name → Globals.look s1.file y = Globals.look s.file y
  objs : ∀ j g, j ≠ i → (s.objs[j]? = some g ↔ s1.objs[j]? = some g)
  before : Globals.look s.file d.name = some (.obj i) ∨ Globals.look s.file d.name = none
  ni : ∀ g, s.objs[i]? = some g → g.name = d.name
  isDef : g1.isDef = true ↔ ∃ d' ∈ fnDecls a d.name, Real d'
  loc : g1.isStatic = true ↔ (∃ d' ∈ fnDecls a d.name ++ [d], d'.static = true) ∨
    ∃ d', (fnDecls a d.name ++ [d]).head? = some d' ∧ d'.inline = true ∧ d'.extern = false

theorem proto_ok {a : List Event} {s : St} (h : Inv a s) (d : FnDecl) (hk : objDecls a d.name = [])
    (hs : d.static = true → fnDecls a d.name ≠ [] → InternalFn a d.name) :
    ∃ i s1 g1, funcProto d s = some (i, s1) ∧ Proto a s d i s1 g1 := by
  unfold funcProto
  by_cases hn : fnDecls a d.name = []
  · have hl := h.free d.name hk hn
    have hf : findFunc s d.name = none := by unfold findFunc; rw [hl]
    rw [hf]
    refine ⟨_, _, { newGvar s true d.name (.plain 1 1) with isStatic := d.static || (d.inline && !d.extern), isInline := d.inline }, rfl, ?_⟩
    refine ⟨?_, rfl, rfl, ?_, rfl, ?_, ?_, .inr hl, ?_, ?_, ?_⟩
    · simp
    · show look ((d.name, Entry.obj s.objs.length) :: s.file) d.name = _
      rw [look_cons, if_pos rfl]
    · intro y hy
      show look ((d.name, Entry.obj s.objs.length) :: s.file) y = _
      rw [look_cons, if_neg (fun e => hy e.symm)]
    · intro j g hj
      show _ ↔ (s.objs ++ [_])[j]? = _
      by_cases hlt : j < s.objs.length
      · rw [List.getElem?_append_left hlt]
      · rw [List.getElem?_eq_none (by omega), List.getElem?_eq_none (by rw [List.length_append, List.length_singleton]; omega)]
    · intro g hg
      have := (List.getElem?_eq_some_iff.1 hg).1
      omega
    · rw [hn]
      constructor
      · intro hc; cases hc
      · rintro ⟨d', hd', _⟩; cases hd'
    · rw [hn]
      show (d.static || (d.inline && !d.extern)) = true ↔ _
      simp
  · obtain ⟨i, g, hl, hg, hsum⟩ := h.func d.name hn
    have hgn : g.name = d.name := by
      obtain ⟨i', g2, e1, e2, e3⟩ := h.idx _ _ hl
      injection e1 with e1; subst e1
      rw [hg] at e2; injection e2 with e2; subst e2; exact e3
    have hf : findFunc s d.name = some i := by
      unfold findFunc; rw [hl]; dsimp only; rw [hg]; dsimp only; rw [hsum.fn]; rfl
    rw [hf]
    dsimp only
    rw [hg]
    dsimp only
    have hng : ¬ ((!g.isStatic && d.static) = true) := by
      intro hc
      simp only [Bool.and_eq_true, Bool.not_eq_true'] at hc
      have := hsum.loc.2 (.inl (hs hc.2 hn))
      rw [hc.1] at this; cases this
    rw [if_neg hng]
    refine ⟨_, _, { g with isInline := g.isInline || d.inline }, rfl, ?_⟩
    refine ⟨set_get hg, hgn, hsum.fn, hl, rfl, fun _ _ => rfl, ?_, .inl hl, ?_, hsum.isDef, ?_⟩
    · intro j g2 hj
      show _ ↔ (s.objs.set i _)[j]? = _
      rw [List.getElem?_set_ne (fun e => hj e.symm)]
    · intro g2 h2; rw [hg] at h2; injection h2 with h2; subst h2; exact hgn
    · refine hsum.loc.trans ?_
      have hh : (fnDecls a d.name ++ [d]).head? = (fnDecls a d.name).head? := by
        cases ho : fnDecls a d.name with
        | nil => exact absurd ho hn
        | cons d0 l => rfl
      rw [hh]
      refine or_congr ⟨?_, ?_⟩ Iff.rfl
      · rintro ⟨d', hd', e⟩; exact ⟨d', by simp [hd'], e⟩
      · rintro ⟨d', hd', e⟩
        rcases List.mem_append.1 hd' with hd' | hd'
        · exact ⟨d', hd', e⟩
        · rw [List.mem_singleton.1 hd'] at e; exact hs e hn

theorem setDef_get {s : St} {i : Nat} {g : GObj} (h : s.objs[i]? = some g) (b : Bool) :
    (setDef s i b).objs[i]? = some { g with isDef := b } := by
  unfold setDef; rw [h]; exact set_get h
theorem setDef_ne {s : St} {i j : Nat} (h : j ≠ i) (b : Bool) : (setDef s i b).objs[j]? = s.objs[j]? := by
  unfold setDef
  split
  · exact List.getElem?_set_ne (fun e => h e.symm)
  · rfl
theorem setDef_file (s : St) (i : Nat) (b : Bool) : (setDef s i b).file = s.file := by unfold setDef; split <;> rfl
theorem setDef_tags (s : St) (i : Nat) (b : Bool) : (setDef s i b).tags = s.tags := by unfold setDef; split <;> rfl
theorem setDef_refs (s : St) (i : Nat) (b : Bool) : (setDef s i b).refs = s.refs := by unfold setDef; split <;> rfl

/-- A declaration of a function. -/
theorem inv_fn {a : List Event} {s : St} (h : Inv a s) (d : FnDecl) (hk : objDecls a d.name = [])
    (hs : d.static = true → fnDecls a d.name ≠ [] → InternalFn a d.name)
    (hb : d.body.isSome = true → ∀ d' ∈ fnDecls a d.name, ¬ Real d') :
    ∃ s', event (.fn d) s = some s' ∧ Inv (a ++ [.fn d]) s' := by
  obtain ⟨i, s1, g1, hp, P⟩ := proto_ok h d hk hs
  have hO : ∀ y, y ≠ d.name → objDecls [.fn d] y = [] ∧ fnDecls [.fn d] y = [] := by
    intro y hy
    rw [fnDecls_fn, if_neg (fun e => hy e.symm)]
    exact ⟨rfl, rfl⟩
  have hself : fnDecls (a ++ [.fn d]) d.name = fnDecls a d.name ++ [d] := by
    rw [fnDecls_append, fnDecls_fn, if_pos rfl]
  have hob : objDecls (a ++ [.fn d]) d.name = [] := by
    rw [objDecls_append, hk]; rfl
  have htg : ∀ t, s.tags t = tagOf (a ++ [.fn d]) t := by
    intro t; rw [tagOf_append, tagOf_fn, h.tags]; cases tagOf a t <;> rfl
  have fin : ∀ (s' : St) (g' : GObj), s'.objs[i]? = some g' → g'.name = d.name → s'.file = s1.file → s'.tags = s1.tags →
      (∀ j g, j ≠ i → s1.objs[j]? = some g → s'.objs[j]? = some g) →
      (∀ j g, j ≠ i → s'.objs[j]? = some g → g.isDef = true → s1.objs[j]? = some g) →
      FnSum (fnDecls a d.name ++ [d]) g' → Inv (a ++ [.fn d]) s' := by
    intro s' g' hg' hn' hf' ht' ho' ho2 hsum
    refine h.step (x := d.name) (i := i) (g' := g') hO ?_ ?_ hg' hn' ?_ ?_ ?_ P.before P.ni (.inr (by rw [hself]; simp))
      (fun hc => absurd hob hc) ?_ ?_
    · intro t; rw [ht', P.tags]; exact htg t
    · rw [hf']; exact P.look
    · intro y hy; rw [hf']; exact P.file y hy
    · intro j g hj hg; exact ho' j g hj ((P.objs j g hj).1 hg)
    · intro j g hj hg hd; exact (P.objs j g hj).2 (ho2 j g hj hg hd)
    · intro _; rw [hself]; exact hsum
    · intro d' hh; rw [hob] at hh; cases hh
  show ∃ s', (match funcProto d s with
    | some (i, s) => match d.body with | some b => funcDef d b i s | none => some s
    | none => none) = some s' ∧ _
  rw [hp]
  dsimp only
  cases hbd : d.body with
  | none =>
    refine ⟨s1, rfl, fin s1 g1 P.get P.name rfl rfl (fun _ _ _ h => h) (fun _ _ _ h _ => h) ⟨P.fn, ?_, P.loc⟩⟩
    refine P.isDef.trans ⟨?_, ?_⟩
    · rintro ⟨d', hd', e⟩; exact ⟨d', by simp [hd'], e⟩
    · rintro ⟨d', hd', e⟩
      rcases List.mem_append.1 hd' with hd' | hd'
      · exact ⟨d', hd', e⟩
      · rw [List.mem_singleton.1 hd', hbd] at e; cases e.1
  | some b =>
    have hnd : g1.isDef = false := by
      cases hc : g1.isDef with
      | false => rfl
      | true =>
        obtain ⟨d', hd', e⟩ := P.isDef.1 hc
        exact absurd e (hb (by rw [hbd]; rfl) d' hd')
    dsimp only
    unfold funcDef
    rw [P.get]
    dsimp only
    rw [if_neg (by rw [hnd]; simp)]
    have hgr := runBody_grown b [[]] (setDef s1 i true)
    have hg2 := hgr.get (setDef_get P.get true)
    have hex : (∃ d' ∈ fnDecls a d.name ++ [d], Real d') ↔ (d.gnu && d.inline && d.extern) = false := by
      constructor
      · rintro ⟨d', hd', e⟩
        rcases List.mem_append.1 hd' with hd' | hd'
        · exact absurd e (hb (by rw [hbd]; rfl) d' hd')
        · rw [List.mem_singleton.1 hd'] at e; exact e.2
      · intro e; exact ⟨d, by simp, by rw [hbd]; rfl, e⟩
    refine ⟨_, rfl, ?_⟩
    by_cases hgn : (d.gnu && d.inline && d.extern) = true
    · rw [if_pos hgn]
      refine fin _ _ (setDef_get hg2 false) P.name ?_ ?_ ?_ ?_ ⟨P.fn, ?_, P.loc⟩
      · rw [setDef_file, hgr.file, setDef_file]
      · rw [setDef_tags, hgr.tags, setDef_tags]
      · intro j g hj hg
        rw [setDef_ne hj]
        exact hgr.get (by rw [setDef_ne hj]; exact hg)
      · intro j g hj hg hd
        rw [setDef_ne hj] at hg
        have := hgr.get_def hg hd
        rwa [setDef_ne hj] at this
      · constructor
        · intro hc; cases hc
        · intro hc
          have := hex.1 hc
          rw [hgn] at this; cases this
    · rw [if_neg hgn]
      refine fin _ _ hg2 P.name ?_ ?_ ?_ ?_ ⟨P.fn, ?_, P.loc⟩
      · rw [hgr.file, setDef_file]
      · rw [hgr.tags, setDef_tags]
      · intro j g hj hg
        exact hgr.get (by rw [setDef_ne hj]; exact hg)
      · intro j g hj hg hd
        have := hgr.get_def hg hd
        rwa [setDef_ne hj] at this
      · exact ⟨fun _ => hex.2 (by simpa using hgn), fun _ => rfl⟩

/-! All prefixes of a valid unit. -/

theorem objDecls_mem {u : List Event} {x : Nat} {d : ObjDecl} : d ∈ objDecls u x ↔ .obj d ∈ u ∧ d.name = x := by
  unfold objDecls
  rw [List.mem_filterMap]
  constructor
  · rintro ⟨e, he, hx⟩
    cases e with
    | obj d' =>
      dsimp only at hx
      split at hx
      · injection hx with hx; subst hx; exact ⟨he, by assumption⟩
      · cases hx
    | fn d' => cases hx
    | tag _ _ _ => cases hx
  · rintro ⟨he, hx⟩
    exact ⟨_, he, by dsimp only; rw [if_pos hx]⟩

theorem prefix_inv {u : List Event} (hv : Valid u)
    (hr : ∀ x, Internal u x → ∀ d ∈ objDecls u x, d.init ≠ none → d.extern = false) :
    ∀ (n : Nat) (a b : List Event), a.length = n → u = a ++ b → ∃ s, unit a St.init = some s ∧ Inv a s := by
  intro n
  induction n with
  | zero =>
    intro a b hl hu
    have : a = [] := List.length_eq_zero_iff.1 hl
    subst this
    exact ⟨_, rfl, inv_nil⟩
  | succ n ih =>
    intro a b hl hu
    have hne : a ≠ [] := by intro e; subst e; cases hl
    have hsp := List.dropLast_concat_getLast hne
    generalize a.dropLast = p at hsp
    generalize a.getLast hne = e at hsp
    subst hsp
    have hl : p.length = n := by simpa using hl
    rw [List.append_assoc] at hu
    obtain ⟨s, e1, hi⟩ := ih p ([e] ++ b) hl hu
    rw [unit_snoc, e1]
    show ∃ s', event e s = some s' ∧ _
    have hu' : u = p ++ e :: b := hu
    have osub : ∀ x d, d ∈ objDecls p x → d ∈ objDecls u x := by
      intro x d hd
      rw [hu', objDecls_append]; exact List.mem_append_left _ hd
    have fsub : ∀ x d, d ∈ fnDecls p x → d ∈ fnDecls u x := by
      intro x d hd
      rw [hu', fnDecls_append]; exact List.mem_append_left _ hd
    cases e with
    | obj d =>
      have hmem : d ∈ objDecls u d.name := objDecls_mem.2 ⟨by rw [hu']; simp, rfl⟩
      refine inv_obj hi d ?_ (hv.specs _ d hmem) ?_ ?_ ?_
      · rcases hv.kinds d.name with hk | hk
        · rw [hk] at hmem; cases hmem
        · rw [hu', fnDecls_append] at hk
          exact (List.append_eq_nil_iff.1 hk).1
      · intro hin d' hd'
        have ho := hv.once d.name
        have hsplit : objDecls u d.name = objDecls p d.name ++ d :: objDecls b d.name := by
          rw [hu', show p ++ Event.obj d :: b = p ++ ([.obj d] ++ b) from rfl, objDecls_append, objDecls_append, objDecls_obj, if_pos rfl]
          rfl
        cases hd2 : d'.init with
        | none => rfl
        | some v =>
          exfalso
          have hd0 : d.init.isSome = true := by
            cases hdi : d.init with
            | none => exact absurd hdi hin
            | some _ => rfl
          have hd1 : d' ∈ (objDecls p d.name).filter fun d => d.init.isSome := by
            rw [List.mem_filter]; exact ⟨hd', by rw [hd2]; rfl⟩
          have := List.length_pos_of_mem hd1
          rw [hsplit, List.filter_append, List.filter_cons, if_pos hd0, List.length_append, List.length_cons] at ho
          omega
      · intro hst hnn
        exact hv.internal p d b hu' hst (.inl hnn)
      · intro hst hint
        have hx := hv.external p d b hu' hst hint
        refine ⟨hx, ?_⟩
        cases hdi : d.init with
        | none => rfl
        | some v =>
          exfalso
          obtain ⟨d', hd', e'⟩ := hint
          have := hr d.name ⟨d', osub _ _ hd', e'⟩ d hmem (by rw [hdi]; simp)
          rw [hx] at this; cases this
    | fn d =>
      have hsplit : fnDecls u d.name = fnDecls p d.name ++ d :: fnDecls b d.name := by
        rw [hu', show p ++ Event.fn d :: b = p ++ ([.fn d] ++ b) from rfl, fnDecls_append, fnDecls_append, fnDecls_fn, if_pos rfl]
        rfl
      refine inv_fn hi d ?_ ?_ ?_
      · rcases hv.kinds d.name with hk | hk
        · rw [hu', objDecls_append] at hk
          exact (List.append_eq_nil_iff.1 hk).1
        · rw [hsplit] at hk; simp at hk
      · intro hst hnn
        exact hv.internalFn p d b hu' hst (.inr (.inl hnn))
      · intro hbd d' hd' hreal
        by_cases hg : (d.gnu && d.inline && d.extern) = true
        · have := hv.gnu p d b hu' hbd hg d' hd' hreal.1
          rw [hreal.2] at this; cases this
        · have ho := hv.bodies d.name
          have hd1 : d' ∈ (fnDecls p d.name).filter fun d => d.body.isSome && !(d.gnu && d.inline && d.extern) := by
            rw [List.mem_filter]; exact ⟨hd', by rw [hreal.1, hreal.2]; rfl⟩
          have := List.length_pos_of_mem hd1
          have hd0 : (d.body.isSome && !(d.gnu && d.inline && d.extern)) = true := by
            rw [hbd]
            cases hc : (d.gnu && d.inline && d.extern) with
            | true => exact absurd hc hg
            | false => rfl
          rw [hsplit, List.filter_append, List.filter_cons, if_pos hd0, List.length_append, List.length_cons] at ho
          omega
    | tag t n m => exact inv_tag hi t n m (hv.tags p t n m b hu')

theorem unit_inv {u : List Event} (hv : Valid u)
    (hr : ∀ x, Internal u x → ∀ d ∈ objDecls u x, d.init ≠ none → d.extern = false) :
    ∃ s, unit u St.init = some s ∧ Inv u s :=
  prefix_inv hv hr u.length u [] rfl (by simp)

end Slimcc.Globals
