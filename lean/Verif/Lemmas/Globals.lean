import Verif.Model.Globals
/-! File scope declarations: what the state is after a prefix of the unit. -/
set_option autoImplicit false
namespace Slimcc.Globals
open Slimcc.Spec.Link

theorem objDecls_append (a b : List Event) (x : Nat) : objDecls (a ++ b) x = objDecls a x ++ objDecls b x := List.filterMap_append
theorem fnDecls_append (a b : List Event) (x : Nat) : fnDecls (a ++ b) x = fnDecls a x ++ fnDecls b x := List.filterMap_append

theorem objDecls_obj (d : ObjDecl) (x : Nat) : objDecls [.obj d] x = if d.name = x then [d] else [] := by
  unfold objDecls; by_cases h : d.name = x <;> simp [h]
theorem fnDecls_fn (d : FnDecl) (x : Nat) : fnDecls [.fn d] x = if d.name = x then [d] else [] := by
  unfold fnDecls; by_cases h : d.name = x <;> simp [h]
theorem objDecls_fn (d : FnDecl) (x : Nat) : objDecls [.fn d] x = [] := rfl
theorem fnDecls_obj (d : ObjDecl) (x : Nat) : fnDecls [.obj d] x = [] := rfl
theorem objDecls_tag (t n m x : Nat) : objDecls [.tag t n m] x = [] := rfl
theorem fnDecls_tag (t n m x : Nat) : fnDecls [.tag t n m] x = [] := rfl

theorem look_cons (f : Frame) (x y : Nat) (e : Entry) : look ((x, e) :: f) y = if x = y then some e else look f y := by
  unfold look
  by_cases h : x = y <;> simp [h]

theorem unit_append (a b : List Event) : ∀ s, unit (a ++ b) s = (unit a s).bind (unit b) := by
  induction a with
  | nil => intro s; rfl
  | cons e a ih =>
    intro s
    show (event e s).bind (unit (a ++ b)) = ((event e s).bind (unit a)).bind (unit b)
    cases event e s with
    | none => rfl
    | some s1 => exact ih s1

theorem unit_snoc (a : List Event) (e : Event) (s : St) : unit (a ++ [e]) s = (unit a s).bind (event e) := by
  rw [unit_append]
  cases unit a s with
  | none => rfl
  | some s1 => show (event e s1).bind (unit []) = event e s1; cases event e s1 <;> rfl

/-- What the inside of a function does to the state. -/
structure Grown (s s' : St) : Prop where
  file : s'.file = s.file
  tags : s'.tags = s.tags
  objs : ∃ l, s'.objs = s.objs ++ l ∧ ∀ g ∈ l, g.isDef = false

theorem Grown.refl (s : St) : Grown s s := ⟨rfl, rfl, [], by simp, by simp⟩
theorem Grown.trans {s s1 s2 : St} (h : Grown s s1) (h' : Grown s1 s2) : Grown s s2 := by
  obtain ⟨l, e, q⟩ := h.objs
  obtain ⟨l', e', q'⟩ := h'.objs
  refine ⟨h'.file.trans h.file, h'.tags.trans h.tags, l ++ l', by rw [e', e, List.append_assoc], ?_⟩
  intro g hg
  rcases List.mem_append.1 hg with hg | hg
  · exact q g hg
  · exact q' g hg

theorem runBody_grown : ∀ (b : Body) (inner : List Frame) (s : St), Grown s (runBody b inner s) := by
  intro b
  induction b with
  | nil => exact fun _ s => Grown.refl s
  | var x k r ih => exact fun inner s => ih _ s
  | ext x t r ih =>
    intro inner s
    rw [runBody]
    split
    · exact ih _ s
    · exact Grown.trans (s1 := { s with objs := s.objs ++ [newGvar s false x t] })
        ⟨rfl, rfl, _, rfl, by intro g hg; rw [List.mem_singleton.1 hg]; rfl⟩ (ih _ _)
  | proto x r ih =>
    intro inner s
    rw [runBody]
    split
    · exact ih _ s
    · exact Grown.trans (s1 := { s with objs := s.objs ++ [newGvar s true x (.plain 1 1)] })
        ⟨rfl, rfl, _, rfl, by intro g hg; rw [List.mem_singleton.1 hg]; rfl⟩ (ih _ _)
  | use x r ih =>
    exact fun inner s => Grown.trans (s1 := { s with refs := s.refs ++ [(findVar inner s.file x).bind (refOf s.objs)] })
      ⟨rfl, rfl, [], by simp, by simp⟩ (ih _ _)
  | block b r ihb ihr => exact fun inner s => (ihb _ s).trans (ihr _ _)

theorem Grown.get {s s' : St} (h : Grown s s') {i : Nat} {g : GObj} (hg : s.objs[i]? = some g) : s'.objs[i]? = some g := by
  obtain ⟨l, e, _⟩ := h.objs
  rw [e, List.getElem?_append_left (List.getElem?_eq_some_iff.1 hg).1]
  exact hg

theorem Grown.get_def {s s' : St} (h : Grown s s') {i : Nat} {g : GObj} (hg : s'.objs[i]? = some g) (hd : g.isDef = true) : s.objs[i]? = some g := by
  obtain ⟨l, e, q⟩ := h.objs
  rw [e] at hg
  by_cases hi : i < s.objs.length
  · rwa [List.getElem?_append_left hi] at hg
  · rw [List.getElem?_append_right (by omega)] at hg
    have := q g (List.mem_of_getElem? hg)
    rw [this] at hd; cases hd

/-! The sum of the declarations of one name. -/

/-- An object. -/
structure ObjSum (ds : List ObjDecl) (g : GObj) : Prop where
  fn : g.fn = false
  isDef : g.isDef = true ↔ ∃ d ∈ ds, d.init ≠ none ∨ d.tentative
  init : g.init = ds.findSome? (·.init)
  tent : g.isDef = true → (g.isTent = true ↔ g.init = none)
  loc : g.isStatic = true ↔ ∃ d ∈ ds, d.static = true
  tyInit : ∀ i, g.init = some i → ∃ d ∈ ds, d.init = some i ∧ d.type = g.ty
  tyTent : g.init = none → ∀ d, ds.reverse.find? (fun d => d.init.isNone && !d.extern) = some d → g.ty = d.ty

/-- A function. -/
structure FnSum (ds : List FnDecl) (g : GObj) : Prop where
  fn : g.fn = true
  isDef : g.isDef = true ↔ ∃ d ∈ ds, d.body.isSome = true ∧ (d.gnu && d.inline && d.extern) = false
  loc : g.isStatic = true ↔ (∃ d ∈ ds, d.static = true) ∨ ∃ d, ds.head? = some d ∧ d.inline = true ∧ d.extern = false

structure Inv (a : List Event) (s : St) : Prop where
  tags : ∀ t, s.tags t = tagOf a t
  idx : ∀ x e, look s.file x = some e → ∃ i g, e = .obj i ∧ s.objs[i]? = some g ∧ g.name = x
  obj : ∀ x, objDecls a x ≠ [] → ∃ i g, look s.file x = some (.obj i) ∧ s.objs[i]? = some g ∧ ObjSum (objDecls a x) g
  func : ∀ x, fnDecls a x ≠ [] → ∃ i g, look s.file x = some (.obj i) ∧ s.objs[i]? = some g ∧ FnSum (fnDecls a x) g
  free : ∀ x, objDecls a x = [] → fnDecls a x = [] → look s.file x = none
  only : ∀ j g, s.objs[j]? = some g → g.isDef = true → look s.file g.name = some (.obj j)
  align : ∀ x i g d, look s.file x = some (.obj i) → s.objs[i]? = some g → (objDecls a x).head? = some d → Known a x → d.ty.align a = some g.align

theorem inv_nil : Inv [] St.init :=
  ⟨fun _ => rfl, fun x e h => (by cases h), fun x h => absurd rfl h, fun x h => absurd rfl h, fun _ _ _ => rfl,
    fun j g h => (by cases h), fun x i g d _ _ h => (by cases h)⟩

theorem tagOf_append (a b : List Event) (t : Nat) : tagOf (a ++ b) t = (tagOf a t).or (tagOf b t) := List.findSome?_append

theorem tagOf_obj (d : ObjDecl) (t : Nat) : tagOf [.obj d] t = none := rfl
theorem tagOf_fn (d : FnDecl) (t : Nat) : tagOf [.fn d] t = none := rfl
theorem tagOf_tag (t n m t' : Nat) : tagOf [.tag t n m] t' = if t = t' then some (n, m) else none := by
  unfold tagOf
  by_cases h : t = t' <;> simp [List.findSome?, h]

/-! One declaration of an object. -/

theorem objSum_new (s : St) (d : ObjDecl) (hs : ¬ (d.static = true ∧ d.extern = true)) :
    ObjSum [d] (declare (newGvar s false d.name d.ty) d (!d.extern || d.init.isSome)) := by
  unfold declare
  cases hi : d.init with
  | some i =>
    dsimp only
    refine ⟨rfl, ?_, ?_, ?_, ?_, ?_, ?_⟩
    · simp [hi]
    · simp [List.findSome?, hi]
    · intro _; simp [newGvar]
    · simp
    · intro i' h
      injection h with h; subst h
      exact ⟨d, by simp, hi, rfl⟩
    · intro h; cases h
  | none =>
    dsimp only
    refine ⟨rfl, ?_, ?_, ?_, ?_, ?_, ?_⟩
    · simp [hi, ObjDecl.tentative]
    · simp [List.findSome?, hi, newGvar]
    · intro h
      simp only [Option.isSome_none, Bool.or_false] at h
      simp [h, newGvar]
    · simp
    · intro i' h; cases h
    · intro _ d' h
      simp [hi] at h
      rw [← h.2]; rfl

theorem findSome_some {ds : List ObjDecl} {i : Init} (h : ds.findSome? (·.init) = some i) : ∃ d ∈ ds, d.init = some i := by
  obtain ⟨d, hd, e⟩ := List.exists_of_findSome?_eq_some h
  exact ⟨d, hd, e⟩

theorem ObjSum.init_none {ds : List ObjDecl} {g : GObj} (h : ObjSum ds g) (hg : ¬ (g.isDef = true ∧ g.isTent = false)) : g.init = none := by
  cases hi : g.init with
  | none => rfl
  | some i =>
    exfalso
    obtain ⟨d, hd, e⟩ := findSome_some (h.init.symm.trans hi)
    have hdef := h.isDef.2 ⟨d, hd, .inl (by rw [e]; simp)⟩
    refine hg ⟨hdef, ?_⟩
    have := h.tent hdef
    rw [hi] at this
    simpa using this

theorem objSum_redecl {ds : List ObjDecl} {g : GObj} (h : ObjSum ds g) (d : ObjDecl) (hd : (!d.extern || d.init.isSome) = true)
    (hg : ¬ (g.isDef = true ∧ g.isTent = false)) (hst : (∃ d' ∈ ds, d'.static = true) → d.static = true) :
    ObjSum (ds ++ [d]) (declare { g with isTent := false, ty := d.ty } d true) := by
  have hn := h.init_none hg
  have hfs : ds.findSome? (·.init) = none := by rw [← h.init]; exact hn
  have hloc : (∃ d' ∈ ds ++ [d], d'.static = true) ↔ d.static = true := by
    constructor
    · rintro ⟨d', hd', e⟩
      rcases List.mem_append.1 hd' with hd' | hd'
      · exact hst ⟨d', hd', e⟩
      · rw [List.mem_singleton.1 hd'] at e; exact e
    · exact fun e => ⟨d, by simp, e⟩
  have hdefd : ∃ d' ∈ ds ++ [d], d'.init ≠ none ∨ d'.tentative := by
    refine ⟨d, by simp, ?_⟩
    cases hi : d.init with
    | some i => exact .inl (by simp)
    | none => rw [hi] at hd; exact .inr ⟨hi, by simpa using hd⟩
  unfold declare
  cases hi : d.init with
  | some i =>
    refine ⟨h.fn, ⟨fun _ => hdefd, fun _ => rfl⟩, ?_, ?_, hloc.symm, ?_, ?_⟩
    · show some i = _
      rw [List.findSome?_append, hfs]; simp [List.findSome?, hi]
    · intro _; simp
    · intro i' h'
      injection h' with h'; subst h'
      exact ⟨d, by simp, hi, rfl⟩
    · intro h; cases h
  | none =>
    refine ⟨h.fn, ⟨fun _ => hdefd, fun _ => rfl⟩, ?_, ?_, hloc.symm, ?_, ?_⟩
    · show g.init = _
      rw [List.findSome?_append, hfs, hn]; simp [List.findSome?, hi]
    · intro _
      show ((if true = true then true else false) = true ↔ g.init = none)
      rw [hn]; simp
    · intro i' h'
      have h' : g.init = some i' := h'
      rw [hn] at h'; cases h'
    · intro _ d' h'
      rw [List.reverse_append] at h'
      have : (d.init.isNone && !d.extern) = true := by rw [hi] at hd ⊢; simpa using hd
      simp only [List.reverse_cons, List.reverse_nil, List.nil_append, List.singleton_append, List.find?_cons, this] at h'
      injection h' with h'
      rw [← h']

theorem objSum_extern {ds : List ObjDecl} {g : GObj} (h : ObjSum ds g) (d : ObjDecl) (hd : (!d.extern || d.init.isSome) = false)
    (hs : d.static = false) : ObjSum (ds ++ [d]) g := by
  have hi : d.init = none := by
    cases hi : d.init with
    | none => rfl
    | some i => rw [hi] at hd; simp at hd
  have he : d.extern = true := by rw [hi] at hd; simpa using hd
  refine ⟨h.fn, h.isDef.trans ?_, ?_, h.tent, h.loc.trans ?_, ?_, ?_⟩
  · constructor
    · rintro ⟨d', hd', e⟩; exact ⟨d', by simp [hd'], e⟩
    · rintro ⟨d', hd', e⟩
      rcases List.mem_append.1 hd' with hd' | hd'
      · exact ⟨d', hd', e⟩
      · rw [List.mem_singleton.1 hd'] at e
        rcases e with e | e
        · exact absurd hi e
        · have e2 := e.2; rw [he] at e2; cases e2
  · rw [List.findSome?_append, ← h.init]
    simp [List.findSome?, hi]
  · constructor
    · rintro ⟨d', hd', e⟩; exact ⟨d', by simp [hd'], e⟩
    · rintro ⟨d', hd', e⟩
      rcases List.mem_append.1 hd' with hd' | hd'
      · exact ⟨d', hd', e⟩
      · rw [List.mem_singleton.1 hd', hs] at e; cases e
  · intro i e
    obtain ⟨d', hd', e⟩ := h.tyInit i e
    exact ⟨d', by simp [hd'], e⟩
  · intro hn d' h'
    rw [List.reverse_append] at h'
    simp only [List.reverse_cons, List.reverse_nil, List.nil_append, List.singleton_append, List.find?_cons, he, Bool.not_true, Bool.and_false] at h'
    exact h.tyTent hn d' h'

theorem objSum_again {ds : List ObjDecl} {g : GObj} (h : ObjSum ds g) (d : ObjDecl) (hi : d.init = none)
    (hg : g.isDef = true ∧ g.isTent = false) (hst : d.static = true → ∃ d' ∈ ds, d'.static = true) : ObjSum (ds ++ [d]) g := by
  have hn : g.init ≠ none := by
    intro e
    have := (h.tent hg.1).2 e
    rw [hg.2] at this; cases this
  refine ⟨h.fn, ?_, ?_, h.tent, h.loc.trans ?_, ?_, fun e => absurd e hn⟩
  · refine ⟨fun e => ?_, fun _ => hg.1⟩
    obtain ⟨d', hd', e⟩ := h.isDef.1 e
    exact ⟨d', by simp [hd'], e⟩
  · rw [List.findSome?_append, ← h.init]
    simp [List.findSome?, hi]
  · constructor
    · rintro ⟨d', hd', e⟩; exact ⟨d', by simp [hd'], e⟩
    · rintro ⟨d', hd', e⟩
      rcases List.mem_append.1 hd' with hd' | hd'
      · exact ⟨d', hd', e⟩
      · rw [List.mem_singleton.1 hd'] at e; exact hst e
  · intro i e
    obtain ⟨d', hd', e⟩ := h.tyInit i e
    exact ⟨d', by simp [hd'], e⟩

end Slimcc.Globals
