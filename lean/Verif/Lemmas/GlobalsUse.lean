import Verif.Lemmas.GlobalsInv
/-! File scope declarations: what uses stand for, and second definitions. -/
set_option autoImplicit false
namespace Slimcc.Globals
open Slimcc.Spec.Link

theorem seen_cons (env : List (Nat × Ref)) (x y : Nat) (r : Ref) : seen ((x, r) :: env) y = if x = y then some r else seen env y := by
  unfold seen
  by_cases h : x = y <;> simp [h]

/-- What is found in the scopes is what C makes the name stand for. -/
structure Sees (inner : List Frame) (s : St) (env : List (Nat × Ref)) : Prop where
  same : ∀ x, seen env x = (findVar inner s.file x).bind (refOf s.objs)
  valid : ∀ x e, findVar inner s.file x = some e → (refOf s.objs e).isSome = true
  self : ∀ x y, seen env x = some (.symbol y) → y = x

theorem refOf_grown {s s' : St} (h : Grown s s') {e : Entry} (hv : (refOf s.objs e).isSome = true) : refOf s'.objs e = refOf s.objs e := by
  cases e with
  | loc k => rfl
  | obj i =>
    unfold refOf at hv ⊢
    dsimp only at hv ⊢
    cases hg : s.objs[i]? with
    | none => rw [hg] at hv; cases hv
    | some g => rw [h.get hg]

theorem Sees.grown {inner : List Frame} {s s' : St} {env : List (Nat × Ref)} (h : Sees inner s env) (hg : Grown s s') : Sees inner s' env := by
  refine ⟨?_, ?_, h.self⟩
  · intro x
    rw [h.same x, hg.file]
    cases hf : findVar inner s.file x with
    | none => rfl
    | some e => exact (refOf_grown hg (h.valid x e hf)).symm
  · intro x e hf
    rw [hg.file] at hf
    rw [refOf_grown hg (h.valid x e hf)]
    exact h.valid x e hf

/-- The objects keep their names. -/
theorem Sees.names {inner : List Frame} {s s' : St} {env : List (Nat × Ref)} (h : Sees inner s env) (hf : s'.file = s.file)
    (hn : ∀ i : Nat, (s'.objs[i]?).map GObj.name = (s.objs[i]?).map GObj.name) : Sees inner s' env := by
  have hr : ∀ e, refOf s'.objs e = refOf s.objs e := by
    intro e
    cases e with
    | loc k => rfl
    | obj i =>
      have := hn i
      unfold refOf
      dsimp only
      cases h1 : s'.objs[i]? with
      | none => cases h2 : s.objs[i]? with
        | none => rfl
        | some g => rw [h1, h2] at this; cases this
      | some g => cases h2 : s.objs[i]? with
        | none => rw [h1, h2] at this; cases this
        | some g2 =>
          rw [h1, h2] at this; injection this with this
          simp [this]
  refine ⟨?_, ?_, h.self⟩
  · intro x
    rw [h.same x, hf]
    cases findVar inner s.file x with
    | none => rfl
    | some e => exact (hr e).symm
  · intro x e he
    rw [hf] at he
    rw [hr]; exact h.valid x e he

theorem Sees.push {f : Frame} {inner : List Frame} {s : St} {env : List (Nat × Ref)} (h : Sees (f :: inner) s env) (x : Nat) (e : Entry) (r : Ref)
    (he : refOf s.objs e = some r) (hr : ∀ y, r = .symbol y → y = x) : Sees (((x, e) :: f) :: inner) s ((x, r) :: env) := by
  have hfv : ∀ y, findVar (((x, e) :: f) :: inner) s.file y = if x = y then some e else findVar (f :: inner) s.file y := by
    intro y
    unfold findVar
    rw [look_cons]
    by_cases hxy : x = y <;> simp [hxy]
  refine ⟨?_, ?_, ?_⟩
  · intro y
    rw [seen_cons, hfv]
    by_cases hxy : x = y
    · simp [hxy, he]
    · simp only [if_neg hxy]; exact h.same y
  · intro y e' hf
    rw [hfv] at hf
    by_cases hxy : x = y
    · rw [if_pos hxy] at hf; injection hf with hf; subst hf; rw [he]; rfl
    · rw [if_neg hxy] at hf; exact h.valid y e' hf
  · intro y z hz
    rw [seen_cons] at hz
    by_cases hxy : x = y
    · rw [if_pos hxy] at hz; injection hz with hz; rw [← hxy]; exact hr z hz
    · rw [if_neg hxy] at hz; exact h.self y z hz

/-- A name that is found and is not that of a local object. -/
theorem Sees.known {inner : List Frame} {s : St} {env : List (Nat × Ref)} (h : Sees inner s env) {x : Nat}
    (hf : ∃ e, findVar inner s.file x = some e) (ho : ∀ k, seen env x ≠ some (.loc k)) : Sees inner s ((x, .symbol x) :: env) := by
  obtain ⟨e, hf⟩ := hf
  have hs : seen env x = some (.symbol x) := by
    have h1 := h.same x
    have h2 := h.valid x e hf
    rw [hf] at h1
    cases hr : refOf s.objs e with
    | none => rw [hr] at h2; cases h2
    | some r =>
      have h1 : seen env x = some r := h1.trans hr
      cases r with
      | loc k => exact absurd h1 (ho k)
      | symbol y => rw [h1, h.self x y h1]
  refine ⟨?_, h.valid, ?_⟩
  · intro y
    rw [seen_cons]
    by_cases hxy : x = y
    · subst hxy; rw [if_pos rfl, ← hs]; exact h.same x
    · rw [if_neg hxy]; exact h.same y
  · intro y z hz
    rw [seen_cons] at hz
    by_cases hxy : x = y
    · rw [if_pos hxy] at hz; injection hz with hz; injection hz with hz; rw [← hxy, hz]
    · rw [if_neg hxy] at hz; exact h.self y z hz

theorem findVar_of_file {x : Nat} {e : Entry} {file : Frame} (h : look file x = some e) : ∀ inner : List Frame, ∃ e', findVar inner file x = some e' := by
  intro inner
  induction inner with
  | nil => exact ⟨e, h⟩
  | cons f r ih =>
    unfold findVar
    cases look f x with
    | none => exact ih
    | some e' => exact ⟨e', rfl⟩

theorem findFunc_look {s : St} {x i : Nat} (h : findFunc s x = some i) : look s.file x = some (.obj i) := by
  unfold findFunc at h
  cases hl : look s.file x with
  | none => rw [hl] at h; cases h
  | some e =>
    rw [hl] at h
    cases e with
    | loc k => cases h
    | obj j =>
      dsimp only at h
      cases hg : s.objs[j]? with
      | none => rw [hg] at h; cases h
      | some g =>
        rw [hg] at h
        dsimp only at h
        split at h
        · injection h with h; rw [h]
        · cases h

theorem runBody_refs : ∀ (b : Body) (f : Frame) (inner : List Frame) (s : St) (env : List (Nat × Ref)), Sees (f :: inner) s env → b.Open env →
    (runBody b (f :: inner) s).refs = s.refs ++ b.refs env := by
  intro b
  induction b with
  | nil => intro f inner s env _ _; exact (List.append_nil _).symm
  | var x k r ih =>
    intro f inner s env h ho
    exact ih _ _ s _ (h.push x (.loc k) (.loc k) rfl (fun y hy => by cases hy)) ho
  | ext x t r ih =>
    intro f inner s env h ho
    rw [runBody]
    cases hf : findVar (f :: inner) s.file x with
    | some e => exact ih _ _ s _ (h.known ⟨e, hf⟩ ho.1) ho.2
    | none =>
      have hg : Grown s { s with objs := s.objs ++ [newGvar s false x t] } :=
        ⟨rfl, rfl, _, rfl, by intro g hg; rw [List.mem_singleton.1 hg]; rfl⟩
      refine ih _ _ _ _ ((h.grown hg).push x _ (.symbol x) ?_ (fun y hy => by injection hy with hy; exact hy.symm)) ho.2
      unfold refOf
      dsimp only
      rw [List.getElem?_append_right (Nat.le_refl _), Nat.sub_self]
      rfl
  | proto x r ih =>
    intro f inner s env h ho
    rw [runBody]
    cases hf : findFunc s x with
    | some i => exact ih _ _ s _ (h.known (findVar_of_file (findFunc_look hf) _) ho.1) ho.2
    | none =>
      have hg : Grown s { s with objs := s.objs ++ [newGvar s true x (.plain 1 1)] } :=
        ⟨rfl, rfl, _, rfl, by intro g hg; rw [List.mem_singleton.1 hg]; rfl⟩
      refine ih _ _ _ _ ((h.grown hg).push x _ (.symbol x) ?_ (fun y hy => by injection hy with hy; exact hy.symm)) ho.2
      unfold refOf
      dsimp only
      rw [List.getElem?_append_right (Nat.le_refl _), Nat.sub_self]
      rfl
  | use x r ih =>
    intro f inner s env h ho
    rw [runBody]
    have hg : Grown s { s with refs := s.refs ++ [(findVar (f :: inner) s.file x).bind (refOf s.objs)] } := ⟨rfl, rfl, [], by simp, by simp⟩
    rw [ih _ _ _ _ (h.grown hg) ho]
    show (s.refs ++ _) ++ _ = s.refs ++ (seen env x :: r.refs env)
    rw [h.same x, List.append_assoc]; rfl
  | block b r ihb ihr =>
    intro f inner s env h ho
    rw [runBody]
    have hin : Sees ([] :: f :: inner) s env := ⟨h.same, h.valid, h.self⟩
    rw [ihr _ _ _ _ (h.grown (runBody_grown b _ s)) ho.2, ihb _ _ _ _ hin ho.1, List.append_assoc]
    rfl

/-- A declaration at file scope. -/
theorem Sees.file {s s' : St} {env : List (Nat × Ref)} (h : Sees [] s env) (x : Nat) (g : GObj) (hn : g.name = x) (ho : s'.objs = s.objs ++ [g])
    (hf : s'.file = (x, .obj s.objs.length) :: s.file) : Sees [] s' ((x, .symbol x) :: env) := by
  have old : ∀ e, (refOf s.objs e).isSome = true → refOf s'.objs e = refOf s.objs e := by
    intro e hv
    cases e with
    | loc k => rfl
    | obj i =>
      unfold refOf at hv ⊢
      dsimp only at hv ⊢
      cases hg : s.objs[i]? with
      | none => rw [hg] at hv; cases hv
      | some g2 => rw [ho, List.getElem?_append_left (List.getElem?_eq_some_iff.1 hg).1, hg]
  have new : refOf s'.objs (.obj s.objs.length) = some (.symbol x) := by
    unfold refOf
    dsimp only
    rw [ho, List.getElem?_append_right (Nat.le_refl _), Nat.sub_self]
    simp [hn]
  have hfv : ∀ y, findVar [] s'.file y = if x = y then some (.obj s.objs.length) else findVar [] s.file y := by
    intro y
    show look s'.file y = if x = y then _ else look s.file y
    rw [hf, look_cons]
  refine ⟨?_, ?_, ?_⟩
  · intro y
    rw [seen_cons, hfv]
    by_cases hxy : x = y
    · rw [if_pos hxy, if_pos hxy]; exact new.symm
    · rw [if_neg hxy, if_neg hxy, h.same y]
      cases hv : findVar [] s.file y with
      | none => rfl
      | some e => exact (old e (h.valid y e hv)).symm
  · intro y e he
    rw [hfv] at he
    by_cases hxy : x = y
    · rw [if_pos hxy] at he; injection he with he; subst he; rw [new]; rfl
    · rw [if_neg hxy] at he
      rw [old e (h.valid y e he)]; exact h.valid y e he
  · intro y z hz
    rw [seen_cons] at hz
    by_cases hxy : x = y
    · rw [if_pos hxy] at hz; injection hz with hz; injection hz with hz; rw [← hxy, hz]
    · rw [if_neg hxy] at hz; exact h.self y z hz

/-- No local objects at file scope. -/
def Outer (env : List (Nat × Ref)) : Prop := ∀ x k, seen env x ≠ some (.loc k)

theorem Outer.cons {env : List (Nat × Ref)} (h : Outer env) (x : Nat) : Outer ((x, .symbol x) :: env) := by
  intro y k hs
  rw [seen_cons] at hs
  by_cases hxy : x = y
  · rw [if_pos hxy] at hs; cases hs
  · rw [if_neg hxy] at hs; exact h y k hs

theorem set_names {l : List GObj} {i : Nat} {g g' : GObj} (hg : l[i]? = some g) (hn : g'.name = g.name) (j : Nat) :
    ((l.set i g')[j]?).map GObj.name = (l[j]?).map GObj.name := by
  by_cases h : j = i
  · subst h; rw [set_get hg, hg]; simp [hn]
  · rw [List.getElem?_set_ne (fun e => h e.symm)]

theorem setDef_names (s : St) (i : Nat) (b : Bool) (j : Nat) : ((setDef s i b).objs[j]?).map GObj.name = (s.objs[j]?).map GObj.name := by
  unfold setDef
  cases hg : s.objs[i]? with
  | none => rfl
  | some g => exact set_names (g' := { g with isDef := b }) hg rfl j

theorem sees_obj {s s' : St} {env : List (Nat × Ref)} (h : Sees [] s env) (ho : Outer env) (d : ObjDecl) (he : globalObj d s = some s') :
    Sees [] s' ((d.name, .symbol d.name) :: env) ∧ s'.refs = s.refs := by
  unfold globalObj at he
  dsimp only at he
  cases hl : look s.file d.name with
  | none =>
    rw [hl] at he
    injection he with he
    subst he
    exact ⟨h.file d.name _ (declare_name _ _ _) rfl rfl, rfl⟩
  | some e =>
    rw [hl] at he
    cases e with
    | loc k => cases he
    | obj i =>
      dsimp only at he
      have hk := h.known ⟨_, (hl : findVar [] s.file d.name = _)⟩ (ho d.name)
      cases hg : s.objs[i]? with
      | none => rw [hg] at he; cases he
      | some g =>
        rw [hg] at he
        dsimp only at he
        split at he
        · injection he with he; subst he; exact ⟨hk, rfl⟩
        · split at he
          · split at he
            · cases he
            · injection he with he; subst he; exact ⟨hk, rfl⟩
          · injection he with he; subst he
            exact ⟨hk.names rfl fun j => set_names (g' := declare { g with isTent := false, ty := d.ty } d _) hg (declare_name _ _ _) j, rfl⟩

theorem sees_proto {s s' : St} {i : Nat} {env : List (Nat × Ref)} (h : Sees [] s env) (ho : Outer env) (d : FnDecl) (he : funcProto d s = some (i, s')) :
    Sees [] s' ((d.name, .symbol d.name) :: env) ∧ s'.refs = s.refs := by
  unfold funcProto at he
  cases hl : findFunc s d.name with
  | none =>
    rw [hl] at he
    injection he with he
    injection he with he1 he
    subst he
    exact ⟨h.file d.name _ rfl rfl rfl, rfl⟩
  | some j =>
    rw [hl] at he
    dsimp only at he
    have hk := h.known (findVar_of_file (findFunc_look hl) []) (ho d.name)
    cases hg : s.objs[j]? with
    | none => rw [hg] at he; cases he
    | some g =>
      rw [hg] at he
      dsimp only at he
      split at he
      · cases he
      · injection he with he
        injection he with he1 he
        subst he
        exact ⟨hk.names rfl fun j => set_names (g' := { g with isInline := g.isInline || d.inline }) hg rfl j, rfl⟩

theorem unit_refs : ∀ (u : List Event) (s s' : St) (env : List (Nat × Ref)), Sees [] s env → Outer env → UnitOpen u env →
    unit u s = some s' → s'.refs = s.refs ++ unitRefs u env := by
  intro u
  induction u with
  | nil =>
    intro s s' env _ _ _ he
    injection he with he; subst he
    exact (List.append_nil _).symm
  | cons e u ih =>
    intro s s' env h ho hu he
    rw [unit] at he
    cases h1 : event e s with
    | none => rw [h1] at he; cases he
    | some s1 =>
      rw [h1] at he
      have he : unit u s1 = some s' := he
      cases e with
      | obj d =>
        obtain ⟨a, b⟩ := sees_obj h ho d h1
        rw [ih s1 s' _ a (ho.cons _) hu he, b]; rfl
      | tag t n m =>
        injection h1 with h1
        subst h1
        exact ih { s with tags := fun t' => if t' = t then some (n, m) else s.tags t' } s' env ⟨h.same, h.valid, h.self⟩ ho hu he
      | fn d =>
        unfold event at h1
        dsimp only at h1
        cases hp : funcProto d s with
        | none => rw [hp] at h1; cases h1
        | some r =>
          obtain ⟨i, s2⟩ := r
          rw [hp] at h1
          dsimp only at h1
          obtain ⟨a, b⟩ := sees_proto h ho d hp
          rw [unitRefs]
          cases hb : d.body with
          | none =>
            rw [hb] at h1
            injection h1 with h1; subst h1
            rw [ih _ s' _ a (ho.cons _) hu.2 he, b]; rfl
          | some bd =>
            rw [hb] at h1
            dsimp only at h1 ⊢
            unfold funcDef at h1
            cases hg : s2.objs[i]? with
            | none => rw [hg] at h1; cases h1
            | some g =>
              rw [hg] at h1
              dsimp only at h1
              split at h1
              · cases h1
              · injection h1 with h1
                have a1 : Sees [] (setDef s2 i true) ((d.name, .symbol d.name) :: env) := a.names (setDef_file _ _ _) (setDef_names _ _ _)
                have a2 : Sees [[]] (setDef s2 i true) ((d.name, .symbol d.name) :: env) := ⟨a1.same, a1.valid, a1.self⟩
                have hr := runBody_refs bd [] [] _ _ a2 (hu.1 bd hb)
                have a3 := a1.grown (runBody_grown bd [[]] (setDef s2 i true))
                have hs1 : Sees [] s1 ((d.name, .symbol d.name) :: env) ∧ s1.refs = s.refs ++ bd.refs ((d.name, .symbol d.name) :: env) := by
                  rw [setDef_refs, b] at hr
                  rw [← h1]
                  split
                  · exact ⟨a3.names (setDef_file _ _ _) (setDef_names _ _ _), by rw [setDef_refs]; exact hr⟩
                  · exact ⟨a3, hr⟩
                rw [ih _ s' _ hs1.1 (ho.cons _) hu.2 he, hs1.2, List.append_assoc]

theorem sees_init : Sees [] St.init [] := ⟨fun _ => rfl, fun x e h => (by cases h), fun x y h => (by cases h)⟩
theorem outer_init : Outer [] := fun x k h => by cases h

/-! Second definitions. -/

/-- Names of the file scope belong to objects with linkage of that name. -/
def Idx (s : St) : Prop := ∀ x e, look s.file x = some e → ∃ i g, e = .obj i ∧ s.objs[i]? = some g ∧ g.name = x

theorem Idx.names {s s' : St} (h : Idx s) (hf : s'.file = s.file)
    (hn : ∀ (i : Nat) (g : GObj), s.objs[i]? = some g → ∃ g', s'.objs[i]? = some g' ∧ g'.name = g.name) : Idx s' := by
  intro x e hl
  rw [hf] at hl
  obtain ⟨i, g, e1, e2, e3⟩ := h x e hl
  obtain ⟨g', e4, e5⟩ := hn i g e2
  exact ⟨i, g', e1, e4, e5.trans e3⟩

theorem Idx.file {s s' : St} (h : Idx s) (x : Nat) (g : GObj) (hn : g.name = x) (ho : s'.objs = s.objs ++ [g])
    (hf : s'.file = (x, .obj s.objs.length) :: s.file) : Idx s' := by
  intro y e hl
  rw [hf, look_cons] at hl
  by_cases hxy : x = y
  · rw [if_pos hxy] at hl; injection hl with hl
    exact ⟨s.objs.length, g, hl.symm, by rw [ho]; simp, hn.trans hxy⟩
  · rw [if_neg hxy] at hl
    obtain ⟨i, g', e1, e2, e3⟩ := h y e hl
    exact ⟨i, g', e1, by rw [ho, List.getElem?_append_left (List.getElem?_eq_some_iff.1 e2).1]; exact e2, e3⟩

theorem set_keeps {l : List GObj} {i : Nat} {g g' : GObj} (hg : l[i]? = some g) (hn : g'.name = g.name) (j : Nat) (c : GObj) (hc : l[j]? = some c) :
    ∃ c', (l.set i g')[j]? = some c' ∧ c'.name = c.name := by
  by_cases h : j = i
  · subst h
    rw [hg] at hc; injection hc with hc; subst hc
    exact ⟨g', set_get hg, hn⟩
  · exact ⟨c, by rw [List.getElem?_set_ne (fun e => h e.symm)]; exact hc, rfl⟩

theorem setDef_keeps (s : St) (i : Nat) (b : Bool) (j : Nat) (c : GObj) (hc : s.objs[j]? = some c) :
    ∃ c', (setDef s i b).objs[j]? = some c' ∧ c'.name = c.name := by
  unfold setDef
  cases hg : s.objs[i]? with
  | none => exact ⟨c, hc, rfl⟩
  | some g => exact set_keeps (g' := { g with isDef := b }) hg rfl j c hc

/-- A declaration of one name leaves the object of another as it is. -/
structure Step (s s' : St) (x : Nat) : Prop where
  idx : Idx s'
  other : ∀ y i g, y ≠ x → look s.file y = some (.obj i) → s.objs[i]? = some g → look s'.file y = some (.obj i) ∧ s'.objs[i]? = some g

theorem Idx.name {s : St} (h : Idx s) {x i : Nat} {g : GObj} (hl : look s.file x = some (.obj i)) (hg : s.objs[i]? = some g) : g.name = x := by
  obtain ⟨j, g2, e1, e2, e3⟩ := h x _ hl
  injection e1 with e1; subst e1
  rw [hg] at e2; injection e2 with e2; subst e2; exact e3

theorem step_set {s : St} (h : Idx s) {x i : Nat} {g : GObj} (g' : GObj) (hl : look s.file x = some (.obj i)) (hg : s.objs[i]? = some g) (hn : g'.name = g.name) :
    Step s { s with objs := s.objs.set i g' } x := by
  refine ⟨h.names rfl fun j c hc => set_keeps hg hn j c hc, fun y j c hy hy2 hc => ⟨hy2, ?_⟩⟩
  show (s.objs.set i g')[j]? = _
  rw [List.getElem?_set_ne]
  · exact hc
  · intro e; subst e
    rw [hg] at hc; injection hc with hc; subst hc
    exact hy ((h.name hy2 hg).symm.trans (h.name hl hg))

theorem step_new {s s' : St} (h : Idx s) (x : Nat) (g : GObj) (hn : g.name = x) (ho : s'.objs = s.objs ++ [g])
    (hf : s'.file = (x, .obj s.objs.length) :: s.file) : Step s s' x := by
  refine ⟨h.file x g hn ho hf, fun y j c hy hl hc => ⟨?_, ?_⟩⟩
  · rw [hf, look_cons, if_neg (fun e => hy e.symm)]; exact hl
  · rw [ho, List.getElem?_append_left (List.getElem?_eq_some_iff.1 hc).1]; exact hc

theorem step_grown {s s' : St} (h : Idx s) (hg : Grown s s') (x : Nat) : Step s s' x :=
  ⟨h.names hg.file fun _ g hc => ⟨g, hg.get hc, rfl⟩, fun y i g _ hl hc => ⟨by rw [hg.file]; exact hl, hg.get hc⟩⟩

theorem Step.trans {s s1 s2 : St} {x : Nat} (h : Step s s1 x) (h' : Step s1 s2 x) : Step s s2 x :=
  ⟨h'.idx, fun y i g hy hl hg => h'.other y i g hy (h.other y i g hy hl hg).1 (h.other y i g hy hl hg).2⟩

theorem step_setDef {s : St} (h : Idx s) {x i : Nat} (b : Bool) (hl : look s.file x = some (.obj i)) : Step s (setDef s i b) x := by
  unfold setDef
  cases hg : s.objs[i]? with
  | none => exact ⟨h, fun _ _ _ _ h1 h2 => ⟨h1, h2⟩⟩
  | some g => exact step_set h { g with isDef := b } hl hg rfl

theorem step_obj {s s' : St} (h : Idx s) (d : ObjDecl) (he : globalObj d s = some s') : Step s s' d.name := by
  unfold globalObj at he
  dsimp only at he
  cases hl : look s.file d.name with
  | none =>
    rw [hl] at he
    injection he with he
    subst he
    exact step_new h d.name _ (declare_name _ _ _) rfl rfl
  | some e =>
    rw [hl] at he
    cases e with
    | loc k => cases he
    | obj i =>
      dsimp only at he
      cases hg : s.objs[i]? with
      | none => rw [hg] at he; cases he
      | some g =>
        rw [hg] at he
        dsimp only at he
        split at he
        · injection he with he; subst he; exact ⟨h, fun _ _ _ _ h1 h2 => ⟨h1, h2⟩⟩
        · split at he
          · split at he
            · cases he
            · injection he with he; subst he; exact ⟨h, fun _ _ _ _ h1 h2 => ⟨h1, h2⟩⟩
          · injection he with he; subst he
            exact step_set h _ hl hg ((declare_name _ _ _).trans rfl)

theorem step_proto {s s' : St} {i : Nat} (h : Idx s) (d : FnDecl) (he : funcProto d s = some (i, s')) :
    Step s s' d.name ∧ look s'.file d.name = some (.obj i) := by
  unfold funcProto at he
  cases hl : findFunc s d.name with
  | none =>
    rw [hl] at he
    injection he with he
    injection he with he1 he
    subst he1 he
    refine ⟨step_new h d.name _ rfl rfl rfl, ?_⟩
    show look ((d.name, Entry.obj s.objs.length) :: s.file) d.name = _
    rw [look_cons, if_pos rfl]
  | some j =>
    rw [hl] at he
    dsimp only at he
    cases hg : s.objs[j]? with
    | none => rw [hg] at he; cases he
    | some g =>
      rw [hg] at he
      dsimp only at he
      split at he
      · cases he
      · injection he with he
        injection he with he1 he
        subst he1 he
        have hl' := findFunc_look hl
        exact ⟨step_set h { g with isInline := g.isInline || d.inline } hl' hg rfl, hl'⟩

theorem step_def {s s' : St} {i : Nat} (h : Idx s) (d : FnDecl) (b : Body) (hl : look s.file d.name = some (.obj i)) (he : funcDef d b i s = some s') :
    Step s s' d.name ∧ look s'.file d.name = some (.obj i) := by
  unfold funcDef at he
  cases hg : s.objs[i]? with
  | none => rw [hg] at he; cases he
  | some g =>
    rw [hg] at he
    dsimp only at he
    split at he
    · cases he
    · injection he with he
      have h1 := step_setDef h true hl
      have hgr := runBody_grown b [[]] (setDef s i true)
      have h2 := step_grown h1.idx hgr d.name
      have hl2 : look (runBody b [[]] (setDef s i true)).file d.name = some (.obj i) := by
        rw [hgr.file, setDef_file]; exact hl
      rw [← he]
      split
      · exact ⟨(h1.trans h2).trans (step_setDef h2.idx false hl2), by rw [setDef_file]; exact hl2⟩
      · exact ⟨h1.trans h2, hl2⟩

/-- The name an event declares. -/
def declares : Event → Nat → Prop
  | .obj d, x => d.name = x
  | .fn d, x => d.name = x
  | .tag _ _ _, _ => False

theorem step_event {s s' : St} (h : Idx s) (e : Event) (he : event e s = some s') :
    Idx s' ∧ ∀ y i g, ¬ declares e y → look s.file y = some (.obj i) → s.objs[i]? = some g → look s'.file y = some (.obj i) ∧ s'.objs[i]? = some g := by
  cases e with
  | obj d =>
    have := step_obj h d he
    exact ⟨this.idx, fun y i g hy => this.other y i g (fun e => hy e.symm)⟩
  | tag t n m =>
    injection he with he; subst he
    exact ⟨h, fun _ _ _ _ h1 h2 => ⟨h1, h2⟩⟩
  | fn d =>
    have key : Step s s' d.name := by
      unfold event at he
      dsimp only at he
      cases hp : funcProto d s with
      | none => rw [hp] at he; cases he
      | some r =>
        obtain ⟨i, s2⟩ := r
        rw [hp] at he
        dsimp only at he
        obtain ⟨h1, h2⟩ := step_proto h d hp
        cases hb : d.body with
        | none => rw [hb] at he; injection he with he; subst he; exact h1
        | some b =>
          rw [hb] at he
          exact h1.trans (step_def h1.idx d b h2 he).1
    exact ⟨key.idx, fun y i g hy => key.other y i g (fun e => hy e.symm)⟩

/-- The name has been defined for good. -/
structure Settled (s : St) (x : Nat) (f : Bool) : Prop where
  idx : Idx s
  obj : ∃ i g, look s.file x = some (.obj i) ∧ s.objs[i]? = some g ∧ g.isDef = true ∧ (f = false → g.isTent = false) ∧ (f = true → g.fn = true)

theorem settled_other {s s' : St} {x : Nat} {f : Bool} (h : Settled s x f) (e : Event) (hn : ¬ declares e x) (he : event e s = some s') : Settled s' x f := by
  obtain ⟨i, g, e1, e2, e3⟩ := h.obj
  obtain ⟨a, b⟩ := step_event h.idx e he
  exact ⟨a, i, g, (b x i g hn e1 e2).1, (b x i g hn e1 e2).2, e3⟩

theorem settled_obj {s : St} {d : ObjDecl} (h : Settled s d.name false) : globalObj d s = if d.init.isSome then none else some s := by
  obtain ⟨i, g, e1, e2, e3, e4, _⟩ := h.obj
  unfold globalObj
  dsimp only
  rw [e1]; dsimp only
  rw [e2]; dsimp only
  rw [e3, e4 rfl]
  cases hi : d.init <;> cases hx : d.extern <;> rfl

theorem settled_proto {s : St} {d : FnDecl} (h : Settled s d.name true) : ∀ i s', funcProto d s = some (i, s') →
    Settled s' d.name true ∧ ∃ g, s'.objs[i]? = some g ∧ g.isDef = true := by
  obtain ⟨i, g, e1, e2, e3, e4, e5⟩ := h.obj
  intro j s' hp
  obtain ⟨h1, h2⟩ := step_proto h.idx d hp
  have hf : findFunc s d.name = some i := by
    unfold findFunc
    rw [e1]; dsimp only
    rw [e2]; dsimp only
    rw [e5 rfl]; rfl
  unfold funcProto at hp
  rw [hf] at hp
  dsimp only at hp
  rw [e2] at hp
  dsimp only at hp
  split at hp
  · cases hp
  · injection hp with hp
    injection hp with hp1 hp
    subst hp1
    subst hp
    exact ⟨⟨h1.idx, i, _, h2, set_get e2, e3, e4, e5⟩, _, set_get e2, e3⟩

theorem settled_fn {s : St} {d : FnDecl} (h : Settled s d.name true) : (∀ b, d.body = some b → event (.fn d) s = none) ∧
    ∀ s', event (.fn d) s = some s' → Settled s' d.name true := by
  have key : ∀ b, d.body = some b → event (.fn d) s = none := by
    intro b hb
    unfold event
    dsimp only
    cases hp : funcProto d s with
    | none => rfl
    | some r =>
      obtain ⟨i, s2⟩ := r
      dsimp only
      obtain ⟨_, g, e1, e2⟩ := settled_proto h i s2 hp
      rw [hb]
      dsimp only
      unfold funcDef
      rw [e1]
      dsimp only
      rw [if_pos e2]
  refine ⟨key, fun s' he => ?_⟩
  cases hb : d.body with
  | some b => rw [key b hb] at he; cases he
  | none =>
    unfold event at he
    dsimp only at he
    cases hp : funcProto d s with
    | none => rw [hp] at he; cases he
    | some r =>
      obtain ⟨i, s2⟩ := r
      rw [hp, hb] at he
      injection he with he; subst he
      exact (settled_proto h i s2 hp).1

/-- No second initializer. -/
theorem settled_unit_obj {x : Nat} : ∀ (u : List Event) (s : St), Settled s x false → fnDecls u x = [] →
    (∃ d ∈ objDecls u x, d.init ≠ none) → unit u s = none := by
  intro u
  induction u with
  | nil => rintro s _ _ ⟨d, hd, _⟩; cases hd
  | cons e u ih =>
    intro s h hf hd
    rw [show e :: u = [e] ++ u from rfl, fnDecls_append] at hf
    obtain ⟨hf1, hf2⟩ := List.append_eq_nil_iff.1 hf
    rw [unit]
    cases he : event e s with
    | none => rfl
    | some s1 =>
      show unit u s1 = none
      obtain ⟨d, hd, hi⟩ := hd
      rw [show e :: u = [e] ++ u from rfl, objDecls_append] at hd
      cases e with
      | obj c =>
        by_cases hc : c.name = x
        · subst hc
          have he : globalObj c s = some s1 := he
          rw [settled_obj h] at he
          have hn : c.init = none := by
            cases hx : c.init with
            | none => rfl
            | some v => rw [hx] at he; cases he
          rw [hn] at he
          injection he with he
          rw [← he]
          refine ih s h hf2 ?_
          rcases List.mem_append.1 hd with hd | hd
          · rw [objDecls_obj, if_pos rfl] at hd
            rw [List.mem_singleton.1 hd] at hi
            exact absurd hn hi
          · exact ⟨d, hd, hi⟩
        · rw [objDecls_obj, if_neg hc] at hd
          exact ih s1 (settled_other h (.obj c) hc he) hf2 ⟨d, hd, hi⟩
      | fn c =>
        by_cases hc : c.name = x
        · rw [fnDecls_fn, if_pos hc] at hf1; cases hf1
        · exact ih s1 (settled_other h (.fn c) hc he) hf2 ⟨d, hd, hi⟩
      | tag t n m => exact ih s1 (settled_other h (.tag t n m) (fun h => h) he) hf2 ⟨d, hd, hi⟩

/-- No second body. -/
theorem settled_unit_fn {x : Nat} : ∀ (u : List Event) (s : St), Settled s x true → objDecls u x = [] →
    (∃ d ∈ fnDecls u x, d.body.isSome = true) → unit u s = none := by
  intro u
  induction u with
  | nil => rintro s _ _ ⟨d, hd, _⟩; cases hd
  | cons e u ih =>
    intro s h hf hd
    rw [show e :: u = [e] ++ u from rfl, objDecls_append] at hf
    obtain ⟨hf1, hf2⟩ := List.append_eq_nil_iff.1 hf
    rw [unit]
    cases he : event e s with
    | none => rfl
    | some s1 =>
      show unit u s1 = none
      obtain ⟨d, hd, hi⟩ := hd
      rw [show e :: u = [e] ++ u from rfl, fnDecls_append] at hd
      cases e with
      | fn c =>
        by_cases hc : c.name = x
        · subst hc
          have hs1 := (settled_fn h).2 s1 he
          refine ih s1 hs1 hf2 ?_
          rcases List.mem_append.1 hd with hd | hd
          · rw [fnDecls_fn, if_pos rfl] at hd
            rw [List.mem_singleton.1 hd] at hi
            cases hb : c.body with
            | none => rw [hb] at hi; cases hi
            | some b => rw [(settled_fn h).1 b hb] at he; cases he
          · exact ⟨d, hd, hi⟩
        · rw [fnDecls_fn, if_neg hc] at hd
          exact ih s1 (settled_other h (.fn c) hc he) hf2 ⟨d, hd, hi⟩
      | obj c =>
        by_cases hc : c.name = x
        · rw [objDecls_obj, if_pos hc] at hf1; cases hf1
        · exact ih s1 (settled_other h (.obj c) hc he) hf2 ⟨d, hd, hi⟩
      | tag t n m => exact ih s1 (settled_other h (.tag t n m) (fun h => h) he) hf2 ⟨d, hd, hi⟩

theorem first_obj {s s' : St} {d : ObjDecl} (h : Idx s) (hd : d.init ≠ none) (he : event (.obj d) s = some s') : Settled s' d.name false := by
  have he : globalObj d s = some s' := he
  refine ⟨(step_obj h d he).idx, ?_⟩
  cases hi : d.init with
  | none => exact absurd hi hd
  | some v =>
    unfold globalObj at he
    dsimp only at he
    rw [hi] at he
    simp only [Option.isSome_some, Bool.or_true, Bool.not_true, Bool.false_eq_true, if_false, if_true] at he
    cases hl : look s.file d.name with
    | none =>
      rw [hl] at he
      injection he with he
      subst he
      refine ⟨s.objs.length, declare (newGvar s false d.name d.ty) d true, ?_, ?_, ?_, ?_, ?_⟩
      · show look ((d.name, Entry.obj s.objs.length) :: s.file) d.name = _
        rw [look_cons, if_pos rfl]
      · simp
      · unfold declare; rw [hi]
      · intro _; unfold declare; rw [hi]; rfl
      · intro hc; cases hc
    | some e =>
      rw [hl] at he
      cases e with
      | loc k => cases he
      | obj i =>
        dsimp only at he
        cases hg : s.objs[i]? with
        | none => rw [hg] at he; cases he
        | some g =>
          rw [hg] at he
          dsimp only at he
          split at he
          · cases he
          · injection he with he; subst he
            refine ⟨i, _, hl, set_get hg, ?_, ?_, fun hc => (by cases hc)⟩
            · unfold declare; rw [hi]
            · intro _; unfold declare; rw [hi]

theorem first_fn {s s' : St} {d : FnDecl} (h : Idx s) (hd : Real d) (he : event (.fn d) s = some s') : Settled s' d.name true := by
  have hidx := (step_event h _ he).1
  refine ⟨hidx, ?_⟩
  unfold event at he
  dsimp only at he
  cases hp : funcProto d s with
  | none => rw [hp] at he; cases he
  | some r =>
    obtain ⟨i, s2⟩ := r
    rw [hp] at he
    dsimp only at he
    obtain ⟨h1, h2⟩ := step_proto h d hp
    have hfn : ∃ g, s2.objs[i]? = some g ∧ g.fn = true := by
      unfold funcProto at hp
      cases hf : findFunc s d.name with
      | none =>
        rw [hf] at hp
        injection hp with hp
        injection hp with hp1 hp
        subst hp1 hp
        exact ⟨{ newGvar s true d.name (.plain 1 1) with isStatic := d.static || (d.inline && !d.extern), isInline := d.inline }, by simp, rfl⟩
      | some j =>
        rw [hf] at hp
        dsimp only at hp
        cases hg : s.objs[j]? with
        | none => rw [hg] at hp; cases hp
        | some g =>
          rw [hg] at hp
          dsimp only at hp
          split at hp
          · cases hp
          · injection hp with hp
            injection hp with hp1 hp
            subst hp1 hp
            refine ⟨_, set_get hg, ?_⟩
            show g.fn = true
            unfold findFunc at hf
            split at hf
            · rename_i k hk
              split at hf
              · rename_i g2 hg2
                split at hf
                · injection hf with hf; subst hf
                  rw [hg] at hg2; injection hg2 with hg2; subst hg2; assumption
                · cases hf
              · cases hf
            · cases hf
    obtain ⟨g, hg, hgf⟩ := hfn
    cases hb : d.body with
    | none => have := hd.1; rw [hb] at this; cases this
    | some b =>
      rw [hb] at he
      have hl' := (step_def h1.idx d b h2 he).2
      dsimp only at he
      unfold funcDef at he
      rw [hg] at he
      dsimp only at he
      split at he
      · cases he
      · rw [hd.2] at he
        injection he with he
        refine ⟨i, { g with isDef := true }, hl', ?_, rfl, fun hc => (by cases hc), fun _ => hgf⟩
        rw [← he]
        exact (runBody_grown b [[]] (setDef s2 i true)).get (setDef_get hg true)

theorem unit_idx : ∀ (u : List Event) (s s' : St), Idx s → unit u s = some s' → Idx s' := by
  intro u
  induction u with
  | nil => intro s s' h he; injection he with he; subst he; exact h
  | cons e u ih =>
    intro s s' h he
    rw [unit] at he
    cases h1 : event e s with
    | none => rw [h1] at he; cases he
    | some s1 =>
      rw [h1] at he
      exact ih s1 s' (step_event h e h1).1 he

theorem idx_init : Idx St.init := fun x e h => by cases h

theorem twice_obj {a b : List Event} {d : ObjDecl} (hd : d.init ≠ none) (hf : fnDecls b d.name = [])
    (h2 : ∃ d' ∈ objDecls b d.name, d'.init ≠ none) : unit (a ++ .obj d :: b) St.init = none := by
  rw [unit_append]
  cases ha : unit a St.init with
  | none => rfl
  | some s =>
    show (event (.obj d) s).bind (unit b) = none
    cases he : event (.obj d) s with
    | none => rfl
    | some s1 => exact settled_unit_obj b s1 (first_obj (unit_idx a _ s idx_init ha) hd he) hf h2

theorem twice_fn {a b : List Event} {d : FnDecl} (hd : Real d) (hf : objDecls b d.name = [])
    (h2 : ∃ d' ∈ fnDecls b d.name, d'.body.isSome = true) : unit (a ++ .fn d :: b) St.init = none := by
  rw [unit_append]
  cases ha : unit a St.init with
  | none => rfl
  | some s =>
    show (event (.fn d) s).bind (unit b) = none
    cases he : event (.fn d) s with
    | none => rfl
    | some s1 => exact settled_unit_fn b s1 (first_fn (unit_idx a _ s idx_init ha) hd he) hf h2

end Slimcc.Globals
