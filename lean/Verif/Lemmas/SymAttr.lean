import Verif.Model.SymAttr
/-! What the readers of attributes collect. -/
set_option autoImplicit false
namespace Slimcc.SymAttr
open Slimcc.Spec.SymAttr

/-- `r` is the common value of `l`, or nothing if there is none. -/
def Agree {α : Type} (l : List (Option α)) (r : Option α) : Prop :=
  (∀ v, some v ∈ l → r = some v) ∧ (r = none ∨ r ∈ l)

/-- The step takes the values `l` in. -/
def Reads {α : Type} (f : Option α → Option (Option α)) (l : List (Option α)) : Prop :=
  ∀ c r, f c = some r ↔ Agree (c :: l) r

theorem reads_nil {α : Type} : Reads (α := α) (fun c => some c) [] := by
  intro c r
  simp only [Option.some.injEq, Agree, List.mem_cons, List.not_mem_nil, or_false]
  constructor
  · rintro rfl; exact ⟨fun v h => h.symm, .inr rfl⟩
  · rintro ⟨h1, h2 | h2⟩
    · cases c with
      | none => exact h2.symm
      | some v => exact (h1 v rfl).symm
    · exact h2.symm

theorem reads_comp {α : Type} {f g : Option α → Option (Option α)} {l m : List (Option α)}
    (hf : Reads f l) (hg : Reads g m) : Reads (fun c => (f c).bind g) (l ++ m) := by
  intro c r
  rw [Option.bind_eq_some_iff]
  constructor
  · rintro ⟨q, h1, h2⟩
    obtain ⟨a1, a2⟩ := (hf c q).1 h1
    obtain ⟨b1, b2⟩ := (hg q r).1 h2
    refine ⟨?_, ?_⟩
    · intro v hv
      rw [← List.cons_append, List.mem_append] at hv
      rcases hv with hv | hv
      · exact b1 v (List.mem_cons.2 (.inl (a1 v hv).symm))
      · exact b1 v (List.mem_cons_of_mem _ hv)
    · rcases b2 with b2 | b2
      · exact .inl b2
      · rcases List.mem_cons.1 b2 with b2 | b2
        · rcases a2 with a2 | a2
          · exact .inl (b2.trans a2)
          · right; rw [← List.cons_append, List.mem_append, b2]; exact .inl a2
        · right; rw [← List.cons_append, List.mem_append]; exact .inr b2
  · rintro ⟨h1, h2⟩
    by_cases hc : ∃ v, some v ∈ c :: l
    · obtain ⟨v, hv⟩ := hc
      have hr : r = some v := h1 v (by rw [← List.cons_append, List.mem_append]; exact .inl hv)
      refine ⟨r, (hf c r).2 ⟨?_, .inr (hr ▸ hv)⟩, (hg r r).2 ⟨?_, .inr (List.mem_cons_self ..)⟩⟩
      · intro w hw; exact h1 w (by rw [← List.cons_append, List.mem_append]; exact .inl hw)
      · intro w hw
        rcases List.mem_cons.1 hw with hw | hw
        · exact hw.symm
        · exact h1 w (by rw [← List.cons_append, List.mem_append]; exact .inr hw)
    · refine ⟨none, (hf c none).2 ⟨fun v hv => (hc ⟨v, hv⟩).elim, .inl rfl⟩, (hg none r).2 ⟨?_, ?_⟩⟩
      · intro w hw
        rcases List.mem_cons.1 hw with hw | hw
        · cases hw
        · exact h1 w (by rw [← List.cons_append, List.mem_append]; exact .inr hw)
      · rcases h2 with h2 | h2
        · exact .inl h2
        · rw [← List.cons_append, List.mem_append] at h2
          rcases h2 with h2 | h2
          · cases r with
            | none => exact .inl rfl
            | some v => exact (hc ⟨v, h2⟩).elim
          · exact .inr (List.mem_cons_of_mem _ h2)

theorem reads_fold {α β : Type} (F : β → Option α → Option (Option α)) (V : β → List (Option α))
    (h : ∀ b, Reads (F b) (V b)) (l : List β) : Reads (fun c => l.foldlM (fun a b => F b a) c) (l.flatMap V) := by
  induction l with
  | nil => exact reads_nil
  | cons b l ih =>
    have := reads_comp (h b) ih
    intro c r
    rw [← List.flatMap_cons] at this
    exact this c r

/-- Reading into an empty field first and then merging the field is reading on. -/
theorem reads_via {α : Type} {f g : Option α → Option (Option α)} {l : List (Option α)}
    (mg : Option α → Option α → Option (Option α)) (hm : ∀ a, Reads (fun c => mg c a) [a])
    (hf : Reads f l) (hg : g = fun c => (f none).bind fun a => mg c a) : Reads g l := by
  subst hg
  intro c r
  show (f none).bind (fun a => mg c a) = some r ↔ _
  rw [Option.bind_eq_some_iff]
  constructor
  · rintro ⟨a, h1, h2⟩
    obtain ⟨a1, a2⟩ := (hf none a).1 h1
    obtain ⟨b1, b2⟩ := (hm a c r).1 h2
    refine ⟨?_, ?_⟩
    · intro v hv
      rcases List.mem_cons.1 hv with hv | hv
      · exact b1 v (List.mem_cons.2 (.inl hv))
      · exact b1 v (by have := a1 v (List.mem_cons_of_mem _ hv); simp [this])
    · rcases b2 with b2 | b2
      · exact .inl b2
      · simp only [List.mem_cons, List.not_mem_nil, or_false] at b2
        rcases b2 with b2 | b2
        · right; simp [b2]
        · rcases a2 with a2 | a2
          · left; exact b2.trans a2
          · rcases List.mem_cons.1 a2 with a2 | a2
            · left; exact b2.trans a2
            · right; rw [b2]; exact List.mem_cons_of_mem _ a2
  · rintro ⟨h1, h2⟩
    by_cases hc : ∃ v, some v ∈ l
    · obtain ⟨v, hv⟩ := hc
      have hr : r = some v := h1 v (List.mem_cons_of_mem _ hv)
      refine ⟨r, (hf none r).2 ⟨?_, .inr (List.mem_cons_of_mem _ (hr ▸ hv))⟩, (hm r c r).2 ⟨?_, .inr (by simp)⟩⟩
      · intro w hw
        rcases List.mem_cons.1 hw with hw | hw
        · cases hw
        · exact h1 w (List.mem_cons_of_mem _ hw)
      · intro w hw
        simp only [List.mem_cons, List.not_mem_nil, or_false] at hw
        rcases hw with hw | hw
        · exact h1 w (List.mem_cons.2 (.inl hw))
        · exact hw.symm
    · refine ⟨none, (hf none none).2 ⟨?_, .inl rfl⟩, (hm none c r).2 ⟨?_, ?_⟩⟩
      · intro w hw
        rcases List.mem_cons.1 hw with hw | hw
        · cases hw
        · exact (hc ⟨w, hw⟩).elim
      · intro w hw
        simp only [List.mem_cons, List.not_mem_nil, or_false] at hw
        rcases hw with hw | hw
        · exact h1 w (List.mem_cons.2 (.inl hw))
        · cases hw
      · rcases h2 with h2 | h2
        · exact .inl h2
        · rcases List.mem_cons.1 h2 with h2 | h2
          · right; simp [h2]
          · cases r with
            | none => exact .inl rfl
            | some v => exact (hc ⟨v, h2⟩).elim

/-! The single readers. -/

theorem applyStr_reads (a : Option String) : Reads (fun c => applyStr c a) [a] := by
  intro c r
  cases c with
  | none =>
    simp only [applyStr, Option.some.injEq, Agree, List.mem_cons, List.not_mem_nil, or_false, reduceCtorEq, false_or]
    constructor
    · rintro rfl; exact ⟨fun v h => h.symm, .inr (.inr rfl)⟩
    · rintro ⟨h1, h2⟩
      cases a with
      | none => rcases h2 with h | h | h <;> exact h.symm
      | some v => exact (h1 v rfl).symm
  | some x =>
    cases a with
    | none =>
      simp only [applyStr, Option.some.injEq, Agree, List.mem_cons, List.not_mem_nil, or_false, reduceCtorEq]
      constructor
      · rintro rfl; exact ⟨fun v h => by rw [h], .inr (.inl rfl)⟩
      · rintro ⟨h1, -⟩; exact (h1 x rfl).symm
    | some b =>
      by_cases h : x = b
      · subst h
        simp only [applyStr, if_true, Option.some.injEq, Agree, List.mem_cons, List.not_mem_nil, or_false]
        constructor
        · rintro rfl; exact ⟨fun v h => by rcases h with h | h <;> rw [h], .inr (.inl rfl)⟩
        · rintro ⟨h1, -⟩; exact (h1 x (.inl rfl)).symm
      · simp only [applyStr, if_neg h, Agree, List.mem_cons, List.not_mem_nil, or_false, Option.some.injEq, reduceCtorEq,
          false_iff]
        rintro ⟨h1, -⟩
        have e1 := h1 x (.inl rfl)
        have e2 := h1 b (.inr rfl)
        rw [e1, Option.some.injEq] at e2
        exact h e2

theorem applyCdtor_eq (c : Option Nat) (p : Nat) : applyCdtor c p true = (match c with
    | none => some (some p)
    | some a => if a = p then some (some a) else none) := by
  cases c with
  | none => rfl
  | some q =>
    by_cases h : q = p
    · subst h; simp [applyCdtor]
    · simp [applyCdtor, h]

theorem applyCdtor_reads1 (p : Nat) : Reads (fun c => applyCdtor c p true) [some p] := by
  intro c r
  show applyCdtor c p true = some r ↔ _
  rw [applyCdtor_eq]
  cases c with
  | none =>
    simp only [Option.some.injEq, Agree, List.mem_cons, List.not_mem_nil, or_false, reduceCtorEq, false_or]
    constructor
    · rintro rfl; exact ⟨fun v h => by rw [h], .inr (.inr rfl)⟩
    · rintro ⟨h1, -⟩; exact (h1 p rfl).symm
  | some x =>
    by_cases h : x = p
    · subst h
      simp only [if_true, Option.some.injEq, Agree, List.mem_cons, List.not_mem_nil, or_false]
      constructor
      · rintro rfl; exact ⟨fun v h => by rcases h with h | h <;> rw [h], .inr (.inl rfl)⟩
      · rintro ⟨h1, -⟩; exact (h1 x (.inl rfl)).symm
    · simp only [if_neg h, Agree, List.mem_cons, List.not_mem_nil, or_false, Option.some.injEq, reduceCtorEq, false_iff]
      rintro ⟨h1, -⟩
      have e1 := h1 x (.inl rfl)
      have e2 := h1 p (.inr rfl)
      rw [e1, Option.some.injEq] at e2
      exact h e2

theorem applyCdtor_reads (a : Option Nat) : Reads (fun c => applyCdtor c (a.getD 0) a.isSome) [a] := by
  cases a with
  | some p => exact applyCdtor_reads1 p
  | none =>
    intro c r
    have h := reads_nil (α := Nat) c r
    simp only [applyCdtor, Option.isSome_none, Bool.false_eq_true, if_false]
    rw [h]
    simp only [Agree, List.mem_cons, List.not_mem_nil, or_false, reduceCtorEq]
    constructor
    · rintro ⟨a, b⟩; exact ⟨a, b.elim .inl fun h => .inr (.inl h)⟩
    · rintro ⟨a, b⟩; exact ⟨a, b.elim .inl fun h => h.elim .inr .inl⟩

/-- The values in front of a token. -/
def strVals (g : Attr → Option String) (p : Bool × List Marked) : List (Option String) :=
  [p.2.findSome? (fun m => if m.std = p.1 then g m.attr else none)]
def cdVals (g : Attr → Option (Option Int)) (p : Bool × List Marked) : List (Option Nat) :=
  p.2.flatMap fun m => match (if m.std = p.1 then g m.attr else none) with | some q => [some (pri16 q)] | none => []

theorem strAttr_reads (g : Attr → Option String) (p : Bool × List Marked) : Reads (strAttr g p.1 p.2) (strVals g p) := by
  intro c r
  have h := applyStr_reads (p.2.findSome? (fun m => if m.std = p.1 then g m.attr else none)) c r
  rw [strVals, ← h, strAttr]
  cases p.2.findSome? (fun m => if m.std = p.1 then g m.attr else none) with
  | none => cases c <;> rfl
  | some s => rfl

theorem cdtorAttr_reads (g : Attr → Option (Option Int)) (std : Bool) (ms : List Marked) :
    Reads (cdtorAttr g std ms) (cdVals g (std, ms)) := by
  induction ms with
  | nil => exact reads_nil
  | cons m ms ih =>
    rw [cdVals, List.flatMap_cons]
    cases h : (if m.std = std then g m.attr else none) with
    | none =>
      intro c r
      rw [cdtorAttr, h]
      exact ih c r
    | some q =>
      have := reads_comp (applyCdtor_reads1 (pri16 q)) ih
      intro c r
      rw [cdtorAttr, h]
      exact this c r

/-! Fields of `Sym`. -/

theorem tyspec_iff (std : Bool) (loc : List Marked) (s a : Sym) : tyspec std loc s = some a ↔
    cdtorAttr Attr.ctor? std loc s.ctor = some a.ctor ∧ cdtorAttr Attr.dtor? std loc s.dtor = some a.dtor ∧
    strAttr Attr.alias? std loc s.aliasOf = some a.aliasOf ∧ strAttr Attr.sect? std loc s.sect = some a.sect ∧
    strAttr Attr.vis? std loc s.vis = some a.vis ∧ boolAttr std loc s.weak = a.weak := by
  obtain ⟨w, x1, x2, x3, x4, x5⟩ := a
  simp only [tyspec, Option.bind_eq_some_iff, Option.map_eq_some_iff, Sym.mk.injEq]
  constructor
  · rintro ⟨_, h1, _, h2, _, h3, _, h4, _, h5, rfl, rfl, rfl, rfl, rfl, rfl⟩
    exact ⟨h1, h2, h3, h4, h5, rfl⟩
  · rintro ⟨h1, h2, h3, h4, h5, rfl⟩
    exact ⟨_, h1, _, h2, _, h3, _, h4, _, h5, rfl, rfl, rfl, rfl, rfl, rfl⟩

theorem tyspecs_iff (l : List (Bool × List Marked)) (s a : Sym) : l.foldlM (fun s p => tyspec p.1 p.2 s) s = some a ↔
    l.foldlM (fun c p => cdtorAttr Attr.ctor? p.1 p.2 c) s.ctor = some a.ctor ∧
    l.foldlM (fun c p => cdtorAttr Attr.dtor? p.1 p.2 c) s.dtor = some a.dtor ∧
    l.foldlM (fun c p => strAttr Attr.alias? p.1 p.2 c) s.aliasOf = some a.aliasOf ∧
    l.foldlM (fun c p => strAttr Attr.sect? p.1 p.2 c) s.sect = some a.sect ∧
    l.foldlM (fun c p => strAttr Attr.vis? p.1 p.2 c) s.vis = some a.vis ∧
    l.foldl (fun b p => boolAttr p.1 p.2 b) s.weak = a.weak := by
  induction l generalizing s with
  | nil =>
    obtain ⟨w, x1, x2, x3, x4, x5⟩ := a
    obtain ⟨w', y1, y2, y3, y4, y5⟩ := s
    simp only [List.foldlM_nil, List.foldl_nil, Option.pure_def, Option.some.injEq, Sym.mk.injEq]
    constructor
    · rintro ⟨rfl, rfl, rfl, rfl, rfl, rfl⟩; exact ⟨rfl, rfl, rfl, rfl, rfl, rfl⟩
    · rintro ⟨rfl, rfl, rfl, rfl, rfl, rfl⟩; exact ⟨rfl, rfl, rfl, rfl, rfl, rfl⟩
  | cons p l ih =>
    simp only [List.foldlM_cons, List.foldl_cons, Option.bind_eq_bind, Option.bind_eq_some_iff]
    constructor
    · rintro ⟨q, h, hq⟩
      obtain ⟨h1, h2, h3, h4, h5, h6⟩ := (tyspec_iff _ _ _ _).1 h
      obtain ⟨k1, k2, k3, k4, k5, k6⟩ := (ih q).1 hq
      exact ⟨⟨_, h1, k1⟩, ⟨_, h2, k2⟩, ⟨_, h3, k3⟩, ⟨_, h4, k4⟩, ⟨_, h5, k5⟩, by rw [h6]; exact k6⟩
    · rintro ⟨⟨q1, h1, k1⟩, ⟨q2, h2, k2⟩, ⟨q3, h3, k3⟩, ⟨q4, h4, k4⟩, ⟨q5, h5, k5⟩, h6⟩
      exact ⟨⟨boolAttr p.1 p.2 s.weak, q1, q2, q3, q4, q5⟩, (tyspec_iff _ _ _ _).2 ⟨h1, h2, h3, h4, h5, rfl⟩,
        (ih _).2 ⟨k1, k2, k3, k4, k5, h6⟩⟩

/-- The places of a declaration in the order in which they are read. -/
def places (d : Decl) : List (Bool × List Marked) := specPlaces d ++ declPlaces d

/-- One declaration, one string. -/
def strStep (g : Attr → Option String) (d : Decl) (c : Option String) : Option (Option String) :=
  ((specPlaces d).foldlM (fun c p => strAttr g p.1 p.2 c) none).bind fun a => (applyStr c a).bind (declAttr (strAttr g) d)
def cdStep (g : Attr → Option (Option Int)) (d : Decl) (c : Option Nat) : Option (Option Nat) :=
  ((specPlaces d).foldlM (fun c p => cdtorAttr g p.1 p.2 c) none).bind fun a =>
    (applyCdtor c (a.getD 0) a.isSome).bind (declAttr (cdtorAttr g) d)
def weakStep (d : Decl) (b : Bool) : Bool :=
  (declPlaces d).foldl (fun b p => boolAttr p.1 p.2 b) (b || (specPlaces d).foldl (fun b p => boolAttr p.1 p.2 b) false)

theorem strStep_reads (g : Attr → Option String) (d : Decl) : Reads (strStep g d) ((places d).flatMap (strVals g)) := by
  have h1 := reads_fold (fun p : Bool × List Marked => strAttr g p.1 p.2) (strVals g) (strAttr_reads g) (specPlaces d)
  have h2 := reads_fold (fun p : Bool × List Marked => strAttr g p.1 p.2) (strVals g) (strAttr_reads g) (declPlaces d)
  have h3 := reads_comp (reads_via applyStr applyStr_reads h1 rfl) h2
  rw [places, List.flatMap_append]
  intro c r
  rw [← h3 c r, strStep]
  show _ ↔ Option.bind _ _ = _
  rw [Option.bind_assoc]
  rfl

theorem cdStep_reads (g : Attr → Option (Option Int)) (d : Decl) : Reads (cdStep g d) ((places d).flatMap (cdVals g)) := by
  have h1 := reads_fold (fun p : Bool × List Marked => cdtorAttr g p.1 p.2) (cdVals g)
    (fun p => cdtorAttr_reads g p.1 p.2) (specPlaces d)
  have h2 := reads_fold (fun p : Bool × List Marked => cdtorAttr g p.1 p.2) (cdVals g)
    (fun p => cdtorAttr_reads g p.1 p.2) (declPlaces d)
  have h3 := reads_comp (reads_via (fun c a => applyCdtor c (a.getD 0) a.isSome) applyCdtor_reads h1 rfl) h2
  rw [places, List.flatMap_append]
  intro c r
  rw [← h3 c r, cdStep]
  show _ ↔ Option.bind _ _ = _
  rw [Option.bind_assoc]
  rfl

/-- `declspec` and `symbol_attr`. -/
theorem symbol_iff (d : Decl) (o r : Sym) : ((declspec d).bind fun a => symbolAttr d a o) = some r ↔
    (∃ a, declspec d = some a) ∧ strStep Attr.alias? d o.aliasOf = some r.aliasOf ∧ strStep Attr.sect? d o.sect = some r.sect ∧
    strStep Attr.vis? d o.vis = some r.vis ∧ weakStep d o.weak = r.weak ∧ o.ctor = r.ctor ∧ o.dtor = r.dtor := by
  rw [Option.bind_eq_some_iff]
  constructor
  · rintro ⟨a, ha, h⟩
    obtain ⟨-, -, h3, h4, h5, h6⟩ := (tyspecs_iff _ _ _).1 ha
    simp only [symbolAttr, Option.bind_eq_some_iff, Option.map_eq_some_iff] at h
    obtain ⟨al, ⟨al', k1, k1'⟩, se, ⟨se', k2, k2'⟩, vi, ⟨vi', k3, k3'⟩, rfl⟩ := h
    refine ⟨⟨a, ha⟩, ?_, ?_, ?_, ?_, rfl, rfl⟩
    · rw [strStep, h3]; simp only [Option.bind_some, k1]; exact k1'
    · rw [strStep, h4]; simp only [Option.bind_some, k2]; exact k2'
    · rw [strStep, h5]; simp only [Option.bind_some, k3]; exact k3'
    · rw [weakStep, h6]
  · rintro ⟨⟨a, ha⟩, h1, h2, h3, h4, h5, h6⟩
    refine ⟨a, ha, ?_⟩
    obtain ⟨-, -, k3, k4, k5, k6⟩ := (tyspecs_iff _ _ _).1 ha
    rw [strStep, k3] at h1
    rw [strStep, k4] at h2
    rw [strStep, k5] at h3
    rw [weakStep, k6] at h4
    simp only [Option.bind_some] at h1 h2 h3
    obtain ⟨w, x1, x2, x3, x4, x5⟩ := r
    simp only [symbolAttr, h1, h2, h3, h4, h5, h6, Option.bind_some, Option.map_some]

theorem func_iff (d : Decl) (o r : Sym) : ((declspec d).bind fun a => funcAttr d a o) = some r ↔
    (∃ a, declspec d = some a) ∧ cdStep Attr.ctor? d o.ctor = some r.ctor ∧ cdStep Attr.dtor? d o.dtor = some r.dtor ∧
    o.weak = r.weak ∧ o.aliasOf = r.aliasOf ∧ o.sect = r.sect ∧ o.vis = r.vis := by
  rw [Option.bind_eq_some_iff]
  constructor
  · rintro ⟨a, ha, h⟩
    obtain ⟨h3, h4, -, -, -, -⟩ := (tyspecs_iff _ _ _).1 ha
    simp only [funcAttr, Option.bind_eq_some_iff, Option.map_eq_some_iff] at h
    obtain ⟨al, ⟨al', k1, k1'⟩, se, ⟨se', k2, k2'⟩, rfl⟩ := h
    refine ⟨⟨a, ha⟩, ?_, ?_, rfl, rfl, rfl, rfl⟩
    · rw [cdStep, h3]; simp only [Option.bind_some, k1]; exact k1'
    · rw [cdStep, h4]; simp only [Option.bind_some, k2]; exact k2'
  · rintro ⟨⟨a, ha⟩, h1, h2, h3, h4, h5, h6⟩
    refine ⟨a, ha, ?_⟩
    obtain ⟨k3, k4, -, -, -, -⟩ := (tyspecs_iff _ _ _).1 ha
    rw [cdStep, k3] at h1
    rw [cdStep, k4] at h2
    simp only [Option.bind_some] at h1 h2
    obtain ⟨w, x1, x2, x3, x4, x5⟩ := r
    simp only [funcAttr, h1, h2, Option.bind_some, Option.map_some]
    simp only at h3 h4 h5 h6
    rw [h3, h4, h5, h6]

/-! All declarations of an entity. -/

/-- `declspec`, `func_attr`, `symbol_attr`. -/
def fnSym (d : Decl) (o : Sym) : Option Sym :=
  (declspec d).bind fun a => (funcAttr d a o).bind fun o => symbolAttr d a o
def varSym (d : Decl) (o : Sym) : Option Sym := (declspec d).bind fun a => symbolAttr d a o

theorem fnSym_iff (d : Decl) (o r : Sym) : fnSym d o = some r ↔
    (∃ a, declspec d = some a) ∧ strStep Attr.alias? d o.aliasOf = some r.aliasOf ∧ strStep Attr.sect? d o.sect = some r.sect ∧
    strStep Attr.vis? d o.vis = some r.vis ∧ weakStep d o.weak = r.weak ∧
    cdStep Attr.ctor? d o.ctor = some r.ctor ∧ cdStep Attr.dtor? d o.dtor = some r.dtor := by
  cases h : declspec d with
  | none => simp [fnSym, h]
  | some a =>
    have hf := fun q => func_iff d o q
    have hs := fun q => symbol_iff d q r
    simp only [h, Option.bind_some, Option.some.injEq, exists_eq', true_and] at hf hs
    simp only [fnSym, h, Option.bind_some, Option.some.injEq, exists_eq', true_and, Option.bind_eq_some_iff]
    constructor
    · rintro ⟨q, h1, h2⟩
      obtain ⟨a1, a2, a3, a4, a5, a6⟩ := (hf q).1 h1
      obtain ⟨b1, b2, b3, b4, b5, b6⟩ := (hs q).1 h2
      rw [a4, a5, a6, a3, ← b5, ← b6]
      exact ⟨b1, b2, b3, b4, a1, a2⟩
    · rintro ⟨h1, h2, h3, h4, h5, h6⟩
      exact ⟨⟨o.weak, r.ctor, r.dtor, o.aliasOf, o.sect, o.vis⟩, (hf _).2 ⟨h5, h6, rfl, rfl, rfl, rfl⟩,
        (hs _).2 ⟨h1, h2, h3, h4, rfl, rfl⟩⟩

theorem fnSyms_iff (ds : List Decl) (o r : Sym) : ds.foldlM (fun o d => fnSym d o) o = some r ↔
    (∀ d ∈ ds, ∃ a, declspec d = some a) ∧
    ds.foldlM (fun c d => strStep Attr.alias? d c) o.aliasOf = some r.aliasOf ∧
    ds.foldlM (fun c d => strStep Attr.sect? d c) o.sect = some r.sect ∧
    ds.foldlM (fun c d => strStep Attr.vis? d c) o.vis = some r.vis ∧
    ds.foldl (fun b d => weakStep d b) o.weak = r.weak ∧
    ds.foldlM (fun c d => cdStep Attr.ctor? d c) o.ctor = some r.ctor ∧
    ds.foldlM (fun c d => cdStep Attr.dtor? d c) o.dtor = some r.dtor := by
  induction ds generalizing o with
  | nil =>
    obtain ⟨w, x1, x2, x3, x4, x5⟩ := r
    obtain ⟨w', y1, y2, y3, y4, y5⟩ := o
    simp only [List.foldlM_nil, List.foldl_nil, Option.pure_def, Option.some.injEq, Sym.mk.injEq]
    constructor
    · rintro ⟨rfl, rfl, rfl, rfl, rfl, rfl⟩; exact ⟨fun _ h => (List.not_mem_nil h).elim, rfl, rfl, rfl, rfl, rfl, rfl⟩
    · rintro ⟨-, rfl, rfl, rfl, rfl, rfl, rfl⟩; exact ⟨rfl, rfl, rfl, rfl, rfl, rfl⟩
  | cons d ds ih =>
    simp only [List.foldlM_cons, List.foldl_cons, Option.bind_eq_bind, Option.bind_eq_some_iff, List.forall_mem_cons]
    constructor
    · rintro ⟨q, h, hq⟩
      obtain ⟨h0, h1, h2, h3, h4, h5, h6⟩ := (fnSym_iff _ _ _).1 h
      obtain ⟨k0, k1, k2, k3, k4, k5, k6⟩ := (ih q).1 hq
      exact ⟨⟨h0, k0⟩, ⟨_, h1, k1⟩, ⟨_, h2, k2⟩, ⟨_, h3, k3⟩, by rw [h4]; exact k4, ⟨_, h5, k5⟩, ⟨_, h6, k6⟩⟩
    · rintro ⟨⟨h0, k0⟩, ⟨q1, h1, k1⟩, ⟨q2, h2, k2⟩, ⟨q3, h3, k3⟩, h4, ⟨q5, h5, k5⟩, ⟨q6, h6, k6⟩⟩
      exact ⟨⟨weakStep d o.weak, q5, q6, q1, q2, q3⟩, (fnSym_iff _ _ _).2 ⟨h0, h1, h2, h3, rfl, h5, h6⟩,
        (ih _).2 ⟨k0, k1, k2, k3, h4, k5, k6⟩⟩

theorem varSyms_iff (ds : List Decl) (o r : Sym) : ds.foldlM (fun o d => varSym d o) o = some r ↔
    (∀ d ∈ ds, ∃ a, declspec d = some a) ∧
    ds.foldlM (fun c d => strStep Attr.alias? d c) o.aliasOf = some r.aliasOf ∧
    ds.foldlM (fun c d => strStep Attr.sect? d c) o.sect = some r.sect ∧
    ds.foldlM (fun c d => strStep Attr.vis? d c) o.vis = some r.vis ∧
    ds.foldl (fun b d => weakStep d b) o.weak = r.weak ∧ o.ctor = r.ctor ∧ o.dtor = r.dtor := by
  induction ds generalizing o with
  | nil =>
    obtain ⟨w, x1, x2, x3, x4, x5⟩ := r
    obtain ⟨w', y1, y2, y3, y4, y5⟩ := o
    simp only [List.foldlM_nil, List.foldl_nil, Option.pure_def, Option.some.injEq, Sym.mk.injEq]
    constructor
    · rintro ⟨rfl, rfl, rfl, rfl, rfl, rfl⟩; exact ⟨fun _ h => (List.not_mem_nil h).elim, rfl, rfl, rfl, rfl, rfl, rfl⟩
    · rintro ⟨-, rfl, rfl, rfl, rfl, rfl, rfl⟩; exact ⟨rfl, rfl, rfl, rfl, rfl, rfl⟩
  | cons d ds ih =>
    simp only [List.foldlM_cons, List.foldl_cons, Option.bind_eq_bind, Option.bind_eq_some_iff, List.forall_mem_cons]
    constructor
    · rintro ⟨q, h, hq⟩
      obtain ⟨h0, h1, h2, h3, h4, h5, h6⟩ := (symbol_iff _ _ _).1 h
      obtain ⟨k0, k1, k2, k3, k4, k5, k6⟩ := (ih q).1 hq
      exact ⟨⟨h0, k0⟩, ⟨_, h1, k1⟩, ⟨_, h2, k2⟩, ⟨_, h3, k3⟩, by rw [h4]; exact k4, h5.trans k5, h6.trans k6⟩
    · rintro ⟨⟨h0, k0⟩, ⟨q1, h1, k1⟩, ⟨q2, h2, k2⟩, ⟨q3, h3, k3⟩, h4, h5, h6⟩
      exact ⟨⟨weakStep d o.weak, o.ctor, o.dtor, q1, q2, q3⟩, (symbol_iff _ _ _).2 ⟨h0, h1, h2, h3, rfl, rfl, rfl⟩,
        (ih _).2 ⟨k0, k1, k2, k3, h4, h5, h6⟩⟩

/-! From places to `Decl.Has`. -/

theorem places_has (d : Decl) (a : Attr) : (∃ p ∈ places d, ⟨p.1, a⟩ ∈ p.2) ↔
    (⟨true, a⟩ ∈ d.before 0 ∨ (∃ i, i ≤ d.nspec ∧ ⟨false, a⟩ ∈ d.before i) ∨ ⟨false, a⟩ ∈ d.before d.name ∨
    ⟨true, a⟩ ∈ d.before (d.name + 1) ∨ ⟨false, a⟩ ∈ d.before d.fin) := by
  simp only [places, specPlaces, declPlaces, List.cons_append, List.mem_cons, List.mem_append, List.mem_map,
    List.mem_range, List.not_mem_nil, or_false]
  constructor
  · rintro ⟨p, rfl | ⟨i, hi, rfl⟩ | rfl | rfl | rfl, h⟩
    · exact .inl h
    · exact .inr (.inl ⟨i, by omega, h⟩)
    · exact .inr (.inr (.inl h))
    · exact .inr (.inr (.inr (.inl h)))
    · exact .inr (.inr (.inr (.inr h)))
  · rintro (h | ⟨i, hi, h⟩ | h | h | h)
    · exact ⟨_, .inl rfl, h⟩
    · exact ⟨_, .inr (.inl ⟨i, by omega, rfl⟩), h⟩
    · exact ⟨_, .inr (.inr (.inl rfl)), h⟩
    · exact ⟨_, .inr (.inr (.inr (.inl rfl))), h⟩
    · exact ⟨_, .inr (.inr (.inr (.inr rfl))), h⟩

theorem has_of_place {d : Decl} {p : Bool × List Marked} {a : Attr} (hp : p ∈ places d) (h : ⟨p.1, a⟩ ∈ p.2) : d.Has a := by
  rcases (places_has d a).1 ⟨p, hp, h⟩ with h | h | h | h | h
  · exact .inl h
  · exact .inr (.inl h)
  · exact .inr (.inr (.inl h))
  · exact .inr (.inr (.inr (.inl h)))
  · exact .inr (.inr (.inr (.inr (.inl h))))

theorem place_of_has {d : Decl} {a : Attr} (hn : d.afterAsm = []) (h : d.Has a) : ∃ p ∈ places d, ⟨p.1, a⟩ ∈ p.2 := by
  rw [places_has]
  rcases h with h | h | h | h | h | h
  · exact .inl h
  · exact .inr (.inl h)
  · exact .inr (.inr (.inl h))
  · exact .inr (.inr (.inr (.inl h)))
  · exact .inr (.inr (.inr (.inr h)))
  · rw [hn] at h; exact (List.not_mem_nil h).elim

theorem mem_strVals {g : Attr → Option String} {p : Bool × List Marked} {s : String} (h : some s ∈ strVals g p) :
    ∃ a, ⟨p.1, a⟩ ∈ p.2 ∧ g a = some s := by
  simp only [strVals, List.mem_singleton] at h
  obtain ⟨m, hm, hg⟩ := List.exists_of_findSome?_eq_some h.symm
  by_cases e : m.std = p.1
  · rw [if_pos e] at hg
    obtain ⟨b, a⟩ := m
    simp only at e hg
    exact ⟨a, e ▸ hm, hg⟩
  · rw [if_neg e] at hg; cases hg

theorem strVals_mem {g : Attr → Option String} {p : Bool × List Marked} {a : Attr} {s : String} (h : ⟨p.1, a⟩ ∈ p.2)
    (hg : g a = some s) : ∃ t, some t ∈ strVals g p := by
  simp only [strVals, List.mem_singleton]
  cases e : p.2.findSome? (fun m => if m.std = p.1 then g m.attr else none) with
  | some t => exact ⟨t, rfl⟩
  | none =>
    have := List.findSome?_eq_none_iff.1 e _ h
    simp [hg] at this

theorem mem_cdVals {g : Attr → Option (Option Int)} {p : Bool × List Marked} {n : Nat} :
    some n ∈ cdVals g p ↔ ∃ a q, ⟨p.1, a⟩ ∈ p.2 ∧ g a = some q ∧ pri16 q = n := by
  simp only [cdVals, List.mem_flatMap]
  constructor
  · rintro ⟨⟨b, a⟩, hm, h⟩
    by_cases e : b = p.1
    · subst e
      simp only [if_true] at h
      cases hg : g a with
      | none => rw [hg] at h; exact (List.not_mem_nil h).elim
      | some q =>
        rw [hg] at h
        simp only [List.mem_singleton, Option.some.injEq] at h
        exact ⟨a, q, hm, hg, h.symm⟩
    · simp only [if_neg e] at h; exact (List.not_mem_nil h).elim
  · rintro ⟨a, q, hm, hg, rfl⟩
    exact ⟨_, hm, by simp [hg]⟩

theorem none_cdVals {g : Attr → Option (Option Int)} {p : Bool × List Marked} (h : none ∈ cdVals g p) : False := by
  simp only [cdVals, List.mem_flatMap] at h
  obtain ⟨m, -, h⟩ := h
  split at h <;> simp at h

theorem agree_iff {α : Type} {l : List (Option α)} {P : α → Prop} (h1 : ∀ v, some v ∈ l → P v)
    (h2 : ∀ v, P v → ∃ w, some w ∈ l) (hc : ∀ v w, P v → P w → v = w) (r : Option α) :
    Agree (none :: l) r ↔ ∀ v, r = some v ↔ P v := by
  constructor
  · rintro ⟨a, b⟩ v
    constructor
    · rintro rfl
      rcases b with b | b
      · cases b
      · rcases List.mem_cons.1 b with b | b
        · cases b
        · exact h1 v b
    · intro hv
      obtain ⟨w, hw⟩ := h2 v hv
      rw [hc v w hv (h1 w hw)]
      exact a w (List.mem_cons_of_mem _ hw)
  · intro h
    refine ⟨fun v hv => ?_, ?_⟩
    · rcases List.mem_cons.1 hv with hv | hv
      · cases hv
      · exact (h v).2 (h1 v hv)
    · cases r with
      | none => exact .inl rfl
      | some v =>
        obtain ⟨w, hw⟩ := h2 v ((h v).1 rfl)
        rw [hc v w ((h v).1 rfl) (h1 w hw)]
        exact .inr (List.mem_cons_of_mem _ hw)

theorem agree_exists {α : Type} {l : List (Option α)} (hc : ∀ v w, some v ∈ l → some w ∈ l → v = w) :
    ∃ r, Agree (none :: l) r := by
  by_cases h : ∃ v, some v ∈ l
  · obtain ⟨v, hv⟩ := h
    refine ⟨some v, fun w hw => ?_, .inr (List.mem_cons_of_mem _ hv)⟩
    rcases List.mem_cons.1 hw with hw | hw
    · cases hw
    · rw [hc v w hv hw]
  · refine ⟨none, fun w hw => ?_, .inl rfl⟩
    rcases List.mem_cons.1 hw with hw | hw
    · cases hw
    · exact (h ⟨w, hw⟩).elim

/-- Some declaration has an attribute that `g` gives the value `s`. -/
def HasStr (g : Attr → Option String) (ds : List Decl) (s : String) : Prop := ∃ a, Has ds a ∧ g a = some s
def HasCd (g : Attr → Option (Option Int)) (ds : List Decl) (n : Nat) : Prop := ∃ a q, Has ds a ∧ g a = some q ∧ pri16 q = n

theorem str_all {g : Attr → Option String} {ds : List Decl} (hn : ∀ d ∈ ds, d.afterAsm = [])
    (hc : ∀ v w, HasStr g ds v → HasStr g ds w → v = w) (r : Option String) :
    ds.foldlM (fun c d => strStep g d c) none = some r ↔ ∀ v, r = some v ↔ HasStr g ds v := by
  rw [← agree_iff (l := ds.flatMap fun d => (places d).flatMap (strVals g)) ?_ ?_ hc r]
  · exact reads_fold (strStep g) _ (strStep_reads g) ds none r
  · intro v hv
    obtain ⟨d, hd, hv⟩ := List.mem_flatMap.1 hv
    obtain ⟨p, hp, hv⟩ := List.mem_flatMap.1 hv
    obtain ⟨a, ha, hg⟩ := mem_strVals hv
    exact ⟨a, ⟨d, hd, has_of_place hp ha⟩, hg⟩
  · rintro v ⟨a, ⟨d, hd, ha⟩, hg⟩
    obtain ⟨p, hp, hm⟩ := place_of_has (hn d hd) ha
    obtain ⟨t, ht⟩ := strVals_mem hm hg
    exact ⟨t, List.mem_flatMap.2 ⟨d, hd, List.mem_flatMap.2 ⟨p, hp, ht⟩⟩⟩

theorem cd_all {g : Attr → Option (Option Int)} {ds : List Decl} (hn : ∀ d ∈ ds, d.afterAsm = [])
    (hc : ∀ v w, HasCd g ds v → HasCd g ds w → v = w) (r : Option Nat) :
    ds.foldlM (fun c d => cdStep g d c) none = some r ↔ ∀ v, r = some v ↔ HasCd g ds v := by
  rw [← agree_iff (l := ds.flatMap fun d => (places d).flatMap (cdVals g)) ?_ ?_ hc r]
  · exact reads_fold (cdStep g) _ (cdStep_reads g) ds none r
  · intro v hv
    obtain ⟨d, hd, hv⟩ := List.mem_flatMap.1 hv
    obtain ⟨p, hp, hv⟩ := List.mem_flatMap.1 hv
    obtain ⟨a, q, ha, hg, e⟩ := mem_cdVals.1 hv
    exact ⟨a, q, ⟨d, hd, has_of_place hp ha⟩, hg, e⟩
  · rintro v ⟨a, q, ⟨d, hd, ha⟩, hg, e⟩
    obtain ⟨p, hp, hm⟩ := place_of_has (hn d hd) ha
    exact ⟨v, List.mem_flatMap.2 ⟨d, hd, List.mem_flatMap.2 ⟨p, hp, mem_cdVals.2 ⟨a, q, hm, hg, e⟩⟩⟩⟩

theorem boolFold (l : List (Bool × List Marked)) (b : Bool) :
    l.foldl (fun b p => boolAttr p.1 p.2 b) b = true ↔ b = true ∨ ∃ p ∈ l, ⟨p.1, .weak⟩ ∈ p.2 := by
  induction l generalizing b with
  | nil => simp
  | cons p l ih =>
    rw [List.foldl_cons, ih]
    simp only [boolAttr, Bool.or_eq_true, decide_eq_true_eq, List.mem_cons, exists_eq_or_imp, or_assoc]

theorem weakStep_iff (d : Decl) (b : Bool) : weakStep d b = true ↔ b = true ∨ ∃ p ∈ places d, ⟨p.1, .weak⟩ ∈ p.2 := by
  rw [weakStep, boolFold, Bool.or_eq_true, boolFold, places]
  simp only [Bool.false_eq_true, false_or, List.mem_append, or_and_right, exists_or, or_assoc]

theorem weak_all {ds : List Decl} (hn : ∀ d ∈ ds, d.afterAsm = []) (b : Bool) :
    ds.foldl (fun b d => weakStep d b) b = true ↔ b = true ∨ Has ds .weak := by
  induction ds generalizing b with
  | nil => simp [Has]
  | cons d ds ih =>
    rw [List.foldl_cons, ih (fun x hx => hn x (List.mem_cons_of_mem _ hx)), weakStep_iff]
    constructor
    · rintro ((h | ⟨p, hp, h⟩) | ⟨x, hx, h⟩)
      · exact .inl h
      · exact .inr ⟨d, List.mem_cons_self .., has_of_place hp h⟩
      · exact .inr ⟨x, List.mem_cons_of_mem _ hx, h⟩
    · rintro (h | ⟨x, hx, h⟩)
      · exact .inl (.inl h)
      · rcases List.mem_cons.1 hx with rfl | hx
        · exact .inl (.inr (place_of_has (hn x (List.mem_cons_self ..)) h))
        · exact .inr ⟨x, hx, h⟩

end Slimcc.SymAttr
