import Verif.Lemmas.SymAttr
/-! C78: attributes of symbols have their effect wherever in the declarations they stand. -/
set_option autoImplicit false
namespace Slimcc.Props
open Slimcc.Spec.SymAttr Slimcc.SymAttr

theorem pri16_eq {p : Option Int} (h : PrioOk p) : pri16 p = if prio p < 65535 then prio p + 1 else 0 := by
  cases p with
  | none => rfl
  | some v =>
    obtain ⟨h0, h1⟩ := h v rfl
    have pv : prio (some v) = v.toNat := rfl
    simp only [pri16]
    by_cases e : prio (some v) < 65535
    · rw [if_pos e]
      have : min v 65535 = v := by omega
      rw [this]
      omega
    · rw [if_neg e]
      have : v = 65535 := by omega
      subst this; rfl

theorem hasStr_alias (ds : List Decl) (s : String) : HasStr Attr.alias? ds s ↔ Has ds (.aliasOf s) := by
  constructor
  · rintro ⟨a, h, e⟩; cases a <;> simp [Attr.alias?] at e; exact e ▸ h
  · intro h; exact ⟨_, h, rfl⟩
theorem hasStr_sect (ds : List Decl) (s : String) : HasStr Attr.sect? ds s ↔ Has ds (.sect s) := by
  constructor
  · rintro ⟨a, h, e⟩; cases a <;> simp [Attr.sect?] at e; exact e ▸ h
  · intro h; exact ⟨_, h, rfl⟩
theorem hasStr_vis (ds : List Decl) (s : String) : HasStr Attr.vis? ds s ↔ Has ds (.vis s) := by
  constructor
  · rintro ⟨a, h, e⟩; cases a <;> simp [Attr.vis?] at e; exact e ▸ h
  · intro h; exact ⟨_, h, rfl⟩
theorem hasCd_ctor (ds : List Decl) (n : Nat) : HasCd Attr.ctor? ds n ↔ ∃ p, Has ds (.ctor p) ∧ pri16 p = n := by
  constructor
  · rintro ⟨a, q, h, e, k⟩; cases a <;> simp [Attr.ctor?] at e; exact ⟨q, e ▸ h, k⟩
  · rintro ⟨p, h, k⟩; exact ⟨_, p, h, rfl, k⟩
theorem hasCd_dtor (ds : List Decl) (n : Nat) : HasCd Attr.dtor? ds n ↔ ∃ p, Has ds (.dtor p) ∧ pri16 p = n := by
  constructor
  · rintro ⟨a, q, h, e, k⟩; cases a <;> simp [Attr.dtor?] at e; exact ⟨q, e ▸ h, k⟩
  · rintro ⟨p, h, k⟩; exact ⟨_, p, h, rfl, k⟩

theorem hc_alias {ds : List Decl} (h : Consistent ds) (v w : String) (a : HasStr Attr.alias? ds v) (b : HasStr Attr.alias? ds w) :
    v = w := h.aliasOf v w ((hasStr_alias ..).1 a) ((hasStr_alias ..).1 b)
theorem hc_sect {ds : List Decl} (h : Consistent ds) (v w : String) (a : HasStr Attr.sect? ds v) (b : HasStr Attr.sect? ds w) :
    v = w := h.sect v w ((hasStr_sect ..).1 a) ((hasStr_sect ..).1 b)
theorem hc_vis {ds : List Decl} (h : Consistent ds) (v w : String) (a : HasStr Attr.vis? ds v) (b : HasStr Attr.vis? ds w) :
    v = w := h.vis v w ((hasStr_vis ..).1 a) ((hasStr_vis ..).1 b)
theorem hc_ctor {ds : List Decl} (h : Consistent ds) (v w : Nat) (a : HasCd Attr.ctor? ds v) (b : HasCd Attr.ctor? ds w) :
    v = w := by
  obtain ⟨p, hp, rfl⟩ := (hasCd_ctor ..).1 a
  obtain ⟨q, hq, rfl⟩ := (hasCd_ctor ..).1 b
  rw [pri16_eq (h.ctorOk p hp), pri16_eq (h.ctorOk q hq), h.ctor p q hp hq]
theorem hc_dtor {ds : List Decl} (h : Consistent ds) (v w : Nat) (a : HasCd Attr.dtor? ds v) (b : HasCd Attr.dtor? ds w) :
    v = w := by
  obtain ⟨p, hp, rfl⟩ := (hasCd_dtor ..).1 a
  obtain ⟨q, hq, rfl⟩ := (hasCd_dtor ..).1 b
  rw [pri16_eq (h.dtorOk p hp), pri16_eq (h.dtorOk q hq), h.dtor p q hp hq]

theorem pick {α : Type} {P : α → Prop} (hc : ∀ v w, P v → P w → v = w) : ∃ r : Option α, ∀ v, r = some v ↔ P v := by
  by_cases h : ∃ v, P v
  · obtain ⟨v, hv⟩ := h
    refine ⟨some v, fun w => ⟨fun e => ?_, fun hw => by rw [hc v w hv hw]⟩⟩
    simp only [Option.some.injEq] at e; exact e ▸ hv
  · exact ⟨none, fun w => ⟨fun e => (by cases e), fun hw => (h ⟨w, hw⟩).elim⟩⟩

theorem spec_sub {d : Decl} {p : Bool × List Marked} (h : p ∈ specPlaces d) : p ∈ places d :=
  List.mem_append.2 (.inl h)

theorem specStr {g : Attr → Option String} {ds : List Decl} {d : Decl} (hd : d ∈ ds)
    (hc : ∀ v w, HasStr g ds v → HasStr g ds w → v = w) :
    ∃ r, (specPlaces d).foldlM (fun c p => strAttr g p.1 p.2 c) none = some r := by
  have key : ∀ v, some v ∈ (specPlaces d).flatMap (strVals g) → HasStr g ds v := by
    intro v hv
    obtain ⟨p, hp, hv⟩ := List.mem_flatMap.1 hv
    obtain ⟨a, ha, hg⟩ := mem_strVals hv
    exact ⟨a, ⟨d, hd, has_of_place (spec_sub hp) ha⟩, hg⟩
  obtain ⟨r, hr⟩ := agree_exists (l := (specPlaces d).flatMap (strVals g)) fun v w hv hw => hc v w (key v hv) (key w hw)
  exact ⟨r, (reads_fold (fun p : Bool × List Marked => strAttr g p.1 p.2) (strVals g) (strAttr_reads g) (specPlaces d) none r).2 hr⟩

theorem specCd {g : Attr → Option (Option Int)} {ds : List Decl} {d : Decl} (hd : d ∈ ds)
    (hc : ∀ v w, HasCd g ds v → HasCd g ds w → v = w) :
    ∃ r, (specPlaces d).foldlM (fun c p => cdtorAttr g p.1 p.2 c) none = some r := by
  have key : ∀ v, some v ∈ (specPlaces d).flatMap (cdVals g) → HasCd g ds v := by
    intro v hv
    obtain ⟨p, hp, hv⟩ := List.mem_flatMap.1 hv
    obtain ⟨a, q, ha, hg, e⟩ := mem_cdVals.1 hv
    exact ⟨a, q, ⟨d, hd, has_of_place (spec_sub hp) ha⟩, hg, e⟩
  obtain ⟨r, hr⟩ := agree_exists (l := (specPlaces d).flatMap (cdVals g)) fun v w hv hw => hc v w (key v hv) (key w hw)
  exact ⟨r, (reads_fold (fun p : Bool × List Marked => cdtorAttr g p.1 p.2) (cdVals g)
    (fun p => cdtorAttr_reads g p.1 p.2) (specPlaces d) none r).2 hr⟩

theorem declspec_ok {ds : List Decl} (hc : Consistent ds) {d : Decl} (hd : d ∈ ds) : ∃ a, declspec d = some a := by
  obtain ⟨r1, h1⟩ := specCd hd (hc_ctor hc)
  obtain ⟨r2, h2⟩ := specCd hd (hc_dtor hc)
  obtain ⟨r3, h3⟩ := specStr hd (hc_alias hc)
  obtain ⟨r4, h4⟩ := specStr hd (hc_sect hc)
  obtain ⟨r5, h5⟩ := specStr hd (hc_vis hc)
  exact ⟨⟨_, r1, r2, r3, r4, r5⟩, (tyspecs_iff _ _ _).2 ⟨h1, h2, h3, h4, h5, rfl⟩⟩

/-- What the declarations leave in the object. -/
structure Sees (ds : List Decl) (s : Sym) : Prop where
  weak : s.weak = true ↔ Has ds .weak
  aliasOf : ∀ t, s.aliasOf = some t ↔ Has ds (.aliasOf t)
  sect : ∀ t, s.sect = some t ↔ Has ds (.sect t)
  vis : ∀ t, s.vis = some t ↔ Has ds (.vis t)

structure SeesFn (ds : List Decl) (s : Sym) : Prop extends Sees ds s where
  ctor : ∀ n, s.ctor = some n ↔ ∃ p, Has ds (.ctor p) ∧ pri16 p = n
  dtor : ∀ n, s.dtor = some n ↔ ∃ p, Has ds (.dtor p) ∧ pri16 p = n

theorem fn_collected {ds : List Decl} (hn : ∀ d ∈ ds, d.afterAsm = []) (hc : Consistent ds) :
    ∃ s, ds.foldlM (fun o d => fnSym d o) {} = some s ∧ SeesFn ds s := by
  obtain ⟨r1, h1⟩ := pick (hc_ctor hc)
  obtain ⟨r2, h2⟩ := pick (hc_dtor hc)
  obtain ⟨r3, h3⟩ := pick (hc_alias hc)
  obtain ⟨r4, h4⟩ := pick (hc_sect hc)
  obtain ⟨r5, h5⟩ := pick (hc_vis hc)
  refine ⟨⟨_, r1, r2, r3, r4, r5⟩, (fnSyms_iff _ _ _).2 ⟨fun d hd => declspec_ok hc hd, (str_all hn (hc_alias hc) _).2 h3,
    (str_all hn (hc_sect hc) _).2 h4, (str_all hn (hc_vis hc) _).2 h5, rfl, (cd_all hn (hc_ctor hc) _).2 h1,
    (cd_all hn (hc_dtor hc) _).2 h2⟩, ⟨?_, fun t => (h3 t).trans (hasStr_alias ..), fun t => (h4 t).trans (hasStr_sect ..),
    fun t => (h5 t).trans (hasStr_vis ..)⟩, fun n => (h1 n).trans (hasCd_ctor ..), fun n => (h2 n).trans (hasCd_dtor ..)⟩
  exact (weak_all hn _).trans (by simp)

theorem var_collected {ds : List Decl} (hn : ∀ d ∈ ds, d.afterAsm = []) (hc : Consistent ds) :
    ∃ s, ds.foldlM (fun o d => varSym d o) {} = some s ∧ Sees ds s := by
  obtain ⟨r3, h3⟩ := pick (hc_alias hc)
  obtain ⟨r4, h4⟩ := pick (hc_sect hc)
  obtain ⟨r5, h5⟩ := pick (hc_vis hc)
  refine ⟨⟨_, none, none, r3, r4, r5⟩, (varSyms_iff _ _ _).2 ⟨fun d hd => declspec_ok hc hd, (str_all hn (hc_alias hc) _).2 h3,
    (str_all hn (hc_sect hc) _).2 h4, (str_all hn (hc_vis hc) _).2 h5, rfl, rfl, rfl⟩, ?_, fun t => (h3 t).trans (hasStr_alias ..),
    fun t => (h4 t).trans (hasStr_sect ..), fun t => (h5 t).trans (hasStr_vis ..)⟩
  exact (weak_all hn _).trans (by simp)

/-! The lines. -/

theorem mem_vis (op : Opts) (o : Sym) (l : Line) : l ∈ visLines op o ↔
    ∃ v, l = .visibility v ∧ (v = "hidden" ∨ v = "internal" ∨ v = "protected") ∧
      (o.vis = some v ∨ o.vis = none ∧ op.visibility = some v) := by
  have step : ∀ w : String, (l ∈ if w = "hidden" ∨ w = "internal" ∨ w = "protected" then [Line.visibility w] else []) ↔
      l = .visibility w ∧ (w = "hidden" ∨ w = "internal" ∨ w = "protected") := by
    intro w
    by_cases h : w = "hidden" ∨ w = "internal" ∨ w = "protected"
    · rw [if_pos h]; simp [h]
    · rw [if_neg h]; simp [h]
  rw [visLines]
  cases h : o.vis with
  | some w =>
    simp only [Option.orElse_some]
    rw [step]
    constructor
    · rintro ⟨a, b⟩; exact ⟨w, a, b, .inl rfl⟩
    · rintro ⟨v, a, b, e | ⟨e, -⟩⟩
      · simp only [Option.some.injEq] at e; subst e; exact ⟨a, b⟩
      · cases e
  | none =>
    simp only [Option.orElse_none]
    cases h2 : op.visibility with
    | none => simp
    | some w =>
      simp only
      rw [step]
      constructor
      · rintro ⟨a, b⟩; exact ⟨w, a, b, .inr ⟨trivial, rfl⟩⟩
      · rintro ⟨v, a, b, e | ⟨-, e⟩⟩
        · cases e
        · simp only [Option.some.injEq] at e; subst e; exact ⟨a, b⟩

/-- Lines that are not about the symbol itself. -/
def Plain (l : Line) : Prop := l ≠ .locl ∧ l ≠ .weak ∧ l ≠ .globl ∧ (∀ t, l ≠ .set t) ∧ ∀ v, l ≠ .visibility v

theorem mem_emitSymbol (op : Opts) (st : Bool) (o : Sym) (l : Line) : l ∈ emitSymbol op st o ↔
    l = (if st then .locl else if o.weak then .weak else .globl) ∨ (∃ t, o.aliasOf = some t ∧ l = .set t) ∨ l ∈ visLines op o := by
  rw [emitSymbol, List.cons_append, List.mem_cons, List.mem_append]
  cases o.aliasOf <;> simp

theorem shows {ds : List Decl} {o : Sym} (h : Sees ds o) (op : Opts) (st : Bool) (rest : List Line) (hr : ∀ l ∈ rest, Plain l) :
    Shows (Has ds) st op.visibility (emitSymbol op st o ++ rest) := by
  have hm : ∀ l, ¬ Plain l → (l ∈ emitSymbol op st o ++ rest ↔ l ∈ emitSymbol op st o) := by
    intro l hl
    rw [List.mem_append]
    exact ⟨fun h => h.elim id fun h => (hl (hr l h)).elim, .inl⟩
  have hv : o.vis = none ↔ ∀ w, ¬ Has ds (.vis w) := by
    constructor
    · intro e w hw; rw [(h.vis w).2 hw] at e; cases e
    · intro e
      cases k : o.vis with
      | none => rfl
      | some w => exact (e w ((h.vis w).1 k)).elim
  constructor
  · rw [hm _ (fun p => p.1 rfl), mem_emitSymbol, mem_vis]
    cases st <;> cases o.weak <;> simp
  · rw [hm _ (fun p => p.2.1 rfl), mem_emitSymbol, mem_vis, ← h.weak]
    cases st <;> cases o.weak <;> simp
  · rw [hm _ (fun p => p.2.2.1 rfl), mem_emitSymbol, mem_vis, ← h.weak]
    cases st <;> cases o.weak <;> simp
  · intro t
    rw [hm _ (fun p => p.2.2.2.1 t rfl), mem_emitSymbol, mem_vis, ← h.aliasOf]
    cases st <;> cases o.weak <;> simp
  · intro v
    rw [hm _ (fun p => p.2.2.2.2 v rfl), mem_emitSymbol, mem_vis, ← h.vis, ← hv]
    cases st <;> cases o.weak <;> simp

/-! Functions. -/

theorem declareFn_eq (op : Opts) (d : Decl) (f : Fn) : declareFn op d f = (fnSym d f.sym).bind fun o =>
    if d.value then
      if f.out.isSome then none
      else some { f with sym := o, out := some (emitText op f.isStatic o), referenced := o.ctor.isSome || o.dtor.isSome }
    else some { f with sym := o } := by
  rw [declareFn, fnSym, Option.bind_assoc]
  congr 1; funext a
  rw [Option.bind_assoc]

theorem fns_novalue (op : Opts) (ds : List Decl) (hv : ∀ d ∈ ds, d.value = false) (f : Fn) (s : Sym)
    (h : ds.foldlM (fun o d => fnSym d o) f.sym = some s) :
    ds.foldlM (fun f d => declareFn op d f) f = some { f with sym := s } := by
  induction ds generalizing f with
  | nil =>
    simp only [List.foldlM_nil, Option.pure_def, Option.some.injEq] at h
    subst h; rfl
  | cons d ds ih =>
    simp only [List.foldlM_cons, Option.bind_eq_bind, Option.bind_eq_some_iff] at h
    obtain ⟨q, h1, h2⟩ := h
    rw [List.foldlM_cons, declareFn_eq, h1]
    simp only [Option.bind_some, hv d (List.mem_cons_self ..), Bool.false_eq_true, if_false, Option.bind_eq_bind]
    exact ih (fun x hx => hv x (List.mem_cons_of_mem _ hx)) { f with sym := q } h2

theorem consistent_mono {ds es : List Decl} (hs : ∀ a, Has es a → Has ds a) (h : Consistent ds) : Consistent es :=
  ⟨fun s t a b => h.aliasOf s t (hs _ a) (hs _ b), fun s t a b => h.sect s t (hs _ a) (hs _ b),
   fun s t a b => h.vis s t (hs _ a) (hs _ b), fun s t a b => h.ctor s t (hs _ a) (hs _ b),
   fun s t a b => h.dtor s t (hs _ a) (hs _ b), fun s a => h.ctorOk s (hs _ a), fun s a => h.dtorOk s (hs _ a)⟩

theorem sees_iff {ds es : List Decl} (h : ∀ a, Has ds a ↔ Has es a) {s : Sym} (k : SeesFn ds s) : SeesFn es s :=
  ⟨⟨k.weak.trans (h _), fun t => (k.aliasOf t).trans (h _), fun t => (k.sect t).trans (h _), fun t => (k.vis t).trans (h _)⟩,
   fun n => (k.ctor n).trans ⟨fun ⟨p, a, b⟩ => ⟨p, (h _).1 a, b⟩, fun ⟨p, a, b⟩ => ⟨p, (h _).2 a, b⟩⟩,
   fun n => (k.dtor n).trans ⟨fun ⟨p, a, b⟩ => ⟨p, (h _).1 a, b⟩, fun ⟨p, a, b⟩ => ⟨p, (h _).2 a, b⟩⟩⟩

theorem entry_of {p : Option Int} (h : PrioOk p) : (if pri16 p ≠ 0 then some ((pri16 p - 1) % 65536) else none) = secOf p := by
  rw [pri16_eq h, secOf]
  by_cases e : prio p < 65535
  · simp only [if_pos e]
    rw [if_pos (by omega)]
    congr 1
    omega
  · simp only [if_neg e]
    rfl

/-- The entries of a function in the array of constructors (`fini = false`) or destructors: one if it has the
attribute, in the section of its priority, and no others. -/
def Entries (A : Option Int → Prop) (fini : Bool) (ls : List Line) : Prop :=
  (∀ p, A p → ls.count (.entry fini (secOf p)) = 1) ∧ ∀ n, .entry fini n ∈ ls → ∃ p, A p ∧ n = secOf p

theorem cd_entries {A : Option Int → Prop} {fini : Bool} {c : Option Nat} (h : ∀ n, c = some n ↔ ∃ p, A p ∧ pri16 p = n)
    (ok : ∀ p, A p → PrioOk p) (l1 l2 : List Line) (h1 : ∀ n, .entry fini n ∉ l1) (h2 : ∀ n, .entry fini n ∉ l2) :
    Entries A fini (l1 ++ emitCdtor fini c ++ l2) := by
  constructor
  · intro p hp
    rw [(h _).2 ⟨p, hp, rfl⟩, emitCdtor, entry_of (ok p hp), List.count_append, List.count_append,
      List.count_eq_zero.2 (h1 _), List.count_eq_zero.2 (h2 _)]
    simp
  · intro n hn
    rw [List.mem_append, List.mem_append] at hn
    rcases hn with (hn | hn) | hn
    · exact (h1 n hn).elim
    · cases c with
      | none => simp [emitCdtor] at hn
      | some k =>
        obtain ⟨p, hp, rfl⟩ := (h k).1 rfl
        rw [emitCdtor, entry_of (ok p hp)] at hn
        simp only [List.mem_singleton, Line.entry.injEq, true_and] at hn
        exact ⟨p, hp, hn⟩
    · exact (h2 n hn).elim

theorem no_entry_symbol (op : Opts) (st : Bool) (o : Sym) (b : Bool) (n : Option Nat) : Line.entry b n ∉ emitSymbol op st o := by
  rw [mem_emitSymbol, mem_vis]
  cases st <;> cases o.weak <;> simp

theorem no_entry_cd (b : Bool) (c : Option Nat) (n : Option Nat) : Line.entry b n ∉ emitCdtor (!b) c := by
  cases c <;> cases b <;> simp [emitCdtor]

/-- The declarations of a function, `d` with its body: without contradictions, without attributes after an
assembler label, and the attributes after `d` are not new. -/
structure FnDeclsOk (pre : List Decl) (d : Decl) (post : List Decl) : Prop where
  value : d.value = true
  noPre : ∀ e ∈ pre, e.value = false
  noPost : ∀ e ∈ post, e.value = false
  noAsm : ∀ e ∈ pre ++ d :: post, e.afterAsm = []
  consistent : Consistent (pre ++ d :: post)
  early : ∀ a, Has post a → Has (pre ++ [d]) a

/-- A function whose attributes stand in declarations up to its definition `d`: the declarations are accepted,
the symbol has the binding, target and visibility they ask for, its address is once in the array of constructors
(destructors) in the section of its priority if it has that attribute and not otherwise, and a constructor or
destructor is kept even if nothing refers to it. -/
theorem C78_function (op : Opts) (st : Bool) {pre post : List Decl} {d : Decl} (h : FnDeclsOk pre d post) :
    ∃ ls ref, compileFn op st (pre ++ d :: post) = some (ls, ref) ∧
      Shows (Has (pre ++ d :: post)) st op.visibility ls ∧ .definition ∈ ls ∧
      Entries (fun p => Has (pre ++ d :: post) (.ctor p)) false ls ∧
      Entries (fun p => Has (pre ++ d :: post) (.dtor p)) true ls ∧
      (ref = true ↔ ∃ p, Has (pre ++ d :: post) (.ctor p) ∨ Has (pre ++ d :: post) (.dtor p)) := by
  obtain ⟨hd, hpre, hpost, hn, hc, early⟩ := h
  have hall : ∀ a, Has (pre ++ [d]) a ↔ Has (pre ++ d :: post) a := by
    intro a
    constructor
    · rintro ⟨e, he, h⟩
      refine ⟨e, ?_, h⟩
      simp only [List.mem_append, List.mem_cons, List.not_mem_nil, or_false] at he ⊢
      rcases he with h | h
      · exact .inl h
      · exact .inr (.inl h)
    · rintro ⟨e, he, h⟩
      simp only [List.mem_append, List.mem_cons] at he
      rcases he with he | he | he
      · exact ⟨e, by simp [he], h⟩
      · exact ⟨e, by simp [he], h⟩
      · exact early a ⟨e, he, h⟩
  obtain ⟨s, hs, -⟩ := fn_collected hn hc
  have hc' := consistent_mono (fun a => (hall a).1) hc
  obtain ⟨s1, hs1, see1⟩ := fn_collected (ds := pre ++ [d]) (fun e he => hn e (by
    simp only [List.mem_append, List.mem_cons, List.not_mem_nil, or_false] at he ⊢
    rcases he with h | h
    · exact .inl h
    · exact .inr (.inl h))) hc'
  have see := sees_iff hall see1
  rw [show pre ++ d :: post = (pre ++ [d]) ++ post by simp, List.foldlM_append, hs1] at hs
  simp only [Option.bind_eq_bind, Option.bind_some] at hs
  rw [List.foldlM_append] at hs1
  simp only [Option.bind_eq_bind, Option.bind_eq_some_iff, List.foldlM_cons, List.foldlM_nil, Option.pure_def,
    Option.some.injEq, exists_eq_right] at hs1
  obtain ⟨s0, k0, k1⟩ := hs1
  have e0 := fns_novalue op pre hpre (Fn.mk st {} none false) s0 k0
  have e1 : declareFn op d (Fn.mk st s0 none false) = some ⟨st, s1, some (emitText op st s1), s1.ctor.isSome || s1.dtor.isSome⟩ := by
    rw [declareFn_eq]
    show Option.bind (fnSym d s0) _ = _
    rw [k1]
    simp only [Option.bind_some, hd, if_true]
    rfl
  have e2 := fns_novalue op post hpost ⟨st, s1, some (emitText op st s1), s1.ctor.isSome || s1.dtor.isSome⟩ s hs
  refine ⟨emitText op st s1, s1.ctor.isSome || s1.dtor.isSome, ?_, ?_, ?_, ?_, ?_, ?_⟩
  · rw [compileFn, List.foldlM_append, e0]
    simp only [Option.bind_eq_bind, Option.bind_some, List.foldlM_cons, e1, e2, Option.map_some]
  · rw [emitText, List.append_assoc, List.append_assoc]
    refine shows see.toSees op st _ ?_
    intro l hl
    rw [List.mem_append] at hl
    rcases hl with hl | hl
    · simp only [List.mem_cons, List.not_mem_nil, or_false] at hl
      rcases hl with rfl | rfl <;> exact ⟨by simp, by simp, by simp, by simp, by simp⟩
    · have : ∃ b n, l = .entry b n := by
        rw [List.mem_append] at hl
        cases h1 : s1.ctor <;> cases h2 : s1.dtor <;> simp [emitCdtor, h1, h2] at hl
        · exact ⟨_, _, hl⟩
        · exact ⟨_, _, hl⟩
        · rcases hl with hl | hl
          · exact ⟨_, _, hl⟩
          · exact ⟨_, _, hl⟩
      obtain ⟨b, n, rfl⟩ := this
      exact ⟨by simp, by simp, by simp, by simp, by simp⟩
  · simp [emitText]
  · refine cd_entries see.ctor (hc.ctorOk) _ _ ?_ (no_entry_cd false _)
    intro n hm
    rw [List.mem_append] at hm
    rcases hm with hm | hm
    · exact no_entry_symbol _ _ _ _ _ hm
    · simp at hm
  · have := cd_entries (fini := true) see.dtor (hc.dtorOk) (emitSymbol op st s1 ++ [.text, .definition] ++ emitCdtor false s1.ctor) [] ?_ ?_
    · rw [List.append_nil] at this; exact this
    · intro n hm
      rw [List.mem_append, List.mem_append] at hm
      rcases hm with (hm | hm) | hm
      · exact no_entry_symbol _ _ _ _ _ hm
      · simp at hm
      · exact no_entry_cd true _ _ hm
    · simp
  · rw [Bool.or_eq_true, Option.isSome_iff_exists, Option.isSome_iff_exists]
    constructor
    · rintro (⟨n, h⟩ | ⟨n, h⟩)
      · obtain ⟨p, hp, -⟩ := (see.ctor n).1 h; exact ⟨p, .inl hp⟩
      · obtain ⟨p, hp, -⟩ := (see.dtor n).1 h; exact ⟨p, .inr hp⟩
    · rintro ⟨p, h | h⟩
      · exact .inl ⟨_, (see.ctor _).2 ⟨p, h, rfl⟩⟩
      · exact .inr ⟨_, (see.dtor _).2 ⟨p, h, rfl⟩⟩

/-- A function that is only declared: its symbol is written if it is weak or an alias, as the attributes ask, and
nothing is written otherwise. -/
theorem C78_declared_function (op : Opts) (st : Bool) (ds : List Decl) (hv : ∀ d ∈ ds, d.value = false)
    (hn : ∀ d ∈ ds, d.afterAsm = []) (hc : Consistent ds) :
    ∃ ls, compileFn op st ds = some (ls, false) ∧
      (Has ds .weak ∨ (∃ t, Has ds (.aliasOf t)) → Shows (Has ds) st op.visibility ls) ∧
      (¬ (Has ds .weak ∨ ∃ t, Has ds (.aliasOf t)) → ls = []) ∧ .definition ∉ ls := by
  obtain ⟨s, hs, see⟩ := fn_collected hn hc
  have e := fns_novalue op ds hv (Fn.mk st {} none false) s hs
  have hw : (s.weak || s.aliasOf.isSome) = true ↔ (Has ds .weak ∨ ∃ t, Has ds (.aliasOf t)) := by
    rw [Bool.or_eq_true, see.weak, Option.isSome_iff_exists]
    refine or_congr Iff.rfl ⟨fun ⟨t, h⟩ => ⟨t, (see.aliasOf t).1 h⟩, fun ⟨t, h⟩ => ⟨t, (see.aliasOf t).2 h⟩⟩
  refine ⟨if s.weak || s.aliasOf.isSome then emitSymbol op st s else [], ?_, ?_, ?_, ?_⟩
  · rw [compileFn, e]; rfl
  · intro h
    rw [if_pos (hw.2 h)]
    have := shows see.toSees op st [] (by simp)
    rw [List.append_nil] at this
    exact this
  · intro h
    rw [if_neg (fun k => h (hw.1 k))]
  · by_cases k : (s.weak || s.aliasOf.isSome) = true
    · rw [if_pos k, mem_emitSymbol, mem_vis]
      cases st <;> cases s.weak <;> simp
    · rw [if_neg k]; simp

theorem rank_lt {p q : Option Int} (hq : PrioOk q) (h : prio p < prio q) : rank (secOf p) < rank (secOf q) := by
  have : prio q ≤ 65535 := by
    cases q with
    | none => decide
    | some v => have := hq v rfl; simp only [prio, Option.getD_some]; omega
  rw [secOf, secOf, if_pos (by omega)]
  by_cases e : prio q < 65535
  · rw [if_pos e]; exact h
  · rw [if_neg e]; show prio p < 65535; omega

/-- Of two constructors the linker runs the one with the smaller priority first. -/
theorem C78_order (op : Opts) (st st' : Bool) {pre post pre' post' : List Decl} {d d' : Decl} (h : FnDeclsOk pre d post)
    (h' : FnDeclsOk pre' d' post') {ls ls' : List Line} {r r' : Bool} (hf : compileFn op st (pre ++ d :: post) = some (ls, r))
    (hg : compileFn op st' (pre' ++ d' :: post') = some (ls', r')) {p q : Option Int}
    (hp : Has (pre ++ d :: post) (.ctor p)) (hq : Has (pre' ++ d' :: post') (.ctor q)) (hlt : prio p < prio q)
    {n m : Option Nat} (hn : .entry false n ∈ ls) (hm : .entry false m ∈ ls') : rank n < rank m := by
  obtain ⟨_, _, e, -, -, he, -⟩ := C78_function op st h
  obtain ⟨_, _, e', -, -, he', -⟩ := C78_function op st' h'
  rw [hf, Option.some.injEq, Prod.mk.injEq] at e
  rw [hg, Option.some.injEq, Prod.mk.injEq] at e'
  obtain ⟨rfl, rfl⟩ := e
  obtain ⟨rfl, rfl⟩ := e'
  obtain ⟨a, ha, rfl⟩ := he.2 n hn
  obtain ⟨b, hb, rfl⟩ := he'.2 m hm
  refine rank_lt (h'.consistent.ctorOk b hb) ?_
  have e1 := h.consistent.ctor a p ha hp
  have e2 := h'.consistent.ctor b q hb hq
  omega

/-! Objects. -/

theorem declareVar_some (d : Decl) (v : Var) : declareVar d (some v) = (varSym d v.sym).bind fun o =>
    if !(!d.isExtern || d.value) then some { v with sym := o }
    else if v.isDef && !v.isTent then if d.value then none else some { v with sym := o }
    else some ⟨d.isStatic, o, true, !d.value⟩ := by
  rw [declareVar, varSym, Option.bind_assoc]

theorem declareVar_none (d : Decl) : declareVar d none = (varSym d {}).map fun o =>
    ⟨d.isStatic, o, !d.isExtern || d.value, (!d.isExtern || d.value) && !d.value⟩ := by
  rw [declareVar, varSym]
  cases declspec d <;> simp

theorem vars_run (ds : List Decl) (hst : ∀ d ∈ ds, d.isStatic = false) (v : Var) (hv : v.isStatic = false) (s : Sym)
    (h : ds.foldlM (fun o d => varSym d o) v.sym = some s)
    (h1 : (ds.filter (·.value)).length + (if v.isDef && !v.isTent then 1 else 0) ≤ 1) :
    ∃ v', ds.foldlM (fun v d => (declareVar d v).map some) (some v) = some (some v') ∧ v'.sym = s ∧ v'.isStatic = false ∧
      (v'.isDef = true ↔ v.isDef = true ∨ Defined ds) := by
  induction ds generalizing v with
  | nil =>
    simp only [List.foldlM_nil, Option.pure_def, Option.some.injEq] at h
    exact ⟨v, rfl, h, hv, by simp [Defined]⟩
  | cons d ds ih =>
    simp only [List.foldlM_cons, Option.bind_eq_bind, Option.bind_eq_some_iff] at h
    obtain ⟨q, k1, k2⟩ := h
    obtain ⟨n, hnn⟩ : ∃ n, (ds.filter (·.value)).length = n := ⟨_, rfl⟩
    have key : ∀ w : Var, w.sym = q → w.isStatic = false →
        declareVar d (some v) = some w → n + (if w.isDef && !w.isTent then 1 else 0) ≤ 1 →
        (w.isDef = true ↔ v.isDef = true ∨ d.isExtern = false ∨ d.value = true) →
        ∃ v', (d :: ds).foldlM (fun v d => (declareVar d v).map some) (some v) = some (some v') ∧ v'.sym = s ∧
          v'.isStatic = false ∧ (v'.isDef = true ↔ v.isDef = true ∨ Defined (d :: ds)) := by
      intro w w1 w2 w3 w4 w5
      obtain ⟨v', a, b, c, e⟩ := ih (fun x hx => hst x (List.mem_cons_of_mem _ hx)) w w2 (w1 ▸ k2) (hnn ▸ w4)
      refine ⟨v', ?_, b, c, ?_⟩
      · rw [List.foldlM_cons, w3]; exact a
      · rw [e, w5]; simp only [Defined, List.mem_cons, exists_eq_or_imp, or_assoc]
    have hfl : (d :: ds).filter (·.value) = (if d.value then [d] else []) ++ ds.filter (·.value) := by
      rw [List.filter_cons]; cases d.value <;> simp
    rw [hfl, List.length_append, hnn] at h1
    have e := declareVar_some d v
    rw [k1] at e
    simp only [Option.bind_some] at e
    have hs := hst d (List.mem_cons_self ..)
    rw [hs] at e
    have two : ∀ b : Bool, b = true ∨ b = false := by decide
    rcases two d.isExtern with hx | hx <;> rcases two d.value with hd | hd <;> rcases two v.isDef with hvd | hvd <;>
      rcases two v.isTent with hvt | hvt <;>
      simp [hx, hd, hvd, hvt] at e h1 <;>
      first
        | omega
        | (refine key _ rfl ?_ e ?_ ?_ <;> simp [hv, hvd, hvt, hx, hd] <;> omega)

/-- An object with external linkage, with at most one initializer: the declarations are accepted. If the object
is defined, or weak, or an alias, its symbol has the binding, target and visibility they ask for; otherwise
nothing is written. It gets storage exactly if it is defined, in the section that an attribute names
(`-fdata-sections` not given), and as common storage only if it is neither weak nor has a section. -/
theorem C78_object (op : Opts) (ds : List Decl) (hst : ∀ d ∈ ds, d.isStatic = false)
    (h1 : (ds.filter (·.value)).length ≤ 1) (hn : ∀ d ∈ ds, d.afterAsm = []) (hc : Consistent ds) :
    ∃ ls, compileVar op ds = some ls ∧
      (Defined ds ∨ Has ds .weak ∨ (∃ t, Has ds (.aliasOf t)) → Shows (Has ds) false op.visibility ls) ∧
      (¬ (Defined ds ∨ Has ds .weak ∨ ∃ t, Has ds (.aliasOf t)) → ls = []) ∧
      (Defined ds ↔ .definition ∈ ls ∨ .comm ∈ ls) ∧
      (.comm ∈ ls → ¬ Has ds .weak ∧ (∀ s, ¬ Has ds (.sect s)) ∧ .definition ∉ ls) ∧
      (Defined ds → op.dataSections = false → ∀ s, Has ds (.sect s) →
        .sect s false ∈ ls ∧ .defaultSect ∉ ls ∧ ∀ t b, .sect t b ∈ ls → t = s) ∧
      ((∀ s, ¬ Has ds (.sect s)) → ∀ t b, .sect t b ∉ ls) := by
  obtain ⟨s, hs, see⟩ := var_collected hn hc
  cases ds with
  | nil =>
    refine ⟨[], rfl, ?_, ?_, ?_, ?_, ?_, ?_⟩
    · rintro (⟨d, hd, -⟩ | ⟨d, hd, -⟩ | ⟨t, d, hd, -⟩) <;> exact (List.not_mem_nil hd).elim
    · exact fun _ => rfl
    · simp [Defined]
    · simp
    · rintro ⟨d, hd, -⟩; exact (List.not_mem_nil hd).elim
    · simp
  | cons d ds =>
    have hfl : (d :: ds).filter (·.value) = (if d.value then [d] else []) ++ ds.filter (·.value) := by
      rw [List.filter_cons]; cases d.value <;> simp
    simp only [List.foldlM_cons, Option.bind_eq_bind, Option.bind_eq_some_iff] at hs
    obtain ⟨q, k1, k2⟩ := hs
    obtain ⟨v, a, rfl, b, c⟩ := vars_run ds (fun x hx => hst x (List.mem_cons_of_mem _ hx))
      ⟨d.isStatic, q, !d.isExtern || d.value, (!d.isExtern || d.value) && !d.value⟩ (hst d (List.mem_cons_self ..)) s k2 (by
        rw [hfl, List.length_append] at h1
        generalize (ds.filter (·.value)).length = n at h1 ⊢
        cases hx : d.isExtern <;> cases hd : d.value <;> simp [hd] at h1 ⊢ <;> omega)
    have hdef : v.isDef = true ↔ Defined (d :: ds) := by
      rw [c]; simp only [Defined, List.mem_cons, exists_eq_or_imp, Bool.or_eq_true, Bool.not_eq_true']
    have hcomp : compileVar op (d :: ds) = some (if v.isDef then emitData op false v.isTent v.sym
        else if v.sym.weak || v.sym.aliasOf.isSome then emitSymbol op false v.sym else []) := by
      rw [compileVar, List.foldlM_cons, declareVar_none, k1]
      simp only [Option.map_some, Option.bind_eq_bind, Option.bind_some, a, b]
    have hal : v.sym.aliasOf.isSome = true ↔ ∃ t, Has (d :: ds) (.aliasOf t) := by
      rw [Option.isSome_iff_exists]
      exact ⟨fun ⟨t, h⟩ => ⟨t, (see.aliasOf t).1 h⟩, fun ⟨t, h⟩ => ⟨t, (see.aliasOf t).2 h⟩⟩
    have hse : v.sym.sect = none ↔ ∀ s, ¬ Has (d :: ds) (.sect s) := by
      constructor
      · intro e w hw; rw [(see.sect w).2 hw] at e; cases e
      · intro e
        cases k : v.sym.sect with
        | none => rfl
        | some w => exact (e w ((see.sect w).1 k)).elim
    have nosym : ∀ l, l = .definition ∨ l = .comm ∨ l = .defaultSect ∨ (∃ t b, l = .sect t b) → l ∉ emitSymbol op false v.sym := by
      intro l hl
      rw [mem_emitSymbol, mem_vis]
      rcases hl with rfl | rfl | rfl | ⟨t, b, rfl⟩ <;> cases v.sym.weak <;> simp
    refine ⟨_, hcomp, ?_⟩
    cases hd : v.isDef with
    | false =>
      have nd : ¬ Defined (d :: ds) := fun h => by rw [hdef.2 h] at hd; cases hd
      simp only [Bool.false_eq_true, if_false]
      have hw : (v.sym.weak || v.sym.aliasOf.isSome) = true ↔ (Defined (d :: ds) ∨ Has (d :: ds) .weak ∨ ∃ t, Has (d :: ds) (.aliasOf t)) := by
        rw [Bool.or_eq_true, see.weak, hal]; exact ⟨.inr, fun h => h.resolve_left nd⟩
      by_cases e : (v.sym.weak || v.sym.aliasOf.isSome) = true
      · rw [if_pos e]
        refine ⟨fun _ => ?_, fun h => (h (hw.1 e)).elim, ?_, ?_, fun h => (nd h).elim, ?_⟩
        · have := shows see op false [] (by simp)
          rw [List.append_nil] at this
          exact this
        · exact ⟨fun h => (nd h).elim, fun h => h.elim (fun h => (nosym _ (.inl rfl) h).elim)
            (fun h => (nosym _ (.inr (.inl rfl)) h).elim)⟩
        · exact fun h => (nosym _ (.inr (.inl rfl)) h).elim
        · exact fun _ t b h => nosym _ (.inr (.inr (.inr ⟨t, b, rfl⟩))) h
      · rw [if_neg e]
        refine ⟨fun h => (e (hw.2 h)).elim, fun _ => rfl, ?_, by simp, fun h => (nd h).elim, by simp⟩
        simp [nd]
    | true =>
      have yd := hdef.1 hd
      simp only [if_true, emitData]
      refine ⟨fun _ => ?_, fun h => (h (.inl yd)).elim, ?_, ?_, ?_, ?_⟩
      · refine shows see op false _ ?_
        intro l hl
        have : l = .comm ∨ l = .definition ∨ l = .defaultSect ∨ ∃ t b, l = .sect t b := by
          by_cases e : (op.fcommon && v.isTent && !(v.sym.weak || v.sym.sect.isSome)) = true
          · rw [if_pos e] at hl; simp at hl; exact .inl hl
          · rw [if_neg e] at hl
            cases k : v.sym.sect with
            | none => simp [k] at hl; rcases hl with rfl | rfl <;> simp
            | some w => simp [k] at hl; rcases hl with rfl | rfl <;> simp
        rcases this with rfl | rfl | rfl | ⟨t, b, rfl⟩ <;> exact ⟨by simp, by simp, by simp, by simp, by simp⟩
      · refine ⟨fun _ => ?_, fun _ => yd⟩
        by_cases e : (op.fcommon && v.isTent && !(v.sym.weak || v.sym.sect.isSome)) = true
        · rw [if_pos e]; right; simp
        · rw [if_neg e]; left; simp
      · intro h
        rw [List.mem_append] at h
        have h := h.resolve_left (nosym _ (.inr (.inl rfl)))
        by_cases e : (op.fcommon && v.isTent && !(v.sym.weak || v.sym.sect.isSome)) = true
        · rw [if_pos e]
          simp only [Bool.and_eq_true, Bool.not_eq_true', Bool.or_eq_false_iff] at e
          refine ⟨fun hw => ?_, hse.1 ?_, ?_⟩
          · rw [see.weak.2 hw] at e; simp at e
          · have := e.2.2; cases k : v.sym.sect with | none => rfl | some w => rw [k] at this; simp at this
          · rw [List.mem_append]; rintro (h | h)
            · exact nosym _ (.inl rfl) h
            · simp at h
        · rw [if_neg e] at h
          cases k : v.sym.sect <;> simp [k] at h
      · intro _ hds w hw
        have k := (see.sect w).2 hw
        have e : ¬ (op.fcommon && v.isTent && !(v.sym.weak || v.sym.sect.isSome)) = true := by simp [k]
        rw [if_neg e, k]
        simp only [hds]
        refine ⟨by simp, ?_, ?_⟩
        · rw [List.mem_append]; rintro (h | h)
          · exact nosym _ (.inr (.inr (.inl rfl))) h
          · simp at h
        · intro t b h
          rw [List.mem_append] at h
          have h := h.resolve_left (nosym _ (.inr (.inr (.inr ⟨t, b, rfl⟩))))
          simp at h; exact h.1
      · intro hno t b h
        rw [List.mem_append] at h
        have h := h.resolve_left (nosym _ (.inr (.inr (.inr ⟨t, b, rfl⟩))))
        rw [hse.2 hno] at h
        by_cases e : (op.fcommon && v.isTent && !(v.sym.weak || (none : Option String).isSome)) = true
        · rw [if_pos e] at h; simp at h
        · rw [if_neg e] at h; simp at h

/-! Contradictions. -/

theorem place_before {d : Decl} {p : Bool × List Marked} (h : p ∈ places d) : ∃ i, p.2 = d.before i := by
  simp only [places, specPlaces, declPlaces, List.cons_append, List.mem_cons, List.mem_append, List.mem_map,
    List.mem_range, List.not_mem_nil, or_false] at h
  rcases h with rfl | ⟨i, hi, rfl⟩ | rfl | rfl | rfl <;> exact ⟨_, rfl⟩

theorem str_conflict {g : Attr → Option String} {ds : List Decl} (hn : ∀ d ∈ ds, d.afterAsm = []) {r : Option String}
    (h : ds.foldlM (fun c d => strStep g d c) none = some r)
    (hs : ∀ d ∈ ds, ∀ i b a a' s t, ⟨b, a⟩ ∈ d.before i → ⟨b, a'⟩ ∈ d.before i → g a = some s → g a' = some t → s = t)
    {s : String} (ha : HasStr g ds s) : r = some s := by
  have hr := (reads_fold (strStep g) _ (strStep_reads g) ds none r).1 h
  obtain ⟨a, ⟨d, hd, h1⟩, h2⟩ := ha
  obtain ⟨p, hp, hm⟩ := place_of_has (hn d hd) h1
  obtain ⟨t, ht⟩ := strVals_mem hm h2
  obtain ⟨a', hm', hg'⟩ := mem_strVals ht
  obtain ⟨i, hi⟩ := place_before hp
  have e := hs d hd i p.1 a a' s t (hi ▸ hm) (hi ▸ hm') h2 hg'
  subst e
  exact hr.1 s (List.mem_cons_of_mem _ (List.mem_flatMap.2 ⟨d, hd, List.mem_flatMap.2 ⟨p, hp, ht⟩⟩))

theorem cd_conflict {g : Attr → Option (Option Int)} {ds : List Decl} (hn : ∀ d ∈ ds, d.afterAsm = []) {r : Option Nat}
    (h : ds.foldlM (fun c d => cdStep g d c) none = some r) {n : Nat} (ha : HasCd g ds n) : r = some n := by
  have hr := (reads_fold (cdStep g) _ (cdStep_reads g) ds none r).1 h
  obtain ⟨a, q, ⟨d, hd, h1⟩, h2, h3⟩ := ha
  obtain ⟨p, hp, hm⟩ := place_of_has (hn d hd) h1
  exact hr.1 n (List.mem_cons_of_mem _ (List.mem_flatMap.2 ⟨d, hd, List.mem_flatMap.2 ⟨p, hp, mem_cdVals.2 ⟨a, q, hm, h2, h3⟩⟩⟩))

theorem vars_inv (ds : List Decl) (v : Var) (r : Option Var)
    (h : ds.foldlM (fun v d => (declareVar d v).map some) (some v) = some r) :
    ∃ s, ds.foldlM (fun o d => varSym d o) v.sym = some s := by
  induction ds generalizing v with
  | nil => exact ⟨v.sym, rfl⟩
  | cons d ds ih =>
    simp only [List.foldlM_cons, Option.bind_eq_bind, Option.bind_eq_some_iff, Option.map_eq_some_iff] at h
    obtain ⟨_, ⟨w, hw, rfl⟩, h⟩ := h
    obtain ⟨s, hs⟩ := ih w h
    rw [declareVar_some, Option.bind_eq_some_iff] at hw
    obtain ⟨q, hq, hw⟩ := hw
    have : w.sym = q := by
      split at hw
      · simp only [Option.some.injEq] at hw; rw [← hw]
      · split at hw
        · split at hw
          · cases hw
          · simp only [Option.some.injEq] at hw; rw [← hw]
        · simp only [Option.some.injEq] at hw; rw [← hw]
    exact ⟨s, by simp only [List.foldlM_cons, Option.bind_eq_bind, hq, Option.bind_some]; exact this ▸ hs⟩

theorem single_str {ds : List Decl} (h : Single ds) :
    (∀ d ∈ ds, ∀ i b a a' s t, ⟨b, a⟩ ∈ d.before i → ⟨b, a'⟩ ∈ d.before i → Attr.sect? a = some s → Attr.sect? a' = some t → s = t) ∧
    (∀ d ∈ ds, ∀ i b a a' s t, ⟨b, a⟩ ∈ d.before i → ⟨b, a'⟩ ∈ d.before i → Attr.vis? a = some s → Attr.vis? a' = some t → s = t) ∧
    (∀ d ∈ ds, ∀ i b a a' s t, ⟨b, a⟩ ∈ d.before i → ⟨b, a'⟩ ∈ d.before i → Attr.alias? a = some s → Attr.alias? a' = some t → s = t) := by
  refine ⟨?_, ?_, ?_⟩ <;> intro d hd i b a a' s t h1 h2 e1 e2
  · cases a <;> simp [Attr.sect?] at e1
    cases a' <;> simp [Attr.sect?] at e2
    subst e1 e2; exact (h d hd i b).1 _ _ h1 h2
  · cases a <;> simp [Attr.vis?] at e1
    cases a' <;> simp [Attr.vis?] at e2
    subst e1 e2; exact (h d hd i b).2.1 _ _ h1 h2
  · cases a <;> simp [Attr.alias?] at e1
    cases a' <;> simp [Attr.alias?] at e2
    subst e1 e2; exact (h d hd i b).2.2 _ _ h1 h2

/-- Declarations of an object that name different sections, visibilities or targets are refused. -/
theorem C78_object_conflict (op : Opts) (ds : List Decl) (hn : ∀ d ∈ ds, d.afterAsm = []) (h1 : Single ds) (ls : List Line)
    (h : compileVar op ds = some ls) :
    (∀ s t, Has ds (.sect s) → Has ds (.sect t) → s = t) ∧ (∀ s t, Has ds (.vis s) → Has ds (.vis t) → s = t) ∧
    (∀ s t, Has ds (.aliasOf s) → Has ds (.aliasOf t) → s = t) := by
  have hs : ∃ s, ds.foldlM (fun o d => varSym d o) {} = some s := by
    cases ds with
    | nil => exact ⟨{}, rfl⟩
    | cons d ds =>
      rw [compileVar, Option.map_eq_some_iff] at h
      obtain ⟨r, h, -⟩ := h
      simp only [List.foldlM_cons, Option.bind_eq_bind, Option.bind_eq_some_iff, Option.map_eq_some_iff] at h
      obtain ⟨_, ⟨w, hw, rfl⟩, h⟩ := h
      obtain ⟨s, hs⟩ := vars_inv ds w r h
      rw [declareVar_none, Option.map_eq_some_iff] at hw
      obtain ⟨q, hq, rfl⟩ := hw
      exact ⟨s, by simp only [List.foldlM_cons, Option.bind_eq_bind, hq, Option.bind_some]; exact hs⟩
  obtain ⟨s, hs⟩ := hs
  obtain ⟨-, k1, k2, k3, -⟩ := (varSyms_iff _ _ _).1 hs
  obtain ⟨g1, g2, g3⟩ := single_str h1
  refine ⟨fun x y a b => ?_, fun x y a b => ?_, fun x y a b => ?_⟩
  · have e1 := str_conflict hn k2 g1 ((hasStr_sect ..).2 a)
    have e2 := str_conflict hn k2 g1 ((hasStr_sect ..).2 b)
    rw [e1, Option.some.injEq] at e2; exact e2
  · have e1 := str_conflict hn k3 g2 ((hasStr_vis ..).2 a)
    have e2 := str_conflict hn k3 g2 ((hasStr_vis ..).2 b)
    rw [e1, Option.some.injEq] at e2; exact e2
  · have e1 := str_conflict hn k1 g3 ((hasStr_alias ..).2 a)
    have e2 := str_conflict hn k1 g3 ((hasStr_alias ..).2 b)
    rw [e1, Option.some.injEq] at e2; exact e2

theorem fns_inv (op : Opts) (ds : List Decl) (f r : Fn) (h : ds.foldlM (fun f d => declareFn op d f) f = some r) :
    ∃ s, ds.foldlM (fun o d => fnSym d o) f.sym = some s := by
  induction ds generalizing f with
  | nil => exact ⟨f.sym, rfl⟩
  | cons d ds ih =>
    simp only [List.foldlM_cons, Option.bind_eq_bind, Option.bind_eq_some_iff] at h
    obtain ⟨w, hw, h⟩ := h
    obtain ⟨s, hs⟩ := ih w h
    rw [declareFn_eq, Option.bind_eq_some_iff] at hw
    obtain ⟨q, hq, hw⟩ := hw
    have : w.sym = q := by
      split at hw
      · split at hw
        · cases hw
        · simp only [Option.some.injEq] at hw; rw [← hw]
      · simp only [Option.some.injEq] at hw; rw [← hw]
    exact ⟨s, by simp only [List.foldlM_cons, Option.bind_eq_bind, hq, Option.bind_some]; exact this ▸ hs⟩

/-- Declarations of a function that name different visibilities, targets or priorities are refused. -/
theorem C78_function_conflict (op : Opts) (st : Bool) (ds : List Decl) (hn : ∀ d ∈ ds, d.afterAsm = []) (h1 : Single ds)
    (out : List Line × Bool) (h : compileFn op st ds = some out) :
    (∀ s t, Has ds (.vis s) → Has ds (.vis t) → s = t) ∧ (∀ s t, Has ds (.aliasOf s) → Has ds (.aliasOf t) → s = t) ∧
    (∀ p q, PrioOk p → PrioOk q → Has ds (.ctor p) → Has ds (.ctor q) → prio p = prio q) ∧
    (∀ p q, PrioOk p → PrioOk q → Has ds (.dtor p) → Has ds (.dtor q) → prio p = prio q) := by
  rw [compileFn, Option.map_eq_some_iff] at h
  obtain ⟨r, h, -⟩ := h
  obtain ⟨s, hs⟩ := fns_inv op ds _ r h
  obtain ⟨-, k1, -, k3, -, k5, k6⟩ := (fnSyms_iff _ _ _).1 hs
  obtain ⟨g1, g2, g3⟩ := single_str h1
  have inj : ∀ p q, PrioOk p → PrioOk q → pri16 p = pri16 q → prio p = prio q := by
    intro p q hp hq e
    have le : ∀ p, PrioOk p → prio p ≤ 65535 := by
      intro p hp
      cases p with
      | none => decide
      | some v => have := hp v rfl; simp only [prio, Option.getD_some]; omega
    have b1 := le p hp
    have b2 := le q hq
    rw [pri16_eq hp, pri16_eq hq] at e
    by_cases c1 : prio p < 65535 <;> by_cases c2 : prio q < 65535 <;> simp only [c1, c2, if_true, if_false] at e <;> omega
  refine ⟨fun x y a b => ?_, fun x y a b => ?_, fun p q hp hq a b => ?_, fun p q hp hq a b => ?_⟩
  · have e1 := str_conflict hn k3 g2 ((hasStr_vis ..).2 a)
    have e2 := str_conflict hn k3 g2 ((hasStr_vis ..).2 b)
    rw [e1, Option.some.injEq] at e2; exact e2
  · have e1 := str_conflict hn k1 g3 ((hasStr_alias ..).2 a)
    have e2 := str_conflict hn k1 g3 ((hasStr_alias ..).2 b)
    rw [e1, Option.some.injEq] at e2; exact e2
  · have e1 := cd_conflict hn k5 ((hasCd_ctor ..).2 ⟨p, a, rfl⟩)
    have e2 := cd_conflict hn k5 ((hasCd_ctor ..).2 ⟨q, b, rfl⟩)
    rw [e1, Option.some.injEq] at e2; exact inj p q hp hq e2
  · have e1 := cd_conflict hn k6 ((hasCd_dtor ..).2 ⟨p, a, rfl⟩)
    have e2 := cd_conflict hn k6 ((hasCd_dtor ..).2 ⟨q, b, rfl⟩)
    rw [e1, Option.some.injEq] at e2; exact inj p q hp hq e2

/-! Departures. -/

/-- The attribute `section` of a function has no effect: no line of the output names a section. -/
theorem C78_function_section_departs (op : Opts) (st : Bool) (o : Sym) (s : String) (b : Bool) :
    .sect s b ∉ emitText op st o ∧ .sect s b ∉ emitSymbol op st o := by
  have h : Line.sect s b ∉ emitSymbol op st o := by
    rw [mem_emitSymbol, mem_vis]
    cases st <;> cases o.weak <;> simp
  refine ⟨?_, h⟩
  rw [emitText, List.mem_append, List.mem_append, List.mem_append]
  rintro (((k | k) | k) | k)
  · exact h k
  · simp at k
  · cases e : o.ctor <;> rw [e] at k <;> simp [emitCdtor] at k
  · cases e : o.dtor <;> rw [e] at k <;> simp [emitCdtor] at k

/-- `void f(void) {…}` -/
def exDefn : Decl := ⟨[], 1, 1, 5, [], false, false, true⟩
/-- `void f(void) __attribute__((a));` -/
def exAfter (a : Attr) : Decl := ⟨[[], [], [], [], [], [⟨false, a⟩]], 1, 1, 5, [], false, false, false⟩
/-- `void f(void) __asm__("g") __attribute__((a));` -/
def exAsm (a : Attr) : Decl := ⟨[], 1, 1, 5, [⟨false, a⟩], false, false, false⟩
def exOpts : Opts := ⟨none, false, false⟩

/-- Attributes in a declaration after the definition come too late: the function is written as a global symbol
and without an entry. -/
theorem C78_late_departs : Has [exDefn, exAfter .weak] .weak ∧ Has [exDefn, exAfter (.ctor none)] (.ctor none) ∧
    compileFn exOpts false [exDefn, exAfter .weak] = some ([.globl, .text, .definition], false) ∧
    compileFn exOpts false [exDefn, exAfter (.ctor none)] = some ([.globl, .text, .definition], false) := by
  refine ⟨⟨exAfter .weak, by simp, ?_⟩, ⟨exAfter (.ctor none), by simp, ?_⟩, by decide +kernel, by decide +kernel⟩
  · exact .inr (.inr (.inr (.inr (.inl (by decide +kernel)))))
  · exact .inr (.inr (.inr (.inr (.inl (by decide +kernel)))))

/-- Attributes after an assembler label are not read. -/
theorem C78_asm_departs : Has [exAsm .weak] .weak ∧ compileFn exOpts false [exAsm .weak] = some ([], false) :=
  ⟨⟨exAsm .weak, by simp, .inr (.inr (.inr (.inr (.inr (by decide +kernel)))))⟩, by decide +kernel⟩

/-- `int x __attribute__((section("s"))) = 1;` -/
def exSect : Decl := ⟨[[], [], [⟨false, .sect "s"⟩]], 1, 1, 2, [], false, false, true⟩

/-- With `-fdata-sections` the name of the object is appended to the section of the attribute. -/
theorem C78_data_sections_departs : Has [exSect] (.sect "s") ∧
    compileVar { exOpts with dataSections := true } [exSect] = some [.globl, .sect "s" true, .definition] :=
  ⟨⟨exSect, by simp, .inr (.inr (.inr (.inr (.inl (by decide +kernel)))))⟩, by decide +kernel⟩

/-! Examples. -/

/-- The attributes of declarations as a list. -/
def exAttrs (ds : List Decl) : List Attr :=
  ds.flatMap fun d => (places d).flatMap fun p => (p.2.filter (·.std == p.1)).map (·.attr)

theorem exAttrs_mem {ds : List Decl} (hn : ∀ d ∈ ds, d.afterAsm = []) {a : Attr} (h : Has ds a) : a ∈ exAttrs ds := by
  obtain ⟨d, hd, h⟩ := h
  obtain ⟨p, hp, h⟩ := place_of_has (hn d hd) h
  exact List.mem_flatMap.2 ⟨d, hd, List.mem_flatMap.2 ⟨p, hp, List.mem_map.2 ⟨_, List.mem_filter.2 ⟨h, by simp⟩, rfl⟩⟩⟩

/-- `[[gnu::visibility("hidden")]] void f(void);` -/
def exFirst : Decl := ⟨[[⟨true, .vis "hidden"⟩]], 1, 1, 5, [], false, false, false⟩
/-- `extern void __attribute__((constructor(200))) f [[gnu::weak]] (void) {…}`, then
`void f(void) __attribute__((weak));` -/
def exBody : Decl := ⟨[[], [], [⟨false, .ctor (some 200)⟩], [⟨true, .weak⟩]], 2, 2, 6, [], false, false, true⟩

theorem exFn_ok : FnDeclsOk [exFirst] exBody [exAfter .weak] := by
  have hn : ∀ e ∈ [exFirst] ++ exBody :: [exAfter .weak], e.afterAsm = [] := by
    intro e he; simp at he; rcases he with rfl | rfl | rfl <;> rfl
  have hl : exAttrs ([exFirst] ++ exBody :: [exAfter .weak]) = [.vis "hidden", .ctor (some 200), .ctor (some 200), .weak, .weak] := by
    decide +kernel
  have hm : ∀ a, Has ([exFirst] ++ exBody :: [exAfter .weak]) a → a = .vis "hidden" ∨ a = .ctor (some 200) ∨ a = .weak := by
    intro a h
    have := exAttrs_mem hn h
    rw [hl] at this
    simp at this
    rcases this with h | h | h <;> simp [h]
  refine ⟨rfl, ?_, ?_, hn, ?_, ?_⟩
  · intro e he; simp at he; subst he; rfl
  · intro e he; simp at he; subst he; rfl
  · constructor
    · intro s t h; rcases hm _ h with h | h | h <;> cases h
    · intro s t h; rcases hm _ h with h | h | h <;> cases h
    · intro s t h h'
      rcases hm _ h with h | h | h <;> cases h
      rcases hm _ h' with h | h | h <;> cases h
      rfl
    · intro s t h h'
      rcases hm _ h with h | h | h <;> cases h
      rcases hm _ h' with h | h | h <;> cases h
      rfl
    · intro s t h; rcases hm _ h with h | h | h <;> cases h
    · intro p h
      rcases hm _ h with h | h | h <;> cases h
      intro v e; cases e; decide
    · intro p h; rcases hm _ h with h | h | h <;> cases h
  · rintro a ⟨d, hd, h⟩
    simp at hd
    subst hd
    have ha := exAttrs_mem (ds := [exAfter .weak]) (by simp [exAfter]) ⟨_, by simp, h⟩
    rw [show exAttrs [exAfter .weak] = [.weak] by decide +kernel] at ha
    simp at ha
    subst ha
    exact ⟨exBody, by simp, .inr (.inr (.inr (.inl (by decide +kernel))))⟩

example : compileFn exOpts false ([exFirst] ++ exBody :: [exAfter .weak]) =
    some ([.weak, .visibility "hidden", .text, .definition, .entry false (some 200)], true) := by decide +kernel

example : compileFn exOpts false [exFirst, exAfter .weak] = some ([.weak, .visibility "hidden"], false) := by decide +kernel

/-- A conflict in two declarations of an object, and one that C78_object accepts. -/
example : compileVar exOpts [exAfter (.sect "a"), exAfter (.sect "b")] = none := by decide +kernel
example : compileVar { exOpts with fcommon := true } [exAfter .weak, exSect] = some [.weak, .sect "s" false, .definition] := by
  decide +kernel

end Slimcc.Props
