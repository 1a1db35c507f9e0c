import Verif.Lemmas.GlobalsOut
import Verif.Lemmas.GlobalsUse
import Verif.Lemmas.LinkCheck
/-!
C61: the symbols of an object file are those of the unit: every object that has a definition, tentative
or not, is defined once, with the initializer, the linkage, the size and the alignment C gives it, and no
other; functions likewise; and names in functions stand for what C makes them stand for.
-/
set_option autoImplicit false
namespace Slimcc.Props
open Slimcc.Spec.Link (Event ObjDecl FnDecl Body STy Datum Ref objDecls fnDecls Internal InternalFn FinalTy Known
  Lengths ExternalFn DefinedFn unitRefs UnitOpen)
open Slimcc.Globals (unit data functions)

/-- Where an object has internal linkage, no `extern` declaration initializes it. -/
def NoExternInit (u : List Event) : Prop :=
  ∀ x, Internal u x → ∀ d ∈ objDecls u x, d.init ≠ none → d.extern = false

/-- A valid unit is accepted. -/
theorem C61_accepted (u : List Event) (hv : Spec.Link.Valid u) (hr : NoExternInit u) :
    ∃ s, unit u Globals.St.init = some s :=
  (Globals.unit_inv hv hr).imp fun _ h => h.1

/-- An object that has a definition is written once, as C defines it. -/
theorem C61_defined (u : List Event) (hv : Spec.Link.Valid u) (hr : NoExternInit u) (x : Nat) (hd : Spec.Link.Defined u x)
    (hl : Lengths u x) (s : Globals.St) (hs : unit u Globals.St.init = some s) :
    ∃ D, (data s).filter (fun D => D.name == x) = [D] ∧ D.name = x ∧ (D.isLocal = true ↔ Internal u x) ∧
      (∀ i, D.init = some i ↔ ∃ d ∈ objDecls u x, d.init = some i) ∧
      ∃ t, FinalTy u x t ∧ t.bytes u = some D.size ∧
        (Known u x → ∃ al, t.align u = some al ∧ al ≤ D.align) := by
  obtain ⟨s', hs', h⟩ := Globals.unit_inv hv hr
  rw [hs] at hs'; injection hs' with hs'; subst hs'
  have hne : objDecls u x ≠ [] := by
    obtain ⟨d, hd, _⟩ := hd
    exact List.ne_nil_of_mem hd
  obtain ⟨i, g, hlk, hg, hsum⟩ := h.obj x hne
  have hgd := hsum.isDef.2 hd
  have hgn : g.name = x := by
    obtain ⟨i', g2, e1, e2, e3⟩ := h.idx _ _ hlk
    injection e1 with e1; subst e1
    rw [hg] at e2; injection e2 with e2; subst e2; exact e3
  have hty : FinalTy u x g.ty ∧ (g.ty.sized = false → g.isTent = true) := by
    cases hi : g.init with
    | some v =>
      obtain ⟨d, hdm, e1, e2⟩ := hsum.tyInit v hi
      have hsz : g.ty.sized = true := by rw [← e2]; exact Globals.type_sized (by rw [e1]; simp)
      exact ⟨⟨⟨d, hdm, e2⟩, fun hc => absurd (hsz.symm.trans hc) (by simp)⟩, fun hc => absurd (hsz.symm.trans hc) (by simp)⟩
    | none =>
      have hin : ∀ d ∈ objDecls u x, d.init = none := by
        intro d hdm
        have := hsum.init.symm.trans hi
        rw [List.findSome?_eq_none_iff] at this
        exact this d hdm
      have hfind : ∃ d, (objDecls u x).reverse.find? (fun d => d.init.isNone && !d.extern) = some d := by
        obtain ⟨d, hdm, e⟩ := hd
        cases hf : (objDecls u x).reverse.find? (fun d => d.init.isNone && !d.extern) with
        | some d => exact ⟨d, rfl⟩
        | none =>
          exfalso
          rw [List.find?_eq_none] at hf
          rcases e with e | e
          · exact e (hin d hdm)
          · exact hf d (List.mem_reverse.2 hdm) (by rw [e.1, e.2]; rfl)
      obtain ⟨d, hf⟩ := hfind
      have hgt := hsum.tyTent hi d hf
      obtain ⟨hp, a, b, hab, hlast⟩ := Globals.find_split _ hf
      have hdm : d ∈ objDecls u x := by rw [hab]; simp
      have htd : d.type = g.ty := by rw [Globals.type_none (hin d hdm)]; exact hgt.symm
      refine ⟨⟨⟨d, hdm, htd⟩, fun hc => ?_⟩, fun _ => (hsum.tent hgd).2 hi⟩
      refine hl hin a d b hab ⟨hin d hdm, by simpa [hin d hdm] using hp⟩ ?_ (by rw [htd]; exact hc)
      intro d' hd' ht
      have := hlast d' hd'
      rw [ht.1, ht.2] at this; cases this
  have hc := hv.complete x hd g.ty hty.1
  cases hb : g.ty.bytes u with
  | none => rw [hb] at hc; cases hc
  | some n =>
    have hsz := Globals.sizeEnd_eq h g n hb hty.2
    refine ⟨⟨g.name, g.isStatic, g.init, n, if Globals.isArray g.ty && decide (16 ≤ n) then max 16 g.align else g.align⟩,
      ?_, hgn, hsum.loc, ?_, g.ty, hty.1, hb, ?_⟩
    · rw [Globals.data_eq, Globals.defs_one h false hlk hg hgd hsum.fn]
      show (Globals.datum s g).toList = _
      unfold Globals.datum
      rw [hsz]; rfl
    · intro v
      show g.init = some v ↔ _
      constructor
      · intro e
        obtain ⟨d, hdm, e1, _⟩ := hsum.tyInit v e
        exact ⟨d, hdm, e1⟩
      · rintro ⟨d, hdm, e⟩
        cases hi : g.init with
        | none =>
          have := hsum.init.symm.trans hi
          rw [List.findSome?_eq_none_iff] at this
          have := this d hdm
          rw [e] at this; cases this
        | some w =>
          obtain ⟨d', hdm', e', _⟩ := hsum.tyInit w hi
          have h1 : d ∈ (objDecls u x).filter fun d => d.init.isSome := List.mem_filter.2 ⟨hdm, by rw [e]; rfl⟩
          have h2 : d' ∈ (objDecls u x).filter fun d => d.init.isSome := List.mem_filter.2 ⟨hdm', by rw [e']; rfl⟩
          have ho := hv.once x
          generalize (objDecls u x).filter (fun d => d.init.isSome) = l at h1 h2 ho
          match l, h1, h2, ho with
          | [c], h1, h2, _ =>
            rw [List.mem_singleton.1 h1] at e
            rw [List.mem_singleton.1 h2] at e'
            exact e'.symm.trans e
          | c :: c' :: l', _, _, ho => exact absurd ho (by simp)
    · intro hk
      cases ho : objDecls u x with
      | nil => exact absurd ho hne
      | cons d0 l =>
        have hal := h.align x i g d0 hlk hg (by rw [ho]; rfl) hk
        obtain ⟨d, hdm, e⟩ := hty.1.1
        have := hv.types x d0 (by rw [ho]; simp) d hdm
        have := Globals.compat_align u this
        rw [Globals.type_align, hal, e] at this
        refine ⟨g.align, this.symm, ?_⟩
        show g.align ≤ if _ then _ else _
        split
        · exact Nat.le_max_right _ _
        · exact Nat.le_refl _

/-- Nothing is written for a name that no declaration defines. -/
theorem C61_undefined (u : List Event) (hv : Spec.Link.Valid u) (hr : NoExternInit u) (x : Nat) (hd : ¬ Spec.Link.Defined u x)
    (s : Globals.St) (hs : unit u Globals.St.init = some s) : (data s).filter (fun D => D.name == x) = [] := by
  obtain ⟨s', hs', h⟩ := Globals.unit_inv hv hr
  rw [hs] at hs'; injection hs' with hs'; subst hs'
  rw [Globals.data_eq, Globals.defs_none h false]
  · rfl
  · intro i g hl hg hf
    by_cases ho : objDecls u x = []
    · by_cases hfn : fnDecls u x = []
      · rw [h.free x ho hfn] at hl; cases hl
      · obtain ⟨j, g2, e1, e2, e3⟩ := h.func x hfn
        rw [hl] at e1; injection e1 with e1; injection e1 with e1; subst e1
        rw [hg] at e2; injection e2 with e2; subst e2
        have := e3.fn
        rw [hf] at this; cases this
    · obtain ⟨j, g2, e1, e2, e3⟩ := h.obj x ho
      rw [hl] at e1; injection e1 with e1; injection e1 with e1; subst e1
      rw [hg] at e2; injection e2 with e2; subst e2
      cases hgd : g.isDef with
      | false => rfl
      | true => exact absurd (e3.isDef.1 hgd) hd

/-- A function that has a definition is written once, as a global symbol exactly if C makes the definition
external, provided the first declaration does not have `inline` alone where another makes it external. -/
theorem C61_functions (u : List Event) (hv : Spec.Link.Valid u) (hr : NoExternInit u) (x : Nat)
    (hf : ∀ d, (fnDecls u x).head? = some d → d.inline = true → d.extern = false → ¬ ExternalFn u x)
    (s : Globals.St) (hs : unit u Globals.St.init = some s) :
    (DefinedFn u x → ∃ l, (functions s).filter (fun p => p.1 == x) = [(x, l)] ∧ (l = false ↔ ExternalFn u x)) ∧
    (¬ DefinedFn u x → (functions s).filter (fun p => p.1 == x) = []) := by
  obtain ⟨s', hs', h⟩ := Globals.unit_inv hv hr
  rw [hs] at hs'; injection hs' with hs'; subst hs'
  constructor
  · intro hd
    have hne : fnDecls u x ≠ [] := by
      obtain ⟨d, hd, _⟩ := hd
      exact List.ne_nil_of_mem hd
    obtain ⟨i, g, hlk, hg, hsum⟩ := h.func x hne
    have hgd := hsum.isDef.2 hd
    have hgn : g.name = x := by
      obtain ⟨i', g2, e1, e2, e3⟩ := h.idx _ _ hlk
      injection e1 with e1; subst e1
      rw [hg] at e2; injection e2 with e2; subst e2; exact e3
    refine ⟨g.isStatic, ?_, ?_⟩
    · rw [Globals.functions_eq, Globals.defs_one h true hlk hg hgd hsum.fn]
      show [(g.name, g.isStatic)] = _
      rw [hgn]
    · constructor
      · intro hst
        have hnl := mt hsum.loc.2 (by rw [hst]; simp)
        refine ⟨fun hi => hnl (.inl hi), ?_⟩
        cases ho : fnDecls u x with
        | nil => exact absurd ho hne
        | cons d l =>
          refine ⟨d, by simp, ?_⟩
          cases h1 : d.inline with
          | false => exact .inl rfl
          | true =>
            cases h2 : d.extern with
            | true => exact .inr rfl
            | false => exact absurd (.inr ⟨d, by rw [ho]; rfl, h1, h2⟩) hnl
      · intro hext
        cases hst : g.isStatic with
        | false => rfl
        | true =>
          exfalso
          rcases hsum.loc.1 hst with hi | ⟨d, e1, e2, e3⟩
          · exact hext.1 hi
          · exact hf d e1 e2 e3 hext
  · intro hnd
    rw [Globals.functions_eq, Globals.defs_none h true]
    · rfl
    · intro i g hl hg hfg
      by_cases hfn : fnDecls u x = []
      · by_cases ho : objDecls u x = []
        · rw [h.free x ho hfn] at hl; cases hl
        · obtain ⟨j, g2, e1, e2, e3⟩ := h.obj x ho
          rw [hl] at e1; injection e1 with e1; injection e1 with e1; subst e1
          rw [hg] at e2; injection e2 with e2; subst e2
          have := e3.fn
          rw [hfg] at this; cases this
      · obtain ⟨j, g2, e1, e2, e3⟩ := h.func x hfn
        rw [hl] at e1; injection e1 with e1; injection e1 with e1; subst e1
        rw [hg] at e2; injection e2 with e2; subst e2
        cases hgd : g.isDef with
        | false => rfl
        | true => exact absurd (e3.isDef.1 hgd) hnd

/-- Every use of a name in a function stands for what C makes it stand for: the innermost declaration
that can be seen, objects and functions with linkage being the symbol of their name. Of any unit that is
accepted, provided no declaration with linkage is made where a local object hides the name. -/
theorem C61_uses (u : List Event) (ho : UnitOpen u []) (s : Globals.St) (hs : unit u Globals.St.init = some s) :
    s.refs = unitRefs u [] := by
  rw [Globals.unit_refs u _ s [] Globals.sees_init Globals.outer_init ho hs]
  rfl

/-- A second initializer of an object is rejected, as is a second body of a function. -/
theorem C61_redefinition (a b : List Event) :
    (∀ d : ObjDecl, d.init ≠ none → fnDecls b d.name = [] → (∃ d' ∈ objDecls b d.name, d'.init ≠ none) →
      unit (a ++ .obj d :: b) Globals.St.init = none) ∧
    (∀ d : FnDecl, d.body.isSome = true → (d.gnu && d.inline && d.extern) = false → objDecls b d.name = [] →
      (∃ d' ∈ fnDecls b d.name, d'.body.isSome = true) → unit (a ++ .fn d :: b) Globals.St.init = none) :=
  ⟨fun _ h1 h2 h3 => Globals.twice_obj h1 h2 h3, fun _ h1 h1' h2 h3 => Globals.twice_fn ⟨h1, h1'⟩ h2 h3⟩

/-! A unit that meets the hypotheses:

    struct S { long a, b; };  extern int v[];  static struct S t;  int v[] = {1, 2, 3};  extern struct S t;
    int w;  int w;  static int f();
    int main() { int v; v; { extern int w; w; int f(); f; } t; }
    static int f() { v; }
-/

def lnU : List Event :=
  [.tag 0 16 8, .obj ⟨1, false, true, .unsized 4 4, none⟩, .obj ⟨2, true, false, .tag 0, none⟩,
   .obj ⟨1, false, false, .unsized 4 4, some ⟨7, 3⟩⟩, .obj ⟨2, false, true, .tag 0, none⟩,
   .obj ⟨3, false, false, .plain 4 4, none⟩, .obj ⟨3, false, false, .plain 4 4, none⟩,
   .fn ⟨4, true, false, false, false, none⟩,
   .fn ⟨5, false, false, false, false, some (.var 1 100 (.use 1 (.block (.ext 3 (.plain 4 4) (.use 3 (.proto 4 (.use 4 .nil)))) (.use 2 .nil))))⟩,
   .fn ⟨4, true, false, false, false, some (.use 1 .nil)⟩]

theorem lnU_valid : Spec.Link.Valid lnU := Globals.valid_of_check [1, 2, 3, 4, 5] (by decide)

theorem noExternInit_of {u : List Event} (h : ∀ e ∈ u, ∀ d, e = .obj d → d.init ≠ none → d.extern = false) : NoExternInit u :=
  fun _ _ d hd hi => h _ (Globals.objDecls_mem.1 hd).1 d rfl hi

theorem lnU_noExternInit : NoExternInit lnU := by
  refine noExternInit_of fun e he d hd hi => ?_
  subst hd
  simp only [lnU, List.mem_cons, Event.obj.injEq, List.not_mem_nil, or_false, reduceCtorEq, false_or] at he
  rcases he with rfl | rfl | rfl | rfl | rfl | rfl <;> first | rfl | exact absurd rfl hi

theorem lnU_open : UnitOpen lnU [] := by
  simp [UnitOpen, lnU, Body.Open, Spec.Link.seen]

/-- All three objects are written: `v` with its initializer and three elements, `t` as a local symbol. -/
example : ∃ s, unit lnU Globals.St.init = some s ∧
    data s = [⟨3, false, none, 4, 4⟩, ⟨2, true, none, 16, 8⟩, ⟨1, false, some ⟨7, 3⟩, 12, 4⟩] ∧ functions s = [(5, false), (4, true)] ∧
    s.refs = [some (.loc 100), some (.symbol 3), some (.symbol 4), some (.symbol 2), some (.symbol 1)] :=
  ⟨_, rfl, rfl, rfl, rfl⟩

example : Spec.Link.Defined lnU 1 ∧ Spec.Link.Defined lnU 2 ∧ Internal lnU 2 ∧ ¬ Internal lnU 1 ∧ Lengths lnU 1 ∧ Known lnU 2 := by
  refine ⟨⟨⟨1, false, false, .unsized 4 4, some ⟨7, 3⟩⟩, by decide, .inl (by decide)⟩, ⟨⟨2, true, false, .tag 0, none⟩, by decide, .inr ⟨rfl, rfl⟩⟩,
    ⟨⟨2, true, false, .tag 0, none⟩, by decide, rfl⟩, ?_, ?_, ?_⟩
  · rintro ⟨d, hd, hs⟩
    have : ∀ d ∈ objDecls lnU 1, d.static = false := by decide
    rw [this d hd] at hs; cases hs
  · intro h
    have := h ⟨1, false, false, .unsized 4 4, some ⟨7, 3⟩⟩ (by decide)
    cases this
  · intro p d q hu hn hp t ht
    cases p with
    | nil => cases hu
    | cons e p =>
      injection hu with h1 h2
      subst h1
      have h0 : Spec.Link.tagOf [.tag 0 16 8] 0 = some (16, 8) := rfl
      have hmem : Event.obj d ∈ lnU := by
        show Event.obj d ∈ Event.tag 0 16 8 :: _
        rw [h2]; simp
      have ht0 : ∀ d ∈ objDecls lnU 2, d.ty = .tag 0 := by decide
      have := ht0 d (Globals.objDecls_mem.2 ⟨hmem, hn⟩)
      rw [ht] at this; injection this with this; subst this
      rw [show (Event.tag 0 16 8 :: p) = [.tag 0 16 8] ++ p from rfl, Globals.tagOf_append, h0]
      rfl

/-! Where the code departs from C. -/

/-- `static int x; extern int x = 5;` defines an object of internal linkage; the symbol is global. -/
theorem C61_extern_init : let u : List Event := [.obj ⟨1, true, false, .plain 4 4, none⟩, .obj ⟨1, false, true, .plain 4 4, some ⟨7, 0⟩⟩]
    Spec.Link.Valid u ∧ Internal u 1 ∧ ∃ s, unit u Globals.St.init = some s ∧ data s = [⟨1, false, some ⟨7, 0⟩, 4, 4⟩] :=
  ⟨Globals.valid_of_check [1] (by decide), ⟨⟨1, true, false, .plain 4 4, none⟩, by decide, rfl⟩, _, rfl, rfl⟩

/-- `int a[10]; int a[];` defines an array of ten; one element is written. -/
theorem C61_length_lost : let u : List Event := [.obj ⟨1, false, false, .arr 4 4 10, none⟩, .obj ⟨1, false, false, .unsized 4 4, none⟩]
    Spec.Link.Valid u ∧ (∀ t, FinalTy u 1 t → t.bytes u = some 40) ∧ ∃ s, unit u Globals.St.init = some s ∧ data s = [⟨1, false, none, 4, 4⟩] := by
  refine ⟨Globals.valid_of_check [1] (by decide), ?_, _, rfl, rfl⟩
  rintro t ⟨⟨d, hd, e⟩, h⟩
  have hd : d = ⟨1, false, false, .arr 4 4 10, none⟩ ∨ d = ⟨1, false, false, .unsized 4 4, none⟩ := by
    simpa [objDecls] using hd
  rcases hd with rfl | rfl
  · rw [← e]; rfl
  · exfalso
    have := h (by rw [← e]; rfl) ⟨1, false, false, .arr 4 4 10, none⟩ (by decide)
    cases this

/-- `extern struct S s; struct S { long a; }; struct S s;` needs an alignment of eight; one is given. -/
theorem C61_misaligned : let u : List Event := [.obj ⟨1, false, true, .tag 0, none⟩, .tag 0 8 8, .obj ⟨1, false, false, .tag 0, none⟩]
    Spec.Link.Valid u ∧ (∀ t, FinalTy u 1 t → t.align u = some 8) ∧ ∃ s, unit u Globals.St.init = some s ∧ data s = [⟨1, false, none, 8, 1⟩] := by
  refine ⟨Globals.valid_of_check [1] (by decide), ?_, _, rfl, rfl⟩
  rintro t ⟨⟨d, hd, e⟩, _⟩
  have hd : d = ⟨1, false, true, .tag 0, none⟩ ∨ d = ⟨1, false, false, .tag 0, none⟩ := by
    simpa [objDecls] using hd
  rcases hd with rfl | rfl <;> (rw [← e]; rfl)

/-- `int x; void f() { int x; { extern int x; x; } }`: the use is that of the object at file scope, the
code takes the local one. -/
theorem C61_extern_hidden : let u : List Event := [.obj ⟨1, false, false, .plain 4 4, none⟩,
      .fn ⟨2, false, false, false, false, some (.var 1 100 (.block (.ext 1 (.plain 4 4) (.use 1 .nil)) .nil))⟩]
    Spec.Link.Valid u ∧ unitRefs u [] = [some (.symbol 1)] ∧ ∃ s, unit u Globals.St.init = some s ∧ s.refs = [some (.loc 100)] :=
  ⟨Globals.valid_of_check [1, 2] (by decide), rfl, _, rfl, rfl⟩

/-- `inline int f() {} extern int f();` is an external definition; the symbol is local. -/
theorem C61_inline_first : let u : List Event := [.fn ⟨1, false, false, true, false, some .nil⟩, .fn ⟨1, false, true, false, false, none⟩]
    Spec.Link.Valid u ∧ ExternalFn u 1 ∧ ∃ s, unit u Globals.St.init = some s ∧ functions s = [(1, true)] := by
  refine ⟨Globals.valid_of_check [1] (by decide), ⟨?_, ⟨1, false, true, false, false, none⟩, by simp [fnDecls], .inl rfl⟩, _, rfl, rfl⟩
  rintro ⟨d, hd, hs⟩
  have hd : d = ⟨1, false, false, true, false, some .nil⟩ ∨ d = ⟨1, false, true, false, false, none⟩ := by
    simpa [fnDecls] using hd
  rcases hd with rfl | rfl <;> cases hs

end Slimcc.Props
