import Verif.Lemmas.Scope
/-!
C41: a use of a name means the declaration of it in the innermost scope around the use that has
one, and leaving a scope brings back the declarations around it.
-/
set_option autoImplicit false
namespace Slimcc.Props
open Slimcc.Spec Slimcc.Scp Slimcc.ScpL

/-- Whatever is declared, used, nested and defined: every use finds what lexical scoping says, and
no map is used after it was freed (that would be `ub`). -/
theorem C41_innermost_declaration (h : Hist) (hok : h.Ok true) :
    ∃ s, run (calls h) PS.init = .ok (s, (meanings h ⟨[], []⟩ ⟨[], []⟩).1) := by
  obtain ⟨s, hr, _, _⟩ := follows h PS.init _ _ true init_inv hok (fun _ => rfl)
  exact ⟨s, hr⟩

/-- Scopes that are open one inside the other, each with what came in it so far. -/
def openCalls : List Hist → List Call
  | [] => []
  | [h] => calls h
  | h :: h' :: hs => calls h ++ .enter :: openCalls (h' :: hs)

theorem open_inv : ∀ (hs : List Hist) (s : PS) (loc out : Decls), Inv s loc out → (∀ h ∈ hs, h.Ok false) →
    ∃ s' r loc' out', run (openCalls hs) s = .ok (s', r) ∧ Inv s' loc' out'
  | [], s, loc, out, hi, _ => ⟨s, [], loc, out, rfl, hi⟩
  | [h], s, loc, out, hi, ho => by
    obtain ⟨s', hr, hi', _⟩ := follows h s loc out false hi (ho h (by simp)) (fun h => by cases h)
    exact ⟨s', _, _, _, hr, hi'⟩
  | h :: h' :: hs, s, loc, out, hi, ho => by
    obtain ⟨s1, hr, hi1, _⟩ := follows h s loc out false hi (ho h (by simp)) (fun h => by cases h)
    obtain ⟨s2, r, loc', out', hr2, hi2⟩ := open_inv (h' :: hs) (enterScope s1) _ _ hi1.enter (fun x hx => ho x (by simp [hx]))
    exact ⟨s2, _, loc', out', run_then hr (run_cons (c := .enter) (s := s1) (r1 := []) rfl hr2), hi2⟩

/-- However many scopes are open: after a block every name means what it meant before the block. -/
theorem C41_leaving_restores (hs : List Hist) (b : Hist) (hok : ∀ h ∈ hs, h.Ok false) (hb : b.Ok false) :
    ∃ s s' r r', run (openCalls hs) PS.init = .ok (s, r) ∧ run (openCalls hs ++ .enter :: (calls b ++ [.leave])) PS.init = .ok (s', r') ∧
      ∀ n, findVar n s' = findVar n s ∧ findTag n s' = findTag n s := by
  obtain ⟨s, r, loc, out, hr, hi⟩ := open_inv hs PS.init _ _ init_inv hok
  obtain ⟨s', hr', hi', _⟩ := block_ok hi (follows b _ _ _ false hi.enter hb (fun h => by cases h))
  exact ⟨s, s', r, _, hr, run_then hr hr', fun n => ⟨by rw [findVar_ok hi, findVar_ok hi'], by rw [findTag_ok hi, findTag_ok hi']⟩⟩

/-- A declaration is found from where it stands, in its scope and in the blocks of it, until the
name is declared again. -/
theorem C41_declaration_is_found (hs : List Hist) (n : List Nat) (v : Ent) (hok : ∀ h ∈ hs, h.Ok false) :
    ∃ s r, run (openCalls hs ++ [.var n v, .enter, .getVar n]) PS.init = .ok (s, r ++ [some v]) := by
  obtain ⟨s, r, loc, out, hr, hi⟩ := open_inv hs PS.init _ _ init_inv hok
  obtain ⟨s', h', _, _⟩ := follows (.var n v .nil) s loc out false hi trivial (fun h => by cases h)
  obtain ⟨s1, h1, hi1, _⟩ := push_var_ok hi n v
  have hf := findVar_ok hi1.enter n
  refine ⟨enterScope s1, r, run_then hr ?_⟩
  have hl : latestOf n (Decls.over ⟨[], []⟩ (Decls.over ⟨(n, v) :: loc.vars, loc.tags⟩ out)).vars = some v := by
    simp [Decls.over, latestOf]
  rw [hl] at hf
  simp only [run, call, h1, silent, Outcome.bind_ok, hf, found, List.append_nil, List.nil_append]

/-! ### Departures -/

/-- `g((enum {A})0); … A …`: the enumeration constant should be visible in the rest of the block;
the temporary scope of the call has taken it away. -/
theorem C41_declared_in_call_is_lost (a : List Nat) (v : Ent) :
    (meanings (.tmp (.var a v .nil) (.useVar a .nil)) ⟨[], []⟩ ⟨[], []⟩).1 = [some v] ∧
    ∃ s, run (calls (.tmp (.var a v .nil) (.useVar a .nil))) PS.init = .ok (s, [none]) := by
  refine ⟨by simp [meanings, Decls.over, latestOf], ?_⟩
  simp [calls, run, call, silent, found, enterScope, leaveScope, pushScope, PS.init, findVar, walk, getEntry, Sc.free]

/-- `int f(void); int main(void) { int f; { int f(void); f(); } }`: the inner declaration of the
function is not entered, and the call finds the variable. -/
theorem C41_function_redeclared_in_block (f : List Nat) (fn obj : Ent) (hf : fn.kind = .func) :
    (meanings (.var f fn (.fn .nil none (.var f obj (.block (.var f fn (.useVar f .nil)) .nil)) .nil)) ⟨[], []⟩ ⟨[], []⟩).1 = [some fn] ∧
    ∃ s, run [.proto f fn, .enter, .leaveParams, .enterBody, .enter, .var f obj, .enter, .proto f fn, .getVar f] PS.init = .ok (s, [some obj]) := by
  refine ⟨by simp [meanings, Decls.over, Decls.name, latestOf], ?_⟩
  simp [run, call, silent, found, enterScope, leaveScope, pushScope, PS.init, findVar, findFunc, outermost, walk, getEntry, hf]

/-- `int x; int main(void) { int x; { extern int x; x; } }`: `extern` finds the local variable, and
the use means it, not the variable of the file. -/
theorem C41_extern_in_block (x : List Nat) (glob loc : Ent) (hl : loc.kind = .obj) :
    (meanings (.var x glob (.fn .nil none (.var x loc (.block (.var x glob (.useVar x .nil)) .nil)) .nil)) ⟨[], []⟩ ⟨[], []⟩).1 = [some glob] ∧
    ∃ s, run [.var x glob, .enter, .leaveParams, .enterBody, .enter, .var x loc, .enter, .extern x glob, .getVar x] PS.init = .ok (s, [some loc]) := by
  refine ⟨by simp [meanings, Decls.over, Decls.name, latestOf], ?_⟩
  simp [run, call, silent, found, enterScope, leaveScope, pushScope, PS.init, findVar, isVar, walk, getEntry, hl]

/-! ### The hypotheses are met -/

/-- `int x; struct s; f(int a) { struct s; { int a; x; a; { int x; x; } x; struct s } a; } f;` -/
def scopeHist : Hist :=
  .var [120] ⟨1, .obj⟩ (.tag [115] ⟨10, .other⟩ (.fn (.var [97] ⟨2, .obj⟩ .nil) (some ([102], ⟨3, .func⟩))
    (.tag [115] ⟨11, .other⟩ (.block (.var [97] ⟨4, .obj⟩ (.useVar [120] (.useVar [97] (.block (.var [120] ⟨5, .obj⟩ (.useVar [120] .nil))
      (.useVar [120] (.useTag [115] .nil)))))) (.tmp (.useVar [97] (.block (.var [97] ⟨6, .obj⟩ (.useVar [97] .nil)) .nil)) (.useVar [97] .nil))))
    (.useVar [102] (.useTag [115] (.useVar [97] .nil)))))

example : scopeHist.Ok true := by simp [scopeHist, Hist.Ok, noDecl]

example : ∃ s, run (calls scopeHist) PS.init = .ok (s, [some ⟨1, .obj⟩, some ⟨4, .obj⟩, some ⟨5, .obj⟩, some ⟨1, .obj⟩, some ⟨11, .other⟩,
    some ⟨2, .obj⟩, some ⟨6, .obj⟩, some ⟨2, .obj⟩, some ⟨3, .func⟩, some ⟨10, .other⟩, none]) :=
  C41_innermost_declaration scopeHist (by simp [scopeHist, Hist.Ok, noDecl])

end Slimcc.Props
