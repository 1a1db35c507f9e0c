import Verif.Lemmas.FnMain
import Verif.Props.C36
/-!
C65: functions that call each other.

A program of functions (Spec/Prog: bodies of any statements of C50 and calls, with any number of
parameters, global and local variables of all integer types, recursion) is compiled and in memory
(Spec/Linked). If C gives a meaning to a call of one of its functions (`Gives`: it returns, with no
undefined behaviour, whatever its uninitialized variables contain), then the machine, at an instruction
calling this function with the arguments in their places, gets to the next instruction: the result is in
%rax, global variables have their new values, the stack and frame pointers are as before, and nothing
else above the arguments has changed. In particular no activation damages the variables of another
(of the same function, for a recursive one), and at every call in between the stack pointer is a
multiple of sixteen: the machine of Model/X86Prog is stuck otherwise.
-/
set_option autoImplicit false
namespace Slimcc.Props
open Slimcc.Spec Slimcc.Spec.CTy Slimcc.Ty Slimcc.X86 Slimcc.Gen

section
variable {hs : HostShift} {opt : Bool} {P : Prog} {fr : Nat → Frame} {I : Image} {lo hi D : Nat}

/-- A call of a function does what the C program does. `n` bounds the depth of calls; `n * D` bytes of
stack are enough. -/
theorem C65_call (L : Linked hs opt P fr I lo hi D) (n g : Nat) (vs : List Int) (σ σ' : Store) (v : Option Int) (f : FnDef) (hf : P.fn g = some f)
    (hG : Gives P n g vs σ v σ') (c pc : Nat) (s : St) (hc : (I.code c)[pc]? = some (.call g)) (hpc : pc + 1 < (I.code c).length)
    (hs : Calling P I lo hi f vs σ (n * D) s) :
    ∃ k s', gsteps I k ((c, pc), s) = some ((c, pc + 1), s') ∧ Returned P I lo f vs.length v σ' s s' :=
  served L n g vs σ v σ' hG f hf c pc s hc hpc hs

/-- The result of a function does not depend on where its activation is on the stack nor on what
memory and registers contain otherwise: two calls with the same arguments and global variables leave
the same result. -/
theorem C65_same (L : Linked hs opt P fr I lo hi D) (n g : Nat) (vs : List Int) (σ σ' : Store) (v : Int) (f : FnDef) (hf : P.fn g = some f)
    (hG : Gives P n g vs σ (some v) σ') (c pc c' pc' : Nat) (s t : St) (hc : (I.code c)[pc]? = some (.call g)) (hpc : pc + 1 < (I.code c).length)
    (hc' : (I.code c')[pc']? = some (.call g)) (hpc' : pc' + 1 < (I.code c').length)
    (hs : Calling P I lo hi f vs σ (n * D) s) (ht : Calling P I lo hi f vs σ (n * D) t) :
    ∃ j k s' t', gsteps I j ((c, pc), s) = some ((c, pc + 1), s') ∧ gsteps I k ((c', pc'), t) = some ((c', pc' + 1), t') ∧
      (s'.r .ax).setWidth (8 * f.rty.bytes) = (t'.r .ax).setWidth (8 * f.rty.bytes) ∧
      ∀ x a, P.glob x = true → InBlk (I.sym x) (P.Γ x).bytes a → s'.m a = t'.m a := by
  obtain ⟨j, s', h1, h2⟩ := C65_call L n g vs σ σ' (some v) f hf hG c pc s hc hpc hs
  obtain ⟨k, t', h3, h4⟩ := C65_call L n g vs σ σ' (some v) f hf hG c' pc' t hc' hpc' ht
  refine ⟨j, k, s', t', h1, h3, ?_, fun x a hx ha => ?_⟩
  · have e1 := inReg_low (h2.result v rfl).2
    have e2 := inReg_low (h4.result v rfl).2
    exact Eq.trans e1 (Eq.symm e2)
  · have hi : (a - I.sym x).toNat < (P.Γ x).bytes := ha
    have e1 := h2.globals x hx _ hi
    have e2 := h4.globals x hx _ hi
    have : I.sym x + BitVec.ofNat 64 (a - I.sym x).toNat = a := by rw [BitVec.ofNat_toNat, BitVec.setWidth_eq]; bv_omega
    rw [this] at e1 e2
    rw [e1, e2]

/-! The frame. -/

/-- The list `l` of variables with offsets has the variables of `f`, at the positions `pv`, with the
offsets of `fr`. -/
structure VarsIn (P : Prog) (f : FnDef) (fr : Frame) (l : List (Slimcc.Frame.Var × Int)) (pv : Nat → Nat) : Prop where
  var : ∀ x ∈ own f, ∃ p, l[pv x]? = some p ∧ p.1.byStack = false ∧ p.2 = fr.ofs x ∧ p.1.size = (P.Γ x).bytes
  inj : ∀ x ∈ own f, ∀ y ∈ own f, pv x = pv y → x = y

/-- It also has the variables made for the arguments of `c`, at the positions `pt`. -/
structure TempsIn (hs : HostShift) (opt : Bool) (P : Prog) (f : FnDef) (fr : Frame) (c : CallS) (l : List (Slimcc.Frame.Var × Int)) (pv pt : Nat → Nat) : Prop where
  temp : ∀ i, HasTemp hs opt P f fr c i → ∃ p, l[pt i]? = some p ∧ p.1.byStack = false ∧ p.2 = fr.temp c.site i ∧ p.1.size = argSize P.Γ c.args i
  inj : ∀ i j, HasTemp hs opt P f fr c i → HasTemp hs opt P f fr c j → pt i = pt j → i = j
  other : ∀ i x, HasTemp hs opt P f fr c i → x ∈ own f → pt i ≠ pv x

theorem apart_get {l : List (Slimcc.Frame.Var × Int)} (h : l.Pairwise Apart) {i j : Nat} {p q : Slimcc.Frame.Var × Int} (hi : l[i]? = some p) (hj : l[j]? = some q)
    (hp : p.1.byStack = false) (hq : q.1.byStack = false) (hij : i ≠ j) : p.2 + p.1.size ≤ q.2 ∨ q.2 + q.1.size ≤ p.2 := by
  obtain ⟨h1, rfl⟩ := List.getElem?_eq_some_iff.1 hi
  obtain ⟨h2, rfl⟩ := List.getElem?_eq_some_iff.1 hj
  rw [List.pairwise_iff_getElem] at h
  rcases Nat.lt_or_ge i j with hlt | hge
  · have := h i j h1 h2 hlt
    unfold Apart at this
    rw [hp, hq] at this
    simpa using this
  · have := h j i h2 h1 (by omega)
    unfold Apart at this
    rw [hp, hq] at this
    refine Or.symm ?_
    simpa using this

theorem casesOk_mono {K L : CallS → Prop} {Γ : Nat → CTy} (h : ∀ c, K c → L c) : ∀ s : Stmt, s.CasesOk K Γ → s.CasesOk L Γ
  | .call c, h' => h c h'
  | .seq a b, h' => ⟨casesOk_mono h a h'.1, casesOk_mono h b h'.2⟩
  | .if_ _ a, h' => casesOk_mono h a h'
  | .ifElse _ a b, h' => ⟨casesOk_mono h a h'.1, casesOk_mono h b h'.2⟩
  | .loop _ _ _ b, h' => casesOk_mono h b h'
  | .dowhile b _, h' => casesOk_mono h b h'
  | .switch _ b, h' => ⟨h'.1, casesOk_mono h b h'.2⟩
  | .lab _ s, h' => casesOk_mono h s h'
  | .expr _, _ => trivial
  | .skip, _ => trivial
  | .ret _, _ => trivial
  | .brk _, _ => trivial
  | .cont _, _ => trivial
  | .goto _, _ => trivial

mutual
theorem path_sub {α : Type} : ∀ (s : Slimcc.Frame.Scope α) (l : List α), Path s l → ∀ p ∈ l, p ∈ allVars s
  | .mk ls cs, _, .here _ _, p, hp => by simp only [allVars, List.mem_append]; exact .inl hp
  | .mk ls cs, _, .down _ _ l h, p, hp => by
    simp only [allVars, List.mem_append]
    rcases List.mem_append.1 hp with h1 | h1
    · exact .inl h1
    · exact .inr (subPath_sub cs l h p h1)
theorem subPath_sub {α : Type} : ∀ (s : Slimcc.Frame.Scopes α) (l : List α), SubPath s l → ∀ p ∈ l, p ∈ allSubs s
  | .cons s r, l, .first _ _ _ h, p, hp => by simp only [allSubs, List.mem_append]; exact .inl (path_sub s l h p hp)
  | .cons s r, l, .next _ _ _ h, p, hp => by simp only [allSubs, List.mem_append]; exact .inr (subPath_sub r l h p hp)
end

/-- The offsets that the compiler assigns (the model of `assign_lvar_offsets` of C36) meet what C65 asks
for: `F` are the scopes of the function with the variables made for the arguments of its calls, `ps`
and `sz` the offsets and the size of the frame. The parameters and variables of the function are alive
together, and at every call together with those made for its arguments. -/
theorem C65_frame (reuse : Bool) (F : Slimcc.Frame.Fn) (hF : Slimcc.Props.FrameOk F) (ps : Slimcc.Frame.Scope (Slimcc.Frame.Var × Int)) (f : FnDef) (fr : Frame)
    (hf : Slimcc.Frame.frame reuse F = .ok (ps, (fr.stk : Int))) (hv : ∃ l pv, Path ps l ∧ VarsIn P f fr l pv)
    (ht : f.body.CasesOk (fun c => ∃ l pv pt, Path ps l ∧ VarsIn P f fr l pv ∧ TempsIn hs opt P f fr c l pv pt) P.Γ) :
    Slimcc.Spec.FrameOk hs opt P f fr := by
  have hin := C36_inside reuse F hF ps _ hf
  have hres : 0 ≤ Slimcc.Frame.reserved F := by
    unfold Slimcc.Frame.reserved Slimcc.Frame.fixed Slimcc.Frame.rtnPtr Slimcc.Frame.vlaBase Slimcc.Frame.saveArea
    cases F.variadic <;> cases F.deallocVla <;> cases F.rtnByStk <;> decide
  have hbetween : ∀ {l : List (Slimcc.Frame.Var × Int)} {i : Nat} {p : Slimcc.Frame.Var × Int}, Path ps l → l[i]? = some p → p.1.byStack = false → -(fr.stk : Int) ≤ p.2 ∧ p.2 + p.1.size ≤ 0 := by
    intro l i p hl hp hb
    have := hin p (path_sub _ _ hl p (List.mem_of_getElem? hp)) hb
    omega
  refine ⟨fun x hx => ?_, fun x hx y hy hne => ?_, ?_⟩
  · obtain ⟨l, pv, hl, h⟩ := hv
    obtain ⟨p, h1, h2, h3, h4⟩ := h.var x hx
    rw [← h3, ← h4]
    exact hbetween hl h1 h2
  · obtain ⟨l, pv, hl, h⟩ := hv
    obtain ⟨p, h1, h2, h3, h4⟩ := h.var x hx
    obtain ⟨q, h5, h6, h7, h8⟩ := h.var y hy
    unfold OfsApart
    rw [← h3, ← h4, ← h7, ← h8]
    exact apart_get (C36_disjoint reuse F hF ps _ hf l hl) h1 h5 h2 h6 fun he => hne (h.inj x hx y hy he)
  · refine casesOk_mono ?_ _ ht
    rintro c ⟨l, pv, pt, hl, h, hc⟩
    have hd := C36_disjoint reuse F hF ps _ hf l hl
    refine ⟨fun i hi => ?_, fun i x hi hx => ?_, fun i j hi hj hne => ?_⟩
    · obtain ⟨p, h1, h2, h3, h4⟩ := hc.temp i hi
      rw [← h3, ← h4]
      exact hbetween hl h1 h2
    · obtain ⟨p, h1, h2, h3, h4⟩ := hc.temp i hi
      obtain ⟨q, h5, h6, h7, h8⟩ := h.var x hx
      unfold OfsApart
      rw [← h3, ← h4, ← h7, ← h8]
      exact apart_get hd h1 h5 h2 h6 (hc.other i x hi hx)
    · obtain ⟨p, h1, h2, h3, h4⟩ := hc.temp i hi
      obtain ⟨q, h5, h6, h7, h8⟩ := hc.temp j hj
      unfold OfsApart
      rw [← h3, ← h4, ← h7, ← h8]
      exact apart_get hd h1 h5 h2 h6 fun he => hne (hc.inj i j hi hj he)

end

/-! A case meeting the hypotheses:
`int count; long f(long a, int b, short c, unsigned char d, long e, int g, int n) { long r; count += 1;
if (n < 1) return a; r = f(e, b, c, d, a * 2, g, n - 1); return r + b; }`, called from a second piece
of code with the arguments 100, 2, 3, 4, 50, 6, 2 when `count` is 10. The last parameter is on the
stack. -/

def ex65Γ : Nat → CTy := fun x => if x = 0 then .int else if x = 1 then .long else if x = 2 then .int else if x = 3 then .short else
  if x = 4 then .uchar else if x = 5 then .long else if x = 6 then .int else if x = 7 then .int else .long

def ex65Call : CallS := ⟨some 8, 7, [⟨some .long, .var 5⟩, ⟨some .int, .var 2⟩, ⟨some .short, .var 3⟩, ⟨some .uchar, .var 4⟩,
  ⟨some .long, .bin (.ar .mul) (.var 1) (.num .int 2)⟩, ⟨some .int, .var 6⟩, ⟨some .int, .bin (.ar .sub) (.var 7) (.num .int 1)⟩], 0⟩

def ex65Body : Stmt :=
  .seq (.expr (.opAssign (.ar .add) 0 (.num .int 1)))
    (.seq (.if_ (.cmp .lt (.var 7) (.num .int 1)) (.ret (some (.var 1))))
      (.seq (.call ex65Call) (.ret (some (.bin (.ar .add) (.var 8) (.var 2))))))

def ex65Fn : FnDef := ⟨[1, 2, 3, 4, 5, 6, 7], [8], .long, ex65Body⟩
def ex65 : Prog := ⟨ex65Γ, fun x => decide (x = 0), fun g => if g = 7 then some ex65Fn else none⟩

def ex65Frame : Frame where
  ofs x := if x = 1 then -8 else if x = 2 then -12 else if x = 3 then -14 else if x = 4 then -15 else if x = 5 then -24 else if x = 6 then -28 else -40
  temp _ i := if i = 0 then -48 else if i = 1 then -52 else if i = 2 then -54 else if i = 3 then -55 else if i = 4 then -64 else -68
  stk := 72

def ex65Code : Nat → List Line := fun g =>
  if g = 7 then (fnCode exShift true ex65 ex65Fn ex65Frame 0 0).getD [] else if g = 9 then [.call 7, .ret] else []

def ex65Image : Image where
  code := ex65Code
  addr g pc := BitVec.ofNat 64 (0x400000 + g * 0x1000 + pc)
  back w := some ((w.toNat - 0x400000) / 0x1000, (w.toNat - 0x400000) % 0x1000)
  sym _ := 0x601000

theorem ex65_fn (g : Nat) (f : FnDef) (h : ex65.fn g = some f) : g = 7 ∧ f = ex65Fn := by
  simp only [ex65] at h
  split at h
  · injection h with h; exact ⟨by assumption, h.symm⟩
  · cases h

theorem ex65_compiled : ∃ o, fnBody exShift true ex65 ex65Fn ex65Frame 0 0 = some o ∧ o.st = 0 ∧ (ex65Code 7).length ≤ 200 ∧
    fnCode exShift true ex65 ex65Fn ex65Frame 0 0 = some (ex65Code 7) := by
  have h : (fnBody exShift true ex65 ex65Fn ex65Frame 0 0).map (·.st) = some 0 := by decide +kernel
  have h2 : (fnCode exShift true ex65 ex65Fn ex65Frame 0 0).isSome = true := by decide +kernel
  have h3 : (ex65Code 7).length ≤ 200 := by decide +kernel
  obtain ⟨o, h4, h5⟩ := Option.map_eq_some_iff.1 h
  refine ⟨o, h4, h5, h3, ?_⟩
  obtain ⟨c, hc⟩ := Option.isSome_iff_exists.1 h2
  unfold ex65Code
  rw [if_pos rfl, hc]
  rfl

theorem ex65_exprs : ex65Fn.body.exprs = [.opAssign (.ar .add) 0 (.num .int 1), .cmp .lt (.var 7) (.num .int 1), .var 1, .var 5, .var 2, .var 3, .var 4,
    .bin (.ar .mul) (.var 1) (.num .int 2), .var 6, .bin (.ar .sub) (.var 7) (.num .int 1), .var 8, .bin (.ar .add) (.var 8) (.var 2)] := rfl

theorem ex65_rules : FnRules ex65 true ex65Fn where
  wf := by
    rw [ex65_exprs]
    simp only [List.mem_cons, List.not_mem_nil, or_false, forall_eq_or_imp, forall_eq, Expr.Wf, true_and, and_true]
    decide
  vars := by
    rw [ex65_exprs]
    simp [ex65, ex65Fn, Expr.vars]
  seq := by
    intro _
    rw [ex65_exprs]
    simp [Expr.Sequenced, Expr.vars, Expr.assigned]
  names := by decide
  cases := by
    refine ⟨trivial, trivial, ⟨?_, ⟨ex65Fn, rfl, rfl⟩, fun x hx => ?_⟩, trivial⟩
    · intro i j a b ha hb hij x hx
      have : ∀ a ∈ ex65Call.args, a.e.assigned = [] := by decide
      rw [this a (List.mem_of_getElem? ha)] at hx
      cases hx
    · injection hx with hx; subst hx; decide
  distinct := by decide
  own := by decide
  bools := by decide

def ex65Var (n : Int) : Slimcc.Frame.Var := ⟨n, n, false, false, false, 0⟩

/-- The scopes of the function: parameters and variables, and inside the variables of the call. -/
def ex65Scopes : Slimcc.Frame.Scope Slimcc.Frame.Var :=
  .mk [ex65Var 8, ex65Var 4, ex65Var 2, ex65Var 1, ex65Var 8, ex65Var 4, ⟨4, 4, false, false, true, 0⟩, ex65Var 8]
    (.cons (.mk [ex65Var 8, ex65Var 4, ex65Var 2, ex65Var 1, ex65Var 8, ex65Var 4] .nil) .nil)

def ex65Vars : List (Slimcc.Frame.Var × Int) :=
  [(ex65Var 8, -8), (ex65Var 4, -12), (ex65Var 2, -14), (ex65Var 1, -15), (ex65Var 8, -24), (ex65Var 4, -28), (⟨4, 4, false, false, true, 0⟩, 16), (ex65Var 8, -40)]
def ex65Temps : List (Slimcc.Frame.Var × Int) :=
  [(ex65Var 8, -48), (ex65Var 4, -52), (ex65Var 2, -54), (ex65Var 1, -55), (ex65Var 8, -64), (ex65Var 4, -68)]
def ex65Places : Slimcc.Frame.Scope (Slimcc.Frame.Var × Int) := .mk ex65Vars (.cons (.mk ex65Temps .nil) .nil)

set_option maxRecDepth 100000 in
theorem ex65_places : Slimcc.Frame.frame true ⟨false, false, false, ex65Scopes⟩ = .ok (ex65Places, 72) := rfl

theorem ex65_varsIn (l : List (Slimcc.Frame.Var × Int)) : VarsIn ex65 ex65Fn ex65Frame (ex65Vars ++ l) (· - 1) where
  var x hx := by
    have hx : x ∈ [1, 2, 3, 4, 5, 6, 8] := hx
    simp only [List.mem_cons, List.not_mem_nil, or_false] at hx
    rcases hx with rfl | rfl | rfl | rfl | rfl | rfl | rfl <;> exact ⟨_, rfl, rfl, rfl, rfl⟩
  inj x hx y hy h := by
    have hx : x ∈ [1, 2, 3, 4, 5, 6, 8] := hx
    have hy : y ∈ [1, 2, 3, 4, 5, 6, 8] := hy
    simp only [List.mem_cons, List.not_mem_nil, or_false] at hx hy
    have h : x - 1 = y - 1 := h
    omega

theorem ex65_tempsIn : TempsIn exShift true ex65 ex65Fn ex65Frame ex65Call (ex65Vars ++ ex65Temps) (· - 1) (8 + ·) where
  temp i hi := by
    have h6 := hi.1
    match i, h6 with
    | 0, _ | 1, _ | 2, _ | 3, _ | 4, _ | 5, _ => exact ⟨_, rfl, rfl, rfl, rfl⟩
  inj i j _ _ h := Nat.add_left_cancel h
  other i x _ hx := by
    have hx : x ∈ [1, 2, 3, 4, 5, 6, 8] := hx
    simp only [List.mem_cons, List.not_mem_nil, or_false] at hx
    show 8 + i ≠ x - 1
    omega

theorem ex65_frame : Slimcc.Spec.FrameOk exShift true ex65 ex65Fn ex65Frame := by
  refine C65_frame true ⟨false, false, false, ex65Scopes⟩ ⟨fun v hv => ?_, by decide⟩ ex65Places _ _ ex65_places
    ⟨ex65Vars, _, .here _ _, List.append_nil ex65Vars ▸ ex65_varsIn []⟩ ⟨trivial, trivial, ⟨_, _, _, .down _ _ _ (.first _ _ ex65Temps (.here _ _)), ex65_varsIn _, ex65_tempsIn⟩, trivial⟩
  have hw : ∀ (n : Int) (k : Nat) (o : Int) (b : Bool), 0 ≤ n → n = (2 ^ k : Nat) → o = 0 → VarWf ⟨n, n, false, false, b, o⟩ :=
    fun n k o b h1 h2 h3 => ⟨h1, ⟨k, h2⟩, by subst h3; exact ⟨Int.le_refl 0, show (0 : Int) ≤ 2 ^ 30 by decide⟩⟩
  have hv : v ∈ [ex65Var 8, ex65Var 4, ex65Var 2, ex65Var 1, ex65Var 8, ex65Var 4, ⟨4, 4, false, false, true, 0⟩, ex65Var 8,
    ex65Var 8, ex65Var 4, ex65Var 2, ex65Var 1, ex65Var 8, ex65Var 4] := hv
  simp only [List.mem_cons, List.not_mem_nil, or_false] at hv
  rcases hv with rfl | rfl | rfl | rfl | rfl | rfl | rfl | rfl | rfl | rfl | rfl | rfl | rfl | rfl <;>
    first | exact hw 8 3 0 false (by decide) rfl rfl | exact hw 4 2 0 _ (by decide) rfl rfl | exact hw 2 1 0 _ (by decide) rfl rfl | exact hw 1 0 0 _ (by decide) rfl rfl

theorem ex65_linked : Linked exShift true ex65 (fun _ => ex65Frame) ex65Image 0x7ff00000 0x7fff0000 1024 where
  image := by
    obtain ⟨o, -, -, h3, -⟩ := ex65_compiled
    intro g pc hpc
    have hpc : pc < (ex65Code g).length := hpc
    have h : g = 7 ∧ pc < 200 ∨ g = 9 ∧ pc < 2 := by
      by_cases h7 : g = 7
      · subst h7; exact .inl ⟨rfl, by omega⟩
      · by_cases h9 : g = 9
        · subst h9; exact .inr ⟨rfl, hpc⟩
        · unfold ex65Code at hpc
          rw [if_neg h7, if_neg h9] at hpc
          exact absurd hpc (Nat.not_lt_zero _)
    have h1 : (BitVec.ofNat 64 (0x400000 + g * 0x1000 + pc)).toNat = 0x400000 + g * 0x1000 + pc := by rw [BitVec.toNat_ofNat]; omega
    show some (((BitVec.ofNat 64 (0x400000 + g * 0x1000 + pc)).toNat - 0x400000) / 0x1000, ((BitVec.ofNat 64 (0x400000 + g * 0x1000 + pc)).toNat - 0x400000) % 0x1000) = _
    rw [h1, show (0x400000 + g * 0x1000 + pc - 0x400000) / 0x1000 = g by omega, show (0x400000 + g * 0x1000 + pc - 0x400000) % 0x1000 = pc by omega]
  rules g f h := by obtain ⟨-, rfl⟩ := ex65_fn g f h; exact ex65_rules
  frames g f h := by
    obtain ⟨-, rfl⟩ := ex65_fn g f h
    exact ex65_frame
  code g f h := by
    obtain ⟨rfl, rfl⟩ := ex65_fn g f h
    obtain ⟨o, h1, h2, -, h4⟩ := ex65_compiled
    refine ⟨0, 0, h4, fun o' ho => ?_⟩
    rw [h1] at ho
    injection ho with ho
    subst ho
    rw [h2]
    exact ⟨by decide, trivial, trivial, show _ ≤ _ by decide, trivial⟩
  apart x y hx hy hne := by
    simp only [ex65, decide_eq_true_eq] at hx hy
    omega
  stack x a hx ha := by
    simp only [ex65, decide_eq_true_eq] at hx
    subst hx
    rw [inBlk_nat (by decide)] at ha
    have : (ex65Image.sym 0).toNat = 0x601000 := rfl
    have h4 : (ex65.Γ 0).bytes = 4 := rfl
    omega
  top := by decide

/-- The store at the beginning of the body. -/
def ex65Store (k a b c d e g n : Int) (τ : Store) : Store := fun x => if x = 0 then k else if x = 1 then a else if x = 2 then b else if x = 3 then c else
  if x = 4 then d else if x = 5 then e else if x = 6 then g else if x = 7 then n else τ x

theorem ex65_enters {k a b c d e g n : Int} {σ σ0 : Store} (hk : σ 0 = k) (h : FnEnters ex65 ex65Fn [a, b, c, d, e, g, n] σ σ0) : ∃ τ, σ0 = ex65Store k a b c d e g n τ := by
  refine ⟨σ0, funext fun x => ?_⟩
  unfold ex65Store
  have h0 := h.glob 0 rfl
  have h1 := h.params 0 1 a rfl rfl
  have h2 := h.params 1 2 b rfl rfl
  have h3 := h.params 2 3 c rfl rfl
  have h4 := h.params 3 4 d rfl rfl
  have h5 := h.params 4 5 e rfl rfl
  have h6 := h.params 5 6 g rfl rfl
  have h7 := h.params 6 7 n rfl rfl
  repeat' split
  all_goals first | rfl | (rename_i hx; subst hx; first | assumption | exact h0.trans hk)

def ex65O (ws : List Int) (k v k' : Int) : Oracle := fun h us τ => if h = 7 ∧ us = ws ∧ τ 0 = k then some (some v, τ.set 0 k') else none

theorem ex65_glob {σ : Store} {k : Int} (x : Nat) (h : ex65.glob x = false) : (σ.set 0 k) x = σ x := by
  refine set_ne ?_
  simpa [ex65] using h

theorem ex65_bin {Γ : Nat → CTy} {op : BinOp} {a b : Expr} {S : Store} {x y r : Int} (h1 : ceval Γ a S = .ok (x, S)) (h2 : ceval Γ b S = .ok (y, S)) (h3 : binop op (a.ty Γ) (b.ty Γ) x y = .ok r) :
    ceval Γ (.bin op a b) S = .ok (r, S) := by
  simp only [ceval, h1]
  show ((ceval Γ b S).bind fun p => (binop op (a.ty Γ) (b.ty Γ) x p.1).bind fun r => Res.ok (r, p.2)) = _
  rw [h2]
  show ((binop op (a.ty Γ) (b.ty Γ) x y).bind fun r => Res.ok (r, S)) = _
  rw [h3]
  rfl

theorem ex65_cons {Γ : Nat → CTy} {a : Actual} {as : List Actual} {S : Store} {w v : Int} {vs : List Int} (h1 : ceval Γ a.e S = .ok (w, S)) (h2 : conv (a.ty Γ) w = v)
    (h3 : cevals Γ as S = .ok (vs, S)) : cevals Γ (a :: as) S = .ok (v :: vs, S) := by
  simp only [cevals, h1]
  show ((cevals Γ as S).bind fun p => Res.ok (conv (a.ty Γ) w :: p.1, p.2)) = _
  rw [h3, h2]
  rfl

theorem ex65_var {Γ : Nat → CTy} {S : Store} {x : Nat} {v : Int} (h : S x = v) : ceval Γ (.var x) S = .ok (v, S) := by rw [← h]; rfl

theorem ex65_args (S : Store) (a e n : Int) (vs : List Int) (h1 : S 1 = a) (h2 : S 2 = 2) (h3 : S 3 = 3) (h4 : S 4 = 4) (h5 : S 5 = e) (h6 : S 6 = 6) (h7 : S 7 = n)
    (ha : binop (.ar .mul) .long .int a 2 = .ok (a * 2)) (hn : binop (.ar .sub) .int .int n 1 = .ok (n - 1))
    (hv : [conv .long e, 2, 3, 4, conv .long (a * 2), 6, conv .int (n - 1)] = vs) :
    argsTo ex65Γ ex65Call.args S = some (vs, S) := by
  unfold argsTo
  have : cevals ex65Γ ex65Call.args S = .ok (vs, S) := by
    rw [← hv]
    exact ex65_cons (ex65_var h5) rfl (ex65_cons (ex65_var h2) (by decide) (ex65_cons (ex65_var h3) (by decide) (ex65_cons (ex65_var h4) (by decide)
      (ex65_cons (ex65_bin (ex65_var h1) rfl ha) rfl (ex65_cons (ex65_var h6) (by decide) (ex65_cons (ex65_bin (ex65_var h7) rfl hn) rfl rfl))))))
  rw [this]

theorem ex65_eval {Γ : Nat → CTy} {e : Expr} {S S' : Store} {v : Int} (h : ceval Γ e S = .ok (v, S')) : evalTo Γ e S = some (v, S') := by
  unfold evalTo
  rw [h]

/-- `count += 1`. -/
theorem ex65_inc (k k' : Int) (S : Store) (h : S 0 = k) (h1 : binop (.ar .add) .int .int k 1 = .ok k') (h2 : conv .int k' = k') :
    evalTo ex65Γ (.opAssign (.ar .add) 0 (.num .int 1)) S = some (k', S.set 0 k') := by
  refine ex65_eval ?_
  show ((binop (.ar .add) .int .int (S 0) 1).bind fun r => Res.ok (conv .int r, S.set 0 (conv .int r))) = _
  rw [h, h1]
  show Res.ok (conv .int k', S.set 0 (conv .int k')) = _
  rw [h2]

theorem ex65_step {O : Oracle} {n : Nat} {x y : State} (h : cstep O ex65.Γ .long ex65Body x = some y) : csteps O ex65.Γ .long ex65Body (n + 1) x = csteps O ex65.Γ .long ex65Body n y := by
  show (cstep O ex65.Γ .long ex65Body x).bind _ = _
  rw [h]
  rfl

theorem ex65_count (O : Oracle) (n : Nat) (k k' : Int) (S : Store) (h : evalTo ex65Γ (.opAssign (.ar .add) 0 (.num .int 1)) S = some (k, S.set 0 k')) :
    csteps O ex65.Γ .long ex65Body (n + 2) (.run [] ex65Body .stop S) = csteps O ex65.Γ .long ex65Body n
      (.run [] .skip (.seq (.seq (.if_ (.cmp .lt (.var 7) (.num .int 1)) (.ret (some (.var 1))))
      (.seq (.call ex65Call) (.ret (some (.bin (.ar .add) (.var 8) (.var 2)))))) .stop) (S.set 0 k')) := by
  show ((evalTo ex65Γ (.opAssign (.ar .add) 0 (.num .int 1)) S).bind fun p => some (State.run [] .skip _ p.2)).bind _ = _
  rw [h]
  rfl


/-- The body from the test on, when it calls. -/
theorem ex65_deep (O : Oracle) (S S' : Store) (a e n v w : Int) (vs : List Int) (h1 : S 1 = a) (h2 : S 2 = 2) (h3 : S 3 = 3) (h4 : S 4 = 4) (h5 : S 5 = e) (h6 : S 6 = 6) (h7 : S 7 = n)
    (ha : binop (.ar .mul) .long .int a 2 = .ok (a * 2)) (hn : binop (.ar .sub) .int .int n 1 = .ok (n - 1)) (hc : cmpVal .lt (conv .int n) (conv .int 1) = 0)
    (hv : [conv .long e, 2, 3, 4, conv .long (a * 2), 6, conv .int (n - 1)] = vs) (hO : O 7 vs S = some (some v, S')) (hv' : conv .long v = v) (h2' : S' 2 = 2)
    (hw : binop (.ar .add) .long .int v 2 = .ok w) (hw' : conv .long w = w) :
    csteps O ex65.Γ .long ex65Body 8 (.run [] .skip (.seq (.seq (.if_ (.cmp .lt (.var 7) (.num .int 1)) (.ret (some (.var 1))))
      (.seq (.call ex65Call) (.ret (some (.bin (.ar .add) (.var 8) (.var 2)))))) .stop) S) = some (.done (some w) (S'.set 8 v)) := by
  have hcond : evalTo ex65Γ (.cmp .lt (.var 7) (.num .int 1)) S = some (0, S) := by
    refine ex65_eval ?_
    show Res.ok (cmpVal .lt (conv .int (S 7)) (conv .int 1), S) = _
    rw [h7, hc]
  have hargs := ex65_args S a e n vs h1 h2 h3 h4 h5 h6 h7 ha hn hv
  have hret : evalTo ex65Γ (.bin (.ar .add) (.var 8) (.var 2)) (S'.set 8 v) = some (w, S'.set 8 v) :=
    ex65_eval (ex65_bin (x := v) (y := 2) (ex65_var rfl) (ex65_var h2') hw)
  refine (ex65_step rfl).trans ((ex65_step rfl).trans ((ex65_step (y := .run [] .skip (.seq (.seq (.call ex65Call) (.ret (some (.bin (.ar .add) (.var 8) (.var 2))))) .stop) S) ?_).trans
    ((ex65_step rfl).trans ((ex65_step rfl).trans ((ex65_step (y := .run [] .skip (.seq (.ret (some (.bin (.ar .add) (.var 8) (.var 2)))) .stop) (S'.set 8 v)) ?_).trans
    ((ex65_step rfl).trans ((ex65_step (y := .done (some w) (S'.set 8 v)) ?_).trans rfl)))))))
  · have hcond : evalTo ex65.Γ (.cmp .lt (.var 7) (.num .int 1)) S = some (0, S) := hcond
    simp only [cstep, hcond]
    rfl
  · have hargs : argsTo ex65.Γ ex65Call.args S = some (vs, S) := hargs
    have hres : ex65Call.result ex65.Γ (some v) S' = some (S'.set 8 v) := by
      show some (S'.set 8 (conv .long v)) = _
      rw [hv']
    have hO : O ex65Call.fn vs S = some (some v, S') := hO
    simp only [cstep, hargs, Option.bind_eq_bind, Option.bind_some, hO, hres]
  · have hret : evalTo ex65.Γ (.bin (.ar .add) (.var 8) (.var 2)) (S'.set 8 v) = some (w, S'.set 8 v) := hret
    simp only [cstep, hret, Option.bind_eq_bind, Option.bind_some, hw']

theorem ex65_gives0 (σ : Store) (h : σ 0 = 12) : Gives ex65 1 7 [200, 2, 3, 4, 100, 6, 0] σ (some 200) (σ.set 0 13) := by
  refine ⟨ex65Fn, noFns, rfl, rfl, fun _ _ _ _ _ h => (by cases h), ex65_glob, fun σ0 h0 => ?_⟩
  obtain ⟨τ, rfl⟩ := ex65_enters h h0
  refine ⟨_, ⟨4 + 2, (ex65_count _ _ _ _ _ (ex65_inc 12 13 _ rfl rfl rfl)).trans rfl⟩, fun x hx => ?_⟩
  have : x = 0 := by simpa [ex65] using hx
  subst this
  rfl

theorem ex65_gives1 (σ : Store) (h : σ 0 = 11) : Gives ex65 2 7 [50, 2, 3, 4, 200, 6, 1] σ (some 202) (σ.set 0 13) := by
  refine ⟨ex65Fn, ex65O [200, 2, 3, 4, 100, 6, 0] 12 200 13, rfl, rfl, fun h ws τ w τ' ho => ?_, ex65_glob, fun σ0 h0 => ?_⟩
  · unfold ex65O at ho
    split at ho
    · rename_i hc
      obtain ⟨rfl, rfl, h3⟩ := hc
      injection ho with ho
      injection ho with ho1 ho2
      subst ho1 ho2
      exact ex65_gives0 τ h3
    · cases ho
  · obtain ⟨τ, rfl⟩ := ex65_enters h h0
    refine ⟨_, ⟨8 + 2, (ex65_count _ _ _ _ _ (ex65_inc 11 12 _ rfl rfl rfl)).trans
      (ex65_deep _ _ (Store.set _ 0 13) 50 200 1 200 202 (vs := [200, 2, 3, 4, 100, 6, 0]) rfl rfl rfl rfl rfl rfl rfl rfl rfl rfl rfl rfl rfl rfl rfl rfl)⟩, fun x hx => ?_⟩
    have : x = 0 := by simpa [ex65] using hx
    subst this
    rfl

theorem ex65_gives (σ : Store) (h : σ 0 = 10) : Gives ex65 3 7 [100, 2, 3, 4, 50, 6, 2] σ (some 204) (σ.set 0 13) := by
  refine ⟨ex65Fn, ex65O [50, 2, 3, 4, 200, 6, 1] 11 202 13, rfl, rfl, fun h ws τ w τ' ho => ?_, ex65_glob, fun σ0 h0 => ?_⟩
  · unfold ex65O at ho
    split at ho
    · rename_i hc
      obtain ⟨rfl, rfl, h3⟩ := hc
      injection ho with ho
      injection ho with ho1 ho2
      subst ho1 ho2
      exact ex65_gives1 τ h3
    · cases ho
  · obtain ⟨τ, rfl⟩ := ex65_enters h h0
    refine ⟨_, ⟨8 + 2, (ex65_count _ _ _ _ _ (ex65_inc 10 11 _ rfl rfl rfl)).trans
      (ex65_deep _ _ (Store.set _ 0 13) 100 50 2 202 204 (vs := [50, 2, 3, 4, 200, 6, 1]) rfl rfl rfl rfl rfl rfl rfl rfl rfl rfl rfl rfl rfl rfl rfl rfl)⟩, fun x hx => ?_⟩
    have : x = 0 := by simpa [ex65] using hx
    subst this
    rfl

/-- The state at the call: arguments in registers and one on the stack, `count` is 10. -/
def ex65State : St where
  r q := if q = .sp then 0x7ffe0000 else if q = .tmp 0 then 100 else if q = .tmp 1 then 2 else if q = .dx then 3 else if q = .cx then 4 else
    if q = .tmp 2 then 50 else if q = .tmp 3 then 6 else 0x123456789abcdef
  m a := if a = 0x601000 then 10 else if a = 0x7ffe0000 then 2 else if a.toNat < 0x700000 ∨ 0x7ffe0000 ≤ a.toNat then 0 else 0xcc
  f := none

def ex65σ : Store := fun x => if x = 0 then 10 else 0

theorem ex65_calling : Calling ex65 ex65Image 0x7ff00000 0x7fff0000 ex65Fn [100, 2, 3, 4, 50, 6, 2] ex65σ (3 * 1024) ex65State where
  aligned := by decide
  room := by decide
  inside := by decide
  sok x := by
    show InRange (ex65Γ x) (if x = 0 then 10 else 0)
    split
    · subst_vars; decide
    · generalize ex65Γ x = t
      cases t <;> decide
  globals x hx := by
    have : x = 0 := by simpa [ex65] using hx
    subst this
    unfold Bytes
    decide +kernel
  args i x v hi hv := by
    have h7 : i < 7 := (List.getElem?_eq_some_iff.1 hi).1
    match i, h7, hi, hv with
    | 0, _, hi, hv | 1, _, hi, hv | 2, _, hi, hv | 3, _, hi, hv | 4, _, hi, hv | 5, _, hi, hv =>
      injection hi with hi
      injection hv with hv
      subst hi hv
      refine ⟨by decide, ?_⟩
      simp only [Passed, argRegister, InReg]
      decide
    | 6, _, hi, hv =>
      injection hi with hi
      injection hv with hv
      subst hi hv
      refine ⟨by decide, ?_⟩
      simp only [Passed, argRegister, Bytes]
      decide +kernel

/-- The call returns 204, and `count` is 13. -/
example : ∃ k s', gsteps ex65Image k ((9, 0), ex65State) = some ((9, 1), s') ∧ InReg .long 204 (s'.r .ax) ∧ s'.r .sp = 0x7ffe0000 ∧ s'.r .bp = 0x123456789abcdef ∧
    Bytes s'.m 0x601000 4 13 := by
  obtain ⟨k, s', h1, h2⟩ := C65_call ex65_linked 3 7 _ ex65σ (ex65σ.set 0 13) (some 204) ex65Fn rfl (ex65_gives ex65σ rfl) 9 0 ex65State rfl (by decide) ex65_calling
  exact ⟨k, s', h1, (h2.result 204 rfl).2, h2.sp, h2.bp, h2.globals 0 rfl⟩

end Slimcc.Props
