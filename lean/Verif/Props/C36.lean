import Verif.Lemmas.LocalVars
import Verif.Lemmas.Frame
/-!
C36: local variables that are live together do not overlap on the stack.

`FrameOk f` says that the variables are as the parser makes them (sizes are not negative, alignments are
powers of two) and that the frame fits into an `int`, even if every variable needed all its padding.
-/
set_option autoImplicit false
namespace Slimcc.Props
open Slimcc.Spec Slimcc.Frame Slimcc.FrameL

def FrameOk (f : Fn) : Prop :=
  (∀ v ∈ allVars f.scopes, VarWf v) ∧ 192 + budget (allVars f.scopes) + 8 ≤ 2147483647

theorem frame_of (reuse : Bool) (f : Fn) (ps : Scope (Var × Int)) (d z : Int) (h : assign reuse f.scopes (reserved f) = .ok (ps, d))
    (h8 : Layout.alignTo d 8 = .ok z) : frame reuse f = .ok (ps, z) := by
  unfold frame
  rw [h]
  show (Layout.alignTo d 8 >>= _) = _
  rw [h8]; rfl

theorem frame_run (reuse : Bool) (f : Fn) (h : FrameOk f) :
    ∃ ps, ∃ d sz : Nat, frame reuse f = .ok (ps, (sz : Int)) ∧ PlacedOk reuse f.scopes ps (reserved f) d ∧ d ≤ sz ∧ 8 ∣ sz ∧
      reserved f ≤ d := by
  obtain ⟨r, hr⟩ : ∃ r : Nat, reserved f = r ∧ r ≤ 192 := by
    unfold reserved fixed rtnPtr vlaBase saveArea
    cases f.variadic <;> cases f.deallocVla <;> cases f.rtnByStk <;> refine ⟨Int.toNat _, (Int.toNat_of_nonneg ?_).symm, ?_⟩ <;> decide
  obtain ⟨ps, d, e, h1, h2, h3⟩ := assign_ok reuse f.scopes r h.1 (by have := h.2; omega)
  have hb := h.2
  refine ⟨ps, d, Layout.up d 8, ?_, by rw [hr.1]; exact h3, Layout.up_ge _ _ (by omega), Layout.up_dvd _ _, by rw [hr.1]; omega⟩
  exact frame_of _ _ _ _ _ (by rw [hr.1]; exact e) (Layout.alignTo_nat d 8 (by omega) (by omega))

/-- Every function gets a frame: one place for each variable. -/
theorem C36_every_variable (reuse : Bool) (f : Fn) (h : FrameOk f) :
    ∃ ps sz, frame reuse f = .ok (ps, sz) ∧ scopeVars Prod.fst ps = f.scopes := by
  obtain ⟨ps, d, sz, e, h1, _⟩ := frame_run reuse f h
  exact ⟨ps, sz, e, h1.shape⟩

/-- The variables of a scope and of the scopes around it are at disjoint places. -/
theorem C36_disjoint (reuse : Bool) (f : Fn) (h : FrameOk f) (ps : Scope (Var × Int)) (sz : Int) (hf : frame reuse f = .ok (ps, sz))
    (l : List (Var × Int)) (hl : Path ps l) : l.Pairwise Apart := by
  obtain ⟨ps', d, sz', e, h1, _⟩ := frame_run reuse f h
  rw [hf] at e; cases e
  exact h1.paths l hl

/-- Without reuse all variables of the function are at disjoint places; functions that call `setjmp`
and the like are compiled that way. -/
theorem C36_disjoint_all (f : Fn) (h : FrameOk f) (ps : Scope (Var × Int)) (sz : Int) (hf : frame false f = .ok (ps, sz)) :
    (allVars ps).Pairwise Apart := by
  obtain ⟨ps', d, sz', e, h1, _⟩ := frame_run false f h
  rw [hf] at e; cases e
  exact h1.all rfl

/-- Every variable lies between the reserved space at the top and the bottom of the frame, where the
temporaries start. -/
theorem C36_inside (reuse : Bool) (f : Fn) (h : FrameOk f) (ps : Scope (Var × Int)) (sz : Int) (hf : frame reuse f = .ok (ps, sz)) :
    ∀ p ∈ allVars ps, p.1.byStack = false → -sz ≤ p.2 ∧ p.2 + p.1.size ≤ -reserved f := by
  obtain ⟨ps', d, sz', e, h1, h2, _⟩ := frame_run reuse f h
  rw [hf] at e; cases e
  intro p hp hb
  have := h1.between p hp hb
  omega

/-- What the prologue stores below the frame pointer (the register save area, the saved stack pointer, the
address of the result) lies in the frame, at disjoint places, and overlaps no variable. -/
theorem C36_fixed (reuse : Bool) (f : Fn) (h : FrameOk f) (ps : Scope (Var × Int)) (sz : Int) (hf : frame reuse f = .ok (ps, sz)) :
    (fixed f).slots.length = f.variadic.toNat + f.deallocVla.toNat + f.rtnByStk.toNat ∧
    (fixed f).slots.Pairwise (fun a b => a.1 + a.2 ≤ b.1 ∨ b.1 + b.2 ≤ a.1) ∧
    ∀ s ∈ (fixed f).slots, -sz ≤ s.1 ∧ s.1 + s.2 ≤ 0 ∧
      ∀ p ∈ allVars ps, p.1.byStack = false → s.1 + s.2 ≤ p.2 ∨ p.2 + p.1.size ≤ s.1 := by
  have hin := C36_inside reuse f h ps sz hf
  obtain ⟨ps', d, sz', e, h1, h2, _, hd⟩ := frame_run reuse f h
  rw [hf] at e; cases e
  have key : (fixed f).slots.length = f.variadic.toNat + f.deallocVla.toNat + f.rtnByStk.toNat ∧
      (fixed f).slots.Pairwise (fun a b => a.1 + a.2 ≤ b.1 ∨ b.1 + b.2 ≤ a.1) ∧ ∀ s ∈ (fixed f).slots, -reserved f ≤ s.1 ∧ s.1 + s.2 ≤ 0 := by
    unfold reserved fixed rtnPtr vlaBase saveArea
    cases f.variadic <;> cases f.deallocVla <;> cases f.rtnByStk <;> decide
  refine ⟨key.1, key.2.1, fun s hs => ?_⟩
  obtain ⟨k1, k2⟩ := key.2.2 s hs
  refine ⟨by omega, k2, fun p hp hb => ?_⟩
  have := hin p hp hb
  exact Or.inr (by omega)

mutual
theorem allVars_map {α β : Type} (g : α → β) : ∀ s : Scope α, allVars (scopeVars g s) = (allVars s).map g
  | .mk ls cs => by simp only [scopeVars, allVars, List.map_append, allSubs_map g cs]
theorem allSubs_map {α β : Type} (g : α → β) : ∀ s : Scopes α, allSubs (subsVars g s) = (allSubs s).map g
  | .nil => by simp only [subsVars, allSubs, List.map_nil]
  | .cons s r => by simp only [subsVars, allSubs, List.map_append, allVars_map g s, allSubs_map g r]
end

/-- Every variable is aligned as its type requires, arrays of 16 bytes and more to 16 bytes at least, if
the frame pointer is aligned as the prologue arranges (codegen.c:4056-4071: to 16 bytes, or by an `and`
to the larger alignment). The object declared for a VLA is a pointer. -/
theorem C36_aligned (reuse : Bool) (f : Fn) (h : FrameOk f) (ps : Scope (Var × Int)) (sz : Int) (hf : frame reuse f = .ok (ps, sz))
    (bp : Int) (hbp : lvarAlign f.scopes 16 ∣ bp) :
    ∀ p ∈ allVars ps, p.1.byStack = false →
      (p.1.isVla = false → p.1.align ∣ bp + p.2) ∧ (p.1.isVla = true → p.1.isArray = false → 8 ∣ bp + p.2) ∧
      (p.1.isArray = true → 16 ≤ p.1.size → 16 ∣ bp + p.2) := by
  obtain ⟨ps', d, sz', e, h1, _⟩ := frame_run reuse f h
  rw [hf] at e; cases e
  intro p hp hb
  obtain ⟨b1, b2, b3⟩ := h1.between p hp hb
  have hmem : p.1 ∈ allVars f.scopes := by
    rw [← h1.shape, allVars_map]; exact List.mem_map_of_mem hp
  have hwf := h.1 _ hmem
  have hge := lvarAlign_ge f.scopes 16
  have hpow := lvarAlign_pow f.scopes 16 h.1 ⟨4, rfl⟩
  have hL := hge.2 _ hmem hb
  have d1 : p.1.align ∣ bp := Int.dvd_trans (IsPow.dvd hwf.align hpow hL) hbp
  have d16 : (16 : Int) ∣ bp := Int.dvd_trans (IsPow.dvd ⟨4, rfl⟩ hpow hge.1) hbp
  have hal : IsPow p.1.align := hwf.align
  refine ⟨fun hv => ?_, fun hv ha => ?_, fun ha h16 => ?_⟩
  · refine Int.dvd_add d1 (Int.dvd_trans ?_ b3)
    unfold varAlign
    split
    · exact IsPow.dvd hal (IsPow.max ⟨4, rfl⟩ hal) (by omega)
    · rw [hv, if_neg (by simp)]; exact Int.dvd_refl _
  · unfold varAlign at b3
    rw [ha, hv, if_neg (by simp), if_pos rfl] at b3
    omega
  · refine Int.dvd_add d16 (Int.dvd_trans ?_ b3)
    unfold varAlign
    rw [if_pos ⟨ha, h16⟩]
    exact IsPow.dvd ⟨4, rfl⟩ (IsPow.max ⟨4, rfl⟩ hal) (by omega)

/-- The frame is what the theorems on compiled expressions and statements (C30 to C34, C50) assume: with
the variables of a path at their offsets and the temporaries below `sz`, nothing overlaps. -/
theorem C36_env (reuse : Bool) (f : Fn) (h : FrameOk f) (ps : Scope (Var × Int)) (sz : Nat) (hf : frame reuse f = .ok (ps, (sz : Int)))
    (l : List (Var × Int)) (hl : Path ps l) (E : Env) (hstk : E.stk = sz)
    (hdom : ∀ x, E.dom x → ∃ p, l[x]? = some p ∧ p.1.byStack = false ∧ E.loc x = .frame p.2 ∧ (E.size x : Int) = p.1.size)
    (hroom : (E.stk + 8 * E.K : Int) ≤ 2 ^ 62) : E.Ok := by
  have hd := C36_disjoint reuse f h ps sz hf l hl
  have hin := C36_inside reuse f h ps sz hf
  have hres : 0 ≤ reserved f := by
    unfold reserved fixed rtnPtr vlaBase saveArea
    cases f.variadic <;> cases f.deallocVla <;> cases f.rtnByStk <;> decide
  rw [List.pairwise_iff_getElem] at hd
  refine frame_ok E (fun x => match l[x]? with | some p => p.2 | none => 0) ?_ ?_ ?_ hroom
  · intro x hx
    obtain ⟨p, e, _, e2, _⟩ := hdom x hx
    rw [e2, e]
  · intro x hx
    obtain ⟨p, e, e1, _, e3⟩ := hdom x hx
    have hm : p ∈ allVars ps := path_mem hl p (List.mem_of_getElem? e)
    have := hin p hm e1
    rw [e, e3, hstk]
    dsimp only
    omega
  · intro x y hx hy hxy
    obtain ⟨p, e, e1, _, e3⟩ := hdom x hx
    obtain ⟨q, k, k1, _, k3⟩ := hdom y hy
    rw [e, e3, k, k3]
    dsimp only
    obtain ⟨i1, i2⟩ := List.getElem?_eq_some_iff.1 e
    obtain ⟨j1, j2⟩ := List.getElem?_eq_some_iff.1 k
    have ap : ∀ a b : Var × Int, a.1.byStack = false → b.1.byStack = false → Apart a b → a.2 + a.1.size ≤ b.2 ∨ b.2 + b.1.size ≤ a.2 := by
      intro a b ha hb hab
      unfold Apart at hab
      rw [ha, hb] at hab
      simpa using hab
    rcases Nat.lt_or_gt_of_ne hxy with hlt | hlt
    · have := hd x y i1 j1 hlt
      rw [i2, j2] at this
      exact ap p q e1 k1 this
    · have := hd y x j1 i1 hlt
      rw [i2, j2] at this
      exact (ap q p k1 e1 this).symm

/-- A function with a parameter on the stack, two variables and two sibling blocks, one of which has a
nested block. With reuse the siblings share their space. -/
def exFrameVar (size align : Int) : Var := ⟨size, align, false, false, false, 0⟩
def exFrameFn : Fn where
  variadic := false
  deallocVla := false
  rtnByStk := true
  scopes := .mk [exFrameVar 4 4, { exFrameVar 8 8 with byStack := true }, { exFrameVar 20 1 with isArray := true }]
    (.cons (.mk [exFrameVar 1 1] (.cons (.mk [exFrameVar 8 8] .nil) .nil))
      (.cons (.mk [exFrameVar 2 2, exFrameVar 64 64] .nil) .nil))

example : FrameOk exFrameFn := by
  refine ⟨?_, by decide +kernel⟩
  intro v hv
  simp only [exFrameFn, exFrameVar, allVars, allSubs, List.append_nil, List.cons_append, List.nil_append, List.mem_cons, List.not_mem_nil, or_false] at hv
  rcases hv with rfl | rfl | rfl | rfl | rfl | rfl | rfl
  · exact ⟨by decide, ⟨2, rfl⟩, by decide⟩
  · exact ⟨by decide, ⟨3, rfl⟩, by decide⟩
  · exact ⟨by decide, ⟨0, rfl⟩, by decide⟩
  · exact ⟨by decide, ⟨0, rfl⟩, by decide⟩
  · exact ⟨by decide, ⟨3, rfl⟩, by decide⟩
  · exact ⟨by decide, ⟨1, rfl⟩, by decide⟩
  · exact ⟨by decide, ⟨6, rfl⟩, by decide⟩
example : (match frame true exFrameFn with | .ok (ps, sz) => some ((allVars ps).map Prod.snd, sz) | _ => none) =
    some ([-12, 16, -32, -33, -48, -34, -128], 128) := by decide +kernel
example : (match frame false exFrameFn with | .ok (ps, sz) => some ((allVars ps).map Prod.snd, sz) | _ => none) =
    some ([-12, 16, -32, -33, -48, -50, -128], 128) := by decide +kernel

/-- Departure: a variable of 4 GiB is counted as none, so the next one gets a place inside it; the
frame size is no warning. -/
theorem C36_huge_variable_overlaps :
    (match frame true ⟨false, false, false, .mk [exFrameVar 4294967296 1, exFrameVar 4 4] .nil⟩ with
      | .ok (ps, sz) => some ((allVars ps).map Prod.snd, sz) | _ => none) = some ([0, -4], 8) := by decide +kernel

end Slimcc.Props
