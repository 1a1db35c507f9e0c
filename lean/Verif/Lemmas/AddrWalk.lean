import Verif.Lemmas.AddrTree
import Verif.Lemmas.Build
/-! Operands in memory, and the constants that are added up on the way to an object. -/
set_option autoImplicit false
namespace Slimcc.AGen
open Slimcc Slimcc.Spec Slimcc.Ty Slimcc.X86 Slimcc.Gen Slimcc.Addr

section
variable {C : Cfg} {P : ODecls}

theorem Alike.refl (p : PE) : Alike P p p := ⟨fun _ => rfl, id, id, rfl, fun _ _ _ h => h⟩
theorem Alike.trans {p q r : PE} (h : Alike P p q) (h' : Alike P q r) : Alike P p r :=
  ⟨fun M => (h'.eval M).trans (h.eval M), h'.wf ∘ h.wf, h'.conv ∘ h.conv, h'.exprs.trans h.exprs, fun M E σ x => h'.fine M E σ (h.fine M E σ x)⟩
theorem Alike.cast (t : OTy) (p : PE) : Alike P (.cast t p) p := ⟨fun _ => rfl, id, id, rfl, fun _ _ _ h => h⟩

theorem skip_place (hC : C.Ok) (l : LV) (t : OTy) (ht : l.ty P = some t) : skipCastA P (buildL C P l) = buildL C P l := by
  rcases buildL_place C P hC l t ht with ⟨x, h⟩ | ⟨p, h, _⟩ | ⟨o, l', h⟩ <;> rw [h] <;> rfl

/-- Where `skip_gp_cast` ends. -/
inductive Skipped (C : Cfg) (P : ODecls) : PE → Prop where
  | addr (l : LV) : Skipped C P (.addr l)
  | decay (l : LV) : Skipped C P (.decay l)
  | value (l : LV) : Skipped C P (.value l)
  | cast (t : OTy) (l : LV) : castA C P (buildL C P l) (.ptr t) = .cast (.ptr t) (buildL C P l) → Skipped C P (.cast t (.decay l))
  | add (p : PE) (i : IE) : Skipped C P (.add p i)
  | radd (i : IE) (p : PE) : Skipped C P (.radd i p)
  | sub (p : PE) (i : IE) : Skipped C P (.sub p i)

theorem skipP (hC : C.Ok) : ∀ (p : PE) (t : OTy), p.pointee P = some t → p.NoConv →
    ∃ q u, skipCastA P (buildP C P p) = buildP C P q ∧ q.pointee P = some u ∧ Alike P p q ∧ Skipped C P q
  | .addr l, t, h, _ => ⟨_, t, rfl, h, .refl _, .addr l⟩
  | .decay l, t, h, _ => by
    obtain ⟨n, hl⟩ := pointee_decay h
    exact ⟨.decay l, t, skip_place hC l _ hl, h, .refl _, .decay l⟩
  | .value l, t, h, _ => ⟨.value l, t, skip_place hC l _ (pointee_value h), h, .refl _, .value l⟩
  | .cast u p, t, h, hn => by
    obtain ⟨_, v, hv⟩ := pointee_cast h
    obtain ⟨q, u', h1, h2, h3, h4⟩ := skipP hC p v hv hn
    show ∃ q u', skipCastA P (castA C P (buildP C P p) (.ptr u)) = _ ∧ _
    rcases castA_ptr_form C P (buildP C P p) u with e | e
    · rw [e]
      exact ⟨q, u', h1, h2, (Alike.cast u p).trans h3, h4⟩
    · rcases buildP_arr hC p v hv hn with ht | ⟨l, n, rfl, hl⟩
      · rw [e, skipCastA, if_pos (by rw [ht]; exact ⟨rfl, by simp, rfl, rfl⟩)]
        exact ⟨q, u', h1, h2, (Alike.cast u p).trans h3, h4⟩
      · have ht := buildL_ty C P hC l _ hl
        refine ⟨.cast u (.decay l), t, ?_, h, .refl _, .cast u l e⟩
        rw [e, skipCastA, if_neg]
        · exact e.symm
        · rintro ⟨_, _, _, h⟩
          rw [show (buildP C P (.decay l)).ty = .arr v n from ht] at h
          cases h
  | .ofInt _ _, _, _, hn => hn.elim
  | .add p i, t, h, _ => ⟨_, t, rfl, h, .refl _, .add p i⟩
  | .radd i p, t, h, _ => ⟨_, t, rfl, h, .refl _, .radd i p⟩
  | .sub p i, t, h, _ => ⟨_, t, rfl, h, .refl _, .sub p i⟩

variable {obj : Nat → Int → MemOp}

theorem evalMemop_some {sub : Bool} {n : ANode} {m : MemOp} (h : evalMemop C P obj sub n = some m) :
    ∃ x o, m = obj x o ∧ evalVar C P true n = some (x, o) := by
  unfold evalMemop at h
  rw [Option.map_eq_some_iff] at h
  obtain ⟨r, h1, h2⟩ := h
  refine ⟨r.1, r.2, h2.symm, ?_⟩
  cases sub with
  | true => exact h1
  | false => exact evalVar_sub C P h1

theorem evalMemop_none {sub : Bool} {n : ANode} (h : n.isPart = false) (hv : ∀ t x, n ≠ .var t x) : evalMemop C P obj sub n = none := by
  unfold evalMemop evalVar
  split
  · exact absurd rfl (hv _ _)
  · rw [if_neg (by simp [h])]; rfl

/-- codegen.c:248-259: an address of an object, by its operand. -/
theorem memopPtr_P (hC : C.Ok) (p : PE) (t : OTy) (h : p.pointee P = some t) (hn : p.NoConv) (m : MemOp)
    (hm : memopPtr C P obj (buildP C P p) = some m) :
    ∃ l u x o, m = obj x o ∧ evalVar C P true (buildL C P l) = some (x, o) ∧ l.ty P = some u ∧ Alike P p (.addr l) := by
  obtain ⟨q, u, e, hq, ha, hs⟩ := skipP hC p t h hn
  unfold memopPtr at hm
  rw [e] at hm
  cases hs with
  | addr l =>
    obtain ⟨x, o, h1, h2⟩ := evalMemop_some (C := C) (P := P) (n := buildL C P l) hm
    exact ⟨l, u, x, o, h1, h2, by simpa [PE.pointee] using hq, ha⟩
  | decay l =>
    obtain ⟨n, hl⟩ := pointee_decay hq
    have hty := buildL_ty C P hC l _ hl
    have hm' : evalMemop C P obj true (buildL C P l) = some m := by
      rw [show buildP C P (.decay l) = buildL C P l from rfl] at hm
      rcases buildL_place C P hC l _ hl with ⟨x, e⟩ | ⟨p, e, _⟩ | ⟨o, l', e⟩ <;> rw [e] at hm ⊢ <;> exact hm
    obtain ⟨x, o, h1, h2⟩ := evalMemop_some hm'
    exact ⟨l, _, x, o, h1, h2, hl, ha.trans ⟨fun _ => rfl, id, id, rfl, fun _ _ _ h => h⟩⟩
  | value l =>
    have hl := pointee_value hq
    rw [show buildP C P (.value l) = buildL C P l from rfl] at hm
    rcases buildL_place C P hC l _ hl with ⟨x, e⟩ | ⟨p, e, _⟩ | ⟨o, l', e⟩ <;> rw [e] at hm <;> cases hm
  | cast t l hc =>
    obtain ⟨_, v, hv⟩ := pointee_cast hq
    obtain ⟨n, hl⟩ := pointee_decay hv
    have hty := buildL_ty C P hC l _ hl
    rw [show buildP C P (.cast t (.decay l)) = castA C P (buildL C P l) (.ptr t) from rfl, hc] at hm
    dsimp only at hm
    rw [hty] at hm
    obtain ⟨x, o, h1, h2⟩ := evalMemop_some hm
    exact ⟨l, _, x, o, h1, h2, hl, ha.trans ⟨fun _ => rfl, id, id, rfl, fun _ _ _ h => h⟩⟩
  | add p i => cases hm
  | radd i p => cases hm
  | sub p i => cases hm

variable {loc : Nat → MemOp}

/-- codegen.c:261-267: a pointer object, by its operand. -/
theorem memopA_P (hC : C.Ok) (p : PE) (t : OTy) (h : p.pointee P = some t) (hn : p.NoConv) (hp : (buildP C P p).ty = .ptr t) (m : MemOp)
    (hm : memopA C P loc obj (buildP C P p) = some m) :
    ∃ l u x o, m = obj x o ∧ evalVar C P true (buildL C P l) = some (x, o) ∧ l.ty P = some (.ptr u) ∧ Alike P p (.value l) := by
  obtain ⟨q, u, e, hq, ha, hs⟩ := skipP hC p t h hn
  unfold memopA at hm
  rw [e] at hm
  cases hs with
  | addr l => cases hm
  | value l =>
    have hl := pointee_value hq
    have hm' : evalMemop C P obj false (buildL C P l) = some m := by
      rw [show buildP C P (.value l) = buildL C P l from rfl] at hm
      rcases buildL_place C P hC l _ hl with ⟨x, e⟩ | ⟨p, e, _⟩ | ⟨o, l', e⟩ <;> rw [e] at hm ⊢ <;> exact hm
    obtain ⟨x, o, h1, h2⟩ := evalMemop_some hm'
    exact ⟨l, _, x, o, h1, h2, hl, ha⟩
  | decay l =>
    exfalso
    -- the type is kept
    have key : ∀ n : ANode, gpTy n.ty = true → gpTy (skipCastA P n).ty = true := by
      intro n
      induction n with
      | cast t a ih =>
        intro hg
        rw [skipCastA]
        split
        · rename_i hc; exact ih hc.2.2.2
        · exact hg
      | _ => intro hg; exact hg
    obtain ⟨n, hl⟩ := pointee_decay hq
    have := key (buildP C P p) (by rw [hp]; rfl)
    rw [e, show (buildP C P (.decay l)).ty = _ from buildL_ty C P hC l _ hl] at this
    cases this
  | cast t l hc =>
    rw [show buildP C P (.cast t (.decay l)) = castA C P (buildL C P l) (.ptr t) from rfl, hc] at hm
    cases hm
  | add p i => cases hm
  | radd i p => cases hm
  | sub p i => cases hm

theorem boolA_L (hC : C.Ok) (stk : Nat) (recE : ANode → G) (l : LV) (t : OTy) (h : l.ty P = some t) :
    boolA C loc stk recE (buildL C P l) = if t = .int .bool then some (recE (buildL C P l)) else none := by
  have ht := buildL_ty C P hC l t h
  rcases buildL_place C P hC l t h with ⟨x, e⟩ | ⟨p, e, _⟩ | ⟨o, l', e⟩ <;> rw [e] <;> rfl

/-- No pointer is taken for a truth value. -/
theorem boolA_P (hC : C.Ok) (stk : Nat) (recE : ANode → G) : ∀ (p : PE) (t : OTy), p.pointee P = some t → p.NoConv →
    boolA C loc stk recE (buildP C P p) = none
  | .addr l, t, _, _ => rfl
  | .decay l, t, h, _ => by
    obtain ⟨n, hl⟩ := pointee_decay h
    show boolA C loc stk recE (buildL C P l) = none
    rw [boolA_L hC stk recE l _ hl, if_neg (by simp)]
  | .value l, t, h, _ => by
    show boolA C loc stk recE (buildL C P l) = none
    rw [boolA_L hC stk recE l _ (pointee_value h), if_neg (by simp)]
  | .cast u p, t, h, hn => by
    obtain ⟨_, v, hv⟩ := pointee_cast h
    have i := boolA_P hC stk recE p v hv hn
    show boolA C loc stk recE (castA C P (buildP C P p) (.ptr u)) = none
    rcases castA_ptr_form C P (buildP C P p) u with e | e <;> rw [e]
    · exact i
    · exact i
  | .ofInt _ _, _, _, hn => hn.elim
  | .add p i, t, _, _ => rfl
  | .radd i p, t, _, _ => rfl
  | .sub p i, t, _, _ => rfl

theorem fine_near {M : Machine} {E : Env} {σ : Store} {l : LV} (h : l.Fine P M E σ) : l.Near P M σ := by
  cases l with
  | var x => exact trivial
  | deref p => exact h.1
  | member l i => exact h.1

/-- The address of the operand of a designator. -/
theorem place_at (hC : C.Ok) {M : Machine} {E : Env} (l : LV) (t : OTy) (ht : l.ty P = some t) (hw : l.Wf) (hn : l.NoConv) {x : Nat} {o : Int}
    (hx : evalVar C P true (buildL C P l) = some (x, o)) {σ σ' : Store} {a : Word} (hσ : StoreOk P.ints σ) (hf : l.Fine P M E σ)
    (he : l.eval P M σ = .ok (a, σ')) : a = M.addr x + BitVec.ofInt 64 o ∧ σ' = σ :=
  ((lc C P hC M l t ht hw (noSumL l hn)).1.place x o hx).2 σ σ' a hσ (fine_near hf) he

theorem height_pos (n : ANode) : 1 ≤ height n := by cases n <;> unfold height <;> omega

/-- What `walk` and `memberWalk` keep. -/
structure WalkP (C : Cfg) (P : ODecls) (p : PE) (r : ANode × Word) (q : PE) (u : OTy) : Prop where
  tree : r.1 = buildP C P q
  ty : q.pointee P = some u
  wf : p.Wf → q.Wf
  conv : p.NoConv → q.NoConv
  exprs : ∀ e ∈ q.exprs, e ∈ p.exprs
  height : height (buildP C P q) ≤ height (buildP C P p)
  eval : ∀ M E σ σ' a, StoreOk P.ints σ → p.Wf → p.Fine P M E σ → p.eval P M σ = .ok (a, σ') →
    ∃ a', q.eval P M σ = .ok (a', σ') ∧ a = a' + r.2 ∧ q.Fine P M E σ ∧ ∀ z, p.Close P M σ z → Short z a → Short z a'

theorem WalkP.stay (p : PE) (u : OTy) (h : p.pointee P = some u) : WalkP C P p (buildP C P p, 0) p u :=
  ⟨rfl, h, id, id, fun _ h => h, Nat.le_refl _, fun M E σ σ' a _ _ hf he => ⟨a, he, by simp, hf, fun _ _ h => h⟩⟩

theorem height_castA_ptr (n : ANode) (t : OTy) : height n ≤ height (castA C P n (.ptr t)) := by
  rcases castA_ptr_form C P n t with e | e <;> rw [e]
  · exact Nat.le_refl _
  · exact Nat.le_succ _

theorem height_ptrOf (n : ANode) : height n ≤ height (ptrOf C P n) := by
  unfold ptrOf; split
  · exact height_castA_ptr _ _
  · exact Nat.le_refl _

theorem walk_castA (n : ANode) (t : OTy) : walk C P (castA C P n (.ptr t)) = walk C P n := by
  rcases castA_ptr_form C P n t with e | e <;> rw [e]
  rfl

theorem walk_ptrOf (n : ANode) : walk C P (ptrOf C P n) = walk C P n := by
  unfold ptrOf; split
  · exact walk_castA _ _
  · rfl

theorem idx_const (hC : C.Ok) (i : IE) (u : CTy) (hi : i.ty P = some u) (hw : i.Wf) (hn : i.NoConv) (size : Nat) (v : Word)
    (h : constOf C P (scale C P (buildI C P i) size) = some v) {M : Machine} {σ σ' : Store} {k : Int} (hσ : StoreOk P.ints σ)
    (he : i.eval P M σ = .ok (k, σ')) : v = BitVec.ofInt 64 (k * size) ∧ σ' = σ := by
  unfold constOf at h
  rw [Option.map_eq_some_iff] at h
  obtain ⟨r, h1, h2⟩ := h
  rw [← h2]
  exact ((ic C P hC M i u hi hw (noSumI i hn)).idx size .con {} r.2 r.1 h1).2 σ σ' k hσ he

theorem stride_some (t : OTy) (v : Int) : stride P (some t) v = BitVec.ofInt 64 (v * P.sizeof t) := rfl

mutual
theorem sokL (hs : HostShift) (M : Machine) : ∀ (l : LV) (σ σ' : Store) (a : Word), l.Wf → StoreOk P.ints σ → l.eval P M σ = .ok (a, σ') → StoreOk P.ints σ'
  | .var x, σ, σ', a, _, h, e => by injection e with e; injection e with _ e; rw [← e]; exact h
  | .deref p, σ, σ', a, hw, h, e => sokP hs M p σ σ' a hw h e
  | .member l i, σ, σ', a, hw, h, e => by
    rw [LV.eval] at e
    obtain ⟨⟨b, σ1⟩, e1, e2⟩ := res_bind e
    dsimp only at e2
    have := sokL hs M l σ σ1 b hw h e1
    split at e2
    · split at e2
      · injection e2 with e2; injection e2 with _ e2; rw [← e2]; exact this
      · cases e2
    · cases e2
theorem sokP (hs : HostShift) (M : Machine) : ∀ (p : PE) (σ σ' : Store) (a : Word), p.Wf → StoreOk P.ints σ → p.eval P M σ = .ok (a, σ') → StoreOk P.ints σ'
  | .addr l, σ, σ', a, hw, h, e => sokL hs M l σ σ' a hw h e
  | .decay l, σ, σ', a, hw, h, e => sokL hs M l σ σ' a hw h e
  | .value l, σ, σ', a, hw, h, e => by
    rw [PE.eval] at e
    obtain ⟨⟨b, σ1⟩, e1, e2⟩ := res_bind e
    injection e2 with e2; injection e2 with _ e2
    rw [← e2]; exact sokL hs M l σ σ1 b hw h e1
  | .cast _ p, σ, σ', a, hw, h, e => sokP hs M p σ σ' a hw h e
  | .ofInt _ i, σ, σ', a, hw, h, e => by
    rw [PE.eval] at e
    obtain ⟨⟨b, σ1⟩, e1, e2⟩ := res_bind e
    injection e2 with e2; injection e2 with _ e2
    rw [← e2]; exact sokI hs M i σ σ1 b hw h e1
  | .add p i, σ, σ', a, hw, h, e => by
    rw [PE.eval] at e
    obtain ⟨⟨b, σ1⟩, e1, e2⟩ := res_bind e
    obtain ⟨⟨v, σ2⟩, e2, e3⟩ := res_bind e2
    injection e3 with e3; injection e3 with _ e3
    rw [← e3]; exact sokI hs M i σ1 σ2 v hw.2 (sokP hs M p σ σ1 b hw.1 h e1) e2
  | .radd i p, σ, σ', a, hw, h, e => by
    rw [PE.eval] at e
    obtain ⟨⟨b, σ1⟩, e1, e2⟩ := res_bind e
    obtain ⟨⟨v, σ2⟩, e2, e3⟩ := res_bind e2
    injection e3 with e3; injection e3 with _ e3
    rw [← e3]; exact sokP hs M p σ1 σ2 v hw.2 (sokI hs M i σ σ1 b hw.1 h e1) e2
  | .sub p i, σ, σ', a, hw, h, e => by
    rw [PE.eval] at e
    obtain ⟨⟨b, σ1⟩, e1, e2⟩ := res_bind e
    obtain ⟨⟨v, σ2⟩, e2, e3⟩ := res_bind e2
    injection e3 with e3; injection e3 with _ e3
    rw [← e3]; exact sokI hs M i σ1 σ2 v hw.2 (sokP hs M p σ σ1 b hw.1 h e1) e2
theorem sokI (hs : HostShift) (M : Machine) : ∀ (i : IE) (σ σ' : Store) (a : Int), i.Wf → StoreOk P.ints σ → i.eval P M σ = .ok (a, σ') → StoreOk P.ints σ'
  | .expr e', σ, σ', a, hw, h, e =>
    ((build_impl hs true (Γ := P.ints) (acc := 0) (nt := ty_int) (by decide) e' hw).range (by decide) σ h e).2
  | .obj l, σ, σ', a, hw, h, e => by
    rw [IE.eval] at e
    obtain ⟨⟨b, σ1⟩, e1, e2⟩ := res_bind e
    dsimp only at e2
    split at e2
    · injection e2 with e2; injection e2 with _ e2
      rw [← e2]; exact sokL hs M l σ σ1 b hw h e1
    · cases e2
  | .ofPtr _ p, σ, σ', a, hw, h, e => by
    rw [IE.eval] at e
    obtain ⟨⟨b, σ1⟩, e1, e2⟩ := res_bind e
    injection e2 with e2; injection e2 with _ e2
    rw [← e2]; exact sokP hs M p σ σ1 b hw h e1
  | .plus x y, σ, σ', a, hw, h, e => by
    rw [IE.eval] at e
    obtain ⟨⟨b, σ1⟩, e1, e2⟩ := res_bind e
    obtain ⟨⟨v, σ2⟩, e2, e3⟩ := res_bind e2
    injection e3 with e3; injection e3 with _ e3
    rw [← e3]; exact sokI hs M y σ1 σ2 v hw.2 (sokI hs M x σ σ1 b hw.1 h e1) e2
end

theorem walkP (hC : C.Ok) : ∀ (p : PE) (t : OTy), p.pointee P = some t → p.NoConv →
    ∃ q u, WalkP C P p (walk C P (buildP C P p)) q u
  | .addr l, t, h, _ => ⟨.addr l, t, .stay _ t h⟩
  | .decay (.var x), t, h, _ => ⟨.decay (.var x), t, .stay _ t h⟩
  | .decay (.member l i), t, h, _ => by
    obtain ⟨n, hl⟩ := pointee_decay h
    obtain ⟨s, o, _, _, e⟩ := buildL_member hC l i _ hl
    refine ⟨.decay (.member l i), t, ?_⟩
    have : walk C P (buildP C P (.decay (.member l i))) = (buildP C P (.decay (.member l i)), 0) := by
      show walk C P (buildL C P (.member l i)) = (buildL C P (.member l i), 0)
      rw [e]; rfl
    rw [this]
    exact .stay _ t h
  | .decay (.deref p), t, h, hn => by
    obtain ⟨n, hl⟩ := pointee_decay h
    have hp : p.pointee P = some (.arr t n) := by simpa [LV.ty] using hl
    obtain ⟨q, u, w⟩ := walkP hC p _ hp hn
    have e : buildP C P (.decay (.deref p)) = .deref (.arr t n) (buildP C P p) := buildL_deref hC p _ hl
    refine ⟨q, u, ⟨?_, w.ty, w.wf, w.conv, w.exprs, ?_, ?_⟩⟩
    · rw [e]; exact w.tree
    · rw [e]; exact Nat.le_succ_of_le w.height
    · intro M E σ σ' a hσ hw hf he
      rw [e]
      exact w.eval M E σ σ' a hσ hw hf.2 he
  | .value l, t, h, _ => by
    have hl := pointee_value h
    refine ⟨.value l, t, ?_⟩
    have : walk C P (buildP C P (.value l)) = (buildP C P (.value l), 0) := by
      show walk C P (buildL C P l) = (buildL C P l, 0)
      rcases buildL_place C P hC l _ hl with ⟨x, e⟩ | ⟨p, e, _⟩ | ⟨o, l', e⟩ <;> rw [e] <;> rfl
    rw [this]
    exact .stay _ t h
  | .cast u p, t, h, hn => by
    obtain ⟨_, v, hv⟩ := pointee_cast h
    obtain ⟨q, u', w⟩ := walkP hC p v hv hn
    have e : walk C P (buildP C P (.cast u p)) = walk C P (buildP C P p) := walk_castA _ _
    refine ⟨q, u', ⟨by rw [e]; exact w.tree, w.ty, w.wf, w.conv, w.exprs, Nat.le_trans w.height (height_castA_ptr _ _), ?_⟩⟩
    intro M E σ σ' a hσ hw hf he
    rw [e]
    exact w.eval M E σ σ' a hσ hw hf he
  | .ofInt _ _, _, _, hn => hn.elim
  | .add p i, t, h, hn => by
    obtain ⟨hp, ui, hi⟩ := pointee_add h
    have hb := pointee_base C P hC p t hp
    obtain ⟨q, u, w⟩ := walkP hC p t hp hn.1
    cases hc : constOf C P (scale C P (buildI C P i) (P.sizeof (baseOf (buildP C P p).ty))) with
    | none =>
      refine ⟨.add p i, t, ?_⟩
      have : walk C P (buildP C P (.add p i)) = (buildP C P (.add p i), 0) := by
        rw [buildP, walk, hc]
      rw [this]
      exact .stay _ t h
    | some v =>
      have e : walk C P (buildP C P (.add p i)) = ((walk C P (buildP C P p)).1, (walk C P (buildP C P p)).2 + v) := by
        rw [buildP, walk, hc]
        dsimp only
        rw [walk_ptrOf]
      rw [hb] at hc
      refine ⟨q, u, ⟨by rw [e]; exact w.tree, w.ty, fun hw => w.wf hw.1, fun hw => w.conv hw.1,
        fun x hx => List.mem_append.2 (.inl (w.exprs x hx)), ?_, ?_⟩⟩
      · have := height_ptrOf (C := C) (P := P) (buildP C P p)
        have := w.height
        rw [buildP.eq_def C P (.add p i)]
        dsimp only
        rw [height]
        omega
      · intro M E σ σ' a hσ hw hf he
        rw [e]
        rw [PE.eval] at he
        obtain ⟨⟨b, σ1⟩, e1, he⟩ := res_bind he
        obtain ⟨⟨k, σ2⟩, e2, e3⟩ := res_bind he
        dsimp only at e2 e3
        injection e3 with e3; injection e3 with e3 e4
        have h1 := sokP C.hs M p σ σ1 b hw.1 hσ e1
        obtain ⟨hv, hσ2⟩ := idx_const hC i ui hi hw.2 hn.2 _ v hc h1 e2
        obtain ⟨a', g1, g2, g3, g4⟩ := w.eval M E σ σ1 b hσ hw.1 hf.1 e1
        rw [hp, stride_some, ← hv] at e3
        refine ⟨a', by rw [g1, ← e4, hσ2], ?_, g3, fun z hz _ => g4 z hz.2 (hz.1 b σ1 e1)⟩
        rw [← e3, g2, BitVec.add_assoc]
  | .radd i p, t, h, hn => by
    refine ⟨.radd i p, t, ?_⟩
    have : walk C P (buildP C P (.radd i p)) = (buildP C P (.radd i p), 0) := by
      have hk := (knownP hC p t (pointee_radd h).1 hn.2).1.ptrOf.constOf
      rw [buildP, walk, hk]
    rw [this]
    exact .stay _ t h
  | .sub p i, t, h, hn => by
    obtain ⟨hp, ui, hi⟩ := pointee_sub h
    have hb := pointee_base C P hC p t hp
    obtain ⟨q, u, w⟩ := walkP hC p t hp hn.1
    cases hc : constOf C P (scale C P (buildI C P i) (P.sizeof (baseOf (buildP C P p).ty))) with
    | none =>
      refine ⟨.sub p i, t, ?_⟩
      have : walk C P (buildP C P (.sub p i)) = (buildP C P (.sub p i), 0) := by
        rw [buildP, walk, hc]
      rw [this]
      exact .stay _ t h
    | some v =>
      have e : walk C P (buildP C P (.sub p i)) = ((walk C P (buildP C P p)).1, (walk C P (buildP C P p)).2 - v) := by
        rw [buildP, walk, hc]
        dsimp only
        rw [walk_ptrOf]
      rw [hb] at hc
      refine ⟨q, u, ⟨by rw [e]; exact w.tree, w.ty, fun hw => w.wf hw.1, fun hw => w.conv hw.1,
        fun x hx => List.mem_append.2 (.inl (w.exprs x hx)), ?_, ?_⟩⟩
      · have := height_ptrOf (C := C) (P := P) (buildP C P p)
        have := w.height
        rw [buildP.eq_def C P (.sub p i)]
        dsimp only
        rw [height]
        omega
      · intro M E σ σ' a hσ hw hf he
        rw [e]
        rw [PE.eval] at he
        obtain ⟨⟨b, σ1⟩, e1, he⟩ := res_bind he
        obtain ⟨⟨k, σ2⟩, e2, e3⟩ := res_bind he
        dsimp only at e2 e3
        injection e3 with e3; injection e3 with e3 e4
        have h1 := sokP C.hs M p σ σ1 b hw.1 hσ e1
        obtain ⟨hv, hσ2⟩ := idx_const hC i ui hi hw.2 hn.2 _ v hc h1 e2
        obtain ⟨a', g1, g2, g3, g4⟩ := w.eval M E σ σ1 b hσ hw.1 hf.1 e1
        rw [hp, stride_some, ← hv] at e3
        refine ⟨a', by rw [g1, ← e4, hσ2], ?_, g3, fun z hz _ => g4 z hz.2 (hz.1 b σ1 e1)⟩
        rw [← e3, g2, BitVec.sub_eq_add_neg, BitVec.sub_eq_add_neg, BitVec.add_assoc]

/-- What `memberWalk` keeps. -/
structure WalkL (C : Cfg) (P : ODecls) (l : LV) (r : ANode × Word) (k : LV) (u : OTy) : Prop where
  tree : r.1 = buildL C P k
  ty : k.ty P = some u
  wf : l.Wf → k.Wf
  conv : l.NoConv → k.NoConv
  exprs : k.exprs = l.exprs
  height : height (buildL C P k) ≤ height (buildL C P l)
  eval : ∀ M E σ σ' a, l.Fine P M E σ → l.eval P M σ = .ok (a, σ') →
    ∃ a', k.eval P M σ = .ok (a', σ') ∧ a = a' + r.2 ∧ k.Fine P M E σ ∧ ∀ z, l.Close P M σ z → Short z a → Short z a'

theorem WalkL.stay (l : LV) (u : OTy) (h : l.ty P = some u) : WalkL C P l (buildL C P l, 0) l u :=
  ⟨rfl, h, id, id, rfl, Nat.le_refl _, fun M E σ σ' a hf he => ⟨a, he, by simp, hf, fun _ _ h => h⟩⟩

theorem memberWalkL (hC : C.Ok) : ∀ (l : LV) (t : OTy), l.ty P = some t →
    ∃ k u, WalkL C P l (memberWalk (buildL C P l)) k u
  | .var x, t, h => ⟨.var x, t, .stay _ t h⟩
  | .deref p, t, h => ⟨.deref p, t, .stay _ t h⟩
  | .member l i, t, h => by
    obtain ⟨s, o, hs, hm, e⟩ := buildL_member hC l i t h
    obtain ⟨k, u, w⟩ := memberWalkL hC l _ hs
    rw [e]
    refine ⟨k, u, ⟨w.tree, w.ty, w.wf, w.conv, w.exprs, by rw [e]; exact Nat.le_succ_of_le w.height, ?_⟩⟩
    intro M E σ σ' a hf he
    rw [LV.eval] at he
    obtain ⟨⟨b, σ1⟩, e1, e2⟩ := res_bind he
    dsimp only at e2
    rw [hs] at e2
    dsimp only at e2
    rw [hm] at e2
    injection e2 with e2; injection e2 with e2 e3
    subst e3
    obtain ⟨a', g1, g2, g3, g4⟩ := w.eval M E σ _ b hf.2 e1
    refine ⟨a', g1, ?_, g3, fun z hz _ => g4 z hz.2 (hz.1 b _ e1)⟩
    rw [← e2, g2]
    show _ = a' + ((memberWalk (buildL C P l)).2 + BitVec.ofNat 64 o)
    rw [BitVec.add_assoc]

end
end Slimcc.AGen
