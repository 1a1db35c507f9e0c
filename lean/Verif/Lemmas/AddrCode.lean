import Verif.Lemmas.AddrWalk
import Verif.Lemmas.AccessMem
/-! The code of designators: one step of the code generator. -/
set_option autoImplicit false
namespace Slimcc.AGen
open Slimcc Slimcc.Spec Slimcc.Spec.CTy Slimcc.Ty Slimcc.X86 Slimcc.Gen Slimcc.Addr

/-- What is the same during the run. -/
structure Setup (C : Cfg) (P : ODecls) (E : Env) (Pg : List Line) (M : Machine) (O : Objects) : Prop where
  hC : C.Ok
  hok : E.Ok
  hu : UniqueLabels Pg
  hΓ : E.Γ = P.ints
  hO : O.Ok E M.addr

/-- A state of the machine: the integer variables have the values `σ`, and other memory is that of `M`. -/
structure Here (E : Env) (M : Machine) (σ : Store) (s : St) : Prop where
  sok : StoreOk E.Γ σ
  bp : s.r .bp = E.bp
  rel : Rel E σ s.m
  mem : ∀ b, E.Outside E.K b → s.m b = M.mem b

section
variable {C : Cfg} {P : ODecls} {E : Env} {Pg : List Line} {M : Machine} {O : Objects}

theorem Here.step {σ σ' : Store} {s s' : St} {gp st : Nat} (h : Here E M σ s) (he : Eff E gp st s s') (hst : st ≤ E.K)
    (hσ : StoreOk E.Γ σ') (hr : Rel E σ' s'.m) : Here E M σ' s' :=
  ⟨hσ, he.bp.trans h.bp, hr, fun b hb => (he.mem b hb.1 fun k hk => hb.2 k (by omega)).trans (h.mem b hb)⟩

theorem Here.obj {σ : Store} {s : St} (h : Here E M σ s) {a : Word} {n : Nat} (ha : E.Apart a n) : ∀ b, InBlk a n b → s.m b = M.mem b :=
  fun b hb => h.mem b (ha b hb)

theorem here_calc {σ : Store} {s : St} (h : Here E M σ s) {l : List Ins} {Q : St → Prop} (hc : Calc E l s Q) (c : Nat) :
    Does E Pg (inss l c).1 s fun s' => Here E M σ s' ∧ Q s' := by
  have : Does E Pg (inss l c).1 s fun s' => s'.m = s.m ∧ Q s' := does_calc hc (fun _ hm q => ⟨hm, q⟩) c
  refine this.imp fun s' he q => ⟨⟨h.sok, he.bp.trans h.bp, by rw [q.1]; exact h.rel, fun b hb => by rw [q.1]; exact h.mem b hb⟩, q.2⟩

/-- The code computes the value, in %rax, as `Q` says. -/
def Gives (E : Env) (Pg : List Line) (M : Machine) {α : Type} (g : G) (val : Store → Res (α × Store)) (fine : Store → Prop) (Q : α → Word → Prop) : Prop :=
  ∀ σ s σ' a c, Here E M σ s → fine σ → val σ = .ok (a, σ') → (g c).1.st ≤ E.K →
    Does E Pg (g c).1 s fun s' => Here E M σ' s' ∧ Q a (s'.r .ax)

theorem seq_calc {g : G} {l : List Ins} {c : Nat} {s : St} {σ : Store} {Q : St → Prop} {R : St → Prop}
    (hg : Does E Pg (g c).1 s fun s' => Here E M σ s' ∧ Q s')
    (hl : ∀ s1, Here E M σ s1 → Q s1 → Calc E l s1 R) : Does E Pg ((g ;; inss l) c).1 s fun s' => Here E M σ s' ∧ R s' :=
  does_seq _ _ c s _ _ hg fun s1 _ q => here_calc q.1 (hl s1 q.1 q.2) _

theorem ea_obj (S : Setup C P E Pg M O) {s : St} (hbp : s.r .bp = E.bp) (x : Nat) (o : Int) : ea E.sym s (O.at_ x o) = M.addr x + BitVec.ofInt 64 o := by
  rcases S.hO x o with ⟨k, h1, h2⟩ | ⟨g, h1, h2⟩
  · rw [h1]; simp only [ea, hbp]; exact h2
  · rw [h1]; simp only [ea]; exact h2

theorem ea_off (s : St) (r : Reg) (o : Int) : ea E.sym s (.off r o) = s.r r + BitVec.ofInt 64 o := rfl

theorem Setup.sok (S : Setup C P E Pg M O) {σ : Store} {s : St} (h : Here E M σ s) : StoreOk P.ints σ := by
  rw [← S.hΓ]; exact h.sok

/-- What must hold to read an lvalue of a type. -/
def Acc (P : ODecls) (M : Machine) (E : Env) (l : LV) (t : OTy) (σ : Store) : Prop :=
  match t with
  | .int u => l.Access P M E σ u.bytes ∧ l.Valid P M σ u
  | .ptr _ => l.Access P M E σ 8
  | _ => True

/-- What %rax holds after it is read. -/
def LVal (M : Machine) (t : OTy) (a x : Word) : Prop :=
  match t with
  | .int u => Reps (ity u) (M.int u a) x
  | .ptr _ => x = BitVec.ofNat 64 (M.word a 8)
  | _ => x = a

/-- The object can be read. -/
def Avail (M : Machine) (E : Env) (t : OTy) (a : Word) : Prop :=
  match t with
  | .int u => E.Apart a u.bytes ∧ InRange u (M.int u a)
  | .ptr _ => E.Apart a 8
  | _ => True

theorem Acc.avail {l : LV} {t : OTy} {σ σ' : Store} {a : Word} (h : Acc P M E l t σ) (he : l.eval P M σ = .ok (a, σ')) : Avail M E t a := by
  cases t with
  | int u => exact ⟨(h.1 a σ' he).1, h.2 a σ' he⟩
  | ptr u => exact (h a σ' he).1
  | arr _ _ => exact trivial
  | struct _ => exact trivial

theorem Acc.close {l : LV} {t : OTy} {σ σ' : Store} {a : Word} (hg : gpTy t = true) (h : Acc P M E l t σ) (he : l.eval P M σ = .ok (a, σ')) : l.Close P M σ a := by
  cases t with
  | int u => exact (h.1 a σ' he).2
  | ptr u => exact (h a σ' he).2
  | arr _ _ => cases hg
  | struct _ => cases hg

theorem loadTy_calc {σ : Store} {s : St} (h : Here E M σ s) (t : OTy) (hg : gpTy t = true) (a : Word) (ha : Avail M E t a) (m : MemOp)
    (he : ea E.sym s m = a) : Calc E [loadTy t m] s fun s' => LVal M t a (s'.r .ax) := by
  cases t with
  | int u =>
    exact objLoad_calc u a (h.obj ha.1) (ity u) (M.int u a) m (ity_wf u) (by rw [cty_ity]; exact ha.2) (by rw [bytes_size]; exact Nat.le_refl _)
      (by simp) he
  | ptr u => exact ptrLoad_calc a (h.obj ha) m he
  | arr _ _ => cases hg
  | struct _ => cases hg

theorem short_ofs {a a' ofs : Word} (h : a = a' + ofs) (hs : Short a a') : BitVec.ofInt 64 (intOfs ofs) = ofs := by
  have e : a - a' = ofs := by rw [h]; rw [BitVec.add_comm]; exact BitVec.add_sub_cancel _ _
  unfold Short at hs
  rw [e] at hs
  exact int32_id ofs hs.1 hs.2

theorem short_self (a : Word) : Short a a := by unfold Short; simp

/-- What is claimed of the trees up to a fuel. -/
structure LOk (C : Cfg) (P : ODecls) (E : Env) (l : LV) (t : OTy) : Prop where
  ty : l.ty P = some t
  wf : l.Wf
  conv : l.NoConv
  usable : Usable E C.opt l.exprs
structure POk (C : Cfg) (P : ODecls) (E : Env) (p : PE) (t : OTy) : Prop where
  ty : p.pointee P = some t
  wf : p.Wf
  conv : p.NoConv
  usable : Usable E C.opt p.exprs
structure IOk (C : Cfg) (P : ODecls) (E : Env) (i : IE) (t : CTy) : Prop where
  ty : i.ty P = some t
  wf : i.Wf
  conv : i.NoConv
  usable : Usable E C.opt i.exprs

abbrev run (C : Cfg) (P : ODecls) (E : Env) (O : Objects) (f : Nat) (k : AMode) (n : ANode) : G := genA C P E.loc O.at_ E.stk f k n

def GAddr (C : Cfg) (P : ODecls) (E : Env) (Pg : List Line) (M : Machine) (O : Objects) (f : Nat) : Prop :=
  ∀ l t, LOk C P E l t → 2 * height (buildL C P l) ≤ f →
    Gives E Pg M (run C P E O f .addr (buildL C P l)) (l.eval P M) (l.Fine P M E) (fun a x => x = a)
def GVal (C : Cfg) (P : ODecls) (E : Env) (Pg : List Line) (M : Machine) (O : Objects) (f : Nat) : Prop :=
  ∀ l t, LOk C P E l t → 2 * height (buildL C P l) + 1 ≤ f →
    Gives E Pg M (run C P E O f .expr (buildL C P l)) (l.eval P M) (fun σ => l.Fine P M E σ ∧ Acc P M E l t σ) (fun a x => LVal M t a x)
def GPtr (C : Cfg) (P : ODecls) (E : Env) (Pg : List Line) (M : Machine) (O : Objects) (f : Nat) : Prop :=
  ∀ p t, POk C P E p t → 2 * height (buildP C P p) + 1 ≤ f →
    Gives E Pg M (run C P E O f .expr (buildP C P p)) (p.eval P M) (p.Fine P M E) (fun a x => x = a)
def GIdx (C : Cfg) (P : ODecls) (E : Env) (Pg : List Line) (M : Machine) (O : Objects) (f : Nat) : Prop :=
  ∀ i t size, IOk C P E i t → 2 * height (scale C P (buildI C P i) size) + 1 ≤ f →
    Gives E Pg M (run C P E O f .expr (scale C P (buildI C P i) size)) (i.eval P M) (i.Fine P M E) (fun v x => x = BitVec.ofInt 64 (v * size))

/-! Pieces of code. -/

theorem LOk.deref {p : PE} {t : OTy} (h : LOk C P E (.deref p) t) : POk C P E p t :=
  ⟨by simpa [LV.ty] using h.ty, h.wf, h.conv, h.usable⟩

theorem gives_lea (S : Setup C P E Pg M O) {l : LV} {t : OTy} (hl : LOk C P E l t) {x : Nat} {o : Int}
    (hx : evalVar C P true (buildL C P l) = some (x, o)) :
    Gives E Pg M (inss [.lea (O.at_ x o) .ax]) (l.eval P M) (l.Fine P M E) (fun a x => x = a) := by
  intro σ s σ' a c h hf he _
  obtain ⟨e1, e2⟩ := place_at S.hC l t hl.ty hl.wf hl.conv hx (S.sok h) hf he
  subst e2
  refine here_calc h ((lea_calc (O.at_ x o) s).imp fun s' _ q => ?_) c
  rw [q, ea_obj S h.bp, e1]

theorem gives_load (S : Setup C P E Pg M O) {l : LV} {t : OTy} (hl : LOk C P E l t) (hg : gpTy t = true) {x : Nat} {o : Int}
    (hx : evalVar C P true (buildL C P l) = some (x, o)) :
    Gives E Pg M (inss [loadTy t (O.at_ x o)]) (l.eval P M) (fun σ => l.Fine P M E σ ∧ Acc P M E l t σ) (fun a x => LVal M t a x) := by
  intro σ s σ' a c h hf he _
  obtain ⟨e1, e2⟩ := place_at S.hC l t hl.ty hl.wf hl.conv hx (S.sok h) hf.1 he
  subst e2
  exact here_calc h (loadTy_calc h t hg a (hf.2.avail he) _ (by rw [ea_obj S h.bp, e1])) c

/-- The pointer without the constants added to it. -/
theorem gives_walk (S : Setup C P E Pg M O) {f : Nat} (ih : GPtr C P E Pg M O f) {p : PE} {t : OTy} (hp : POk C P E p t)
    (hh : 2 * height (buildP C P p) + 1 ≤ f) {σ σ' : Store} {s : St} {a : Word} {c : Nat} (h : Here E M σ s) (hf : p.Fine P M E σ)
    (he : p.eval P M σ = .ok (a, σ')) (hK : (run C P E O f .expr (walk C P (buildP C P p)).1 c).1.st ≤ E.K) :
    Does E Pg (run C P E O f .expr (walk C P (buildP C P p)).1 c).1 s fun s' => Here E M σ' s' ∧
      (a = s'.r .ax + (walk C P (buildP C P p)).2 ∧ ∀ z, p.Close P M σ z → Short z a → Short z (s'.r .ax)) := by
  obtain ⟨q, u, w⟩ := walkP S.hC p t hp.ty hp.conv
  obtain ⟨a', g1, g2, g3, g4⟩ := w.eval M E σ σ' a (S.sok h) hp.wf hf he
  rw [w.tree] at hK ⊢
  have hq : POk C P E q u := ⟨w.ty, w.wf hp.wf, w.conv hp.conv, fun e he => hp.usable e (w.exprs e he)⟩
  refine (ih q u hq (by have := w.height; omega) σ s σ' a' c h g3 g1 hK).imp fun s' _ q => ⟨q.1, ?_, ?_⟩
  · rw [q.2]; exact g2
  · rw [q.2]; exact g4

theorem gives_memberWalk (S : Setup C P E Pg M O) {f : Nat} (ih : GAddr C P E Pg M O f) {l : LV} {i : Nat} {t : OTy} (hl : LOk C P E (.member l i) t)
    (hh : 2 * height (buildL C P l) ≤ f) {σ σ' : Store} {s : St} {a : Word} {c : Nat} (h : Here E M σ s) (hf : (LV.member l i).Fine P M E σ)
    (he : (LV.member l i).eval P M σ = .ok (a, σ'))
    (hK : (run C P E O f .addr (memberWalk (buildL C P (.member l i))).1 c).1.st ≤ E.K) :
    Does E Pg (run C P E O f .addr (memberWalk (buildL C P (.member l i))).1 c).1 s fun s' => Here E M σ' s' ∧
      (a = s'.r .ax + (memberWalk (buildL C P (.member l i))).2 ∧ ∀ z, (LV.member l i).Close P M σ z → Short z a → Short z (s'.r .ax)) := by
  obtain ⟨k, u, w⟩ := memberWalkL (C := C) S.hC (.member l i) t hl.ty
  obtain ⟨a', g1, g2, g3, g4⟩ := w.eval M E σ σ' a hf he
  obtain ⟨s0, o, hs, _, e⟩ := buildL_member (C := C) S.hC l i t hl.ty
  have hk : LOk C P E k u := ⟨w.ty, w.wf hl.wf, w.conv hl.conv, by rw [w.exprs]; exact hl.usable⟩
  have hkh : height (buildL C P k) ≤ height (buildL C P l) := by
    obtain ⟨k', u', w'⟩ := memberWalkL (C := C) S.hC l _ hs
    have : buildL C P k = buildL C P k' := by rw [← w.tree, ← w'.tree, e]; rfl
    rw [this]; exact w'.height
  rw [w.tree] at hK ⊢
  refine (ih k u hk (by omega) σ s σ' a' c h g3 g1 hK).imp fun s' _ q => ⟨q.1, ?_, ?_⟩
  · rw [q.2]; exact g2
  · rw [q.2]; exact g4

theorem genA_addr (f : Nat) (n : ANode) : (C.opt = true ∧ ∃ g, addrOptA C P O.at_ (run C P E O f .expr) (run C P E O f .addr) n = some g ∧
      run C P E O (f + 1) .addr n = g) ∨
    run C P E O (f + 1) .addr n = addrPlainA O.at_ (run C P E O f .expr) (run C P E O f .addr) n := by
  unfold run
  rw [genA.eq_def _ _ _ _ _ (f + 1)]
  dsimp only
  split
  · rename_i g hg
    split at hg
    · exact .inl ⟨by assumption, g, hg, rfl⟩
    · cases hg
  · exact .inr rfl

theorem height_deref (S : Setup C P E Pg M O) {p : PE} {t : OTy} (h : (LV.deref p).ty P = some t) :
    height (buildL C P (.deref p)) = height (buildP C P p) + 1 := by rw [buildL_deref S.hC p t h]; rfl

theorem height_member (S : Setup C P E Pg M O) {l : LV} {i : Nat} {t : OTy} (h : (LV.member l i).ty P = some t) :
    height (buildL C P (.member l i)) = height (buildL C P l) + 1 := by
  obtain ⟨s0, o, hs, _, e⟩ := buildL_member (C := C) S.hC l i t h
  rw [e]; rfl

theorem seq_st1 {g : G} {l : List Ins} {c k : Nat} (h : ((g ;; inss l) c).1.st ≤ k) : (g c).1.st ≤ k := (seq_st_le h).1

/-- codegen.c:708-785, 2961-2988 -/
theorem stepAddr (S : Setup C P E Pg M O) (f : Nat) (ihA : GAddr C P E Pg M O f) (ihP : GPtr C P E Pg M O f) : GAddr C P E Pg M O (f + 1) := by
  intro l t hl hh
  have memop : ∀ m, evalMemop C P O.at_ true (buildL C P l) = some m →
      Gives E Pg M (inss [.lea m .ax]) (l.eval P M) (l.Fine P M E) (fun a x => x = a) := by
    intro m hm
    obtain ⟨x, o, rfl, hx⟩ := evalMemop_some hm
    exact gives_lea S hl hx
  cases l with
  | var x =>
    rcases genA_addr (C := C) (P := P) (E := E) (O := O) f (buildL C P (.var x)) with ⟨_, g, hg, e⟩ | e
    · rw [e]
      unfold addrOptA at hg
      split at hg
      · rename_i m hm
        injection hg with hg; subst hg
        exact memop m hm
      · cases hg
    · rw [e]
      exact gives_lea S hl (x := x) (o := 0) rfl
  | deref p =>
    have eb := buildL_deref (C := C) S.hC p t hl.ty
    have eh := height_deref S hl.ty
    rcases genA_addr (C := C) (P := P) (E := E) (O := O) f (buildL C P (.deref p)) with ⟨_, g, hg, e⟩ | e
    · rw [e]
      unfold addrOptA at hg
      split at hg
      · rename_i m hm
        injection hg with hg; subst hg
        exact memop m hm
      · rw [eb] at hg
        injection hg with hg; subst hg
        intro σ s σ' a c h hf he hK
        refine seq_calc (gives_walk S ihP hl.deref (by omega) h hf.2 he (seq_st1 hK)) fun s1 h1 q => ?_
        exact (immAdd_calc _ s1).imp fun s' _ r => by rw [r, q.1]
    · rw [e, eb]
      intro σ s σ' a c h hf he hK
      exact ihP p t hl.deref (by omega) σ s σ' a c h hf.2 he hK
  | member l i =>
    obtain ⟨s0, o, hs, hm, eb⟩ := buildL_member (C := C) S.hC l i t hl.ty
    have eh := height_member S hl.ty
    rcases genA_addr (C := C) (P := P) (E := E) (O := O) f (buildL C P (.member l i)) with ⟨_, g, hg, e⟩ | e
    · rw [e]
      unfold addrOptA at hg
      split at hg
      · rename_i m hm
        injection hg with hg; subst hg
        exact memop m hm
      · have hg' : (some (run C P E O f .addr (memberWalk (buildL C P (.member l i))).1 ;; inss (immAdd 8 .ax (memberWalk (buildL C P (.member l i))).2)) : Option G) = some g := by
          rw [eb] at hg ⊢; exact hg
        injection hg' with hg'; subst hg'
        intro σ s σ' a c h hf he hK
        refine seq_calc (gives_memberWalk S ihA hl (by omega) h hf he (seq_st1 hK)) fun s1 h1 q => ?_
        exact (immAdd_calc _ s1).imp fun s' _ r => by rw [r, q.1]
    · rw [e, eb]
      intro σ s σ' a c h hf he hK
      rw [LV.eval] at he
      obtain ⟨⟨b, σ1⟩, e1, e2⟩ := res_bind he
      dsimp only at e2
      rw [hs] at e2
      dsimp only at e2
      rw [hm] at e2
      injection e2 with e2; injection e2 with e2 e3
      subst e3
      have hll : LOk C P E l (.struct s0) := ⟨hs, hl.wf, hl.conv, hl.usable⟩
      refine seq_calc (ihA l _ hll (by omega) σ s _ b c h hf.2 e1 (seq_st1 hK)) fun s1 h1 q => ?_
      exact (immAdd_calc _ s1).imp fun s' _ r => by rw [r, q, e2]

end
end Slimcc.AGen
