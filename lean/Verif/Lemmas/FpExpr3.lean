import Verif.Lemmas.FpExpr2
import Verif.Lemmas.Compile
/-! Pieces of the code of floating expressions: comparisons, loads, casts. -/
set_option autoImplicit false
namespace Slimcc.FP
open Slimcc.Spec Slimcc.Spec.CTy Slimcc.Spec.FP Slimcc.X86 Slimcc.Ty Slimcc.Gen

section
variable {E : FEnv} {σ : Nat → Val}

/-- The flags are those of a comparison of `p` with `q`. -/
def Compared (p q : Fl) (s : FS) : Prop := ∃ f pf, s.g.f = some f ∧ s.pf = some pf ∧
  (((p.place = none ∨ q.place = none) ∧ f = ⟨true, true, false⟩ ∧ pf = true) ∨
    ∃ a b, p.place = some a ∧ q.place = some b ∧ f = ⟨decide (a = b), decide (a < b), false⟩ ∧ pf = false)

theorem flags_compared (s : FS) (p q : Fl) : Compared p q (s.flags p q) := by
  unfold FS.flags
  rcases compare_place p q with ⟨h1, h2⟩ | ⟨a, b, h1, h2, h3⟩
  · rw [h1]; exact ⟨_, _, rfl, rfl, .inl ⟨h2, rfl, rfl⟩⟩
  · rw [h3]; exact ⟨_, _, rfl, rfl, .inr ⟨a, b, h1, h2, rfl, rfl⟩⟩

theorem flags_same (s : FS) (p q : Fl) : (s.flags p q).g.r = s.g.r ∧ (s.flags p q).g.m = s.g.m ∧ (s.flags p q).xmm = s.xmm ∧ (s.flags p q).st = s.st ∧ (s.flags p q).cw = s.cw := by
  unfold FS.flags
  split <;> exact ⟨rfl, rfl, rfl, rfl, rfl⟩

theorem bit1 (o : Word) (b : Bool) : zx 1 (put 1 o (if b = true then 1 else 0)) = if b = true then 1 else 0 := by
  rw [MemL.zx_put 1 (by omega)]
  cases b <;> rfl

/-- The machine's answer, by the operator. -/
def answer (op : FCmp) (f : Flags) (pf : Bool) : Bool :=
  match op with
  | .eq => f.eq && !pf
  | .ne => !f.eq || pf
  | .lt | .gt => !(f.ult || f.eq)
  | .le | .ge => !f.ult

theorem setFlag_run (op : FCmp) (s : FS) (f : Flags) (pf : Bool) (hf : s.g.f = some f) (hp : s.pf = some pf) :
    Runs E.sym (setFlag op) none s fun s' => s'.g.r .ax = (if answer op f pf = true then 1 else 0) ∧ s'.st = s.st ∧ Leaves E 0 0 s s' := by
  have one : ∀ c : CC, Runs E.sym [.i (.gp (.set c .ax)), .i (.gp (.movx false 1 4 (.reg .ax) .ax))] none s fun s' =>
      s'.g.r .ax = (if c.holds f = true then 1 else 0) ∧ s'.st = s.st ∧ Leaves E 0 0 s s' := by
    intro c
    refine runs_gp (g := s.g.setR .ax (put 1 (s.g.r .ax) (if c.holds f then 1 else 0))) (by simp only [exec, hf]) ?_
    refine runs_gp (by rfl) ?_
    refine runs_nil ⟨?_, rfl, ⟨rfl, fun _ => rfl, rfl, fun _ _ => rfl, fun _ _ _ => rfl⟩⟩
    show zx 4 (zx 1 (put 1 (s.g.r .ax) (if c.holds f then 1 else 0))) = _
    rw [bit1]
    cases c.holds f <;> rfl
  have two : ∀ (c : CC) (n : Bool) (op : Alu) (b : Bool), (∀ x y : Bool, aluOp op (if x = true then 1 else 0) (if y = true then 1 else 0) =
      if (match op with | .and => x && y | _ => x || y) = true then 1 else 0) → (op = .and ∨ op = .or) →
      Runs E.sym [.i (.gp (.set c .ax)), .i (.setp n .dx), .i (.gp (.alu op 1 (.reg .dx) (.reg .ax))), .i (.gp (.movx false 1 4 (.reg .ax) .ax))] none s fun s' =>
      s'.g.r .ax = (if (match op with | .and => c.holds f && (pf ^^ n) | _ => c.holds f || (pf ^^ n)) = true then 1 else 0) ∧ s'.st = s.st ∧ Leaves E 0 0 s s' := by
    intro c n op b ho hop
    refine runs_gp (g := s.g.setR .ax (put 1 (s.g.r .ax) (if c.holds f then 1 else 0))) (by simp only [exec, hf]) ?_
    refine runs_i (s1 := { s with g := (s.g.setR .ax (put 1 (s.g.r .ax) (if c.holds f then 1 else 0))).setR .dx (put 1 (s.g.r .dx) (if pf ^^ n then 1 else 0)) })
      (by simp only [fexec, keepsFlags, if_true, hp]; rfl) ?_
    refine runs_gp (by rfl) ?_
    refine runs_gp (by rfl) ?_
    refine runs_nil ⟨?_, rfl, ⟨rfl, fun _ => rfl, rfl, fun _ _ => rfl, fun _ _ _ => rfl⟩⟩
    show zx 4 (zx 1 (put 1 (put 1 (s.g.r .ax) (if c.holds f then 1 else 0)) (aluOp op (zx 1 (put 1 (s.g.r .ax) (if c.holds f then 1 else 0))) (zx 1 (put 1 (s.g.r .dx) (if pf ^^ n then 1 else 0)))))) = _
    rw [bit1 (s.g.r .ax), bit1 (s.g.r .dx), ho, bit1]
    rcases hop with rfl | rfl
    · cases c.holds f <;> cases (pf ^^ n) <;> rfl
    · cases c.holds f <;> cases (pf ^^ n) <;> rfl
  cases op with
  | eq =>
    refine runs_imp (two .e true .and true (by decide) (.inl rfl)) fun s' h => ⟨?_, h.2⟩
    rw [h.1]; simp [answer, CC.holds]
  | ne =>
    refine runs_imp (two .ne false .or true (by decide) (.inr rfl)) fun s' h => ⟨?_, h.2⟩
    rw [h.1]; simp [answer, CC.holds]
  | lt => exact one .a
  | gt => exact one .a
  | le => exact one .ae
  | ge => exact one .ae

open Classical in
/-- The number C gives to a truth value. -/
noncomputable def numOf (p : Prop) : ℤ := if p then 1 else 0

theorem holds_some (op : FCmp) (x y : Fl) (c d : WithBot (WithTop ℚ)) (hc : x.place = some c) (hd : y.place = some d) : (op.Holds x y ↔
    match op with | .eq => c = d | .ne => c ≠ d | .lt => c < d | .le => c ≤ d | .gt => d < c | .ge => d ≤ c) := by
  unfold FCmp.Holds
  rw [hc, hd]
  cases op <;> exact Iff.rfl

open Classical in
/-- `p` and `q` are the operands of the comparison, turned round for `<` and `<=`. -/
theorem answer_holds (op : FCmp) (x y p q : Fl) (s : FS) (h : Compared p q s)
    (hpq : (op = .lt ∨ op = .le → p = y ∧ q = x) ∧ (op = .gt ∨ op = .ge → p = x ∧ q = y) ∧ (op = .eq ∨ op = .ne → (p = x ∧ q = y) ∨ (p = y ∧ q = x))) :
    ∃ f pf, s.g.f = some f ∧ s.pf = some pf ∧ (answer op f pf = true ↔ op.Holds x y) := by
  obtain ⟨f, pf, h1, h2, h3⟩ := h
  refine ⟨f, pf, h1, h2, ?_⟩
  rcases h3 with ⟨h3, rfl, rfl⟩ | ⟨a, b, ha, hb, rfl, rfl⟩
  · have hn : x.place = none ∨ y.place = none := by
      cases op with
      | lt => obtain ⟨rfl, rfl⟩ := hpq.1 (.inl rfl); exact h3.symm
      | le => obtain ⟨rfl, rfl⟩ := hpq.1 (.inr rfl); exact h3.symm
      | gt => obtain ⟨rfl, rfl⟩ := hpq.2.1 (.inl rfl); exact h3
      | ge => obtain ⟨rfl, rfl⟩ := hpq.2.1 (.inr rfl); exact h3
      | eq => rcases hpq.2.2 (.inl rfl) with ⟨rfl, rfl⟩ | ⟨rfl, rfl⟩ <;> [exact h3; exact h3.symm]
      | ne => rcases hpq.2.2 (.inr rfl) with ⟨rfl, rfl⟩ | ⟨rfl, rfl⟩ <;> [exact h3; exact h3.symm]
    have hh : op.Holds x y ↔ op = .ne := by
      unfold FCmp.Holds
      rcases hn with h | h
      · rw [h]
      · rw [h]; cases x.place <;> exact Iff.rfl
    rw [hh]
    cases op <;> simp [answer]
  · have key := holds_some op x y
    cases op with
    | lt => obtain ⟨rfl, rfl⟩ := hpq.1 (.inl rfl); rw [key b a hb ha]; simp [answer]; exact ⟨fun h => lt_of_le_of_ne h.1 (Ne.symm h.2), fun h => ⟨le_of_lt h, ne_of_gt h⟩⟩
    | le => obtain ⟨rfl, rfl⟩ := hpq.1 (.inr rfl); rw [key b a hb ha]; simp [answer]
    | gt => obtain ⟨rfl, rfl⟩ := hpq.2.1 (.inl rfl); rw [key a b ha hb]; simp [answer]; exact ⟨fun h => lt_of_le_of_ne h.1 (Ne.symm h.2), fun h => ⟨le_of_lt h, ne_of_gt h⟩⟩
    | ge => obtain ⟨rfl, rfl⟩ := hpq.2.1 (.inr rfl); rw [key a b ha hb]; simp [answer]
    | eq =>
      rcases hpq.2.2 (.inl rfl) with ⟨rfl, rfl⟩ | ⟨rfl, rfl⟩
      · rw [key a b ha hb]; simp [answer]
      · rw [key b a hb ha]; simp [answer]; exact eq_comm
    | ne =>
      rcases hpq.2.2 (.inr rfl) with ⟨rfl, rfl⟩ | ⟨rfl, rfl⟩
      · rw [key a b ha hb]; simp [answer]
      · rw [key b a hb ha]; simp [answer]; exact ne_comm

theorem numOf_word (p : Prop) (b : Bool) (h : b = true ↔ p) : (if b = true then 1 else 0 : Word) = BitVec.ofInt 64 (numOf p) := by
  unfold numOf
  cases b with
  | true => rw [if_pos rfl, if_pos (h.1 rfl)]; rfl
  | false => rw [if_neg (by decide), if_neg (fun hp => absurd (h.2 hp) (by decide))]; rfl

theorem comparison_run (f : FTy) (op : FCmp) (x y : Fl) (n q : Nat) (s : FS) (h : Both f x y q n s) :
    Runs E.sym (comparison f op q) none s fun s' => (s'.g.r .ax = BitVec.ofInt 64 (numOf (op.Holds x y)) ∧ s'.st.length ≤ n) ∧ Leaves E 0 (q - 1) s s' := by
  have fin : ∀ (s1 : FS) (u v : Fl), Compared u v s1 → s1.st.length ≤ n → Leaves E 0 0 s s1 →
      ((op = .lt ∨ op = .le → u = y ∧ v = x) ∧ (op = .gt ∨ op = .ge → u = x ∧ v = y) ∧ (op = .eq ∨ op = .ne → (u = x ∧ v = y) ∨ (u = y ∧ v = x))) →
      Runs E.sym (setFlag op) none s1 fun s' => (s'.g.r .ax = BitVec.ofInt 64 (numOf (op.Holds x y)) ∧ s'.st.length ≤ n) ∧ Leaves E 0 (q - 1) s s' := by
    intro s1 u v hc hn hl hpq
    obtain ⟨f, pf, h1, h2, h3⟩ := answer_holds op x y u v s1 hc hpq
    refine runs_imp (setFlag_run op s1 f pf h1 h2) fun s' h' => ⟨⟨?_, ?_⟩, ?_⟩
    · rw [h'.1]; exact numOf_word _ _ h3
    · rw [h'.2.1]; exact hn
    · exact leaves_mono (leaves_trans hl h'.2.2) (by omega) (by omega)
  have sse : ∀ d : Bool, f = fty d → Runs E.sym (comparison f op q) none s fun s' =>
      (s'.g.r .ax = BitVec.ofInt 64 (numOf (op.Holds x y)) ∧ s'.st.length ≤ n) ∧ Leaves E 0 (q - 1) s s' := by
    rintro d rfl
    rw [both_fty] at h
    obtain ⟨hq, hx, hy, hst⟩ := h
    have eo : comparison (fty d) op q = (if op = .gt ∨ op = .ge then [.i (.ucomis d 0 q)] else [.i (.ucomis d q 0)]) ++ setFlag op := by cases d <;> rfl
    have lf : ∀ u v, Leaves E 0 0 s (s.flags u v) := fun u v => by
      obtain ⟨a, b, c, _, e⟩ := flags_same s u v
      exact ⟨by rw [a], fun i => by rw [a], e, fun i _ => by rw [c], fun w _ _ => by rw [b]⟩
    rw [eo]
    by_cases hg : op = .gt ∨ op = .ge
    · rw [if_pos hg, List.singleton_append]
      refine runs_i (by rfl) ?_
      rw [hx, hy]
      exact fin _ _ _ (flags_compared s x y) (by rw [(flags_same s x y).2.2.2.1]; exact hst) (lf _ _)
        ⟨fun h => by rcases h with rfl | rfl <;> simp at hg, fun _ => ⟨rfl, rfl⟩, fun h => .inl ⟨rfl, rfl⟩⟩
    · rw [if_neg hg, List.singleton_append]
      refine runs_i (by rfl) ?_
      rw [hx, hy]
      exact fin _ _ _ (flags_compared s y x) (by rw [(flags_same s y x).2.2.2.1]; exact hst) (lf _ _)
        ⟨fun _ => ⟨rfl, rfl⟩, fun h => absurd h hg, fun h => .inr ⟨rfl, rfl⟩⟩
  cases f with
  | float => exact sse false rfl
  | double => exact sse true rfl
  | ldouble =>
    obtain ⟨_, _, st, hst, hn⟩ := h
    have pop : ∀ (s0 : FS) (u v : Fl), s0.st = u :: v :: st → Leaves E 0 0 s s0 →
        ((op = .lt ∨ op = .le → u = y ∧ v = x) ∧ (op = .gt ∨ op = .ge → u = x ∧ v = y) ∧ (op = .eq ∨ op = .ne → (u = x ∧ v = y) ∨ (u = y ∧ v = x))) →
        Runs E.sym ([.i .fucomip, .i .fdrop] ++ setFlag op) none s0 fun s' => (s'.g.r .ax = BitVec.ofInt 64 (numOf (op.Holds x y)) ∧ s'.st.length ≤ n) ∧ Leaves E 0 (q - 1) s s' := by
      intro s0 u v h0 hl hpq
      obtain ⟨a, b, c, _, e⟩ := flags_same s0 u v
      refine runs_i (s1 := { s0.flags u v with st := v :: st }) (by simp only [fexec, h0]) ?_
      refine runs_i (s1 := { s0.flags u v with st := st }) (by simp only [fexec]) ?_
      refine fin { s0.flags u v with st := st } u v ?_ hn (leaves_trans hl ⟨by show (s0.flags u v).g.r _ = _; rw [a], fun i => by show (s0.flags u v).g.r _ = _; rw [a], e, fun i _ => by show (s0.flags u v).xmm i = _; rw [c], fun w _ _ => by show (s0.flags u v).g.m w = _; rw [b]⟩) hpq
      obtain ⟨f, pf, h1, h2, h3⟩ := flags_compared s0 u v
      exact ⟨f, pf, h1, h2, h3⟩
    have eo : comparison .ldouble op q = (if op = .lt ∨ op = .le then [.i .fxch] else []) ++ ([.i .fucomip, .i .fdrop] ++ setFlag op) := by
      unfold comparison; dsimp only; rw [List.append_assoc]
    rw [eo]
    by_cases hg : op = .lt ∨ op = .le
    · rw [if_pos hg, List.singleton_append]
      refine runs_i (s1 := { s with st := y :: x :: st }) (by simp only [fexec, hst]) ?_
      exact pop _ y x rfl ⟨rfl, fun _ => rfl, rfl, fun i hi => rfl, fun _ _ _ => rfl⟩
        ⟨fun _ => ⟨rfl, rfl⟩, fun h => by rcases h with rfl | rfl <;> simp at hg, fun h => .inr ⟨rfl, rfl⟩⟩
    · rw [if_neg hg, List.nil_append]
      exact pop _ x y hst (leaves_refl _ _ _) ⟨fun h => absurd h hg, fun _ => ⟨rfl, rfl⟩, fun h => .inl ⟨rfl, rfl⟩⟩

/-! Loads. -/

theorem scratch_leaves {s s' : FS} {n : Nat} (hs : Within E σ n s) (hm : s'.g.m = s.g.m) (hr : ∀ r, ¬ Scratch r → s'.g.r r = s.g.r r) (hx : s'.xmm = s.xmm) (hc : s'.cw = s.cw) :
    Leaves E 0 0 s s' :=
  ⟨hr _ nbp, fun i => hr _ (ntmp i), hc, fun _ _ => by rw [hx], fun _ _ _ => by rw [hm]⟩

theorem ty_cty (t : CTy) : cty (ity t) = t := by cases t <;> rfl
theorem ity_wf (t : CTy) : (ity t).wf = true := by cases t <;> rfl

theorem load3_run (t : VTy) (v : Val) (m : MemOp) (a : Word) (n : Nat) (s : FS) (hs : Within E σ n s) (hm : ea E.sym s.g m = a) (hat : At t v a s.g.m) :
    Runs E.sym (load3 t m) none s fun s' => InPlace t v n s' ∧ Leaves E 0 0 s s' := by
  cases t with
  | int t =>
    cases v with
    | f x => exact hat.elim
    | i z =>
      have hrel : Rel ⟨fun _ => t, fun x => x = 0, fun _ => .frame 0, 0, 0, E.sym, a⟩ (fun _ => z) s.g.m := by
        intro x _ i hi
        rw [show Env.addr ⟨fun _ => t, fun x => x = 0, fun _ => .frame 0, 0, 0, E.sym, a⟩ x = a from off0 a]
        exact hat.2 i hi
      obtain ⟨s1, e1, e2, e3, hin, _⟩ := load_calc hrel (x := 0) rfl (ity t) z m .ax (ity_wf t) (by rw [ty_cty]; exact hat.1) (by rw [← bytes_size]; exact Nat.le_refl _)
        (by rw [Int.sub_self]; exact dvd_zero _) (by rw [hm]; exact (off0 a).symm) scratch_ax
      refine runs_imp (runs_gps [loadExt (ity t) m .ax] s s1 e1) fun s' h => ⟨⟨?_, ?_⟩, ?_⟩
      · rw [h.1]; exact (reps_inReg t z _).1 hin
      · rw [h.2.2.1]; exact hs.st
      · refine scratch_leaves hs (by rw [h.1, e2]) (fun r hr => by rw [h.1]; exact e3 r hr) h.2.1 h.2.2.2
  | flo f =>
    cases v with
    | i z => cases f <;> exact hat.elim
    | f x =>
      have l0 : ∀ w, Leaves E 0 0 s (s.setX 0 w) := fun w => ⟨rfl, fun _ => rfl, rfl, fun i hi => if_neg (by omega), fun _ _ _ => rfl⟩
      cases f with
      | float =>
        refine runs_i (by rfl) ?_
        refine runs_nil ⟨(inPlace_fty false _ _ _).2 ⟨?_, hs.st⟩, l0 _⟩
        show datum false (if 0 = 0 then rd s.g.m (ea E.sym s.g m) 4 else _) = x
        rw [if_pos rfl, hm]
        have h : decode f32 32 (rd s.g.m a 4).toNat = x := hat
        rw [← h]
        unfold datum
        rw [if_neg (by decide), zx_rd _ _ _ (by omega)]
      | double =>
        refine runs_i (by rfl) ?_
        refine runs_nil ⟨(inPlace_fty true _ _ _).2 ⟨?_, hs.st⟩, l0 _⟩
        show datum true (if 0 = 0 then rd s.g.m (ea E.sym s.g m) 8 else _) = x
        rw [if_pos rfl, hm]
        have h : decode f64 64 (rd s.g.m a 8).toNat = x := hat
        rw [← h, datum_f64]
      | ldouble =>
        refine runs_i (by rfl) ?_
        refine runs_i (exec_fldt _ _ _ x a (a + 8) hm rfl (Nat.zero_lt_succ _) hat.2) ?_
        exact runs_nil ⟨x87_place hat.1 rfl, fninit_leaves hs _⟩

theorem loadInt_run (t : CTy) (z : ℤ) (hz : InRange t z) (n : Nat) (s : FS) (hs : Within E σ n s) :
    Runs E.sym (loadInt t z).code none s fun s' => InPlace (.int t) (.i z) n s' ∧ Leaves E 0 0 s s' := by
  obtain ⟨s1, e1, e2, e3, e4, _⟩ := loadVal_calc (E := E.env) (ity t) z s.g (ity_wf t) (by rw [ty_cty]; exact hz)
  refine runs_imp (runs_gps _ s s1 e1) fun s' h => ⟨⟨?_, ?_⟩, ?_⟩
  · rw [h.1]; exact (reps_inReg t z _).1 e4
  · rw [h.2.2.1]; exact hs.st
  · exact scratch_leaves hs (by rw [h.1, e2]) (fun r hr => by rw [h.1]; exact e3 r hr) h.2.1 h.2.2.2

/-! Casts. -/

theorem toFloat_run (t : CTy) (f : FTy) (z : ℤ) (r : Fl) (hz : InRange t z) (hr : FromInt f.fmt z r) (n : Nat) (hn : n ≤ 7) (s : FS) (hs : Within E σ n s) (hx : InPlace (.int t) (.i z) n s) :
    Runs E.sym (castCode (.int t) (.flo f)) none s fun s' => InPlace (.flo f) (.f r) n s' ∧ Leaves E 0 0 s s' := by
  obtain ⟨s', r', h1, h2, h3, h4, h5⟩ := Props.C62_to_float E.sym t f z s hz hx.1 (within_plain hs) (by have := hs.st; omega)
  have e : r = r' := fromInt_unique (fmt_ok f) hr ⟨h3, h4⟩
  exact ⟨s', h1, ⟨s.st, by rw [e]; exact h2, hs.st⟩, und_leaves h5 hs.sp⟩

theorem floFlo_run (f g : FTy) (x r : Fl) (hr : Converted g.fmt x r) (n n' : Nat) (hn : n ≤ 7) (s : FS) (hs : Within E σ n' s) (hx : InPlace (.flo f) (.f x) n s) :
    Runs E.sym (castCode (.flo f) (.flo g)) none s fun s' => InPlace (.flo g) (.f r) n s' ∧ Leaves E 0 0 s s' := by
  obtain ⟨st, h1, h2⟩ := hx
  obtain ⟨s', r', h3, h4, h5, h6⟩ := Props.C62_float_float E.sym f g x st s h1 (within_plain hs) (by omega)
  have e : r = r' := converted_unique (fmt_ok g) hr h5
  exact ⟨s', h3, ⟨st, by rw [e]; exact h4, h2⟩, und_leaves h6 hs.sp⟩

theorem fromFlo_run (f : FTy) (t : CTy) (x : Fl) (v : ℚ) (hv : x.val = some v) (ht : t ≠ .bool) (hr : InRange t (truncated v)) (hS : Props.Sound f t (truncated v))
    (n n' : Nat) (hn : n ≤ 5) (s : FS) (hs : Within E σ n' s) (hx : InPlace (.flo f) (.f x) n s) :
    Runs E.sym (castCode (.flo f) (.int t)) none s fun s' => InPlace (.int t) (.i (truncated v)) n s' ∧ Leaves E 0 0 s s' := by
  obtain ⟨st, h1, h2⟩ := hx
  obtain ⟨s', h3, h4, h5, h6⟩ := Props.C62_from_float E.sym f t x v st s h1 hv ⟨ht, hr⟩ hS (within_plain hs) (by omega)
  exact ⟨s', h3, ⟨h4, by rw [h5]; exact h2⟩, und_leaves h6 hs.sp⟩

/-- codegen.c:1740. -/
theorem xor1_run (z : ℤ) (hz : z = 0 ∨ z = 1) (n : Nat) (s : FS) (hs : s.st.length ≤ n) (hx : Low 4 z (s.g.r .ax)) :
    Runs E.sym (gps [.alu .xor 1 (.imm 1) (.reg .ax)]) none s fun s' => InPlace (.int .int) (.i (if z = 0 then 1 else 0)) n s' ∧ Leaves E 0 0 s s' := by
  refine runs_gp (by rfl) ?_
  refine runs_nil ⟨⟨(Props.low_inReg (by decide) (by decide) _ _).2 ?_, hs⟩, ⟨rfl, fun _ => rfl, rfl, fun _ _ => rfl, fun _ _ _ => rfl⟩⟩
  show Low 4 _ (put 1 (s.g.r .ax) (zx 1 (s.g.r .ax) ^^^ zx 1 1))
  have e : put 1 (s.g.r .ax) (zx 1 (s.g.r .ax) ^^^ zx 1 1) = s.g.r .ax ^^^ 1#64 := by
    generalize s.g.r .ax = w
    apply BitVec.eq_of_getLsbD_eq
    intro i hi
    show ((w >>> 8) <<< 8 ||| zx 1 (zx 1 w ^^^ 1#64)).getLsbD i = _
    simp only [zx, BitVec.getLsbD_or, BitVec.getLsbD_shiftLeft, BitVec.getLsbD_ushiftRight, BitVec.getLsbD_setWidth, BitVec.getLsbD_xor, BitVec.getLsbD_one]
    by_cases h8 : i < 8
    · simp [h8, hi]
    · have : 8 + (i - 8) = i := by omega
      have h0 : ¬ i = 0 := by omega
      simp [h8, hi, this, h0]
  rw [e]
  unfold Low at hx ⊢
  rw [BitVec.setWidth_xor, hx]
  rcases hz with rfl | rfl <;> decide

end
end Slimcc.FP
