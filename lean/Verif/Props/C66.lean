import Verif.Props.C48
import Verif.Lemmas.AsmCode
set_option autoImplicit false
/-!
C66 The text of an `asm` statement finds its inputs, and the program its outputs.

`prepare outs ins cl = .ok p` is the choice of registers (C48); `before`, `after` are the code printed
before and after the text; `d i` says how the object of operand `i` is found.
-/
namespace Slimcc.Props
open Slimcc.Asm Slimcc.AsmSpec Slimcc.AsmL
open Slimcc.X86 (Word rd wr put zx)
open Slimcc.Spec (InBlk Disj)

variable {sym : Nat → Word}

/-- The registers pushed are those with a name below `%rsp` that the plan saves. -/
theorem mem_savedRegs (p : Plan) (r : Reg) : r ∈ savedRegs p ↔ rR12 ≤ r ∧ r ≤ rR15 ∧ p.saved r = true := by
  unfold savedRegs
  rw [List.mem_filter, List.mem_range'_1]
  constructor
  · rintro ⟨⟨h1, h2⟩, h3⟩
    exact ⟨h1, by romega, h3⟩
  · rintro ⟨h1, h2, h3⟩
    exact ⟨⟨h1, by romega⟩, h3⟩

/-- The frame pointers pushed. -/
def framePushed (p : Plan) : List Reg := (if p.alt1.isSome then [rBP] else []) ++ (if p.alt2.isSome then [rBX] else [])

theorem mem_framePushed (p : Plan) (r : Reg) : r ∈ framePushed p ↔ (r = rBP ∧ p.alt1.isSome) ∨ (r = rBX ∧ p.alt2.isSome) := by
  unfold framePushed
  cases p.alt1 <;> cases p.alt2 <;> simp

theorem pushed_eq (p : Plan) : pushed p = savedRegs p ++ framePushed p := by
  unfold pushed framePushed
  rw [List.append_assoc]

/-- What the stand-ins and the scratch register are, in the terms of the code. -/
structure Roles (p : Plan) (cl : List Clob) (q : Placed) : Prop where
  alt : ∀ a, p.alt1 = some a ∨ p.alt2 = some a → rAX ≤ a ∧ a ≤ rR15 ∧ ¬ Clobbered cl a ∧ ¬ HeldBy q a
  ne : ∀ a, p.alt1 = some a → p.alt2 ≠ some a
  bp : p.alt1 = none → ¬ Clobbered cl rBP ∧ ¬ HeldBy q rBP
  bx : p.alt2 = none → ¬ Clobbered cl rBX ∧ ¬ HeldBy q rBX

theorem roles {outs ins : List (List Char × Arg)} {cl : List Clob} {p : Plan} (h : prepare outs ins cl = .ok p) :
    Roles p cl (placed outs ins p.st) := by
  obtain ⟨f1, f2, f3, f4⟩ := C48_frame_pointers h
  refine ⟨f3, f4, fun e => ?_, fun e => ?_⟩
  · rw [e] at f1
    exact ⟨fun hc => (by cases f1.mpr (.inl hc)), fun hc => (by cases f1.mpr (.inr hc))⟩
  · rw [e] at f2
    exact ⟨fun hc => (by cases f2.mpr (.inl hc)), fun hc => (by cases f2.mpr (.inr hc))⟩

theorem altPtr_free {p : Plan} {cl : List Clob} {q : Placed} (h : Roles p cl q) {b : Reg} (hb : IsFrame b) :
    ¬ Clobbered cl (altPtr p b) ∧ ¬ HeldBy q (altPtr p b) := by
  unfold altPtr
  rcases hb with rfl | rfl
  · rw [if_pos rfl]
    cases e : p.alt1 with
    | none => exact h.bp e
    | some a => exact (h.alt a (.inl e)).2.2
  · rw [if_neg (by decide), if_pos rfl]
    cases e : p.alt2 with
    | none => exact h.bx e
    | some a => exact (h.alt a (.inr e)).2.2

/-- The stand-ins are set up. -/
theorem standIns_run {p : Plan} {cl : List Clob} {q : Placed} (h : Roles p cl q) (t : Ms) :
    ∃ r, arun sym t (standIns p) = { t with r := r } ∧ (∀ b, IsFrame b → r (altPtr p b) = t.r b) ∧
      ∀ x, p.alt1 ≠ some x → p.alt2 ≠ some x → r x = t.r x := by
  have ne : ∀ a, rAX ≤ a ∧ a ≤ rR15 → rBP ≠ a ∧ rBX ≠ a := by
    intro a ha
    constructor <;> romega
  unfold standIns
  cases e1 : p.alt1 with
  | none =>
    cases e2 : p.alt2 with
    | none =>
      refine ⟨t.r, rfl, ?_, fun _ _ _ => rfl⟩
      rintro b (rfl | rfl)
      · simp [altPtr, e1]
      · simp [altPtr, e1, e2, show ¬ rBX = rBP by decide]
    | some c =>
      obtain ⟨c1, c2, -⟩ := h.alt c (.inr e2)
      refine ⟨(t.set c (t.r rBX)).r, rfl, ?_, ?_⟩
      · rintro b (rfl | rfl)
        · simp only [altPtr, e1, if_true, Option.getD_none, set_r, if_neg (ne c ⟨c1, c2⟩).1]
        · simp [altPtr, e2, show ¬ rBX = rBP by decide, set_r]
      · intro x _ hx
        rw [set_r, if_neg fun e => hx (by rw [e])]
  | some a =>
    obtain ⟨a1, a2, -⟩ := h.alt a (.inl e1)
    have na := ne a ⟨a1, a2⟩
    cases e2 : p.alt2 with
    | none =>
      refine ⟨(t.set a (t.r rBP)).r, rfl, ?_, ?_⟩
      · rintro b (rfl | rfl)
        · simp [altPtr, e1, set_r]
        · simp only [altPtr, if_neg (show ¬ rBX = rBP by decide), e2, if_true, Option.getD_none, set_r, if_neg na.2]
      · intro x hx _
        rw [set_r, if_neg fun e => hx (by rw [e])]
    | some c =>
      have hac : a ≠ c := fun e => h.ne a e1 (by rw [e2, e])
      refine ⟨((t.set a (t.r rBP)).set c ((t.set a (t.r rBP)).r rBX)).r, rfl, ?_, ?_⟩
      · rintro b (rfl | rfl)
        · simp only [altPtr, e1, if_true, Option.getD_some, set_r, if_neg hac]
        · simp only [altPtr, if_neg (show ¬ rBX = rBP by decide), e2, if_true, Option.getD_some, set_r, if_neg na.2]
      · intro x hx hy
        rw [set_r, if_neg fun e => hy (by rw [e]), set_r, if_neg fun e => hx (by rw [e])]

/-- Facts about one statement used throughout. -/
theorem op_facts {outs ins : List (List Char × Arg)} {cl : List Clob} {p : Plan} (h : prepare outs ins cl = .ok p)
    {d : Nat → Opnd} {nOut : Nat} (ha : Asks66 (placed outs ins p.st) d nOut) :
    (∀ i, (p.st.ops i).cons = (placed outs ins p.st).cons i) ∧
    (∀ i, i < (placed outs ins p.st).count → OpOk (p.st.ops i) (d i)) ∧
    (∀ i j r, i < (placed outs ins p.st).count → j < (placed outs ins p.st).count → i ≠ j →
      loads (p.st.ops i) = some r → loads (p.st.ops j) ≠ some r) := by
  obtain ⟨s₁, s₂, s₃, h1, -, -, h4, -⟩ := prepare_inv h
  have hc : ∀ i, (p.st.ops i).cons = (placed outs ins p.st).cons i := by
    intro i
    rw [h4]
    exact h1.consEq i
  refine ⟨hc, ?_, ?_⟩
  · intro i hi
    refine ⟨ha.base i hi, fun r hr => ?_, fun hm => (gpSize_iff _).mpr (ha.size i hi hm), fun r hr => ha.byAddress i hi r hr⟩
    have := ha.general i hi r hr
    simp only [isGp, Bool.and_eq_true, decide_eq_true_eq]
    exact ⟨this.1, Nat.le_of_lt this.2⟩
  · intro i j r hi hj hij li lj
    have reg : ∀ k, loads (p.st.ops k) = some r → ((placed outs ins p.st).at_ k).register = some r ∧
        Before ((placed outs ins p.st).cons k) ((placed outs ins p.st).at_ k) ∧
        (∀ x, (placed outs ins p.st).at_ k = .inReg x → ((placed outs ins p.st).cons k).head? ≠ some '=') := by
      intro k lk
      show (placeOf (p.st.ops k)).register = some r ∧ Before _ (placeOf (p.st.ops k)) ∧ ∀ x, placeOf (p.st.ops k) = .inReg x → _
      unfold loads at lk
      split at lk
      · rename_i x hx
        cases lk
        rw [hx]
        exact ⟨rfl, trivial, fun x e => by cases e⟩
      · rename_i x hx
        split at lk
        · cases lk
        · rename_i hm
          cases lk
          rw [hx]
          have hm : ((placed outs ins p.st).cons k).head? ≠ some '=' := by rw [← hc]; exact hm
          refine ⟨rfl, ?_, fun _ _ => hm⟩
          by_cases hp : ((placed outs ins p.st).cons k).head? = some '+'
          · exact .inr (.inl hp)
          · exact .inl fun ho => ho.elim hm hp
      · cases lk
    obtain ⟨i1, i2, i3⟩ := reg i li
    obtain ⟨j1, j2, j3⟩ := reg j lj
    have tie : ∀ x y, x < (placed outs ins p.st).count → TiedTo ((placed outs ins p.st).cons x) y →
        loads (p.st.ops y) = some r → False := by
      intro x y hx ht ly
      obtain ⟨y1, -, y3⟩ := reg y ly
      obtain ⟨-, t2, t3⟩ := ha.tied x y hx ht
      cases hy : (placed outs ins p.st).at_ y with
      | inReg z => exact y3 z hy t2
      | memoryAt z => exact t3 z hy
      | _ => rw [hy] at y1; cases y1
    have hmd : MustDiffer ((placed outs ins p.st).cons i) ((placed outs ins p.st).at_ i)
      ((placed outs ins p.st).cons j) ((placed outs ins p.st).at_ j) := .inl ⟨i2, j2⟩
    rcases C48_distinct h hij i1 j1 hmd with ht | ht | ⟨e1, e2⟩
    · exact tie i j hi ht lj
    · exact tie j i hj ht li
    · rcases ha.named i j r hi hj hij e1 e2 i1 j1 hmd with ht | ht
      · exact tie i j hi ht lj
      · exact tie j i hj ht li

theorem loads_register {o : Op} {r : Reg} (h : loads o = some r) : (placeOf o).register = some r := by
  unfold loads at h
  split at h
  · rename_i hx; rw [hx]; exact h
  · rename_i hx
    split at h
    · cases h
    · rw [hx]; exact h
  · cases h

theorem zip_pushed (p : Plan) : (pushed p).zipIdx = (savedRegs p).zipIdx ++ (framePushed p).zipIdx (savedRegs p).length := by
  rw [pushed_eq, List.zipIdx_append, Nat.zero_add]

theorem zip_lt (p : Plan) : ∀ x ∈ (pushed p).zipIdx, x.2 < (pushed p).length := by
  rintro ⟨r, i⟩ hx
  exact List.snd_lt_of_mem_zipIdx hx |> fun h => by simpa using h

theorem zip_nodup (p : Plan) : ((pushed p).zipIdx.map Prod.snd).Nodup := by
  rw [List.zipIdx_map_snd]
  exact List.nodup_range'

theorem fst_mem {l : List Reg} {n : Nat} {x : Reg × Nat} (h : x ∈ l.zipIdx n) : x.1 ∈ l :=
  List.fst_mem_of_mem_zipIdx h

theorem mem_fst {l : List Reg} {n : Nat} {r : Reg} : r ∈ (l.zipIdx n).map Prod.fst ↔ r ∈ l := by
  rw [List.zipIdx_map_fst]

/-- The slot's base is right when a register is pushed and popped. -/
theorem slotBase_saved (p : Plan) (lp : Reg) {r : Reg} (h : r ∈ savedRegs p) : slotBase p lp r = lp := by
  obtain ⟨h1, h2, -⟩ := (mem_savedRegs p r).mp h
  refine if_neg ?_
  rintro (rfl | rfl) <;> revert h2 <;> decide

theorem slotBase_frame (p : Plan) (lp : Reg) {r : Reg} (h : r ∈ framePushed p) : slotBase p lp r = altPtr p lp := by
  refine if_pos ?_
  rcases (mem_framePushed p r).mp h with h | h
  · exact .inl h.1
  · exact .inr h.1

/-- Everything up to the text. -/
theorem before_run {outs ins : List (List Char × Arg)} {cl : List Clob} {p : Plan} (h : prepare outs ins cl = .ok p)
    {d : Nat → Opnd} {nOut lp stk k : Nat} {s : Ms} (ha : Asks66 (placed outs ins p.st) d nOut)
    (hap : Apart66 sym (placed outs ins p.st) d nOut lp stk k s) (hlp : IsFrame lp) (hk : 8 * (pushed p).length ≤ k) :
    ∃ l r m, before p lp stk (placed outs ins p.st).count d = some l ∧ arun sym s l = { s with r := r, m := m } ∧
      Kept s (s.r lp) stk (pushed p).length s.m (pushed p).zipIdx m ∧
      Bases p s { s with r := r, m := m } ∧
      (∀ x, ¬ HeldBy (placed outs ins p.st) x → p.alt1 ≠ some x → p.alt2 ≠ some x → r x = s.r x) ∧
      ∀ i, i < (placed outs ins p.st).count → ∀ x, loads (p.st.ops i) = some x → Held sym s (p.st.ops i) (d i) (r x) := by
  have ro := roles h
  obtain ⟨hc, hok, hld⟩ := op_facts h ha
  have hroom : stk + 8 * (pushed p).length < 2 ^ 63 := Nat.lt_of_le_of_lt (by omega) hap.room
  have hlt := zip_lt p
  have hnd := zip_nodup p
  rw [zip_pushed] at hlt hnd
  -- the saved registers
  obtain ⟨m1, p1, p2⟩ := pushes_run sym p lp stk (pushed p).length s (s.r lp) s.m hroom (savedRegs p).zipIdx [] s
    (fun x hx => hlt x (List.mem_append_left _ hx))
    (by
      rw [List.nil_append]
      rw [List.map_append, List.nodup_append] at hnd
      exact hnd.1)
    (fun x hx => ⟨by rw [slotBase_saved p lp (fst_mem hx)], rfl⟩)
    ⟨fun x hx => absurd hx List.not_mem_nil, fun _ _ => rfl⟩
  rw [List.nil_append] at p2
  -- the stand-ins
  obtain ⟨r2, q1, q2, q3⟩ := standIns_run (sym := sym) ro { s with m := m1 }
  have low : ∀ x, IsFrame x → p.alt1 ≠ some x ∧ p.alt2 ≠ some x := by
    intro x hx
    constructor
    · intro e
      have := (ro.alt x (.inl e)).2.1
      rcases hx with rfl | rfl <;> revert this <;> decide
    · intro e
      have := (ro.alt x (.inr e)).2.1
      rcases hx with rfl | rfl <;> revert this <;> decide
  have fr : ∀ x ∈ framePushed p, IsFrame x := by
    intro x hx
    rcases (mem_framePushed p x).mp hx with h | h
    · exact .inl h.1
    · exact .inr h.1
  obtain ⟨m3, t1, t2⟩ := pushes_run sym p lp stk (pushed p).length s (s.r lp) s.m hroom
    ((framePushed p).zipIdx (savedRegs p).length) (savedRegs p).zipIdx { s with m := m1, r := r2 } hlt hnd
    (fun x hx => by
      have hf := fr x.1 (fst_mem hx)
      refine ⟨?_, q3 x.1 (low _ hf).1 (low _ hf).2⟩
      rw [slotBase_frame p lp (fst_mem hx)]
      exact q2 lp hlp)
    p2
  rw [← zip_pushed] at t2
  -- the inputs
  have keep : ∀ a, ¬ InSlots lp stk k s a → m3 a = s.m a := fun a hna =>
    t2.rest a fun x hx hin => hna (slot_in (s.r lp) stk (pushed p).length k x.2 (zip_lt p x hx) hk hap.room a hin)
  obtain ⟨l, r, i1, i2, i3, i4⟩ := inputs_run (p := p) (s := s) sym d (List.range (placed outs ins p.st).count) { s with m := m3, r := r2 }
    q2
    (fun i hi => by
      have hi := List.mem_range.mp hi
      exact ⟨hok i hi, fun a hp => keep a (hap.ptrs i hi a hp), fun a ho => keep a (hap.objs i hi a ho)⟩)
    (fun i hi x hx b hb e => (altPtr_free ro hb).2 ⟨i, List.mem_range.mp hi, by rw [e]; exact loads_register hx⟩)
    (by
      refine (List.pairwise_lt_range).imp_of_mem ?_
      intro i j hi hj hij x hx
      exact hld i j x (List.mem_range.mp hi) (List.mem_range.mp hj) (Nat.ne_of_lt hij) hx)
  have bases : Bases p s { s with r := r, m := m3 } := by
    intro b hb
    show r (altPtr p b) = s.r b
    rw [i3 _ fun i hi hx => (altPtr_free ro hb).2 ⟨i, List.mem_range.mp hi, loads_register hx⟩]
    exact q2 b hb
  refine ⟨((pushed p).zipIdx.map (pushOne p lp stk (pushed p).length)).take (savedRegs p).length ++ standIns p ++
    ((pushed p).zipIdx.map (pushOne p lp stk (pushed p).length)).drop (savedRegs p).length ++ l, r, m3, ?_, ?_, t2, bases, ?_, ?_⟩
  · simp only [before, i1, Option.bind_eq_bind, Option.bind_some]
  · have e1 : ((pushed p).zipIdx.map (pushOne p lp stk (pushed p).length)).take (savedRegs p).length =
        (savedRegs p).zipIdx.map (pushOne p lp stk (pushed p).length) := by
      rw [zip_pushed, List.map_append, List.take_left']
      simp
    have e2 : ((pushed p).zipIdx.map (pushOne p lp stk (pushed p).length)).drop (savedRegs p).length =
        ((framePushed p).zipIdx (savedRegs p).length).map (pushOne p lp stk (pushed p).length) := by
      rw [zip_pushed, List.map_append, List.drop_left']
      simp
    rw [e1, e2, arun_append, arun_append, arun_append, p1, q1, t1, i2]
  · intro x hx h1 h2
    rw [i3 x fun i hi e => hx ⟨i, List.mem_range.mp hi, loads_register e⟩]
    exact q3 x h1 h2
  · intro i hi x hx
    exact i4 i (List.mem_range.mpr hi) x hx

/-- The scratch register is none of those still needed. -/
theorem tmp_free {outs ins : List (List Char × Arg)} {cl : List Clob} {p : Plan} (h : prepare outs ins cl = .ok p) :
    (∀ b, IsFrame b → altPtr p b ≠ p.tmp.getD 0) ∧
    (∀ i, IsOutput ((placed outs ins p.st).cons i) → i < outs.length → placeOf (p.st.ops i) ≠ .inReg (p.tmp.getD 0)) ∧
    p.tmp.getD 0 ≠ rSP := by
  have ro := roles h
  obtain ⟨t1, t2⟩ := C48_output_scratch h
  cases e : p.tmp with
  | none =>
    have he : outs = [] := by
      refine Classical.byContradiction fun hn => ?_
      have := t1.mpr hn
      rw [e] at this
      cases this
    refine ⟨fun b hb => ?_, fun i _ hi => (by rw [he] at hi; cases hi), by decide⟩
    unfold altPtr
    rcases hb with rfl | rfl
    · rw [if_pos rfl]
      cases e1 : p.alt1 with
      | none => decide
      | some a => intro e; have := (ro.alt a (.inl e1)).1; simp only [Option.getD_some, Option.getD_none] at e; subst e; revert this; decide
    · rw [if_neg (by decide), if_pos rfl]
      cases e1 : p.alt2 with
      | none => decide
      | some a => intro e; have := (ro.alt a (.inr e1)).1; simp only [Option.getD_some, Option.getD_none] at e; subst e; revert this; decide
  | some t =>
    obtain ⟨u1, u2, u3, u4, u5⟩ := t2 t e
    obtain ⟨-, v1, v2⟩ := C48_saved h (r := t) (.inr (.inr (.inr (.inr e))))
    simp only [Option.getD_some]
    refine ⟨fun b hb => ?_, fun i ho _ hx => u5 i ho hx, u2⟩
    unfold altPtr
    rcases hb with rfl | rfl
    · rw [if_pos rfl]
      cases e1 : p.alt1 with
      | none => intro e; have := v1 e.symm; rw [e1] at this; cases this
      | some a => rintro rfl; exact u3 e1
    · rw [if_neg (by decide), if_pos rfl]
      cases e1 : p.alt2 with
      | none => intro e; have := v2 e.symm; rw [e1] at this; cases this
      | some a => rintro rfl; exact u4 e1

theorem altPtr_notPushed {p : Plan} {cl : List Clob} {q : Placed} (ro : Roles p cl q) {b : Reg} (hb : IsFrame b) {x : Reg}
    (hx : x ∈ framePushed p) : x ≠ altPtr p b := by
  have hi : ∀ a, p.alt1 = some a ∨ p.alt2 = some a → x ≠ a := by
    intro a ha e
    have := (ro.alt a ha).2.1
    rw [← e] at this
    rcases (mem_framePushed p x).mp hx with h | h <;> rw [h.1] at this <;> revert this <;> decide
  intro e
  unfold altPtr at e
  rcases hb with rfl | rfl
  · rw [if_pos rfl] at e
    cases e1 : p.alt1 with
    | none =>
      rw [e1] at e
      rcases (mem_framePushed p x).mp hx with h | h
      · rw [e1] at h; cases h.2
      · rw [h.1] at e; revert e; decide
    | some a => rw [e1] at e; exact hi a (.inl e1) e
  · rw [if_neg (by decide), if_pos rfl] at e
    cases e1 : p.alt2 with
    | none =>
      rw [e1] at e
      rcases (mem_framePushed p x).mp hx with h | h
      · rw [h.1] at e; revert e; decide
      · rw [e1] at h; cases h.2
    | some a => rw [e1] at e; exact hi a (.inr e1) e

/-- **C66.** The text finds the values and addresses of its operands, and whatever it then does within
the contract, its results end up in their objects, nothing else changes in memory, and the registers
that belong to the caller are as they were. -/
theorem C66_asm {outs ins : List (List Char × Arg)} {cl : List Clob} {p : Plan} (h : prepare outs ins cl = .ok p)
    {d : Nat → Opnd} {lp stk k : Nat} {s : Ms} (ha : Asks66 (placed outs ins p.st) d outs.length)
    (hap : Apart66 sym (placed outs ins p.st) d outs.length lp stk k s) (hlp : IsFrame lp) (hk : 8 * (pushed p).length ≤ k) :
    ∃ lb la, before p lp stk (placed outs ins p.st).count d = some lb ∧ after p lp stk outs.length d = some la ∧
      Found sym (placed outs ins p.st) d (altMem p) lp stk k s (arun sym s lb) ∧
      ∀ s2, Text sym (placed outs ins p.st) d cl outs.length lp stk k s (arun sym s lb) s2 →
        Done sym (placed outs ins p.st) d outs.length lp stk k s s2 (arun sym s2 la) := by
  have ro := roles h
  obtain ⟨hc, hok, -⟩ := op_facts h ha
  obtain ⟨lb, r, m, b1, b2, b3, b4, b5, b6⟩ := before_run h ha hap hlp hk
  obtain ⟨f1, f2, f3⟩ := tmp_free h
  have hroom : stk + 8 * (pushed p).length < 2 ^ 63 := Nat.lt_of_le_of_lt (by omega) hap.room
  have inS : ∀ x ∈ (pushed p).zipIdx, ∀ a, InBlk (slotAt (s.r lp) stk (pushed p).length x.2) 8 a → InSlots lp stk k s a :=
    fun x hx a hin => slot_in (s.r lp) stk (pushed p).length k x.2 (zip_lt p x hx) hk hap.room a hin
  have keep : ∀ a, ¬ InSlots lp stk k s a → m a = s.m a := fun a hna => b3.rest a fun x hx hin => hna (inS x hx a hin)
  have spAlt : p.alt1 ≠ some rSP ∧ p.alt2 ≠ some rSP := by
    constructor
    · intro e; have := (ro.alt _ (.inl e)).2.1; revert this; decide
    · intro e; have := (ro.alt _ (.inr e)).2.1; revert this; decide
  have spHeld : ¬ HeldBy (placed outs ins p.st) rSP := by
    rintro ⟨i, hi, e⟩
    exact absurd (ha.general i hi _ e).2 (by decide)
  have sp1 : r rSP = s.r rSP := b5 rSP spHeld spAlt.1 spAlt.2
  have found : Found sym (placed outs ins p.st) d (altMem p) lp stk k s (arun sym s lb) := by
    rw [b2]
    refine ⟨?_, ?_, ?_, keep, sp1⟩
    · intro i x hi hx hne
      have hpl : placeOf (p.st.ops i) = .inReg x := hx
      have hm : mark (p.st.ops i) ≠ some '=' := by unfold mark; rw [hc]; exact hne
      have := b6 i hi x (by simp only [loads, hpl, if_neg hm])
      simpa only [Held, hpl] using this
    · intro i x hi hx
      have hpl : placeOf (p.st.ops i) = .memoryAt x := hx
      have := b6 i hi x (by simp only [loads, hpl])
      simpa only [Held, hpl] using this
    · intro i a hi hx hacc
      have hb := ha.base i hi
      rw [hacc] at hb
      simp only [objAddr, hacc]
      exact altMem_addr sym b4 a hb
  -- the outputs
  have outp : ∀ s2, Text sym (placed outs ins p.st) d cl outs.length lp stk k s (arun sym s lb) s2 →
      ∃ l t', each p (output p (p.tmp.getD 0)) d (List.range outs.length) = some l ∧ arun sym s2 l = t' ∧
        (∀ q, q ≠ p.tmp.getD 0 → t'.r q = s2.r q) ∧
        (∀ a, (∀ i ∈ List.range outs.length, Moves (p.st.ops i) → ¬ InObj sym s (d i) a) → t'.m a = s2.m a) ∧
        ∀ i ∈ List.range outs.length, Moves (p.st.ops i) →
          Result s2 (p.st.ops i) (d i) (rd t'.m (objAddr sym s (d i)) (d i).size) := by
    intro s2 ht
    rw [b2] at ht
    refine outputs_run sym (s := s) (s2 := s2) (p.tmp.getD 0) d outs.length f1 ?_ ?_ ?_ _ s2 (fun i hi => List.mem_range.mp hi) List.nodup_range ?_ ?_ (fun _ _ => rfl) rfl
    · intro i hi
      have hic := Nat.lt_of_lt_of_le hi ha.fewer
      exact ⟨hok i hic, f2 i ((ha.outputs i hic).mp hi) hi⟩
    · exact hap.outs
    · exact hap.ptrs'
    · intro b hb
      obtain ⟨n1, n2⟩ := altPtr_free ro hb
      rw [ht.regs (altPtr p b) n1 fun i hi e => n2 ⟨i, Nat.lt_of_lt_of_le hi ha.fewer, by rw [e]; rfl⟩]
      exact b4 b hb
    · intro i hi a hin
      rw [ht.ptrs i a hi hin]
      exact keep a (hap.ptrs i (Nat.lt_of_lt_of_le hi ha.fewer) a hin)
  have code : ∃ l, each p (output p (p.tmp.getD 0)) d (List.range outs.length) = some l := by
    obtain ⟨l, -, e, -⟩ := outp (arun sym s lb) ⟨fun _ _ _ => rfl, fun _ _ => rfl, fun _ _ _ _ => rfl⟩
    exact ⟨l, e⟩
  obtain ⟨lo, hlo⟩ := code
  refine ⟨lb, lo ++ ((pushed p).zipIdx.map (popOne p lp stk (pushed p).length)).reverse, b1, ?_, found, ?_⟩
  · simp only [after, hlo, Option.bind_eq_bind, Option.bind_some]
  intro s2 ht
  obtain ⟨l', t', o1, o2, o3, o4, o5⟩ := outp s2 ht
  rw [hlo] at o1
  cases o1
  rw [b2] at ht
  have slotsKept : ∀ x ∈ (pushed p).zipIdx, rd t'.m (slotAt (s.r lp) stk (pushed p).length x.2) 8 = s.r x.1 := by
    intro x hx
    rw [← b3.val x hx]
    refine rd_congr _ _ _ _ (Nat.le_refl 8) fun a hin => ?_
    have hs := inS x hx a hin
    rw [o4 a fun i hi _ ho => hap.objs i (Nat.lt_of_lt_of_le (List.mem_range.mp hi) ha.fewer) a ho hs]
    exact ht.slots a hs
  -- registers that nothing touched
  have same : ∀ x, ¬ Clobbered cl x → ¬ HeldBy (placed outs ins p.st) x → p.alt1 ≠ some x → p.alt2 ≠ some x →
      x ≠ p.tmp.getD 0 → t'.r x = s.r x := by
    intro x h1 h2 h3 h4 h5
    rw [o3 x h5, ht.regs x h1 fun i hi e => h2 ⟨i, Nat.lt_of_lt_of_le hi ha.fewer, by rw [e]; rfl⟩]
    exact b5 x h2 h3 h4
  have base : t'.r (altPtr p lp) = s.r lp := by
    obtain ⟨n1, n2⟩ := altPtr_free ro hlp
    rw [o3 _ (f1 lp hlp), ht.regs _ n1 fun i hi e => n2 ⟨i, Nat.lt_of_lt_of_le hi ha.fewer, by rw [e]; rfl⟩]
    exact b4 lp hlp
  -- the frame pointers come back
  obtain ⟨r1, c1, c2, c3⟩ := pops_run sym p lp (altPtr p lp) stk (pushed p).length s (s.r lp)
    ((framePushed p).zipIdx (savedRegs p).length).reverse t' base (by
      intro x hx
      have hx := List.mem_reverse.mp hx
      refine ⟨slotBase_frame p lp (fst_mem hx), altPtr_notPushed ro hlp (fst_mem hx), slotsKept x ?_⟩
      rw [zip_pushed]
      exact List.mem_append_right _ hx)
  have mf : ∀ x, x ∈ ((framePushed p).zipIdx (savedRegs p).length).reverse.map Prod.fst ↔ x ∈ framePushed p := by
    intro x
    rw [List.map_reverse, List.mem_reverse]
    exact mem_fst
  have notUsed : ∀ x, (∀ e : IsFrame x, x ∉ framePushed p) → IsFrame x → t'.r x = s.r x := by
    intro x hn hx
    have hn := hn hx
    have nu : ¬ (Clobbered cl x ∨ HeldBy (placed outs ins p.st) x ∨ p.alt1 = some x ∨ p.alt2 = some x ∨ p.tmp = some x) := by
      intro hu
      obtain ⟨-, v1, v2⟩ := C48_saved h hu
      apply hn
      rw [mem_framePushed]
      rcases hx with rfl | rfl
      · exact .inl ⟨rfl, v1 rfl⟩
      · exact .inr ⟨rfl, v2 rfl⟩
    simp only [not_or] at nu
    refine same x nu.1 nu.2.1 nu.2.2.1 nu.2.2.2.1 fun e => ?_
    cases et : p.tmp with
    | none => rw [et] at e; rcases hx with rfl | rfl <;> revert e <;> decide
    | some z => rw [et] at e; exact nu.2.2.2.2 (by rw [et, e]; rfl)
  have frames : ∀ x, IsFrame x → r1 x = s.r x := by
    intro x hx
    by_cases hp : x ∈ framePushed p
    · exact c2 x ((mf x).mpr hp)
    · rw [c3 x fun e => hp ((mf x).mp e)]
      exact notUsed x (fun _ => hp) hx
  -- and the others
  have notFrame : ∀ x, x ∈ savedRegs p → ¬ IsFrame x := by
    intro x hx hf
    have := ((mem_savedRegs p x).mp hx).2.1
    rcases hf with rfl | rfl <;> revert this <;> decide
  obtain ⟨r2, g1, g2, g3⟩ := pops_run sym p lp lp stk (pushed p).length s (s.r lp) (savedRegs p).zipIdx.reverse
    { t' with r := r1 } (frames lp hlp) (by
      intro x hx
      have hx := List.mem_reverse.mp hx
      refine ⟨slotBase_saved p lp (fst_mem hx), fun e => notFrame x.1 (fst_mem hx) (by rw [e]; exact hlp), slotsKept x ?_⟩
      rw [zip_pushed]
      exact List.mem_append_left _ hx)
  have ms : ∀ x, x ∈ (savedRegs p).zipIdx.reverse.map Prod.fst ↔ x ∈ savedRegs p := by
    intro x
    rw [List.map_reverse, List.mem_reverse]
    exact mem_fst
  have fin : arun sym s2 (lo ++ ((pushed p).zipIdx.map (popOne p lp stk (pushed p).length)).reverse) = { t' with r := r2 } := by
    rw [arun_append, o2, zip_pushed, List.map_append, List.reverse_append, ← List.map_reverse, ← List.map_reverse, arun_append, c1, g1]
  rw [fin]
  have mv : ∀ i, Moves (p.st.ops i) ↔ Moved (placed outs ins p.st) i := fun i => Iff.rfl
  refine ⟨?_, ?_, ?_, ?_, ?_⟩
  · intro i x hi hx
    have hpl : placeOf (p.st.ops i) = .inReg x := hx
    have := o5 i (List.mem_range.mpr hi) (.inr ⟨x, hpl⟩)
    simpa only [Result, hpl] using this
  · intro i hi hx
    have hpl : placeOf (p.st.ops i) = .flag := hx
    have := o5 i (List.mem_range.mpr hi) (.inl hpl)
    rw [← hc]
    simpa only [Result, hpl] using this
  · intro a _ hno
    exact o4 a fun i hi hm => hno i (List.mem_range.mp hi) ((mv i).mp hm)
  · rintro x hx
    show r2 x = s.r x
    by_cases hs : x ∈ savedRegs p
    · exact g2 x ((ms x).mpr hs)
    · rw [g3 x fun e => hs ((ms x).mp e)]
      show r1 x = s.r x
      by_cases hf : IsFrame x
      · exact frames x hf
      · have hr : rR12 ≤ x ∧ x ≤ rR15 := by
          rcases hx with hx | hx | hx
          · exact absurd (.inr hx) hf
          · exact absurd (.inl hx) hf
          · exact hx
        have hnp : x ∉ framePushed p := fun e => hf (by
          rcases (mem_framePushed p x).mp e with e | e
          · exact .inl e.1
          · exact .inr e.1)
        rw [c3 x fun e => hnp ((mf x).mp e)]
        have nu : ¬ (Clobbered cl x ∨ HeldBy (placed outs ins p.st) x ∨ p.alt1 = some x ∨ p.alt2 = some x ∨ p.tmp = some x) := by
          intro hu
          obtain ⟨v, -, -⟩ := C48_saved h hu
          exact hs ((mem_savedRegs p x).mpr ⟨hr.1, hr.2, v hr.1 hr.2⟩)
        simp only [not_or] at nu
        refine same x nu.1 nu.2.1 nu.2.2.1 nu.2.2.2.1 fun e => ?_
        cases et : p.tmp with
        | none =>
          rw [et] at e
          rw [e] at hr
          exact absurd hr.1 (by decide)
        | some z => rw [et] at e; exact nu.2.2.2.2 (by rw [et, e]; rfl)
  · show r2 rSP = s.r rSP
    have n1 : rSP ∉ savedRegs p := fun e => absurd ((mem_savedRegs p _).mp e).2.1 (by decide)
    have n2 : rSP ∉ framePushed p := by
      intro e
      rcases (mem_framePushed p _).mp e with e | e <;> exact absurd e.1 (by decide)
    rw [g3 rSP fun e => n1 ((ms _).mp e)]
    show r1 rSP = s.r rSP
    rw [c3 rSP fun e => n2 ((mf _).mp e), o3 rSP (Ne.symm f3)]
    have nc : ¬ Clobbered cl rSP := by
      rintro (⟨-, e, -⟩ | ⟨n, -, e1, e2⟩)
      · exact e rfl
      · romega
    rw [ht.regs rSP nc fun i hi e => spHeld ⟨i, Nat.lt_of_lt_of_le hi ha.fewer, by rw [e]; rfl⟩]
    exact sp1

/-! ### The hypotheses can be met -/

/-- `asm("…" : "=r"(a), "=&r"(*q), "=@ccz"(f) : "0"(c), "r"(x + 1), "b"(y), "m"(z), "m"(*w) : "rcx", "rbp", "r12")`. -/
def ex66Outs : List (List Char × Arg) := [asmOp "=r" { memop := true }, asmOp "=&r", asmOp "=@ccz" { memop := true }]
def ex66Ins : List (List Char × Arg) :=
  [asmOp "0" { memop := true }, asmOp "r", asmOp "b" { memop := true }, asmOp "m" { memop := true }, asmOp "m"]
def ex66Cl : List Clob := [.gp rCX, .gp rBP, .gp rR12]

/-- The variables, the copy of `x + 1` and the compiler's pointers in the frame; `z` is a global
variable. -/
def ex66D : Nat → Opnd
  | 0 => ⟨4, .memop (.at_ (-4) rBP)⟩
  | 1 => ⟨8, .ptr (-16) rBP⟩
  | 2 => ⟨4, .memop (.at_ (-20) rBP)⟩
  | 3 => ⟨4, .memop (.at_ (-24) rBP)⟩
  | 4 => ⟨8, .tmp (-32) rBP⟩
  | 5 => ⟨2, .memop (.at_ (-34) rBP)⟩
  | 6 => ⟨8, .memop (.sym 0)⟩
  | _ => ⟨1, .ptr (-48) rBP⟩

/-- The frame is at 0x8000; `q` points to 0x1000, `w` to 0x2000. -/
def ex66S : Ms :=
  { r := fun r => if r = rBP then 0x8000 else 0
    m := wr (wr (fun _ => 7) 0x7FF0 8 0x1000) 0x7FD0 8 0x2000
    flag := fun _ => false }

def ex66Sym : Nat → Word := fun _ => 0x3000

def ex66Places : List Where :=
  [.inReg rAX, .inReg rDX, .flag, .inReg rAX, .inReg rSI, .inReg rBX, .memory, .memoryAt rDI]

set_option maxRecDepth 4000 in
theorem ex66_shown : asmShown ex66Outs ex66Ins ex66Cl = some (ex66Places, some rR8, some rR9, some rBX) := by decide

set_option maxRecDepth 4000 in
theorem ex66_pushed : (match prepare ex66Outs ex66Ins ex66Cl with | .ok p => (pushed p).length | .error _ => 0) = 3 := by decide

theorem ex66_addr : objAddr ex66Sym ex66S (ex66D 0) = 0x7FFC ∧ objAddr ex66Sym ex66S (ex66D 1) = 0x1000 ∧
    objAddr ex66Sym ex66S (ex66D 2) = 0x7FEC ∧ objAddr ex66Sym ex66S (ex66D 3) = 0x7FE8 ∧
    objAddr ex66Sym ex66S (ex66D 4) = 0x7FE0 ∧ objAddr ex66Sym ex66S (ex66D 5) = 0x7FDE ∧
    objAddr ex66Sym ex66S (ex66D 6) = 0x3000 ∧ objAddr ex66Sym ex66S (ex66D 7) = 0x2000 := by
  refine ⟨?_, ?_, ?_, ?_, ?_, ?_, ?_, ?_⟩ <;> decide +kernel

theorem ex66_cases {i : Nat} (h : i < 8) : i = 0 ∨ i = 1 ∨ i = 2 ∨ i = 3 ∨ i = 4 ∨ i = 5 ∨ i = 6 ∨ i = 7 := by omega

theorem ex66_tied {i j : Nat} (h : i < 8) (ht : TiedTo (consOf (ex66Outs ++ ex66Ins) i) j) : i = 3 ∧ j = 0 := by
  by_cases h3 : i = 3
  · subst h3
    refine ⟨rfl, ?_⟩
    have := tied_digits (c := consOf (ex66Outs ++ ex66Ins) 3) (by decide) ht
    rw [← this]
    decide
  · exfalso
    have nd : ∀ x ∈ consOf (ex66Outs ++ ex66Ins) i, x.isDigit = false := by
      rcases ex66_cases h with rfl | rfl | rfl | rfl | rfl | rfl | rfl | rfl
      · decide
      · decide
      · decide
      · exact absurd rfl h3
      · decide
      · decide
      · decide
      · decide
    obtain ⟨pre, ds, post, e, h1, h2, -⟩ := ht
    cases ds with
    | nil => exact h1 rfl
    | cons x xs =>
      have a := nd x (by rw [e]; simp)
      have b := h2 x (by simp)
      rw [a] at b
      cases b

theorem blk_apart {x y a : Word} {n m : Nat} (h : InBlk x n a)
    (hd : (x.toNat + n ≤ y.toNat ∧ y.toNat + m < 2 ^ 64) ∨ (y.toNat + m ≤ x.toNat ∧ x.toNat + n < 2 ^ 64)) : ¬ InBlk y m a := by
  unfold InBlk at *
  intro h2
  bv_omega

/-- **The hypotheses of `C66_asm` hold of this statement**, with 24 bytes for the registers pushed. -/
theorem ex66_holds : ∃ p, prepare ex66Outs ex66Ins ex66Cl = .ok p ∧ 8 * (pushed p).length ≤ 24 ∧
    Asks66 (placed ex66Outs ex66Ins p.st) ex66D ex66Outs.length ∧
    Apart66 ex66Sym (placed ex66Outs ex66Ins p.st) ex66D ex66Outs.length rBP 64 24 ex66S := by
  have hs := ex66_shown
  have hn := ex66_pushed
  unfold asmShown at hs
  cases h : prepare ex66Outs ex66Ins ex66Cl with
  | error e => rw [h] at hs; cases hs
  | ok p =>
    rw [h] at hs hn
    simp only [Option.some.injEq, Prod.mk.injEq] at hs hn
    obtain ⟨hs, -⟩ := hs
    have at_ : ∀ i, i < 8 → (placed ex66Outs ex66Ins p.st).at_ i = ex66Places.getD i .nowhere := by
      intro i hi
      rw [← hs]
      rw [List.getD_eq_getElem?_getD, List.getElem?_map, List.getElem?_range (by exact hi)]
      rfl
    have hc : (placed ex66Outs ex66Ins p.st).count = 8 := rfl
    obtain ⟨a0, a1, a2, a3, a4, a5, a6, a7⟩ := ex66_addr
    refine ⟨p, rfl, by omega, ?_, ?_⟩
    · constructor
      · intro i hi
        show i < 3 ↔ IsOutput (consOf (ex66Outs ++ ex66Ins) i)
        rw [hc] at hi
        unfold IsOutput
        rcases ex66_cases hi with rfl | rfl | rfl | rfl | rfl | rfl | rfl | rfl <;> decide
      · show 3 ≤ 8
        decide
      · intro i hi r hr
        rw [at_ i hi] at hr
        rcases ex66_cases hi with rfl | rfl | rfl | rfl | rfl | rfl | rfl | rfl <;> cases hr <;> decide
      · intro i hi hm
        rcases ex66_cases hi with rfl | rfl | rfl | rfl | rfl | rfl | rfl | rfl <;> simp [ex66D]
      · intro i hi
        rcases ex66_cases hi with rfl | rfl | rfl | rfl | rfl | rfl | rfl | rfl <;> simp [ex66D, BaseOk, IsFrame]
      · intro i hi r hr
        rw [at_ i hi] at hr
        rcases ex66_cases hi with rfl | rfl | rfl | rfl | rfl | rfl | rfl | rfl <;> cases hr
        exact ⟨_, _, rfl⟩
      · intro i j hi ht
        obtain ⟨rfl, rfl⟩ := ex66_tied hi ht
        refine ⟨?_, by rfl, ?_⟩
        · show ¬ IsOutput (consOf (ex66Outs ++ ex66Ins) 3)
          unfold IsOutput
          decide
        · intro r hr
          rw [at_ 0 (by decide)] at hr
          cases hr
      · intro i j r hi hj hij _ _ ri rj _
        rw [at_ i hi] at ri
        rw [at_ j hj] at rj
        have t30 : TiedTo ((placed ex66Outs ex66Ins p.st).cons 3) 0 :=
          ⟨[], ['0'], [], rfl, by decide, by decide, by decide, (fun d hd => by cases hd), by decide⟩
        have hij2 : (i = 0 ∧ j = 3) ∨ (i = 3 ∧ j = 0) := by
          have hi' : i < 8 := hi
          have hj' : j < 8 := hj
          rcases ex66_cases hi' with rfl | rfl | rfl | rfl | rfl | rfl | rfl | rfl <;>
            rcases ex66_cases hj' with rfl | rfl | rfl | rfl | rfl | rfl | rfl | rfl <;>
            first
            | exact .inl ⟨rfl, rfl⟩
            | exact .inr ⟨rfl, rfl⟩
            | exact absurd rfl hij
            | (exfalso; cases ri; done)
            | (exfalso; rw [← ri] at rj; revert rj; decide)
        rcases hij2 with ⟨rfl, rfl⟩ | ⟨rfl, rfl⟩
        · exact .inr t30
        · exact .inl t30
    · have slots : ∀ a, InSlots rBP 64 24 ex66S a ↔ InBlk 0x7FA8 24 a := by
        intro a
        unfold InSlots
        rw [show ex66S.r rBP - BitVec.ofNat 64 (64 + 24) = 0x7FA8 by decide]
      constructor
      · decide
      · intro i hi a ho
        rw [slots]
        unfold InObj at ho
        rcases ex66_cases hi with rfl | rfl | rfl | rfl | rfl | rfl | rfl | rfl
        · rw [a0] at ho; exact blk_apart ho (by decide)
        · rw [a1] at ho; exact blk_apart ho (by decide)
        · rw [a2] at ho; exact blk_apart ho (by decide)
        · rw [a3] at ho; exact blk_apart ho (by decide)
        · rw [a4] at ho; exact blk_apart ho (by decide)
        · rw [a5] at ho; exact blk_apart ho (by decide)
        · rw [a6] at ho; exact blk_apart ho (by decide)
        · rw [a7] at ho; exact blk_apart ho (by decide)
      · intro i hi a hp
        rw [slots]
        rcases ex66_cases hi with rfl | rfl | rfl | rfl | rfl | rfl | rfl | rfl <;> first
          | exact hp.elim
          | exact blk_apart (x := 0x7FF0) (n := 8) hp (by decide)
          | exact blk_apart (x := 0x7FD0) (n := 8) hp (by decide)
      · intro i j hi hj hij _ _ a h1 h2
        unfold InObj at h1 h2
        have hi' : i = 0 ∨ i = 1 ∨ i = 2 := by have : i < 3 := hi; omega
        have hj' : j = 0 ∨ j = 1 ∨ j = 2 := by have : j < 3 := hj; omega
        rcases hi' with rfl | rfl | rfl <;> rcases hj' with rfl | rfl | rfl
        · exact hij rfl
        · rw [a0] at h1; rw [a1] at h2; exact blk_apart h1 (by decide) h2
        · rw [a0] at h1; rw [a2] at h2; exact blk_apart h1 (by decide) h2
        · rw [a1] at h1; rw [a0] at h2; exact blk_apart h1 (by decide) h2
        · exact hij rfl
        · rw [a1] at h1; rw [a2] at h2; exact blk_apart h1 (by decide) h2
        · rw [a2] at h1; rw [a0] at h2; exact blk_apart h1 (by decide) h2
        · rw [a2] at h1; rw [a1] at h2; exact blk_apart h1 (by decide) h2
        · exact hij rfl
      · intro i j hi hj _ a h1 h2
        unfold InObj at h1
        have hi' : i = 0 ∨ i = 1 ∨ i = 2 := by have : i < 3 := hi; omega
        have hj' : j = 0 ∨ j = 1 ∨ j = 2 := by have : j < 3 := hj; omega
        have h3 : InBlk 0x7FF0 8 a := by
          rcases hj' with rfl | rfl | rfl
          · exact h2.elim
          · exact h2
          · exact h2.elim
        rcases hi' with rfl | rfl | rfl
        · rw [a0] at h1; exact blk_apart h1 (by decide) h3
        · rw [a1] at h1; exact blk_apart h1 (by decide) h3
        · rw [a2] at h1; exact blk_apart h1 (by decide) h3

end Slimcc.Props
