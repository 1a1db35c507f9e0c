import Verif.Lemmas.CallBytes
import Verif.Props.C37
set_option autoImplicit false
/-!
C52 Structure and scalar values survive being passed and returned.

`passAll` loads the arguments that go in registers from the caller's memory `m`;
`recvAll` stores them to the callee's frame in memory `m₀` (the same memory,
later); `retRegs` and `retStores` do the same for a structure returned in
registers.
-/
namespace Slimcc.Props
open Slimcc.CC Slimcc.SysV Slimcc.CCL

/-- Every argument passed in registers arrives byte for byte, whatever the other
arguments are, and nothing outside the parameters is written. -/
theorem C52_pass (args : List Arg) (retSize : Nat) (hr : ∀ a ∈ args, Regular a.ty ∧ Whole a.ty)
    (hd : ∀ (i j : Nat) (a b : Arg), i < j → args[i]? = some a → args[j]? = some b →
      ∀ x, ¬ (InBlock x a ∧ InBlock x b)) (up : Bytes) (m m₀ : Memory) (f : RF) :
    ∃ m', recvAll args (conv (args.map (·.ty)) { gp := b2n (retSize > 16), fp := 0 }).1
        (b2n (retSize > 16)) 0
        (passAll up m args (conv (args.map (·.ty)) { gp := b2n (retSize > 16), fp := 0 }).1
          (b2n (retSize > 16)) 0 f) m₀ = some m' ∧
      (∀ (i : Nat) (a : Arg) (rs : List Reg), args[i]? = some a →
        (callArgs (args.map (·.ty)) retSize).1[i]? = some (.regs rs) →
        ∀ k, k < a.ty.size → m' (a.dst + k) = m (a.src + k)) ∧
      ∀ x, (∀ a ∈ args, ¬ InBlock x a) → m' x = m₀ x := by
  generalize hc : ({ gp := b2n (decide (retSize > 16)), fp := 0 } : Cnt) = c₀ at *
  have hslot : ∀ (ts : List CTy) (c : Cnt) (i : Nat), (conv ts c).1[i]? = some .inRegs →
      ∃ t c', ts[i]? = some t ∧ (convStep c' t).1 = .inRegs := by
    intro ts
    induction ts with
    | nil => intro c i h; simp [conv] at h
    | cons t ts ih =>
      intro c i h
      cases i with
      | zero => exact ⟨t, c, rfl, by simpa [conv] using h⟩
      | succ i =>
        obtain ⟨t', c', h1, h2⟩ := ih (convStep c t).2 i (by simpa [conv] using h)
        exact ⟨t', c', by simpa using h1, h2⟩
  have hreg : ∀ (i : Nat) (a : Arg), args[i]? = some a →
      (conv (args.map (·.ty)) c₀).1[i]? = some .inRegs → RegTy a.ty := by
    intro i a h1 h2
    obtain ⟨t, c', h3, h4⟩ := hslot _ _ i h2
    rw [List.getElem?_map, h1] at h3
    cases h3
    obtain ⟨hr1, hr2⟩ := hr a (List.mem_of_getElem? h1)
    exact regTy_of hr1 hr2 h4
  have hloc : ∀ (ts : List CTy) (c : Cnt) (i : Nat) (rs : List Reg),
      (walk ts c)[i]? = some (.regs rs) → (conv ts c).1[i]? = some .inRegs := by
    intro ts
    induction ts with
    | nil => intro c i rs h; simp [walk] at h
    | cons t ts ih =>
      intro c i rs h
      cases i with
      | zero =>
        simp only [walk, List.getElem?_cons_zero, Option.some.injEq] at h
        simp only [conv, List.getElem?_cons_zero, Option.some.injEq]
        rcases convStep_cases c t with ⟨e, -⟩ | ⟨e, -⟩
        · exact e
        · rw [e] at h; cases h
      | succ i =>
        have := ih (convStep c t).2 i rs (by simpa [walk] using h)
        simpa [conv] using this
  obtain ⟨m', h1, h2, h3⟩ := recvAll_ok m args (conv (args.map (·.ty)) c₀).1 (b2n (retSize > 16)) 0
    (passAll up m args (conv (args.map (·.ty)) c₀).1 (b2n (retSize > 16)) 0 f) m₀ hreg
    (fun i j a b hij ha hb _ _ => hd i j a b hij ha hb) (passAll_held up m args _ _ _ f hreg)
  refine ⟨m', h1, ?_, ?_⟩
  · intro i a rs ha hl
    rw [callArgs_walk, hc] at hl
    exact h2 i a ha (hloc _ _ i rs hl)
  · intro x hx
    exact h3 x (fun i a ha _ => hx a (List.mem_of_getElem? ha))

/-- A structure of at most 16 bytes comes back byte for byte, and nothing else is
written. -/
theorem C52_return {un : Bool} {s a : Nat} {ms : Mems} (hr : Regular (.agg un s a ms)) (hs : s ≤ 16)
    (hw : Whole (.agg un s a ms)) (m m₀ : Memory) (src dst : Nat) (f : RF) :
    ∃ f', retRegs (.agg un s a ms) m src f = some f' ∧
      (∀ k, k < s → retStores (.agg un s a ms) dst 0 0 0 f' m₀ (dst + k) = m (src + k)) ∧
      ∀ x, ¬ (dst ≤ x ∧ x < dst + s) → retStores (.agg un s a ms) dst 0 0 0 f' m₀ x = m₀ x :=
  ret_ok hr hs hw m m₀ src dst f

/-! ### Examples -/

theorem whole_vec : Whole ccVec := fun _ => ⟨3, rfl⟩
theorem whole_mix : Whole ccMix := fun _ => ⟨4, rfl⟩
/-- `struct { short s; char c[5]; }`, of seven bytes if packed; here the five
bytes `struct { char c[5]; }`. -/
def ccFive : CTy := .agg false 5 1 (.cons 0 (.arr (.scalar (.int 1) 1) 5) .nil)
theorem regular_five : Regular ccFive :=
  ⟨.inr ⟨_, _, _, _, rfl⟩, by simp [ccFive, WF, WFm, SK.size, CTy.size], by decide,
    .inl (by decide), fun _ _ => ⟨by decide, by
      intro e he
      have : e = 0 := by simp only [ccFive, CTy.size] at he; omega
      subst this; decide⟩⟩
theorem whole_five : Whole ccFive := by
  rintro ⟨l, h1, h2⟩
  have h : ∀ l ∈ leaves ccFive 0, ¬ (l.2 = .float ∨ l.2 = .double) := by decide
  exact absurd h2 (h l h1)

def byteArgs : List Arg := [⟨ccFive, 100, 200⟩, ⟨ccMix, 110, 210⟩, ⟨ccVec, 130, 230⟩]

example : ∀ a ∈ byteArgs, Regular a.ty ∧ Whole a.ty := by
  intro a ha
  simp only [byteArgs, List.mem_cons, List.not_mem_nil, or_false] at ha
  rcases ha with rfl | rfl | rfl
  · exact ⟨regular_five, whole_five⟩
  · exact ⟨regular_mix, whole_mix⟩
  · exact ⟨regular_vec, whole_vec⟩

/-- The parameters are apart, and all of them go in registers. -/
example : ∀ (i j : Nat) (a b : Arg), i < j → byteArgs[i]? = some a → byteArgs[j]? = some b →
    ∀ x, ¬ (InBlock x a ∧ InBlock x b) := by
  intro i j a b hij ha hb x
  have hj := (List.getElem?_eq_some_iff.mp hb).1
  simp only [byteArgs, List.length_cons, List.length_nil] at hj
  have : (i = 0 ∧ j = 1) ∨ (i = 0 ∧ j = 2) ∨ (i = 1 ∧ j = 2) := by omega
  rcases this with ⟨rfl, rfl⟩ | ⟨rfl, rfl⟩ | ⟨rfl, rfl⟩ <;>
    simp only [byteArgs, List.getElem?_cons_zero, List.getElem?_cons_succ, Option.some.injEq] at ha hb <;>
    subst ha <;> subst hb <;>
    simp only [InBlock, ccFive, ccMix, ccVec, CTy.size] <;> omega

example : (callArgs (byteArgs.map (·.ty)) 0).1 =
    [.regs [.gp 0], .regs [.fp 0, .gp 1], .regs [.fp 1, .fp 2]] := by decide

/-! ### Departures -/

/-- Loading a structure of five bytes into a register reads eight bytes: what
follows the structure in memory ends up in the register, so the access can also
leave the object's page. -/
theorem C52_reads_past_the_end :
    ∃ (m m' : Memory), (∀ k, k < ccFive.size → m (100 + k) = m' (100 + k)) ∧
      (passAll (fun _ => 0) m [⟨ccFive, 100, 200⟩] [.inRegs] 0 0 ⟨fun _ _ => 0, fun _ _ => 0⟩).gp 0 5 ≠
      (passAll (fun _ => 0) m' [⟨ccFive, 100, 200⟩] [.inRegs] 0 0 ⟨fun _ _ => 0, fun _ _ => 0⟩).gp 0 5 := by
  refine ⟨fun _ => 0, fun x => if x = 105 then 1 else 0, ?_, by decide⟩
  intro k hk
  have : k < 5 := hk
  have h : ¬ 100 + k = 105 := by omega
  simp only [if_neg h]

/-- `struct { char : 1; }` has a byte but no member: the code takes it for
floating-point and gives up when a function has such a parameter; the value
returned is written over eight bytes. -/
def ccUnnamed : CTy := .agg false 1 1 .nil

theorem C52_only_unnamed_bitfield :
    recvAll [⟨ccUnnamed, 100, 200⟩] (conv [ccUnnamed] { gp := 0, fp := 0 }).1 0 0
      ⟨fun _ _ => 0, fun _ _ => 0⟩ (fun _ => 0) = none ∧
    retStores ccUnnamed 200 0 0 0 ⟨fun _ _ => 0, fun _ _ => 0⟩ (fun _ => 7) 207 ≠ 7 := by
  refine ⟨by decide, ?_⟩
  have h : hasFlonum1 ccUnnamed = true := by decide
  rw [retStores, if_pos (by decide)]
  simp only [retFlo, h, if_true]
  rw [retStores, if_neg (by decide)]
  decide

end Slimcc.Props
