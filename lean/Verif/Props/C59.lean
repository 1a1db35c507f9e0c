import Verif.Lemmas.AddrTotal
/-!
C59: designators and address constants resolved at compile time.

`Spec/Lvalue` gives the address a designator stands for in a machine state, from the standard. `resolve`
(Model/Addr) is the variable and offset at which the code generator accesses it, `fixedAddr` the number
`offsetof` and addresses without a variable give, `staticInit` the symbol and addend written into the
object file for a pointer with static storage duration. `Cfg` is whatever the host, `-O` and the sharing
of type objects do.
-/
set_option autoImplicit false
namespace Slimcc.Props
open Slimcc Slimcc.Spec Slimcc.Ty Slimcc.Addr

section
variable (C : Cfg) (P : ODecls)

/-- A designator that is resolved stands for the object at that offset of that variable, in every state
of the machine, and evaluating it changes nothing. -/
theorem C59_designator (hC : C.Ok) (l : LV) (t : OTy) (ht : l.ty P = some t) (hw : l.Wf) (hn : l.NoSum) (sub : Bool)
    (x : Nat) (o : Int) (h : resolve C P sub l = some (x, o)) (M : Machine) (σ σ' : Store) (hσ : StoreOk P.ints σ)
    (hnear : l.Near P M σ) (a : BitVec 64) (he : l.eval P M σ = .ok (a, σ')) :
    a = M.addr x + BitVec.ofInt 64 o ∧ σ' = σ := by
  have h' : evalVar C P true (buildL C P l) = some (x, o) := by
    cases sub with
    | true => exact h
    | false => exact evalVar_sub C P h
  exact ((lc C P hC M l t ht hw hn).1.place x o h').2 σ σ' a hσ hnear he

/-- A designator that is a number stands for the object at that address, however far from zero. -/
theorem C59_number (hC : C.Ok) (l : LV) (t : OTy) (ht : l.ty P = some t) (hw : l.Wf) (hn : l.NoSum) (v : BitVec 64)
    (h : fixedAddr C P l = some v) (M : Machine) (σ σ' : Store) (hσ : StoreOk P.ints σ) (a : BitVec 64)
    (he : l.eval P M σ = .ok (a, σ')) : a = v ∧ σ' = σ := by
  unfold fixedAddr evalNonVar at h
  split at h
  · unfold nonVar at h
    split at h
    · rename_i w c hev
      split at h
      · rename_i hc
        injection h with h
        subst h
        have hc : c.var = none := by simpa using hc
        have := ((lc C P hC M l t ht hw hn).1.agg {} c w hev rfl (.inl hc)).2.2 σ σ' a hσ he
        rw [hc, base_none] at this
        exact this
      · cases h
    · cases h
  · cases h

/-- The symbol and addend written for a pointer with static storage duration are the value of its
initializer. -/
theorem C59_initializer (hC : C.Ok) (p : PE) (t : OTy) (ht : p.pointee P = some t) (hw : p.Wf) (hn : p.NoSum) (t' : OTy)
    (s : Option Nat) (v : BitVec 64) (h : staticInit C P t' p = some (s, v)) (M : Machine) (σ σ' : Store)
    (hσ : StoreOk P.ints σ) (hnear : p.Near P M σ) (a : BitVec 64) (he : p.eval P M σ = .ok (a, σ')) :
    a = M.symbol s + v ∧ σ' = σ := by
  have ip := (pc C P hC M p t ht hw hn).1
  unfold staticInit constOf at h
  rw [ev_cast_ptr, ev_cast_ptr] at h
  split at h
  · rename_i w hc
    injection h with h; injection h with h1 h2
    subst h1 h2
    rw [Option.map_eq_some_iff] at hc
    obtain ⟨⟨w', c'⟩, hc, e⟩ := hc
    have := (ip.con _ _ _ hc).2 σ σ' a hσ he
    dsimp only at e
    rw [← e, show M.symbol none = 0#64 from rfl, BitVec.zero_add]
    exact this
  · split at h
    · rename_i w c hev
      split at h
      · injection h with h; injection h with h1 h2
        have := (ip.lab _ _ _ hev rfl).2 σ σ' a hσ hnear he
        rw [h1, h2] at this
        cases s with
        | none => exact this
        | some x => exact this
      · cases h
    · cases h

/-- Members and constant subscripts of a variable are resolved; as values, if they are not arrays. -/
theorem C59_resolves (hC : C.Ok) (l : LV) (t : OTy) (ht : l.ty P = some t) (hl : Fixed P l) (x : Nat)
    (hr : l.root = some x) (sub : Bool) (hs : sub = true ∨ ∀ u n, t ≠ .arr u n) : ∃ o, resolve C P sub l = some (x, o) := by
  refine fixed_place C P hC hl t ht x hr sub (hs.imp_right fun h => ?_)
  cases t with
  | arr u n => exact absurd rfl (h u n)
  | _ => rfl

/-- Members and constant subscripts of an object at a constant address are numbers. -/
theorem C59_offset (hC : C.Ok) (l : LV) (t : OTy) (ht : l.ty P = some t) (hl : Fixed P l) (hr : l.root = none) :
    ∃ v, fixedAddr C P l = some v :=
  fixed_number C P hC hl t ht hr

/-- Address constants made from a variable are accepted as initializers, with a reference to that
variable. -/
theorem C59_accepted (hC : C.Ok) (p : PE) (t : OTy) (ht : p.pointee P = some t) (hp : AddrConst P p) (x : Nat)
    (hr : p.root = some x) (t' : OTy) : ∃ v, staticInit C P t' p = some (some x, v) := by
  obtain ⟨hw, hn⟩ := AddrConst.wf P hp
  have ip := (pc C P hC ⟨fun _ => 0, fun _ => 0⟩ p t ht hw hn).1
  obtain ⟨v, c, h1, h2⟩ := addrConst_lab C P hC hp t ht x hr {} rfl
  refine ⟨v, ?_⟩
  unfold staticInit constOf
  rw [ev_cast_ptr, ev_cast_ptr]
  have hcon : ev C P (buildP C P p) .con {} = none := by
    cases hc : ev C P (buildP C P p) .con {} with
    | none => rfl
    | some r => rw [(ip.con _ r.2 r.1 hc).1] at hr; cases hr
  rw [hcon, h1]
  dsimp only [Option.map_none]
  rw [h2, (ip.lab _ _ _ h1 rfl).1, hr]
  rfl

end

/-! Cases meeting the hypotheses: `struct S { long arr[4]; long y; int *q; } s; struct { int x, y; } a[3];
int i;`. -/
def adC : Cfg := ⟨fun _ _ x _ => x, true, fun _ _ => false⟩
theorem adC_ok : adC.Ok := fun _ _ h => by cases h
def adP : ODecls where
  structs s := if s = 0 then ⟨48, [(0, .arr (.int .long) 4), (32, .int .long), (40, .ptr (.int .int))]⟩
    else ⟨8, [(0, .int .int), (4, .int .int)]⟩
  objs x := if x = 0 then .struct 0 else if x = 1 then .arr (.struct 1) 3 else .arr (.int .char) 4294967297
  ints := allInt
def adM : Machine := ⟨fun x => 4096 + 4096 * BitVec.ofNat 64 x, fun _ => 0⟩

/-- `a[2].y`. -/
def adElem : LV := .member (.deref (.add (.decay (.var 1)) (.expr (.num .int 2)))) 1
theorem adElem_fixed : Fixed adP adElem :=
  .member _ _ (.elem _ _ (.var 1) (.mk _ 2 σ0 σ0 (by decide) trivial σ0_ok rfl))
example : adElem.ty adP = some (.int .int) ∧ adElem.root = some 1 ∧ resolve adC adP false adElem = some (1, 20) ∧
    adElem.eval adP adM σ0 = .ok (8212, σ0) := ⟨rfl, rfl, rfl, rfl⟩
theorem adElem_near : adElem.Near adP adM σ0 := by
  have key : ∀ (l : LV) (x0 : Nat) (b : BitVec 64), l.root = some x0 → l.eval adP adM σ0 = .ok (b, σ0) →
      -2147483648 ≤ (b - adM.addr x0).toInt ∧ (b - adM.addr x0).toInt < 2147483648 → LV.Stays adP adM σ0 l := by
    intro l x0 b h1 h2 h3 x a σ' h4 h5
    rw [h1] at h4; injection h4 with h4; subst h4
    rw [h2] at h5; injection h5 with h5; injection h5 with h5; subst h5
    exact h3
  exact ⟨key _ 1 8212 rfl rfl (by decide), key _ 1 8208 rfl rfl (by decide), trivial⟩
example : (8212 : BitVec 64) = adM.addr 1 + BitVec.ofInt 64 20 ∧ σ0 = σ0 :=
  C59_designator adC adP adC_ok adElem (.int .int) rfl ⟨trivial, show Expr.Wf _ by decide⟩ ⟨trivial, trivial⟩ false 1 20 rfl adM
    σ0 σ0 σ0_ok adElem_near 8212 rfl

/-- `offsetof(struct S, arr[3])`. -/
def adOff : LV := .deref (.add (.decay (.member (.deref (.ofInt (.struct 0) (.expr (.num .int 0)))) 0)) (.expr (.num .int 3)))
theorem adOff_fixed : Fixed adP adOff :=
  .elem _ _ (.member _ _ (.at _ _ (.mk _ 0 σ0 σ0 (by decide) trivial σ0_ok rfl))) (.mk _ 3 σ0 σ0 (by decide) trivial σ0_ok rfl)
example : adOff.ty adP = some (.int .long) ∧ adOff.root = none ∧ fixedAddr adC adP adOff = some 24 ∧
    adOff.eval adP adM σ0 = .ok (24, σ0) := ⟨rfl, rfl, rfl, rfl⟩

/-- `&a[2].y - 1`, `(char *)s.arr + 5`. -/
def adPtr : PE := .sub (.addr adElem) (.expr (.num .int 1))
theorem adPtr_const : AddrConst adP adPtr := .sub _ _ (.addr _ adElem_fixed) (.mk _ 1 σ0 σ0 (by decide) trivial σ0_ok rfl)
example : adPtr.pointee adP = some (.int .int) ∧ adPtr.root = some 1 ∧ staticInit adC adP (.int .int) adPtr = some (some 1, 16) ∧
    adPtr.eval adP adM σ0 = .ok (8208, σ0) := ⟨rfl, rfl, rfl, rfl⟩
def adPtr2 : PE := .add (.cast (.int .char) (.decay (.member (.var 0) 0))) (.expr (.num .int 5))
theorem adPtr2_const : AddrConst adP adPtr2 :=
  .add _ _ (.cast _ _ (.decay _ (.member _ _ (.var 0)))) (.mk _ 5 σ0 σ0 (by decide) trivial σ0_ok rfl)
example : staticInit adC adP (.int .char) adPtr2 = some (some 0, 5) := rfl
/-- An element chosen at run time is not resolved. -/
example : resolve adC adP true (.member (.deref (.add (.decay (.var 1)) (.expr (.var 2)))) 1) = none := rfl

/-! ### Where the compiler departs from C -/

/-- `*(int *)((long)s.arr + s.y)`. -/
def adSum : LV := .deref (.ofInt (.int .int) (.plus (.ofPtr .long (.decay (.member (.var 0) 0))) (.obj (.member (.var 0) 1))))
/-- With the addition of integers (excluded by `NoSum`) the value of an object is taken for its offset:
`*(int *)((long)s.arr + s.y)` is accessed at `s + 32` whatever `s.y` is. -/
theorem C59_sum_of_integers : adSum.ty adP = some (.int .int) ∧ adSum.Wf ∧ resolve adC adP true adSum = some (0, 32) ∧
    adSum.eval adP adM σ0 = .ok (adM.addr 0, σ0) := by
  refine ⟨rfl, ⟨trivial, trivial⟩, rfl, ?_⟩
  have h1 : adM.int .long (adM.addr 0 + BitVec.ofNat 64 32) = 0 := by decide
  have h2 : CTy.conv .long ((adM.addr 0 + BitVec.ofNat 64 0).toNat : Nat) = 4096 := by decide
  have h3 : CTy.conv .long (4096 + 0) = 4096 := by decide
  show Res.ok (BitVec.ofInt 64 (CTy.conv .long (CTy.conv .long ((adM.addr 0 + BitVec.ofNat 64 0).toNat : Nat) +
    adM.int .long (adM.addr 0 + BitVec.ofNat 64 32))), σ0) = _
  rw [h1, h2, h3]
  rfl

/-- `&a->y` and `&((struct S *)&s)->y` are address constants of C, but they are rejected as
initializers. -/
theorem C59_rejected : staticInit adC adP (.int .int) (.addr (.member (.deref (.decay (.var 1))) 1)) = none ∧
    staticInit adC adP (.int .long) (.addr (.member (.deref (.cast (.struct 0) (.addr (.var 0)))) 1)) = none :=
  ⟨rfl, rfl⟩

/-- `big[4294967296]` of `char big[4294967297]`. -/
def adFar : LV := .deref (.add (.decay (.var 2)) (.expr (.num .long 4294967296)))
/-- Offsets are kept in an `int`: an element 4 GiB into an object (excluded by `Near`) is accessed at its
start. -/
theorem C59_far : adFar.ty adP = some (.int .char) ∧ adFar.Wf ∧ adFar.NoSum ∧ resolve adC adP false adFar = some (2, 0) ∧
    adFar.eval adP adM σ0 = .ok (adM.addr 2 + 4294967296, σ0) :=
  ⟨rfl, ⟨trivial, show Expr.Wf _ by decide⟩, ⟨trivial, trivial⟩, rfl, rfl⟩

end Slimcc.Props
