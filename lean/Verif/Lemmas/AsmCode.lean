import Verif.Spec.AsmText
import Verif.Lemmas.MemCopy
import Verif.Lemmas.AsmInv
/-! The code around the text of an `asm` statement. -/
set_option autoImplicit false
namespace Slimcc.AsmL
open Slimcc.Asm Slimcc.AsmSpec
open Slimcc.X86 (Word rd wr put zx)
open Slimcc.Spec (InBlk Disj)

variable (sym : Nat → Word)

theorem arun_append (s : Ms) (l k : List AIns) : arun sym s (l ++ k) = arun sym (arun sym s l) k := List.foldl_append

theorem arun_cons (s : Ms) (i : AIns) (k : List AIns) : arun sym s (i :: k) = arun sym (aexec sym s i) k := rfl

theorem set_r (s : Ms) (r q : Reg) (v : Word) : (s.set r v).r q = if q = r then v else s.r q := rfl

/-- Where slot `i` is. -/
def slotAt (L : Word) (stk n i : Nat) : Word := L + BitVec.ofInt 64 (slotOfs stk n i)

theorem slot_disj (L : Word) (stk n i j : Nat) (hi : i < n) (hj : j < n) (hij : i ≠ j) (hs : stk + 8 * n < 2 ^ 63) :
    Disj (slotAt L stk n i) 8 (slotAt L stk n j) 8 := by
  intro c ⟨h1, h2⟩
  unfold InBlk slotAt slotOfs at h1 h2
  obtain ⟨x, hx⟩ : ∃ x, x = stk + (n - i) * 8 := ⟨_, rfl⟩
  obtain ⟨y, hy⟩ : ∃ y, y = stk + (n - j) * 8 := ⟨_, rfl⟩
  rw [← hx] at h1
  rw [← hy] at h2
  have hx' : x < 2 ^ 63 := by omega
  have hy' : y < 2 ^ 63 := by omega
  have hne : x + 8 ≤ y ∨ y + 8 ≤ x := by omega
  rw [BitVec.ofInt_neg, BitVec.ofInt_natCast] at h1 h2
  clear hx hy
  bv_omega

theorem slot_in (L : Word) (stk n k i : Nat) (hi : i < n) (hk : 8 * n ≤ k) (hs : stk + k < 2 ^ 63) (a : Word)
    (h : InBlk (slotAt L stk n i) 8 a) : InBlk (L - BitVec.ofNat 64 (stk + k)) k a := by
  unfold InBlk slotAt slotOfs at *
  obtain ⟨x, hx⟩ : ∃ x, x = stk + (n - i) * 8 := ⟨_, rfl⟩
  rw [← hx] at h
  have h1 : stk + 8 ≤ x := by omega
  have h2 : x ≤ stk + k := by omega
  rw [BitVec.ofInt_neg, BitVec.ofInt_natCast] at h
  clear hx
  bv_omega

/-- The slots of `P` hold what the registers held in `s`; the rest of memory is `m0`. -/
structure Kept (s : Ms) (L : Word) (stk n : Nat) (m0 : Mem) (P : List (Reg × Nat)) (m : Mem) : Prop where
  val : ∀ x ∈ P, rd m (slotAt L stk n x.2) 8 = s.r x.1
  rest : ∀ a, (∀ x ∈ P, ¬ InBlk (slotAt L stk n x.2) 8 a) → m a = m0 a

theorem pushes_run (p : Plan) (lp : Reg) (stk n : Nat) (s : Ms) (L : Word) (m0 : Mem) (hs : stk + 8 * n < 2 ^ 63) :
    ∀ (l P : List (Reg × Nat)) (t : Ms), (∀ x ∈ P ++ l, x.2 < n) → ((P ++ l).map Prod.snd).Nodup →
      (∀ x ∈ l, t.r (slotBase p lp x.1) = L ∧ t.r x.1 = s.r x.1) → Kept s L stk n m0 P t.m →
      ∃ m, arun sym t (l.map (pushOne p lp stk n)) = { t with m := m } ∧ Kept s L stk n m0 (P ++ l) m := by
  intro l
  induction l with
  | nil => intro P t _ _ _ hk; exact ⟨t.m, rfl, by rwa [List.append_nil]⟩
  | cons x l ih =>
    intro P t hn hd hb hk
    obtain ⟨b1, b2⟩ := hb x (List.mem_cons_self ..)
    rw [show P ++ x :: l = (P ++ [x]) ++ l by simp] at hn hd ⊢
    have e : aexec sym t (pushOne p lp stk n x) = { t with m := wr t.m (slotAt L stk n x.2) 8 (s.r x.1) } := by
      simp only [pushOne, aexec, AMem.addr, b1, b2, slotAt]
    rw [List.map_cons, arun_cons, e]
    have hK : Kept s L stk n m0 (P ++ [x]) (wr t.m (slotAt L stk n x.2) 8 (s.r x.1)) := by
      constructor
      · intro y hy
        rcases List.mem_append.mp hy with hy | hy
        · have hne : x.2 ≠ y.2 := by
            intro e
            rw [List.append_assoc, List.map_append, List.nodup_append] at hd
            exact hd.2.2 y.2 (List.mem_map_of_mem hy) x.2 (by simp) e.symm
          show rd (wr t.m _ 8 _) _ 8 = _
          rw [rd_wr_disj _ _ _ _ _ _ (Nat.le_refl 8) (slot_disj L stk n _ _ (hn x (by simp)) (hn y (by simp [hy])) hne hs)]
          exact hk.val y hy
        · obtain rfl := List.mem_singleton.mp hy
          show rd (wr t.m _ 8 _) _ 8 = _
          rw [rd_wr_same _ _ _ _ (Nat.le_refl 8)]
          simp [zx]
      · intro a ha
        show wr t.m _ 8 _ a = _
        rw [wr_other _ _ _ _ _ (ha x (by simp))]
        exact hk.rest a fun y hy => ha y (by simp [hy])
    exact ih (P ++ [x]) { t with m := wr t.m (slotAt L stk n x.2) 8 (s.r x.1) } hn hd
      (fun y hy => hb y (List.mem_cons_of_mem _ hy)) hK

theorem pops_run (p : Plan) (lp b : Reg) (stk n : Nat) (s : Ms) (L : Word) :
    ∀ (l : List (Reg × Nat)) (t : Ms), t.r b = L →
      (∀ x ∈ l, slotBase p lp x.1 = b ∧ x.1 ≠ b ∧ rd t.m (slotAt L stk n x.2) 8 = s.r x.1) →
      ∃ r, arun sym t (l.map (popOne p lp stk n)) = { t with r := r } ∧
        (∀ q, q ∈ l.map Prod.fst → r q = s.r q) ∧ ∀ q, q ∉ l.map Prod.fst → r q = t.r q := by
  intro l
  induction l with
  | nil => intro t _ _; exact ⟨t.r, rfl, ⟨fun q h => absurd h List.not_mem_nil, fun q _ => rfl⟩⟩
  | cons x l ih =>
    intro t hb hx
    obtain ⟨h1, h2, h3⟩ := hx x (List.mem_cons_self ..)
    have e : aexec sym t (popOne p lp stk n x) = t.set x.1 (s.r x.1) := by
      simp only [popOne, aexec, AMem.addr, h1, hb]
      rw [show L + BitVec.ofInt 64 (slotOfs stk n x.2) = slotAt L stk n x.2 from rfl, h3]
      rfl
    rw [List.map_cons, arun_cons, e]
    obtain ⟨r, g1, g2, g3⟩ := ih (t.set x.1 (s.r x.1)) (by rw [set_r, if_neg (Ne.symm h2)]; exact hb)
      fun y hy => hx y (List.mem_cons_of_mem _ hy)
    refine ⟨r, g1, fun q hq => ?_, fun q hq => ?_⟩
    · by_cases hl : q ∈ l.map Prod.fst
      · exact g2 q hl
      · rw [g3 q hl, set_r]
        rcases List.mem_cons.mp hq with rfl | hq
        · rw [if_pos rfl]
        · exact absurd hq hl
    · simp only [List.map_cons, List.mem_cons, not_or] at hq
      rw [g3 q hq.2, set_r, if_neg hq.1]

/-- The frame pointers, or what stands in for them, hold what the frame pointers held in `s`. -/
def Bases (p : Plan) (s t : Ms) : Prop := ∀ b, IsFrame b → t.r (altPtr p b) = s.r b

/-- The local variable with the operand's address holds what it held in `s`. -/
def PtrKept (s t : Ms) (o : Opnd) : Prop := ∀ a, InPtr sym s o a → t.m a = s.m a

theorem altMem_addr {p : Plan} {s t : Ms} (hb : Bases p s t) (a : AMem) (h : BaseOk (.memop a)) :
    (altMem p a).addr sym t = a.addr sym s := by
  cases a with
  | sym x => rfl
  | at_ f b => simp only [altMem, AMem.addr, hb b h]

theorem ptr_load {p : Plan} {s t : Ms} (hb : Bases p s t) {o : Opnd} {f : Int} {b : Reg} (ha : o.acc = .ptr f b) (h : BaseOk o.acc)
    (hp : PtrKept sym s t o) : rd t.m ((AMem.at_ f (altPtr p b)).addr sym t) 8 = objAddr sym s o := by
  simp only [objAddr, ha, AMem.addr]
  rw [ha] at h
  rw [hb b h]
  refine rd_congr _ _ _ _ (Nat.le_refl 8) fun c hc => hp c ?_
  simp only [InPtr, ha]
  exact hc

theorem genPtr_run {p : Plan} {s t : Ms} (hb : Bases p s t) (o : Opnd) (tmp : Reg) (h : BaseOk o.acc) (hp : PtrKept sym s t o) :
    ∃ r, arun sym t (genPtr p o tmp).1 = { t with r := r } ∧ (∀ q, q ≠ tmp → r q = t.r q) ∧
      (genPtr p o tmp).2.addr sym { t with r := r } = objAddr sym s o := by
  unfold genPtr
  cases ha : o.acc with
  | memop a =>
    refine ⟨t.r, rfl, fun _ _ => rfl, ?_⟩
    rw [ha] at h
    simp only [objAddr, ha]
    exact altMem_addr sym hb a h
  | ptr f b =>
    have e := ptr_load sym hb ha h hp
    refine ⟨_, rfl, fun q hq => ?_, ?_⟩
    · show (t.set tmp _).r q = _
      rw [set_r, if_neg hq]
    · show (t.set tmp _).r tmp + BitVec.ofInt 64 0 = _
      rw [set_r, if_pos rfl, e]
      simp [put]
  | tmp f b =>
    refine ⟨t.r, rfl, fun _ _ => rfl, ?_⟩
    rw [ha] at h
    simp only [objAddr, ha, AMem.addr]
    rw [show ({ t with r := t.r } : Ms).r = t.r from rfl, hb b h]

/-- The register the compiler loads for an operand. -/
def loads (o : Op) : Option Reg :=
  match placeOf o with
  | .memoryAt r => some r
  | .inReg r => if mark o = some '=' then none else some r
  | _ => none

/-- What it holds then. -/
def Held (s : Ms) (o : Op) (d : Opnd) (v : Word) : Prop :=
  match placeOf o with
  | .memoryAt _ => v = objAddr sym s d
  | _ => zx d.size v = rd s.m (objAddr sym s d) d.size

theorem gpSize_iff (n : Nat) : gpSize n = true ↔ n = 1 ∨ n = 2 ∨ n = 4 ∨ n = 8 := by
  simp [gpSize, or_assoc]

theorem gpInput_run {p : Plan} {s t : Ms} (hb : Bases p s t) (o : Op) (d : Opnd) (h : BaseOk d.acc) (hp : PtrKept sym s t d)
    (ho : ∀ a, InObj sym s d a → t.m a = s.m a)
    (hg : ∀ r, (placeOf o).register = some r → isGp r = true)
    (hz : ∀ r, placeOf o = .inReg r → gpSize d.size = true)
    (hm : ∀ r, placeOf o = .memoryAt r → ∃ f b, d.acc = .ptr f b) :
    ∃ l r, gpInput p o d = some l ∧ arun sym t l = { t with r := r } ∧
      (∀ q, loads o ≠ some q → r q = t.r q) ∧ ∀ q, loads o = some q → Held sym s o d (r q) := by
  have none_ : isGp 0 = false := rfl
  by_cases hr : o.kind = .reg
  · have hpl : placeOf o = .inReg o.reg := by unfold placeOf; rw [hr]
    have k1 : ¬ (o.kind = .mem ∧ o.reg ≠ 0) := by rw [hr]; rintro ⟨h, -⟩; cases h
    by_cases hk : mark o = some '='
    · refine ⟨[], t.r, ?_, rfl, fun _ _ => rfl, fun q hq => ?_⟩
      · have e0 : inputReg o = 0 := if_neg fun h => h.2 hk
        simp only [gpInput, if_neg k1, e0, none_, Bool.false_eq_true, if_false, Option.bind_eq_bind, Option.bind_some]
        rfl
      · simp only [loads, hpl, if_pos hk] at hq; cases hq
    · have e0 : inputReg o = o.reg := if_pos ⟨hr, hk⟩
      have hgp := hg o.reg (by rw [hpl]; rfl)
      have hsz := hz o.reg hpl
      have h8 := (gpSize_iff _).mp hsz
      obtain ⟨r, g1, g2, g3⟩ := genPtr_run sym hb d o.reg h hp
      refine ⟨(genPtr p d o.reg).1 ++ [.ld d.size (genPtr p d o.reg).2 o.reg],
        (({ t with r := r } : Ms).set o.reg (put d.size (r o.reg) (rd t.m (objAddr sym s d) d.size))).r, ?_, ?_, ?_, ?_⟩
      · simp only [gpInput, if_neg k1, e0, hgp, if_true, regInput, hsz, Option.bind_eq_bind, Option.bind_some]
        rfl
      · rw [arun_append, g1]
        simp only [arun, List.foldl, aexec, g3]
        rfl
      · intro q hq
        simp only [loads, hpl, if_neg hk] at hq
        have hq : q ≠ o.reg := fun e => hq (by rw [e])
        rw [set_r, if_neg hq]
        exact g2 q hq
      · intro q hq
        simp only [loads, hpl, if_neg hk] at hq
        cases hq
        simp only [Held, hpl]
        rw [set_r, if_pos rfl, MemL.zx_put _ h8, rd_congr t.m s.m _ _ (by omega) fun a ha => ho a ha, zx_rd _ _ _ (by omega)]
  · have e0 : inputReg o = 0 := if_neg fun h => hr h.1
    by_cases k1 : o.kind = .mem ∧ o.reg ≠ 0
    · have hpl : placeOf o = .memoryAt o.reg := by unfold placeOf; rw [k1.1]; exact if_neg k1.2
      obtain ⟨f, b, ha⟩ := hm o.reg hpl
      have e := ptr_load sym hb ha h hp
      refine ⟨[.ld 8 (.at_ f (altPtr p b)) o.reg], (t.set o.reg (objAddr sym s d)).r, ?_, ?_, ?_, ?_⟩
      · simp only [gpInput, if_pos k1, ha, e0, none_, Bool.false_eq_true, if_false, Option.bind_eq_bind, Option.bind_some]
        rfl
      · simp only [arun, List.foldl, aexec, e]
        rfl
      · intro q hq
        simp only [loads, hpl] at hq
        rw [set_r, if_neg fun e => hq (by rw [e])]
      · intro q hq
        simp only [loads, hpl] at hq
        cases hq
        simp only [Held, hpl]
        rw [set_r, if_pos rfl]
    · have hl : loads o = none := by
        unfold loads placeOf
        cases hk : o.kind with
        | mem =>
          simp only
          rw [if_pos (Classical.byContradiction fun hn => k1 ⟨hk, hn⟩)]
        | reg => exact absurd hk hr
        | _ => rfl
      refine ⟨[], t.r, ?_, rfl, fun _ _ => rfl, fun q hq => by rw [hl] at hq; cases hq⟩
      simp only [gpInput, if_neg k1, e0, none_, Bool.false_eq_true, if_false, Option.bind_eq_bind, Option.bind_some]
      rfl

/-- What is asked of an operand for the code to be right. -/
structure OpOk (o : Op) (d : Opnd) : Prop where
  base : BaseOk d.acc
  gp : ∀ r, (placeOf o).register = some r → isGp r = true
  size : (placeOf o = .flag ∨ ∃ r, placeOf o = .inReg r) → gpSize d.size = true
  mem : ∀ r, placeOf o = .memoryAt r → ∃ f b, d.acc = .ptr f b

theorem inputs_run {p : Plan} {s : Ms} (d : Nat → Opnd) : ∀ (is : List Nat) (t : Ms), Bases p s t →
    (∀ i ∈ is, OpOk (p.st.ops i) (d i) ∧ PtrKept sym s t (d i) ∧ ∀ a, InObj sym s (d i) a → t.m a = s.m a) →
    (∀ i ∈ is, ∀ r, loads (p.st.ops i) = some r → ∀ b, IsFrame b → altPtr p b ≠ r) →
    is.Pairwise (fun i j => ∀ r, loads (p.st.ops i) = some r → loads (p.st.ops j) ≠ some r) →
    ∃ l r, each p (gpInput p) d is = some l ∧ arun sym t l = { t with r := r } ∧
      (∀ q, (∀ i ∈ is, loads (p.st.ops i) ≠ some q) → r q = t.r q) ∧
      ∀ i ∈ is, ∀ q, loads (p.st.ops i) = some q → Held sym s (p.st.ops i) (d i) (r q) := by
  intro is
  induction is with
  | nil => intro t _ _ _ _; exact ⟨[], t.r, rfl, rfl, fun _ _ => rfl, fun i hi => absurd hi List.not_mem_nil⟩
  | cons i is ih =>
    intro t hb ho hl hd
    obtain ⟨o1, o2, o3⟩ := ho i (List.mem_cons_self ..)
    rw [List.pairwise_cons] at hd
    obtain ⟨l, r, h1, h2, h3, h4⟩ := gpInput_run sym hb (p.st.ops i) (d i) o1.base o2 o3 o1.gp (fun r h => o1.size (.inr ⟨r, h⟩)) o1.mem
    obtain ⟨l', r', g1, g2, g3, g4⟩ := ih { t with r := r }
      (fun b hbf => by
        show r _ = _
        rw [h3 _ fun e => hl i (List.mem_cons_self ..) _ e b hbf rfl]
        exact hb b hbf)
      (fun j hj => ho j (List.mem_cons_of_mem _ hj)) (fun j hj => hl j (List.mem_cons_of_mem _ hj)) hd.2
    refine ⟨l ++ l', r', ?_, ?_, ?_, ?_⟩
    · simp only [each, h1, g1, Option.bind_eq_bind, Option.bind_some]
    · rw [arun_append, h2, g2]
    · intro q hq
      rw [g3 q fun j hj => hq j (List.mem_cons_of_mem _ hj)]
      exact h3 q (hq i (List.mem_cons_self ..))
    · intro j hj q hq
      rcases List.mem_cons.mp hj with rfl | hj
      · rw [g3 q fun k hk => hd.1 k hk q hq]
        exact h4 q hq
      · exact g4 j hj q hq

/-- The value a result gets. -/
def Result (s2 : Ms) (o : Op) (d : Opnd) (v : Word) : Prop :=
  match placeOf o with
  | .inReg r => v = zx d.size (s2.r r)
  | .flag => v = if s2.flag (o.cons.drop 4) then 1 else 0
  | _ => True

def Moves (o : Op) : Prop := placeOf o = .flag ∨ ∃ r, placeOf o = .inReg r

theorem flag_rd (m : Mem) (a : Word) (n : Nat) (hn : n = 1 ∨ n = 2 ∨ n = 4 ∨ n = 8) (c : Bool) :
    rd (wr (if n ≠ 1 then wr m a n 0 else m) a 1 (if c then 1 else 0)) a n = if c then 1 else 0 := by
  have one : ∀ m : Mem, rd (wr m a 1 (if c then 1 else 0)) a 1 = if c then 1 else 0 := by
    intro m
    rw [rd_wr_same _ _ _ _ (by omega)]
    cases c <;> rfl
  by_cases h1 : n = 1
  · subst h1
    exact one _
  rw [if_pos h1]
  have e : ∀ k, 1 ≤ k → k ≤ n → rd (wr (wr m a n 0) a 1 (if c then 1 else 0)) a k = if c then 1 else 0 := by
    intro k
    induction k with
    | zero => intro h; omega
    | succ k ih =>
      intro _ hk
      by_cases hk0 : k = 0
      · subst hk0; exact one _
      · simp only [rd]
        rw [ih (by omega) (by omega)]
        have hx : (a + BitVec.ofNat 64 k - a).toNat = k := by
          rw [BitVec.add_comm, BitVec.add_sub_cancel, BitVec.toNat_ofNat, Nat.mod_eq_of_lt (by omega)]
        have : wr (wr m a n 0) a 1 (if c then 1 else 0) (a + BitVec.ofNat 64 k) = 0 := by
          unfold wr
          rw [hx, if_neg (by omega), if_pos (by omega)]
          simp
        rw [this]
        simp
  exact e n (by omega) (Nat.le_refl n)

theorem output_run {p : Plan} {s t : Ms} (hb : Bases p s t) (tmp : Reg) (o : Op) (d : Opnd) (ok : OpOk o d) (hp : PtrKept sym s t d)
    (ht : placeOf o ≠ .inReg tmp) :
    ∃ l r m, output p tmp o d = some l ∧ arun sym t l = { t with r := r, m := m } ∧
      (∀ q, q ≠ tmp → r q = t.r q) ∧ (∀ a, (Moves o → ¬ InObj sym s d a) → m a = t.m a) ∧
      (Moves o → Result t o d (rd m (objAddr sym s d) d.size)) := by
  obtain ⟨r, g1, g2, g3⟩ := genPtr_run sym hb d tmp ok.base hp
  by_cases hr : o.kind = .reg
  · have hpl : placeOf o = .inReg o.reg := by unfold placeOf; rw [hr]
    have hgp := ok.gp o.reg (by rw [hpl]; rfl)
    have hsz := ok.size (.inr ⟨_, hpl⟩)
    have h8 := (gpSize_iff _).mp hsz
    have hne : o.reg ≠ tmp := fun e => ht (by rw [hpl, e])
    refine ⟨(genPtr p d tmp).1 ++ [.st d.size o.reg (genPtr p d tmp).2], r, wr t.m (objAddr sym s d) d.size (t.r o.reg), ?_, ?_, g2, ?_, ?_⟩
    · simp only [output, if_pos hr, hgp, if_true, regOutput, hsz]
    · rw [arun_append, g1]
      simp only [arun, List.foldl, aexec, g3]
      rw [g2 _ hne]
    · intro a ha
      exact wr_other _ _ _ _ _ (ha (.inr ⟨_, hpl⟩))
    · intro _
      simp only [Result, hpl]
      exact rd_wr_same _ _ _ _ (by omega)
  · by_cases hf : o.kind = .flag
    · have hpl : placeOf o = .flag := by unfold placeOf; rw [hf]
      have hsz := ok.size (.inl hpl)
      have h8 := (gpSize_iff _).mp hsz
      refine ⟨(genPtr p d tmp).1 ++ (if d.size ≠ 1 then [.zero d.size (genPtr p d tmp).2] else []) ++ [.setc (o.cons.drop 4) (genPtr p d tmp).2], r,
        wr (if d.size ≠ 1 then wr t.m (objAddr sym s d) d.size 0 else t.m) (objAddr sym s d) 1 (if t.flag (o.cons.drop 4) then 1 else 0), ?_, ?_, g2, ?_, ?_⟩
      · simp only [output, if_neg hr, if_pos hf, hsz, if_true]
      · rw [arun_append, arun_append, g1]
        have ga : ∀ m f, (genPtr p d tmp).2.addr sym { r := r, m := m, flag := f } = objAddr sym s d := by
          intro m f
          rw [← g3]
          cases (genPtr p d tmp).2 <;> rfl
        by_cases h1 : d.size ≠ 1
        · rw [if_pos h1, if_pos h1]
          simp only [arun, List.foldl, aexec, ga]
        · rw [if_neg h1, if_neg h1]
          simp only [arun, List.foldl, aexec, ga]
          rfl
      · intro a ha
        have ha := ha (.inl hpl)
        have h1 : ¬ InBlk (objAddr sym s d) 1 a := fun h => ha (Nat.lt_of_lt_of_le h (by omega))
        rw [wr_other _ _ _ _ _ h1]
        by_cases h1 : d.size ≠ 1
        · rw [if_pos h1]; exact wr_other _ _ _ _ _ ha
        · rw [if_neg h1]
      · intro _
        simp only [Result, hpl]
        exact flag_rd _ _ _ h8 _
    · have hn : ¬ Moves o := by
        unfold Moves placeOf
        cases hk : o.kind with
        | reg => exact absurd hk hr
        | flag => exact absurd hk hf
        | mem =>
          simp only
          rintro (h | ⟨r, h⟩) <;> split at h <;> cases h
        | _ => rintro (h | ⟨r, h⟩) <;> cases h
      exact ⟨[], t.r, t.m, by simp only [output, if_neg hr, if_neg hf], rfl, fun _ _ => rfl, fun _ _ => rfl, fun h => absurd h hn⟩

theorem outputs_run {p : Plan} {s s2 : Ms} (tmp : Reg) (d : Nat → Opnd) (nOut : Nat) (htb : ∀ b, IsFrame b → altPtr p b ≠ tmp)
    (hok : ∀ i, i < nOut → OpOk (p.st.ops i) (d i) ∧ placeOf (p.st.ops i) ≠ .inReg tmp)
    (hdis : ∀ i j, i < nOut → j < nOut → i ≠ j → Moves (p.st.ops i) → Moves (p.st.ops j) → ∀ a, InObj sym s (d i) a → ¬ InObj sym s (d j) a)
    (hptr : ∀ i j, i < nOut → j < nOut → Moves (p.st.ops i) → ∀ a, InObj sym s (d i) a → ¬ InPtr sym s (d j) a) :
    ∀ (is : List Nat) (t : Ms), (∀ i ∈ is, i < nOut) → is.Nodup → Bases p s t → (∀ i, i < nOut → PtrKept sym s t (d i)) →
    (∀ q, q ≠ tmp → t.r q = s2.r q) → t.flag = s2.flag →
    ∃ l t', each p (output p tmp) d is = some l ∧ arun sym t l = t' ∧ (∀ q, q ≠ tmp → t'.r q = s2.r q) ∧
      (∀ a, (∀ i ∈ is, Moves (p.st.ops i) → ¬ InObj sym s (d i) a) → t'.m a = t.m a) ∧
      ∀ i ∈ is, Moves (p.st.ops i) → Result s2 (p.st.ops i) (d i) (rd t'.m (objAddr sym s (d i)) (d i).size) := by
  intro is
  induction is with
  | nil => intro t _ _ _ _ hr _; exact ⟨[], t, rfl, rfl, hr, fun _ _ => rfl, fun i hi => absurd hi List.not_mem_nil⟩
  | cons i is ih =>
    intro t hin hnd hb hp hr hf
    have hi := hin i (List.mem_cons_self ..)
    rw [List.nodup_cons] at hnd
    obtain ⟨o1, o2⟩ := hok i hi
    obtain ⟨l, r, m, h1, h2, h3, h4, h5⟩ := output_run sym hb tmp (p.st.ops i) (d i) o1 (hp i hi) o2
    obtain ⟨l', t', g1, g2, g3, g4, g5⟩ := ih { t with r := r, m := m } (fun j hj => hin j (List.mem_cons_of_mem _ hj)) hnd.2
      (fun b hbf => (h3 _ (htb b hbf)).trans (hb b hbf))
      (fun j hj a ha => (h4 a fun hm ho => hptr i j hi hj hm a ho ha).trans (hp j hj a ha))
      (fun q hq => (h3 q hq).trans (hr q hq)) hf
    refine ⟨l ++ l', t', ?_, ?_, g3, ?_, ?_⟩
    · simp only [each, h1, g1, Option.bind_eq_bind, Option.bind_some]
    · rw [arun_append, h2, g2]
    · intro a ha
      rw [g4 a fun j hj => ha j (List.mem_cons_of_mem _ hj)]
      exact h4 a (ha i (List.mem_cons_self ..))
    · intro j hj hm
      rcases List.mem_cons.mp hj with rfl | hj
      · have e : rd t'.m (objAddr sym s (d j)) (d j).size = rd m (objAddr sym s (d j)) (d j).size := by
          have h8 := (gpSize_iff _).mp (o1.size hm)
          refine rd_congr _ _ _ _ (by omega) fun a ha => g4 a fun k hk hmk ho => ?_
          exact hdis j k hi (hin k (List.mem_cons_of_mem _ hk)) (fun e => hnd.1 (e ▸ hk)) hm hmk a ha ho
        rw [e]
        have h5 := h5 hm
        unfold Result at h5 ⊢
        rw [hf] at h5
        revert h5
        cases hpl : placeOf (p.st.ops j) with
        | inReg q =>
          simp only
          rw [hr q fun e => o2 (by rw [hpl, e])]
          exact id
        | _ => exact id
      · exact g5 j hj hm

end Slimcc.AsmL
