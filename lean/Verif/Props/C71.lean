import Verif.Spec.Vla
set_option autoImplicit false
/-!
C71 Variable length arrays have their storage while they are in scope, and give it back.
-/
namespace Slimcc.Props
open Slimcc.Vla Slimcc.Spec.Vla

/-! ### Alignment -/

theorem and_neg_pow (x : Word) (k : Nat) (hk : k ≤ 31) : (x &&& (- BitVec.ofNat 64 (2 ^ k))).toNat = x.toNat / 2 ^ k * 2 ^ k := by
  have hp : (2 : Nat) ^ k < 2 ^ 64 := Nat.pow_lt_pow_right (by decide) (by omega)
  have hpos : (0 : Nat) < 2 ^ k := Nat.two_pow_pos k
  rw [BitVec.toNat_and, BitVec.toNat_neg, BitVec.toNat_ofNat, Nat.mod_eq_of_lt hp, Nat.mod_eq_of_lt (by omega)]
  apply Nat.eq_of_testBit_eq
  intro i
  have h16 : x.toNat / 2 ^ k * 2 ^ k = (x.toNat >>> k) <<< k := by
    simp [Nat.shiftRight_eq_div_pow, Nat.shiftLeft_eq]
  have hc : (2 ^ 64 - 2 ^ k : Nat) = (2 ^ (64 - k) - 1) <<< k := by
    rw [Nat.shiftLeft_eq, Nat.sub_mul, ← Nat.pow_add, Nat.one_mul]
    congr 2
    omega
  rw [h16, Nat.testBit_and, Nat.testBit_shiftLeft, Nat.testBit_shiftRight, hc, Nat.testBit_shiftLeft, Nat.testBit_two_pow_sub_one]
  by_cases h4 : i ≥ k
  · have e : k + (i - k) = i := by omega
    by_cases h64 : i < 64
    · have : i - k < 64 - k := by omega
      simp [h4, this, e]
    · have hb : x.toNat.testBit i = false := by
        apply Nat.testBit_lt_two_pow
        exact Nat.lt_of_lt_of_le x.isLt (Nat.pow_le_pow_right (by decide) (by omega))
      simp [hb, e]
  · simp [h4]

theorem max_pow (k : Nat) : ∃ j, max (2 ^ k) 16 = 2 ^ j ∧ (k ≤ 31 → j ≤ 31) := by
  by_cases h : k ≤ 4
  · refine ⟨4, ?_, fun _ => by omega⟩
    have : 2 ^ k ≤ 2 ^ 4 := Nat.pow_le_pow_right (by decide) h
    omega
  · refine ⟨k, ?_, id⟩
    have : 2 ^ 4 ≤ 2 ^ k := Nat.pow_le_pow_right (by decide) (by omega)
    omega

theorem alloc_ok (rsp sz : Word) (al : Nat) (ha : ∃ k, k ≤ 31 ∧ al = 2 ^ k) (h : sz.toNat + max al 16 ≤ rsp.toNat) :
    (allocSp rsp sz al).toNat + sz.toNat ≤ rsp.toNat ∧ max al 16 ∣ (allocSp rsp sz al).toNat := by
  obtain ⟨k, hk, rfl⟩ := ha
  obtain ⟨j, hj, hj2⟩ := max_pow k
  unfold allocSp
  rw [hj, and_neg_pow _ j (hj2 hk)]
  have hs : (rsp - sz).toNat = rsp.toNat - sz.toNat := by
    rw [BitVec.toNat_sub]
    have := rsp.isLt
    omega
  rw [hs]
  have := Nat.div_mul_le_self (rsp.toNat - sz.toNat) (2 ^ j)
  exact ⟨by omega, Nat.dvd_mul_left _ _⟩

/-! ### Chains -/

def innerName : List Item → Option Nat
  | [] => none
  | .act _ :: l => innerName l
  | .vla v _ _ :: _ => some v

def chainOf : List Item → Chain
  | [] => []
  | .act i :: l => ⟨.act i, innerName l⟩ :: chainOf l
  | .vla v _ _ :: l => ⟨.vla, some v⟩ :: chainOf l

theorem chain_len : ∀ l : List Item, (chainOf l).length = l.length
  | [] => rfl
  | .act _ :: l => by rw [chainOf, List.length_cons, chain_len l, List.length_cons]
  | .vla _ _ _ :: l => by rw [chainOf, List.length_cons, chain_len l, List.length_cons]

theorem chain_head : ∀ l : List Item, (chainOf l).head?.bind Defr.vla = innerName l
  | [] => rfl
  | .act _ :: _ => rfl
  | .vla _ _ _ :: _ => rfl

theorem chain_drop : ∀ (l : List Item) (n : Nat), (chainOf l).drop n = chainOf (l.drop n)
  | l, 0 => rfl
  | [], n + 1 => by simp [chainOf]
  | .act _ :: l, n + 1 => by rw [chainOf, List.drop_succ_cons, chain_drop l n, List.drop_succ_cons]
  | .vla _ _ _ :: l, n + 1 => by rw [chainOf, List.drop_succ_cons, chain_drop l n, List.drop_succ_cons]

theorem innermost_name (slot : Nat → Word) (base : Word) : ∀ l : List Item,
    innermost slot base l = (match innerName l with | some v => slot v | none => base)
  | [] => rfl
  | .act _ :: l => by rw [innermost, innermost_name slot base l, innerName]
  | .vla _ _ _ :: _ => rfl

theorem stored_mono {slot : Nat → Word} {top : Nat} : ∀ {l : List Item} {low low' : Nat}, Stored slot top l low → low' ≤ low → Stored slot top l low' := by
  intro l
  induction l with
  | nil => intro low low' h hl; cases h with | nil _ h => exact .nil _ (by omega)
  | cons x l ih =>
    intro low low' h hl
    cases h with
    | act i _ _ h => exact .act _ _ _ (ih h hl)
    | vla v sz al _ _ h1 h2 h3 => exact .vla _ _ _ _ _ h1 h2 (by omega)

theorem stored_le {slot : Nat → Word} {top : Nat} {l : List Item} {low : Nat} (h : Stored slot top l low) : low ≤ top := by
  induction h with
  | nil _ h => exact h
  | act _ _ _ _ ih => exact ih
  | vla _ _ _ _ _ _ _ _ ih => omega

theorem stored_innermost {slot : Nat → Word} {base : Word} : ∀ {l : List Item} {low : Nat}, Stored slot base.toNat l low →
    Stored slot base.toNat l (innermost slot base l).toNat := by
  intro l
  induction l with
  | nil => intro low _; exact .nil _ (Nat.le_refl _)
  | cons x l ih =>
    intro low h
    cases h with
    | act i _ _ h => exact .act _ _ _ (ih h)
    | vla v sz al _ _ h1 h2 h3 => exact .vla _ _ _ _ _ h1 h2 (Nat.le_refl _)

theorem stored_drop {slot : Nat → Word} {top : Nat} : ∀ {l : List Item} {low : Nat} (n : Nat), Stored slot top l low → Stored slot top (l.drop n) low := by
  intro l
  induction l with
  | nil => intro low n h; simpa using h
  | cons x l ih =>
    intro low n h
    cases n with
    | zero => exact h
    | succ n =>
      rw [List.drop_succ_cons]
      cases h with
      | act i _ _ h => exact ih n h
      | vla v sz al _ _ h1 h2 h3 => exact ih n (stored_mono h1 (by omega))

theorem stored_congr {slot slot' : Nat → Word} {top : Nat} : ∀ {l : List Item} {low : Nat}, (∀ v ∈ names l, slot' v = slot v) →
    Stored slot top l low → Stored slot' top l low := by
  intro l
  induction l with
  | nil => intro low _ h; cases h with | nil _ h => exact .nil _ h
  | cons x l ih =>
    intro low hn h
    cases h with
    | act i _ _ h => exact .act _ _ _ (ih hn h)
    | vla v sz al _ _ h1 h2 h3 =>
      have e : slot' v = slot v := hn v (by simp [names])
      exact .vla _ _ _ _ _ (by rw [e]; exact ih (fun u hu => hn u (by simp [names, hu])) h1) (by rw [e]; exact h2) (by rw [e]; exact h3)

theorem exec_slot : ∀ (ops : List Op) (s : St), (exec ops s).1.slot = s.slot ∧ (exec ops s).1.base = s.base
  | [], _ => ⟨rfl, rfl⟩
  | .fromSlot _ :: l, s => by rw [exec]; exact exec_slot l _
  | .fromBase :: l, s => by rw [exec]; exact exec_slot l _
  | .run _ :: l, s => by rw [exec]; exact exec_slot l s

/-- Leaving scopes. -/
theorem leave_ok (dealloc : Bool) (k : Nat) : ∀ (l : List Item) (s : St), k ≤ l.length → Stored s.slot s.base.toNat l s.rsp.toNat →
    (dealloc = true → s.rsp = innermost s.slot s.base l ∨ (l.length ≠ k ∧ ∃ v sz al r, l = .vla v sz al :: r)) →
    Stored s.slot s.base.toNat (l.drop (l.length - k)) (exec (genDefr dealloc k (chainOf l)) s).1.rsp.toNat ∧
    (dealloc = true → (exec (genDefr dealloc k (chainOf l)) s).1.rsp = innermost s.slot s.base (l.drop (l.length - k))) ∧
    (exec (genDefr dealloc k (chainOf l)) s).2.map Prod.fst = acts (l.take (l.length - k)) ∧
    ∀ pre i rest, l = pre ++ .act i :: rest → k ≤ rest.length →
      ∃ r, (exec (genDefr dealloc k (chainOf l)) s).2[(acts pre).length]? = some (i, r) ∧ Stored s.slot s.base.toNat rest r.toNat := by
  intro l
  induction l with
  | nil =>
    intro s hk hs hd
    simp only [chainOf, genDefr, exec, List.length_nil, List.drop_nil, List.take_nil, acts, List.map_nil, true_and]
    refine ⟨hs, fun h => ?_, fun pre i rest h => absurd h (by simp)⟩
    rcases hd h with h | ⟨_, v, sz, al, r, h⟩
    · exact h
    · cases h
  | cons x l ih =>
    intro s hk hs hd
    by_cases hend : l.length + 1 = k
    · have hg : genDefr dealloc k (chainOf (x :: l)) = [] := by
        cases x <;> rw [chainOf, genDefr, chain_len, if_pos hend]
      have h0 : (x :: l).length - k = 0 := by simp only [List.length_cons]; omega
      rw [hg, h0]
      simp only [exec, List.drop_zero, List.take_zero, acts, List.map_nil, true_and]
      refine ⟨hs, fun h => ?_, ?_⟩
      · rcases hd h with h | ⟨h, -⟩
        · exact h
        · exact absurd hend h
      · intro pre i rest e hr
        exfalso
        have := congrArg List.length e
        simp only [List.length_cons, List.length_append] at this
        omega
    · have hk' : k ≤ l.length := by simp only [List.length_cons] at hk; omega
      have h0 : (x :: l).length - k = (l.length - k) + 1 := by simp only [List.length_cons]; omega
      rw [h0, List.drop_succ_cons, List.take_succ_cons]
      cases x with
      | act i =>
        have hg : genDefr dealloc k (chainOf (.act i :: l)) = .run i :: genDefr dealloc k (chainOf l) := by
          rw [chainOf, genDefr, chain_len, if_neg hend]
        have hs' : Stored s.slot s.base.toNat l s.rsp.toNat := by cases hs with | act _ _ _ h => exact h
        obtain ⟨a1, a2, a3, a4⟩ := ih s hk' hs' (fun h => by
          rcases hd h with h | ⟨_, v, sz, al, r, h⟩
          · exact .inl h
          · cases h)
        rw [hg]
        simp only [exec, acts, List.map_cons, a3, true_and]
        refine ⟨a1, a2, ?_⟩
        intro pre j rest e hr
        cases pre with
        | nil =>
          simp only [List.nil_append, List.cons.injEq, Item.act.injEq] at e
          obtain ⟨rfl, rfl⟩ := e
          exact ⟨s.rsp, rfl, hs'⟩
        | cons y pre =>
          simp only [List.cons_append, List.cons.injEq] at e
          obtain ⟨rfl, e⟩ := e
          simp only [acts, List.length_cons, List.getElem?_cons_succ]
          exact a4 pre j rest e hr
      | vla v sz al =>
        have hs' : Stored s.slot s.base.toNat l s.rsp.toNat := by
          cases hs with | vla _ _ _ _ _ h1 h2 h3 => exact stored_mono h1 (by omega)
        have fin : ∀ (s' : St), s'.slot = s.slot → s'.base = s.base → Stored s'.slot s'.base.toNat l s'.rsp.toNat →
            (dealloc = true → s'.rsp = innermost s'.slot s'.base l ∨ (l.length ≠ k ∧ ∃ v sz al r, l = .vla v sz al :: r)) →
            exec (genDefr dealloc k (chainOf (.vla v sz al :: l))) s = exec (genDefr dealloc k (chainOf l)) s' →
            Stored s.slot s.base.toNat (l.drop (l.length - k)) (exec (genDefr dealloc k (chainOf (.vla v sz al :: l))) s).1.rsp.toNat ∧
            (dealloc = true → (exec (genDefr dealloc k (chainOf (.vla v sz al :: l))) s).1.rsp = innermost s.slot s.base (l.drop (l.length - k))) ∧
            (exec (genDefr dealloc k (chainOf (.vla v sz al :: l))) s).2.map Prod.fst = acts (.vla v sz al :: l.take (l.length - k)) ∧
            ∀ pre i rest, .vla v sz al :: l = pre ++ .act i :: rest → k ≤ rest.length →
              ∃ r, (exec (genDefr dealloc k (chainOf (.vla v sz al :: l))) s).2[(acts pre).length]? = some (i, r) ∧ Stored s.slot s.base.toNat rest r.toNat := by
          intro s' e1 e2 g1 g2 g3
          obtain ⟨a1, a2, a3, a4⟩ := ih s' hk' g1 g2
          rw [e1, e2] at a1 a2 a4
          rw [g3]
          refine ⟨a1, a2, by rw [acts]; exact a3, ?_⟩
          intro pre j rest e hr
          cases pre with
          | nil => simp at e
          | cons y pre =>
            simp only [List.cons_append, List.cons.injEq] at e
            obtain ⟨rfl, e⟩ := e
            rw [acts]
            exact a4 pre j rest e hr
        by_cases hskip : (chainOf l).length ≠ k ∧ (chainOf l).head?.map Defr.kind = some .vla
        · refine fin s rfl rfl hs' (fun _ => .inr ?_) ?_
          · rw [chain_len] at hskip
            refine ⟨hskip.1, ?_⟩
            cases l with
            | nil => simp [chainOf] at hskip
            | cons y l =>
              cases y with
              | act _ => simp [chainOf] at hskip
              | vla v2 sz2 al2 => exact ⟨_, _, _, _, rfl⟩
          · rw [chainOf, genDefr, chain_len, if_neg hend, ← chain_len l]
            simp only
            rw [if_pos hskip]
        · cases dealloc with
          | false =>
            refine fin s rfl rfl hs' (fun h => by cases h) ?_
            rw [chainOf, genDefr, chain_len, if_neg hend, ← chain_len l]
            simp only
            rw [if_neg hskip, if_pos trivial]
          | true =>
            refine fin { s with rsp := innermost s.slot s.base l } rfl rfl (stored_innermost hs') (fun _ => .inl rfl) ?_
            rw [chainOf, genDefr, chain_len, if_neg hend, ← chain_len l]
            simp only
            rw [if_neg hskip, if_neg (by decide), chain_head, innermost_name]
            cases innerName l with
            | none => rfl
            | some u => rfl

/-- What holds after every history. -/
structure VlaInv (dealloc : Bool) (x : Chain × St) (l : List Item) : Prop where
  chain : x.1 = chainOf l
  stored : Stored x.2.slot x.2.base.toNat l x.2.rsp.toNat
  top : dealloc = true → x.2.rsp = innermost x.2.slot x.2.base l

theorem newDefr_eq (l : List Item) (i : Nat) : newDefr (chainOf l) (.act i) = chainOf (.act i :: l) := by
  rw [newDefr, chain_head, chainOf]

theorem newVla_eq (l : List Item) (v sz al : Nat) : newVla (chainOf l) v = chainOf (.vla v sz al :: l) := by
  simp [newVla, newDefr, chainOf]

theorem step_inv (dealloc : Bool) (x : Chain × St) (l : List Item) (e : Ev) (es : List Ev) (h : VlaInv dealloc x l) (hp : Possible dealloc x l (e :: es))
    (hno : dealloc = true → ∀ sz, e ≠ .alloca sz) :
    VlaInv dealloc ((step dealloc x e).1, (step dealloc x e).2.1) (scope l e) ∧ (step dealloc x e).2.1.base = x.2.base := by
  obtain ⟨c, s⟩ := x
  obtain ⟨rfl, hs, ht⟩ := h
  have hp := hp.1
  cases e with
  | vla v sz al =>
    obtain ⟨hn, ha, hb⟩ := hp
    obtain ⟨h1, h2⟩ := alloc_ok s.rsp sz al ha hb
    refine ⟨⟨newVla_eq l v _ _, ?_, fun _ => ?_⟩, rfl⟩
    · have hself : (fun u => if u = v then allocSp s.rsp sz al else s.slot u) v = allocSp s.rsp sz al := by simp
      refine .vla _ _ _ _ _ ?_ ?_ ?_
      · simp only [step, hself]
        refine stored_mono (stored_congr (slot := s.slot) (fun u hu => ?_) hs) h1
        have : u ≠ v := fun e => hn (e ▸ hu)
        simp [this]
      · simp only [step, hself]; exact h2
      · simp only [step, hself]; exact Nat.le_refl _
    · simp [step, scope, innermost]
  | defer i =>
    exact ⟨⟨newDefr_eq l i, .act _ _ _ hs, ht⟩, rfl⟩
  | leave k =>
    obtain ⟨a1, a2, -, -⟩ := leave_ok dealloc k l s hp hs (fun h => .inl (ht h))
    obtain ⟨e1, e2⟩ := exec_slot (genDefr dealloc k (chainOf l)) s
    refine ⟨⟨?_, ?_, ?_⟩, e2⟩
    · simp only [step, scope, chain_len, chain_drop]
    · simp only [step, scope, e1, e2]; exact a1
    · simp only [step, scope, e1, e2]; exact a2
  | alloca sz =>
    obtain ⟨h1, -⟩ := alloc_ok s.rsp sz 16 ⟨4, by omega, rfl⟩ hp
    refine ⟨⟨rfl, stored_mono hs (by simp only [step]; omega), fun h => absurd rfl (hno h sz)⟩, rfl⟩

theorem runs_inv (dealloc : Bool) : ∀ (es : List Ev) (x : Chain × St) (l : List Item), VlaInv dealloc x l → Possible dealloc x l es →
    (dealloc = true → ∀ sz, .alloca sz ∉ es) → VlaInv dealloc (runs dealloc x es) (scopes l es) ∧ (runs dealloc x es).2.base = x.2.base
  | [], _, _, h, _, _ => ⟨h, rfl⟩
  | e :: es, x, l, h, hp, hno => by
    obtain ⟨h1, h2⟩ := step_inv dealloc x l e es h hp (fun hd sz he => hno hd sz (by simp [he]))
    obtain ⟨h3, h4⟩ := runs_inv dealloc es _ _ h1 hp.2 (fun hd sz hm => hno hd sz (by simp [hm]))
    exact ⟨h3, h4.trans h2⟩

theorem start_inv (dealloc : Bool) (s : St) (hb : s.base = s.rsp) : VlaInv dealloc ([], s) [] :=
  ⟨rfl, .nil _ (by rw [hb]; exact Nat.le_refl _), fun _ => hb.symm⟩

/-- **C71.** After every history, the arrays in scope have their storage: at or above the stack pointer, below the frame, each
below those declared before it, aligned. If the function gives storage back, nothing else is on the stack: the stack
pointer is at the innermost array in scope, or where it was at the start. -/
theorem C71_storage (dealloc : Bool) (s : St) (hb : s.base = s.rsp) (es : List Ev) (hp : Possible dealloc ([], s) [] es)
    (hno : dealloc = true → ∀ sz, .alloca sz ∉ es) :
    Stored (runs dealloc ([], s) es).2.slot s.rsp.toNat (scopes [] es) (runs dealloc ([], s) es).2.rsp.toNat ∧
    (dealloc = true → (runs dealloc ([], s) es).2.rsp = innermost (runs dealloc ([], s) es).2.slot s.rsp (scopes [] es)) := by
  obtain ⟨h1, h2⟩ := runs_inv dealloc es _ _ (start_inv dealloc s hb) hp hno
  have h2 : (runs dealloc ([], s) es).2.base = s.rsp := h2.trans hb
  exact ⟨h2 ▸ h1.stored, fun hd => h2 ▸ h1.top hd⟩

/-- **Deferred actions run in order, with their arrays in place**: on leaving scopes after any history, those registered since run, the
last first, and while each runs the arrays that were in scope where it was registered are at or above the stack pointer. -/
theorem C71_deferred (dealloc : Bool) (s : St) (hb : s.base = s.rsp) (es : List Ev) (hp : Possible dealloc ([], s) [] es)
    (hno : dealloc = true → ∀ sz, .alloca sz ∉ es) (k : Nat) (hk : k ≤ (scopes [] es).length) :
    (step dealloc (runs dealloc ([], s) es) (.leave k)).2.2.map Prod.fst = acts ((scopes [] es).take ((scopes [] es).length - k)) ∧
    ∀ pre i rest, scopes [] es = pre ++ .act i :: rest → k ≤ rest.length →
      ∃ r, (step dealloc (runs dealloc ([], s) es) (.leave k)).2.2[(acts pre).length]? = some (i, r) ∧
        Stored (runs dealloc ([], s) es).2.slot s.rsp.toNat rest r.toNat := by
  obtain ⟨h1, h2⟩ := runs_inv dealloc es _ _ (start_inv dealloc s hb) hp hno
  have h2 : (runs dealloc ([], s) es).2.base = s.rsp := h2.trans hb
  obtain ⟨-, -, a3, a4⟩ := leave_ok dealloc k (scopes [] es) _ hk h1.stored (fun h => .inl (h1.top h))
  rw [← h1.chain] at a3 a4
  rw [h2] at a4
  exact ⟨a3, a4⟩

/-! ### Sizes -/

theorem wrap_id (bits : Nat) (signed : Bool) (x : Int) (h0 : 0 ≤ x) (hb : 0 < bits) (h : x < 2 ^ (if signed then bits - 1 else bits)) :
    wrap bits signed x = x := by
  unfold wrap
  cases signed with
  | false => exact Int.emod_eq_of_lt h0 (by simpa using h)
  | true =>
    obtain ⟨m, rfl⟩ : ∃ m, bits = m + 1 := ⟨bits - 1, by omega⟩
    simp only [if_true, Nat.add_sub_cancel] at h ⊢
    have e : (2 : Nat) ^ (m + 1) = 2 * 2 ^ m := by rw [Nat.pow_succ]; omega
    have h' : x < ((2 ^ m : Nat) : Int) := by simpa using h
    have hp : (0 : Nat) < 2 ^ m := Nat.two_pow_pos m
    rw [e]
    apply Int.bmod_eq_of_le <;> omega

theorem vlaBytes_nonneg : ∀ t : VTy, Fits t → 0 ≤ bytes t
  | .fixed _, _ => Int.natCast_nonneg _
  | .vla _ _ _ b, h => Int.mul_nonneg h.1 (vlaBytes_nonneg b h.2.2.2.2.2.1)

/-- **The size of a variable length array is the product of its dimensions and the size of its elements.** -/
theorem C71_size : ∀ t : VTy, Fits t → vlaSize t = bytes t
  | .fixed _, _ => rfl
  | .vla n bits signed b, h => by
    obtain ⟨h0, h1, h2, h3, h4, h5, h6⟩ := h
    have hn : 0 ≤ n * bytes b := Int.mul_nonneg h0 (vlaBytes_nonneg b h5)
    cases b with
    | fixed s =>
      simp only [vlaSize, bytes] at *
      rw [wrap_id bits signed _ hn h3 (h6 s rfl)]
      exact wrap_id 64 false _ hn (by omega) h1
    | vla n2 bits2 signed2 b2 =>
      have ih := C71_size (.vla n2 bits2 signed2 b2) h5
      rw [vlaSize, ih]
      have hn64 : n < 2 ^ 64 := by
        refine Int.lt_of_lt_of_le h4 ?_
        have : (2 : Nat) ^ (if signed then bits - 1 else bits) ≤ 2 ^ 64 := Nat.pow_le_pow_right (by decide) (by cases signed <;> simp <;> omega)
        exact_mod_cast this
      rw [wrap_id 64 false n h0 (by omega) hn64]
      exact wrap_id 64 false _ hn (by omega) h1

/-- `int n = 2, m = 3; long a[n][5][m];` -/
theorem vlaEx_size : Fits (.vla 2 32 true (.vla 5 32 true (.vla 3 32 true (.fixed 8)))) ∧
    vlaSize (.vla 2 32 true (.vla 5 32 true (.vla 3 32 true (.fixed 8)))) = 240 := by
  refine ⟨⟨by decide, by decide, by decide, by decide, by decide, ⟨by decide, by decide, by decide, by decide, by decide,
    ⟨by decide, by decide, by decide, by decide, by decide, trivial, ?_⟩, ?_⟩, ?_⟩, by decide⟩
  · intro s h; cases h; decide
  · intro s h; cases h
  · intro s h; cases h

/-- **Departure.** `int n = 1 << 29; long a[n];` has size zero: the size is computed in `int`. -/
theorem C71_int_size : vlaSize (.vla (2 ^ 29) 32 true (.fixed 8)) = 0 ∧ bytes (.vla (2 ^ 29) 32 true (.fixed 8)) = 2 ^ 32 := by
  decide +kernel

/-! ### An example, and departures -/

def vlaExSt : St := { rsp := 0x8000#64, slot := fun _ => 0#64, base := 0x8000#64 }

/-- `char a[100]; defer 1; { char b[40]; defer 2; }`, the block twice, then out of the function. -/
def vlaExEs : List Ev :=
  [.vla 0 100#64 8, .defer 1, .vla 1 40#64 64, .defer 2, .leave 2, .vla 1 41#64 64, .defer 2]

theorem vlaEx_possible : Possible true ([], vlaExSt) [] vlaExEs := by
  refine ⟨⟨by decide, ⟨3, by decide, rfl⟩, by decide⟩, trivial, ⟨by decide, ⟨6, by decide, rfl⟩, by decide +kernel⟩, trivial, by decide,
    ⟨by decide, ⟨6, by decide, rfl⟩, by decide +kernel⟩, trivial, trivial⟩

theorem vlaEx_run : (runs true ([], vlaExSt) vlaExEs).2.rsp = 0x7f40#64 ∧
    (step true (runs true ([], vlaExSt) vlaExEs) (.leave 0)).2.2 = [(2, 0x7f40#64), (1, 0x7f90#64)] ∧
    (step true (runs true ([], vlaExSt) vlaExEs) (.leave 0)).2.1.rsp = 0x8000#64 := by
  decide +kernel

/-- **Departure.** `__builtin_alloca` does not keep the function from giving storage back: `p = __builtin_alloca(64); { char a[8]; }` leaves the
stack pointer above the bytes of `p`. -/
theorem C71_builtin_alloca_freed :
    (runs true ([], vlaExSt) [.alloca 64#64]).2.rsp = 0x7fc0#64 ∧
    (runs true ([], vlaExSt) [.alloca 64#64, .vla 0 8#64 8, .leave 0]).2.rsp = 0x8000#64 ∧
    (runs false ([], vlaExSt) [.alloca 64#64, .vla 0 8#64 8, .leave 0]).2.rsp = 0x7fb0#64 := by
  decide +kernel

end Slimcc.Props
