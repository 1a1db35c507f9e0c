import Verif.Lemmas.Addr
/-!
Lemmas for C59: a designator that evaluates to "variable plus constant" stands for that address.
-/
set_option autoImplicit false
namespace Slimcc.Addr
open Slimcc Slimcc.Spec Slimcc.Ty Slimcc.Props
open Slimcc.Spec.CTy (InRange)

def base (M : Machine) : Option Nat → BitVec 64
  | none => 0
  | some x => M.addr x

/-- The result does not depend on reading a pointer. -/
def Settled (c : Ctx) : Prop := c.var = none ∨ c.pend = false

theorem ofInt_conv64 (t : CTy) (z : Int) (h : t.bytes = 8) : BitVec.ofInt 64 (CTy.conv t z) = BitVec.ofInt 64 z := by
  apply BitVec.eq_of_toInt_eq
  rw [BitVec.toInt_ofInt, BitVec.toInt_ofInt]
  cases t <;> simp [CTy.bytes] at h <;> simp [CTy.conv, CTy.isSigned, CTy.width]
  all_goals (try simp only [Int.bmod_def]); (try omega)

theorem common_long (t : CTy) : (CTy.common t.promote .long).bytes = 8 := by cases t <;> decide

section
variable (C : Cfg) (P : ODecls)

theorem int_expr (e : Expr) (hw : e.Wf) (t : CTy) (k : EvKind) (c c' : Ctx) (v : BitVec 64) (σ σ' : Store)
    (hσ : StoreOk P.ints σ) (x : Int) (he : ceval P.ints e σ = .ok (x, σ'))
    (h : ev C P (.int t (build C.hs C.opt P.ints e)) k c = some (v, c')) :
    v = BitVec.ofInt 64 x ∧ σ' = σ ∧ c' = c := by
  rw [ev] at h
  split at h
  · rename_i w hn
    injection h with h; injection h with h1 h2
    have := C17_value C.hs C.opt P.ints e hw σ σ' hσ w x hn he
    exact ⟨by rw [← h1]; exact this.1, this.2, h2.symm⟩
  · cases h

theorem scale_expr (e : Expr) (hw : e.Wf) (t : CTy) (size : Nat) (k : EvKind) (c c' : Ctx)
    (v : BitVec 64) (σ σ' : Store) (hσ : StoreOk P.ints σ) (x : Int) (he : ceval P.ints e σ = .ok (x, σ'))
    (h : ev C P (scale C P (.int t (build C.hs C.opt P.ints e)) size) k c = some (v, c')) :
    v = BitVec.ofInt 64 (x * size) ∧ σ' = σ := by
  have hb : mkBin C.hs C.opt .mul (build C.hs C.opt P.ints e) (.num ty_long (BitVec.ofNat 64 size)) =
      build C.hs C.opt P.ints (.bin (.ar .mul) e (.num .long (BitVec.ofNat 64 size).toInt)) := by
    show _ = mkBin C.hs C.opt .mul _ (.num ty_long (BitVec.ofInt 64 (BitVec.ofNat 64 size).toInt))
    rw [BitVec.ofInt_toInt]
  unfold scale at h
  dsimp only at h
  rw [hb] at h
  have hc : ceval P.ints (.bin (.ar .mul) e (.num .long (BitVec.ofNat 64 size).toInt)) σ =
      .ok (CTy.conv (CTy.common (e.ty P.ints).promote CTy.long)
        (CTy.conv (CTy.common (e.ty P.ints).promote CTy.long) x *
         CTy.conv (CTy.common (e.ty P.ints).promote CTy.long) (BitVec.ofNat 64 size).toInt), σ') := by
    show (do
      let (v, σ) ← ceval P.ints e σ
      let (w, σ) ← ceval P.ints (.num .long (BitVec.ofNat 64 size).toInt) σ
      let r ← binop (.ar .mul) (e.ty P.ints) .long v w
      Res.ok (r, σ)) = _
    rw [he]
    rfl
  have h1 := (BitVec.ofNat 64 size).le_toInt
  have h2 := (BitVec.ofNat 64 size).toInt_lt
  have hw' : Expr.Wf (.bin (.ar .mul) e (.num .long (BitVec.ofNat 64 size).toInt)) :=
    ⟨hw, show (-(2 ^ 63) : Int) ≤ _ by omega, show _ ≤ (2 ^ 63 - 1 : Int) by omega⟩
  have := int_expr C P _ hw' _ k c c' v σ σ' hσ _ hc h
  refine ⟨?_, this.2.1⟩
  rw [this.1, ofInt_conv64 _ _ (common_long _), BitVec.ofInt_mul, BitVec.ofInt_mul, ofInt_conv64 _ _ (common_long _),
    ofInt_conv64 _ _ (common_long _), BitVec.ofInt_toInt, BitVec.ofInt_natCast]

/-- An index leaves the state of the evaluation alone. -/
theorem scale_ctx (n : ANode) (size : Nat) (k : EvKind) (c c' : Ctx) (v : BitVec 64)
    (h : ev C P (scale C P n size) k c = some (v, c')) : c' = c := by
  unfold scale at h
  split at h
  · rw [ev] at h
    split at h
    · injection h with h; injection h with _ h; exact h.symm
    · cases h
  · rw [ev] at h
    split at h
    · rename_i x c1 _
      rw [Option.map_eq_some_iff] at h
      obtain ⟨r, _, h⟩ := h
      injection h with _ h; exact h.symm
    · cases h

/-- Trees whose value the compiler does not know: an object, perhaps converted. -/
inductive Unknown : ANode → Prop where
  | var (t : OTy) (x : Nat) : Unknown (.var t x)
  | deref (t : OTy) (a : ANode) (h : ∀ c : Ctx, ev C P (.deref t a) .con c = none) : Unknown (.deref t a)
  | member (t : OTy) (o : Nat) (a : ANode) : Unknown (.member t o a)
  | cast (t : CTy) (a : ANode) (ht : t ≠ .bool) (h : Unknown a) : Unknown (.cast (.int t) a)

theorem Unknown.none {n : ANode} (h : Unknown C P n) : ∀ c : Ctx, ev C P n .con c = none := by
  induction h with
  | var t x => intro c; rw [ev]
  | deref t a h => exact h
  | member t o a => intro c; rw [ev]
  | cast t a ht _ ih =>
    intro c
    rw [ev, if_neg (by intro h; exact ht (by simpa using h.1))]
    split
    · rw [if_neg (by intro h; exact ht (by simpa using h))]
    · rw [ih]; rfl

theorem Unknown.castA {n : ANode} (h : Unknown C P n) (t : CTy) (ht : t ≠ .bool) :
    Unknown C P (castA C P n (.int t)) := by
  have hc : Unknown C P (.cast (.int t) n) := .cast t n ht h
  have hno : constOf C P (.cast (.int t) n) = Option.none := by
    unfold constOf; rw [hc.none]; rfl
  unfold Addr.castA
  split
  · cases h
  · rename_i n' t' hne
    split
    · split
      · rename_i heq _; rw [hno] at *; simp_all
      · split
        · exact h
        · split
          · rename_i e he
            unfold redundant at he
            split at he
            · split at he
              · split at he
                · injection he with he
                  subst he
                  cases h with
                  | cast _ _ _ h => exact .cast t _ ht h
                · cases he
              · cases he
            · cases he
          · exact hc
    · exact hc

theorem castTo8 (t : CTy) (h : t.bytes = 8) (v : BitVec 64) : castTo (.int t) v = v := by
  cases t <;> simp [CTy.bytes] at h <;> rfl

theorem sext8 (t : CTy) (h : t.bytes = 8) (v : BitVec 64) : sext (.int t) v = v := by
  cases t <;> simp [CTy.bytes] at h <;> rfl

theorem ev_cast8 (t : CTy) (h : t.bytes = 8) (n : ANode) (k : EvKind) (c : Ctx) :
    ev C P (.cast (.int t) n) k c = ev C P n k c := by
  rw [ev, if_neg (by rintro ⟨e, _⟩; injection e with e; subst e; cases h), if_neg (by intro e; exact e.1 h)]
  cases hn : ev C P n k c with
  | none => rfl
  | some r => simp [castTo8 t h]

theorem const_cast8 (t : CTy) (h : t.bytes = 8) (n : ANode) (v : BitVec 64)
    (hc : constOf C P (.cast (.int t) n) = some v) : ∃ c : Ctx, ev C P n .con {} = some (v, c) := by
  unfold constOf at hc
  rw [ev_cast8 C P t h] at hc
  cases hn : ev C P n .con {} with
  | none => rw [hn] at hc; cases hc
  | some r =>
    rw [hn] at hc
    injection hc with hc
    exact ⟨r.2, by rw [← hc]⟩

/-- A pointer converted to an integer: folded, or a cast. -/
theorem castA_ofPtr (hC : C.Ok) (t : CTy) (h : t.bytes = 8) (n : ANode) (hn : ∀ u : CTy, n.ty ≠ .int u) :
    (∃ (v : BitVec 64) (c : Ctx), castA C P n (.int t) = .int t (.num (ity t) v) ∧ ev C P n .con {} = some (v, c)) ∨
    castA C P n (.int t) = .cast (.int t) n := by
  unfold castA
  split
  · exact absurd rfl (hn _)
  · split
    · split
      · rename_i c v heq hv
        injection heq with heq; subst heq
        obtain ⟨c0, hc⟩ := const_cast8 C P t h _ v hv
        exact .inl ⟨v, c0, rfl, hc⟩
      · split
        · rename_i hs; exact absurd (hC _ _ hs) (hn t)
        · split
          · rename_i e he
            unfold redundant at he
            split at he
            · exact absurd rfl (hn _)
            · cases he
          · exact .inr rfl
    · exact .inr rfl

theorem common8 (t : CTy) (h : t.bytes = 8) : CTy.common t .long = t := by
  cases t <;> simp [CTy.bytes] at h <;> decide

theorem num_cast8 (t : CTy) (h : t.bytes = 8) (v : BitVec 64) (k : EvKind) (c : Ctx) :
    ev C P (castA C P (.int .long (.num ty_long v)) (.int t)) k c = some (v, c) := by
  have e : evalCastTo (ity t) v = v := castTo8 t h v
  have : evalNode C.hs (newCast C.hs C.opt (.num ty_long v) (ity t)) = .ok v := by
    unfold newCast
    split
    · have : evalNode C.hs (.cast (ity t) (.num ty_long v)) = .ok v := by
        show Outcome.ok (evalCastTo (ity t) v) = _
        rw [e]
      rw [this]
      rfl
    · show Outcome.ok (evalCastTo (ity t) v) = _
      rw [e]
  show ev C P (.int t (newCast C.hs C.opt (.num ty_long v) (ity t))) k c = _
  rw [ev, this]

theorem scale_ofPtr (hC : C.Ok) (t : CTy) (h : t.bytes = 8) (n : ANode) (hn : ∀ u : CTy, n.ty ≠ .int u) (size : Nat)
    (k : EvKind) (c c' : Ctx) (w : BitVec 64)
    (he : ev C P (scale C P (castA C P n (.int t)) size) k c = some (w, c')) :
    ∃ (v : BitVec 64) (c0 : Ctx), ev C P n .con {} = some (v, c0) ∧ w = v * BitVec.ofNat 64 size := by
  rcases castA_ofPtr C P hC t h n hn with ⟨v, c0, e, hv⟩ | e
  · rw [e] at he
    refine ⟨v, c0, hv, ?_⟩
    have hx : InRange t (CTy.conv t v.toInt) := by
      have := v.toInt_lt; have := v.le_toInt
      cases t <;> simp [CTy.bytes] at h <;> simp [InRange, CTy.conv, CTy.minVal, CTy.maxVal, CTy.isSigned, CTy.width] <;> omega
    have hv' : BitVec.ofInt 64 (CTy.conv t v.toInt) = v := by rw [ofInt_conv64 t _ h]; simp
    have hb : build C.hs C.opt P.ints (.num t (CTy.conv t v.toInt)) = .num (ity t) v := by
      show Node.num (ity t) _ = _; rw [hv']
    rw [← hb] at he
    have h0 : StoreOk P.ints (fun _ => 0) := fun x => by
      show InRange (P.ints x) 0
      cases P.ints x <;> decide
    have := scale_expr C P (.num t (CTy.conv t v.toInt)) hx t size k c c' w (fun _ => 0) (fun _ => 0) h0 _ rfl he
    rw [this.1, BitVec.ofInt_mul, hv', BitVec.ofInt_natCast]
  · rw [e] at he
    have hp : promoteA C P (.cast (.int t) n) = .cast (.int t) n := by
      unfold promoteA
      rw [if_neg]
      show ¬ t.bytes < 4
      omega
    unfold scale at he
    simp only [hp, ANode.ty, common8 t h] at he
    rw [ev] at he
    split at he
    · rename_i x c1 hx
      rw [num_cast8 C P t h] at he
      simp only [Option.map_some, Option.some.injEq, Prod.mk.injEq, sext8 t h] at he
      refine ⟨x, ?_⟩
      have hx' : ∃ c0, ev C P n .con {} = some (x, c0) := by
        unfold castA at hx
        split at hx
        · rename_i heq _; cases heq
        · split at hx
          · split at hx
            · rename_i v heq hv
              injection heq with heq; subst heq
              obtain ⟨c0, hc⟩ := const_cast8 C P t h _ v hv
              rw [ev_cast8 C P t h] at hc
              rw [ev] at hx
              simp only [evalNode, Option.some.injEq, Prod.mk.injEq] at hx
              exact ⟨c0, by rw [hc, hx.1]⟩
            · split at hx
              · rw [ev_cast8 C P t h] at hx; exact ⟨_, hx⟩
              · split at hx
                · rename_i e2 he2
                  have hr : redundant (.cast (.int t) n) (.int t) = none := by
                    unfold redundant
                    dsimp only
                    split
                    · rename_i hty; exact absurd hty (hn _)
                    · rfl
                  rw [hr] at he2
                  cases he2
                · rw [ev_cast8 C P t h, ev_cast8 C P t h] at hx; exact ⟨_, hx⟩
          · rw [ev_cast8 C P t h, ev_cast8 C P t h] at hx; exact ⟨_, hx⟩
      obtain ⟨c0, hx'⟩ := hx'
      exact ⟨c0, hx', he.1.symm⟩
    · cases he

theorem buildL_place (hC : C.Ok) : ∀ (l : LV) (t : OTy), l.ty P = some t →
    (∃ x, buildL C P l = .var t x) ∨ (∃ p, buildL C P l = .deref t (buildP C P p) ∧ l = .deref p) ∨
    ∃ o l', buildL C P l = .member t o (buildL C P l')
  | .var x, t, h => .inl ⟨x, by
      have : P.objs x = t := by simpa [LV.ty] using h
      show ANode.var (P.objs x) x = _
      rw [this]⟩
  | .deref p, t, h => .inr (.inl ⟨p, by
      show ANode.deref (baseOf (buildP C P p).ty) _ = _
      rw [pointee_base C P hC p t (by simpa [LV.ty] using h)], rfl⟩)
  | .member l i, t, h => by
    right; right
    unfold LV.ty at h
    split at h
    · rename_i s hs
      have e := buildL_ty C P hC l _ hs
      cases hm : (P.structs s).members[i]? with
      | none => rw [hm] at h; cases h
      | some m =>
        rw [hm] at h
        simp only [Option.map_some, Option.some.injEq] at h
        refine ⟨m.1, l, ?_⟩
        show memberOf P (buildL C P l) i = _
        unfold memberOf
        rw [e]
        simp only [hm, h]
    · cases h

theorem castA_ptr_form (m : ANode) (t : OTy) : castA C P m (.ptr t) = m ∨ castA C P m (.ptr t) = .cast (.ptr t) m := by
  unfold castA
  split
  · rename_i h; cases h
  · split
    · split
      · rename_i h _; cases h
      · split
        · exact .inl rfl
        · split
          · rename_i e h; simp [redundant] at h
          · exact .inr rfl
    · exact .inr rfl

/-- A tree is that of `&l` only for `&l`. -/
theorem buildP_addr (hC : C.Ok) (p : PE) (u : OTy) (hu : p.pointee P = some u) (t : OTy) (n : ANode)
    (h : buildP C P p = .addr t n) : (∃ l, p = .addr l ∧ n = buildL C P l) ∨ ∃ q u', p = .cast u' q ∧ buildP C P q = .addr t n := by
  have hL : ∀ l t', l.ty P = some t' → buildL C P l ≠ .addr t n := by
    intro l t' ht e
    rcases buildL_place C P hC l t' ht with ⟨x, h⟩ | ⟨p, h, _⟩ | ⟨o, l', h⟩ <;> rw [h] at e <;> cases e
  have hcast : ∀ (m : ANode) (t' : OTy), castA C P m (.ptr t') = .addr t n → castA C P m (.ptr t') = m := by
    intro m t' e
    rcases castA_ptr_form C P m t' with h | h
    · exact h
    · rw [h] at e; cases e
  cases p with
  | addr l => injection h with _ h; exact .inl ⟨l, rfl, h.symm⟩
  | decay l =>
    unfold PE.pointee at hu
    split at hu
    · rename_i hs; exact absurd h (hL l _ hs)
    · cases hu
  | value l =>
    unfold PE.pointee at hu
    split at hu
    · rename_i hs; exact absurd h (hL l _ hs)
    · cases hu
  | cast t' q =>
    have := hcast _ _ h
    exact .inr ⟨q, t', rfl, by rw [← this]; exact h⟩
  | ofInt t' i =>
    have e := hcast _ _ h
    unfold PE.pointee at hu
    cases hi : i.ty P with
    | none => rw [hi] at hu; cases hu
    | some v =>
      have h1 := buildI_ty C P hC i v hi
      rw [← e, castA_ty C P hC] at h1
      cases h1
  | add p i => cases h
  | radd i p => cases h
  | sub p i => cases h

/-- What is claimed of the tree `n` of an lvalue of type `t`. -/
structure LC (M : Machine) (n : ANode) (t : OTy) (val : Store → Res (BitVec 64 × Store)) (root : Option Nat)
    (near : Store → Prop) : Prop where
  agg : ∀ (c c' : Ctx) (v : BitVec 64), ev C P n .agg c = some (v, c') → c.var = none → Settled c' →
    c'.var = root ∧ (c.pend = true → isArr t = true) ∧
    ∀ (σ σ' : Store) (a : BitVec 64), StoreOk P.ints σ → val σ = .ok (a, σ') → a = base M c'.var + v ∧ σ' = σ
  place : ∀ (x : Nat) (o : Int), evalVar C P true n = some (x, o) → root = some x ∧
    ∀ (σ σ' : Store) (a : BitVec 64), StoreOk P.ints σ → near σ → val σ = .ok (a, σ') →
      a = M.addr x + BitVec.ofInt 64 o ∧ σ' = σ
  lab : ∀ (c c' : Ctx) (v : BitVec 64), ev C P n .lab c = some (v, c') → c.var = none →
    isArr t = true ∧ c'.var = root ∧
    ∀ (σ σ' : Store) (a : BitVec 64), StoreOk P.ints σ → near σ → val σ = .ok (a, σ') →
      a = base M c'.var + v ∧ σ' = σ
  con : ∀ c : Ctx, ev C P n .con c = none

/-- What is claimed of the tree of a pointer expression. -/
structure PC (M : Machine) (n : ANode) (val : Store → Res (BitVec 64 × Store)) (root : Option Nat)
    (near : Store → Prop) : Prop where
  agg : ∀ (c c' : Ctx) (v : BitVec 64), ev C P n .agg c = some (v, c') → c.var = none → c.pend = true → Settled c' →
    c'.var = root ∧
    ∀ (σ σ' : Store) (a : BitVec 64), StoreOk P.ints σ → val σ = .ok (a, σ') → a = base M c'.var + v ∧ σ' = σ
  lab : ∀ (c c' : Ctx) (v : BitVec 64), ev C P n .lab c = some (v, c') → c.var = none → c'.var = root ∧
    ∀ (σ σ' : Store) (a : BitVec 64), StoreOk P.ints σ → near σ → val σ = .ok (a, σ') →
      a = base M c'.var + v ∧ σ' = σ
  con : ∀ (c c' : Ctx) (v : BitVec 64), ev C P n .con c = some (v, c') → root = none ∧
    ∀ (σ σ' : Store) (a : BitVec 64), StoreOk P.ints σ → val σ = .ok (a, σ') → a = v ∧ σ' = σ

/-- What is claimed of the tree of an integer expression. -/
structure IC (M : Machine) (n : ANode) (val : Store → Res (Int × Store)) (root : Option Nat)
    (near : Store → Prop) : Prop where
  agg : ∀ (c c' : Ctx) (v : BitVec 64), ev C P n .agg c = some (v, c') → c.var = none → c.pend = true → Settled c' →
    c'.var = root ∧
    ∀ (σ σ' : Store) (a : Int), StoreOk P.ints σ → val σ = .ok (a, σ') → BitVec.ofInt 64 a = base M c'.var + v ∧ σ' = σ
  lab : ∀ (c c' : Ctx) (v : BitVec 64), ev C P n .lab c = some (v, c') → c.var = none → c'.var = root ∧
    ∀ (σ σ' : Store) (a : Int), StoreOk P.ints σ → near σ → val σ = .ok (a, σ') →
      BitVec.ofInt 64 a = base M c'.var + v ∧ σ' = σ
  con : ∀ (c c' : Ctx) (v : BitVec 64), ev C P n .con c = some (v, c') → root = none ∧
    ∀ (σ σ' : Store) (a : Int), StoreOk P.ints σ → val σ = .ok (a, σ') → BitVec.ofInt 64 a = v ∧ σ' = σ
  idx : ∀ (size : Nat) (k : EvKind) (c c' : Ctx) (v : BitVec 64), ev C P (scale C P n size) k c = some (v, c') →
    c' = c ∧ ∀ (σ σ' : Store) (a : Int), StoreOk P.ints σ → val σ = .ok (a, σ') → v = BitVec.ofInt 64 (a * size) ∧ σ' = σ

theorem base_none (M : Machine) (v : BitVec 64) : base M none + v = v := by simp [base]

theorem int32_id (v : BitVec 64) (h1 : -2147483648 ≤ v.toInt) (h2 : v.toInt < 2147483648) :
    BitVec.ofInt 64 (v.setWidth 32).toInt = v := by
  have : (v.setWidth 32).toInt = v.toInt := by
    have := BitVec.toInt_setWidth (v := 32) v
    rw [this, ← BitVec.toInt_bmod_cancel v]
    simp only [Int.bmod_def]
    have := v.toInt_eq_toNat_bmod
    simp only [Int.bmod_def] at this
    omega
  rw [this, BitVec.ofInt_toInt]

/-- A part, once the claim about `agg` is known. -/
theorem place_part {M : Machine} {n : ANode} {t : OTy} {val : Store → Res (BitVec 64 × Store)} {root : Option Nat}
    {near : Store → Prop}
    (hst : ∀ (σ σ' : Store) (x : Nat) (a : BitVec 64), near σ → root = some x → val σ = .ok (a, σ') →
      -2147483648 ≤ (a - M.addr x).toInt ∧ (a - M.addr x).toInt < 2147483648)
    (agg : ∀ (c c' : Ctx) (v : BitVec 64), ev C P n .agg c = some (v, c') → c.var = none → Settled c' →
      c'.var = root ∧ (c.pend = true → isArr t = true) ∧
      ∀ (σ σ' : Store) (a : BitVec 64), StoreOk P.ints σ → val σ = .ok (a, σ') → a = base M c'.var + v ∧ σ' = σ)
    (x : Nat) (o : Int) (h : varOfs true (ev C P n .agg {}) = some (x, o)) : root = some x ∧
      ∀ (σ σ' : Store) (a : BitVec 64), StoreOk P.ints σ → near σ → val σ = .ok (a, σ') →
        a = M.addr x + BitVec.ofInt 64 o ∧ σ' = σ := by
  unfold varOfs at h
  split at h
  · rename_i v c he
    split at h
    · rename_i y hy
      split at h
      · rename_i hc
        injection h with h; injection h with h1 h2
        subst h1
        have hpend : c.pend = false := by
          simp only [Bool.and_eq_true, Bool.not_eq_true'] at hc
          exact hc.1
        have := agg {} c v he rfl (.inr hpend)
        rw [hy] at this
        refine ⟨this.1.symm, ?_⟩
        intro σ σ' a hσ hn hv
        obtain ⟨e1, e2⟩ := this.2.2 σ σ' a hσ hv
        have st := hst σ σ' _ a hn this.1.symm hv
        have ea : a - M.addr y = v := by
          rw [e1]; simp only [base, BitVec.add_comm (M.addr y)]; exact BitVec.add_sub_cancel _ _
        rw [ea] at st
        rw [← h2, int32_id v st.1 st.2]
        exact ⟨e1, e2⟩
      · cases h
    · cases h
  · cases h

theorem evalVar_part {n : ANode} (hp : n.isPart = true) (sub : Bool) : evalVar C P sub n = varOfs sub (ev C P n .agg {}) := by
  unfold evalVar
  split
  · cases hp
  · rw [if_pos hp]

theorem LC.ofPart {M : Machine} {n : ANode} {t : OTy} {val : Store → Res (BitVec 64 × Store)} {root : Option Nat}
    {near : Store → Prop} (hp : n.isPart = true)
    (hst : ∀ (σ σ' : Store) (x : Nat) (a : BitVec 64), near σ → root = some x → val σ = .ok (a, σ') →
      -2147483648 ≤ (a - M.addr x).toInt ∧ (a - M.addr x).toInt < 2147483648)
    (agg : ∀ (c c' : Ctx) (v : BitVec 64), ev C P n .agg c = some (v, c') → c.var = none → Settled c' →
      c'.var = root ∧ (c.pend = true → isArr t = true) ∧
      ∀ (σ σ' : Store) (a : BitVec 64), StoreOk P.ints σ → val σ = .ok (a, σ') → a = base M c'.var + v ∧ σ' = σ)
    (lab : ∀ c : Ctx, ev C P n .lab c = if isArr t then labelOf (varOfs true (ev C P n .agg {})) c else none)
    (con : ∀ c : Ctx, ev C P n .con c = none) : LC C P M n t val root near := by
  have place := place_part C P hst agg
  refine ⟨agg, ?_, ?_, con⟩
  · intro x o h
    rw [evalVar_part C P hp] at h
    exact place x o h
  · intro c c' v h hv
    rw [lab] at h
    split at h
    · rename_i ht
      unfold labelOf at h
      split at h
      · cases h
      · split at h
        · rename_i x o hx
          injection h with h; injection h with h1 h2
          have := place x o hx
          subst h2
          refine ⟨ht, this.1.symm, ?_⟩
          intro σ σ' a hσ hn he
          rw [← h1]
          exact this.2 σ σ' a hσ hn he
        · cases h
    · cases h

theorem res_bind {α β : Type} {r : Res α} {f : α → Res β} {b : β} (h : (r >>= f) = .ok b) :
    ∃ a, r = .ok a ∧ f a = .ok b := by
  cases r with
  | ok a => exact ⟨a, rfl, h⟩
  | divZero => cases h
  | undef => cases h

theorem enter_var (t : OTy) (c : Ctx) : (enter t c).var = c.var := by
  unfold enter; split <;> rfl

theorem enter_pend (t : OTy) (c : Ctx) (h : c.pend = true) (ha : isArr t = false) : (enter t c).pend = true := by
  unfold enter; rw [if_neg (by simp [ha])]; exact h

mutual
theorem lc (hC : C.Ok) (M : Machine) : ∀ (l : LV) (t : OTy), l.ty P = some t → l.Wf → l.NoSum →
    LC C P M (buildL C P l) t (l.eval P M) l.root (fun σ => l.Near P M σ) ∧
    ∀ (t' : OTy) (q : ANode), buildL C P l = .deref t' q → PC C P M q (l.eval P M) l.root (fun σ => l.Near P M σ)
  | .var x, t, h, _, _ => by
    have ht : P.objs x = t := by simpa [LV.ty] using h
    refine ⟨?_, by intro t' q e; cases e⟩
    show LC C P M (.var (P.objs x) x) t _ (some x) _
    rw [ht]
    refine ⟨?_, ?_, ?_, ?_⟩
    · intro c c' v h hv hs
      rw [ev.eq_def] at h
      dsimp only at h
      have he : ∀ (σ σ' : Store) (a : BitVec 64), StoreOk P.ints σ → (LV.var x).eval P M σ = .ok (a, σ') →
          a = base M (some x) + 0 ∧ σ' = σ := by
        intro σ σ' a _ e
        simp only [LV.eval, Res.ok.injEq, Prod.mk.injEq] at e
        exact ⟨by simp [base, e.1], e.2.symm⟩
      split at h
      · injection h with h; injection h with h1 h2
        subst h1 h2
        exact ⟨rfl, fun _ => rfl, he⟩
      · injection h with h; injection h with h1 h2
        subst h1 h2
        refine ⟨rfl, ?_, he⟩
        intro hp
        rcases hs with hs | hs
        · cases hs
        · rw [hp] at hs; cases hs
      · cases h
    · intro y o h
      simp only [evalVar, Option.some.injEq, Prod.mk.injEq] at h
      refine ⟨by rw [h.1], ?_⟩
      intro σ σ' a _ _ e
      simp only [LV.eval, Res.ok.injEq, Prod.mk.injEq] at e
      rw [← h.1, ← h.2]
      exact ⟨by simp [e.1], e.2.symm⟩
    · intro c c' v h hv
      rw [ev] at h
      split at h
      · rename_i ha
        unfold labelOf at h
        split at h
        · cases h
        · injection h with h; injection h with h1 h2
          subst h1 h2
          refine ⟨ha, rfl, ?_⟩
          intro σ σ' a _ _ e
          simp only [LV.eval, Res.ok.injEq, Prod.mk.injEq] at e
          exact ⟨by simp [base, e.1], e.2.symm⟩
      · cases h
    · intro c; rw [ev]
  | .deref p, t, h, hw, hn => by
    have hp : p.pointee P = some t := by simpa [LV.ty] using h
    have hb : buildL C P (.deref p) = .deref t (buildP C P p) := by
      show ANode.deref (baseOf (buildP C P p).ty) _ = _
      rw [pointee_base C P hC p t hp]
    obtain ⟨ip, ia⟩ := pc hC M p t hp hw hn
    have ipn : PC C P M (buildP C P p) ((LV.deref p).eval P M) p.root (fun σ => (LV.deref p).Near P M σ) :=
      ⟨ip.agg, fun c c' v h hv => ⟨(ip.lab c c' v h hv).1, fun σ σ' a hσ hn he => (ip.lab c c' v h hv).2 σ σ' a hσ hn.2 he⟩, ip.con⟩
    refine ⟨?_, ?_⟩
    · rw [hb]
      by_cases hq : ∃ (t' : OTy) (m : ANode), buildP C P p = .addr t' m
      · obtain ⟨t', m, hq⟩ := hq
        have hl := ia t' m hq
        have hl' : LC C P M m t ((LV.deref p).eval P M) p.root (fun σ => (LV.deref p).Near P M σ) := by
          refine ⟨hl.agg, ?_, ?_, hl.con⟩
          · intro x o h
            exact ⟨(hl.place x o h).1, fun σ σ' a hσ hn he => (hl.place x o h).2 σ σ' a hσ hn.2 he⟩
          · intro c c' v h hv
            have := hl.lab c c' v h hv
            exact ⟨this.1, this.2.1, fun σ σ' a hσ hn he => this.2.2 σ σ' a hσ hn.2 he⟩
        rw [hq]
        refine ⟨?_, ?_, ?_, ?_⟩
        · intro c c' v h hv hs
          rw [ev_deref_addr] at h
          exact hl'.agg c c' v h hv hs
        · intro x o h
          rw [evalVar_part C P rfl, ev_deref_addr] at h
          exact place_part C P (fun σ σ' x a hn hr he => hn.1 x a σ' hr he) hl'.agg x o h
        · intro c c' v h hv
          rw [ev_deref_addr] at h
          exact hl'.lab c c' v h hv
        · intro c; rw [ev_deref_addr]; exact hl'.con c
      · have hne : ∀ (t' : OTy) (l : ANode), buildP C P p ≠ .addr t' l := fun t' l e => hq ⟨t', l, e⟩
        refine LC.ofPart C P (n := .deref t (buildP C P p)) rfl ?_ ?_ ?_ ?_
        · intro σ σ' x a hn hr he; exact hn.1 x a σ' hr he
        · intro c c' v h hv hs
          rw [ev_deref_agg C P t _ c hne] at h
          split at h
          · rename_i hc
            have := ip.agg _ c' v h hv rfl hs
            refine ⟨this.1, ?_, this.2⟩
            intro hpd
            simp only [hpd, Bool.not_true, Bool.false_or, Bool.and_eq_true] at hc
            exact hc.2
          · cases h
        · intro c; exact ev_deref_lab C P t _ c hne
        · intro c; exact ev_deref_con C P t _ c hne
    · intro t' q e
      rw [hb] at e
      injection e with _ e
      rw [← e]
      exact ipn
  | .member l i, t, h, hw, hn => by
    unfold LV.ty at h
    split at h
    · rename_i s hs
      have e := buildL_ty C P hC l _ hs
      cases hm : (P.structs s).members[i]? with
      | none => rw [hm] at h; cases h
      | some m =>
        rw [hm] at h
        simp only [Option.map_some, Option.some.injEq] at h
        have hb : buildL C P (.member l i) = .member t m.1 (buildL C P l) := by
          show memberOf P (buildL C P l) i = _
          unfold memberOf
          rw [e]
          simp only [hm, h]
        have il := (lc hC M l _ hs hw hn).1
        rw [hb]
        refine ⟨?_, by intro t' q e; cases e⟩
        refine LC.ofPart C P (n := .member t m.1 (buildL C P l)) rfl ?_ ?_ ?_ ?_
        · intro σ σ' x a hn hr he; exact hn.1 x a σ' hr he
        · intro c c' v h hv hst
          rw [ev_member_agg, Option.map_eq_some_iff] at h
          obtain ⟨⟨w, c1⟩, h, e2⟩ := h
          injection e2 with e2 e3
          subst e3
          have := il.agg _ _ w h (by rw [enter_var]; exact hv) hst
          refine ⟨this.1, ?_, ?_⟩
          · intro hp
            by_cases ha : isArr t = true
            · exact ha
            · have := this.2.1 (enter_pend t c hp (by simpa using ha))
              cases this
          · intro σ σ' a hσ he
            have he' : ((l.eval P M σ) >>= fun (a, σ) => Res.ok (a + BitVec.ofNat 64 m.1, σ)) = .ok (a, σ') := by
              rw [← he, LV.eval]
              simp only [hs, hm]
            obtain ⟨⟨b, σ1⟩, h1, h2⟩ := res_bind he'
            simp only [Res.ok.injEq, Prod.mk.injEq] at h2
            obtain ⟨e4, e5⟩ := this.2.2 σ σ1 b hσ h1
            refine ⟨?_, by rw [← h2.2, e5]⟩
            rw [← h2.1, e4, ← e2]
            exact BitVec.add_assoc _ _ _
        · intro c; exact ev_member_lab C P t m.1 _ c
        · intro c; exact ev_member_con C P t m.1 _ c
    · cases h
theorem pc (hC : C.Ok) (M : Machine) : ∀ (p : PE) (t : OTy), p.pointee P = some t → p.Wf → p.NoSum →
    PC C P M (buildP C P p) (p.eval P M) p.root (fun σ => p.Near P M σ) ∧
    ∀ (t' : OTy) (m : ANode), buildP C P p = .addr t' m → LC C P M m t (p.eval P M) p.root (fun σ => p.Near P M σ)
  | .addr l, t, h, hw, hn => by
    obtain ⟨il, id⟩ := lc hC M l t (by simpa [PE.pointee] using h) hw hn
    refine ⟨?_, by intro t' m e; injection e with _ e; rw [← e]; exact il⟩
    have hfix : ∀ (v : BitVec 64) (c0 : Ctx), ev C P (buildL C P l) .agg {} = some (v, c0) → c0.var = none →
        l.root = none ∧ ∀ (σ σ' : Store) (a : BitVec 64), StoreOk P.ints σ → l.eval P M σ = .ok (a, σ') → a = v ∧ σ' = σ := by
      intro v c0 h1 h2
      have := il.agg {} c0 v h1 rfl (.inl h2)
      rw [h2] at this
      refine ⟨this.1.symm, ?_⟩
      intro σ σ' a hσ he
      have := this.2.2 σ σ' a hσ he
      rw [base_none] at this
      exact this
    show PC C P M (.addr (.ptr (buildL C P l).ty) (buildL C P l)) (l.eval P M) l.root (fun σ => l.Near P M σ)
    refine ⟨?_, ?_, ?_⟩
    · intro c c' v h hv hp hs
      rcases ev_addr_cases C P _ _ _ _ _ h with ⟨w, c0, _, h1, h2, h3⟩ | ⟨t', q, h1, h2⟩ | ⟨_, _, h1⟩ | ⟨h1, _⟩
      · injection h3 with h3 h4
        subst h3 h4
        have := hfix _ _ h1 h2
        rw [hv]
        refine ⟨this.1.symm, ?_⟩
        intro σ σ' a hσ he
        rw [base_none]
        exact this.2 σ σ' a hσ he
      · exact (id t' q h1).agg c c' v h2 hv hp hs
      · have := il.agg _ c' v h1 hv hs
        exact ⟨this.1, this.2.2⟩
      · cases h1
    · intro c c' v h hv
      rcases ev_addr_cases C P _ _ _ _ _ h with ⟨w, c0, _, h1, h2, h3⟩ | ⟨t', q, h1, h2⟩ | ⟨h1, _⟩ | ⟨_, h1⟩
      · injection h3 with h3 h4
        subst h3 h4
        have := hfix _ _ h1 h2
        rw [hv]
        refine ⟨this.1.symm, ?_⟩
        intro σ σ' a hσ _ he
        rw [base_none]
        exact this.2 σ σ' a hσ he
      · exact (id t' q h1).lab c c' v h2 hv
      · cases h1
      · unfold labelOf at h1
        split at h1
        · cases h1
        · split at h1
          · rename_i x o hx
            injection h1 with h1; injection h1 with h1 h2
            subst h1 h2
            have := il.place x o hx
            exact ⟨this.1.symm, this.2⟩
          · cases h1
    · intro c c' v h
      rcases ev_addr_cases C P _ _ _ _ _ h with ⟨w, c0, _, h1, h2, h3⟩ | ⟨t', q, h1, h2⟩ | ⟨h1, _⟩ | ⟨h1, _⟩
      · injection h3 with h3 h4
        subst h3 h4
        exact hfix _ _ h1 h2
      · exact (id t' q h1).con c c' v h2
      · cases h1
      · cases h1
  | .decay l, t, h, hw, hn => by
    unfold PE.pointee at h
    split at h
    · rename_i t' k hs
      have il := (lc hC M l _ hs hw hn).1
      refine ⟨⟨?_, ?_, ?_⟩, ?_⟩
      · intro c c' v h hv hp hst
        have := il.agg c c' v h hv hst
        exact ⟨this.1, this.2.2⟩
      · intro c c' v h hv
        have := il.lab c c' v h hv
        exact ⟨this.2.1, this.2.2⟩
      · intro c c' v h
        have e : ev C P (buildL C P l) .con c = some (v, c') := h
        rw [il.con] at e; cases e
      · intro t' m e
        have e : buildL C P l = .addr t' m := e
        rcases buildL_place C P hC l _ hs with ⟨x, h⟩ | ⟨p, h, _⟩ | ⟨o, l', h⟩ <;> rw [h] at e <;> cases e
    · cases h
  | .value l, t, h, hw, hn => by
    unfold PE.pointee at h
    split at h
    · rename_i t' hs
      have il := (lc hC M l _ hs hw hn).1
      refine ⟨⟨?_, ?_, ?_⟩, ?_⟩
      · intro c c' v h hv hp hst
        have := (il.agg c c' v h hv hst).2.1 hp
        cases this
      · intro c c' v h hv
        have := (il.lab c c' v h hv).1
        cases this
      · intro c c' v h
        have e : ev C P (buildL C P l) .con c = some (v, c') := h
        rw [il.con] at e; cases e
      · intro t' m e
        have e : buildL C P l = .addr t' m := e
        rcases buildL_place C P hC l _ hs with ⟨x, h⟩ | ⟨p, h, _⟩ | ⟨o, l', h⟩ <;> rw [h] at e <;> cases e
    · cases h
  | .cast t' p, t, h, hw, hn => by
    unfold PE.pointee at h
    cases hp : p.pointee P with
    | none => rw [hp] at h; cases h
    | some u =>
      rw [hp] at h
      obtain ⟨ip, ia⟩ := pc hC M p u hp hw hn
      refine ⟨⟨?_, ?_, ?_⟩, ?_⟩
      · intro c c' v h
        have h : ev C P (castA C P (buildP C P p) (.ptr t')) .agg c = some (v, c') := h
        rw [ev_castA_ptr C P hC] at h
        exact ip.agg c c' v h
      · intro c c' v h
        have h : ev C P (castA C P (buildP C P p) (.ptr t')) .lab c = some (v, c') := h
        rw [ev_castA_ptr C P hC] at h
        exact ip.lab c c' v h
      · intro c c' v h
        have h : ev C P (castA C P (buildP C P p) (.ptr t')) .con c = some (v, c') := h
        rw [ev_castA_ptr C P hC] at h
        exact ip.con c c' v h
      · intro t2 m e
        have e : castA C P (buildP C P p) (.ptr t') = .addr t2 m := e
        rcases castA_ptr_form C P (buildP C P p) t' with h1 | h1
        · have ety := castA_ty C P hC (buildP C P p) (.ptr t')
          rw [h1] at e ety
          have hu : u = t := by
            have : t' = t := by simpa using h
            rw [← this]
            rcases buildP_ty C P hC p u hp with h2 | ⟨k, h2⟩
            · rw [h2] at ety; injection ety
            · rw [h2] at ety; cases ety
          rw [← hu]
          exact ia t2 m e
        · rw [h1] at e; cases e
  | .ofInt t' i, t, h, hw, hn => by
    unfold PE.pointee at h
    cases hp : i.ty P with
    | none => rw [hp] at h; cases h
    | some u =>
      have ii := ic hC M i u hp hw hn
      have hev : ∀ (σ σ' : Store) (a : BitVec 64), (PE.ofInt t' i).eval P M σ = .ok (a, σ') →
          ∃ x, i.eval P M σ = .ok (x, σ') ∧ a = BitVec.ofInt 64 x := by
        intro σ σ' a he
        obtain ⟨⟨x, σ1⟩, h1, h2⟩ := res_bind (show ((i.eval P M σ) >>= fun (v, σ) => Res.ok (BitVec.ofInt 64 v, σ)) = _ from he)
        simp only [Res.ok.injEq, Prod.mk.injEq] at h2
        exact ⟨x, by rw [h1, h2.2], h2.1.symm⟩
      refine ⟨⟨?_, ?_, ?_⟩, ?_⟩
      · intro c c' v h hv hpd hs
        have h : ev C P (castA C P (buildI C P i) (.ptr t')) .agg c = some (v, c') := h
        rw [ev_castA_ptr C P hC] at h
        have := ii.agg c c' v h hv hpd hs
        refine ⟨this.1, ?_⟩
        intro σ σ' a hσ he
        obtain ⟨x, h1, h2⟩ := hev σ σ' a he
        rw [h2]
        exact this.2 σ σ' x hσ h1
      · intro c c' v h hv
        have h : ev C P (castA C P (buildI C P i) (.ptr t')) .lab c = some (v, c') := h
        rw [ev_castA_ptr C P hC] at h
        have := ii.lab c c' v h hv
        refine ⟨this.1, ?_⟩
        intro σ σ' a hσ hn he
        obtain ⟨x, h1, h2⟩ := hev σ σ' a he
        rw [h2]
        exact this.2 σ σ' x hσ hn h1
      · intro c c' v h
        have h : ev C P (castA C P (buildI C P i) (.ptr t')) .con c = some (v, c') := h
        rw [ev_castA_ptr C P hC] at h
        have := ii.con c c' v h
        refine ⟨this.1, ?_⟩
        intro σ σ' a hσ he
        obtain ⟨x, h1, h2⟩ := hev σ σ' a he
        rw [h2]
        exact this.2 σ σ' x hσ h1
      · intro t2 m e
        have e : castA C P (buildI C P i) (.ptr t') = .addr t2 m := e
        rcases castA_ptr_form C P (buildI C P i) t' with h1 | h1
        · have ety := castA_ty C P hC (buildI C P i) (.ptr t')
          rw [h1, buildI_ty C P hC i u hp] at ety
          cases ety
        · rw [h1] at e; cases e
  | .add p i, t, h, hw, hn => by
    unfold PE.pointee at h
    cases hi : i.ty P with
    | none => rw [hi] at h; cases h
    | some u =>
      rw [hi] at h
      have h : p.pointee P = some t := h
      have ip := (pc hC M p t h hw.1 hn.1).1
      have ii := ic hC M i u hi hw.2 hn.2
      have hb : buildP C P (.add p i) = .add (.ptr t) (ptrOf C P (buildP C P p)) (scale C P (buildI C P i) (P.sizeof t)) := by
        show ANode.add _ _ _ = _
        rw [pointee_base C P hC p t h]
      have hsp : ∀ (k : EvKind) (c c' : Ctx) (v : BitVec 64), ev C P (buildP C P (.add p i)) k c = some (v, c') →
          ∃ x y, ev C P (buildP C P p) k c = some (x, c') ∧ v = x + y ∧
          ∀ (σ σ' : Store) (a : Int), StoreOk P.ints σ → i.eval P M σ = .ok (a, σ') →
            y = BitVec.ofInt 64 (a * P.sizeof t) ∧ σ' = σ := by
        intro k c c' v he
        rw [hb, ev, ev_ptrOf C P hC] at he
        split at he
        · rename_i x c1 hx
          rw [Option.map_eq_some_iff] at he
          obtain ⟨⟨y, c2⟩, hy, e⟩ := he
          injection e with e1 e2
          subst e2
          obtain ⟨e3, e4⟩ := ii.idx _ _ _ _ _ hy
          subst e3
          exact ⟨x, y, hx, e1.symm, e4⟩
        · cases he
      have hev : ∀ (σ σ' : Store) (a : BitVec 64), (PE.add p i).eval P M σ = .ok (a, σ') →
          ∃ b σ1 x, p.eval P M σ = .ok (b, σ1) ∧ i.eval P M σ1 = .ok (x, σ') ∧ a = b + BitVec.ofInt 64 (x * P.sizeof t) := by
        intro σ σ' a he
        rw [PE.eval] at he
        obtain ⟨⟨b, σ1⟩, h1, h2⟩ := res_bind he
        obtain ⟨⟨x, σ2⟩, h3, h4⟩ := res_bind h2
        simp only [Res.ok.injEq, Prod.mk.injEq, h] at h4
        exact ⟨b, σ1, x, h1, by rw [h3, h4.2], h4.1.symm⟩
      refine ⟨⟨?_, ?_, ?_⟩, by intro t' m e; rw [hb] at e; cases e⟩
      · intro c c' v he hv hpd hs
        obtain ⟨x, y, h1, h2, h3⟩ := hsp _ _ _ _ he
        have := ip.agg c c' x h1 hv hpd hs
        refine ⟨this.1, ?_⟩
        intro σ σ' a hσ he
        obtain ⟨b, σ1, z, e1, e2, e3⟩ := hev σ σ' a he
        obtain ⟨e4, e5⟩ := this.2 σ σ1 b hσ e1
        subst e5
        obtain ⟨e6, e7⟩ := h3 _ σ' z hσ e2
        exact ⟨by rw [e3, e4, h2, e6, BitVec.add_assoc], e7⟩
      · intro c c' v he hv
        obtain ⟨x, y, h1, h2, h3⟩ := hsp _ _ _ _ he
        have := ip.lab c c' x h1 hv
        refine ⟨this.1, ?_⟩
        intro σ σ' a hσ hn he
        obtain ⟨b, σ1, z, e1, e2, e3⟩ := hev σ σ' a he
        obtain ⟨e4, e5⟩ := this.2 σ σ1 b hσ hn e1
        subst e5
        obtain ⟨e6, e7⟩ := h3 _ σ' z hσ e2
        exact ⟨by rw [e3, e4, h2, e6, BitVec.add_assoc], e7⟩
      · intro c c' v he
        obtain ⟨x, y, h1, h2, h3⟩ := hsp _ _ _ _ he
        have := ip.con c c' x h1
        refine ⟨this.1, ?_⟩
        intro σ σ' a hσ he
        obtain ⟨b, σ1, z, e1, e2, e3⟩ := hev σ σ' a he
        obtain ⟨e4, e5⟩ := this.2 σ σ1 b hσ e1
        subst e5
        obtain ⟨e6, e7⟩ := h3 _ σ' z hσ e2
        exact ⟨by rw [e3, e4, h2, e6], e7⟩
  | .radd i p, t, h, hw, hn => by
    unfold PE.pointee at h
    cases hi : i.ty P with
    | none => rw [hi] at h; cases h
    | some u =>
      rw [hi] at h
      have h : p.pointee P = some t := h
      have ip := (pc hC M p t h hw.2 hn.2).1
      have ii := ic hC M i u hi hw.1 hn.1
      have hb : buildP C P (.radd i p) = .add (.ptr t) (scale C P (buildI C P i) (P.sizeof t)) (ptrOf C P (buildP C P p)) := by
        show ANode.add _ _ _ = _
        rw [pointee_base C P hC p t h]
      have hsp : ∀ (k : EvKind) (c c' : Ctx) (v : BitVec 64), ev C P (buildP C P (.radd i p)) k c = some (v, c') →
          ∃ x y, ev C P (buildP C P p) k c = some (x, c') ∧ v = x + y ∧
          ∀ (σ σ' : Store) (a : Int), StoreOk P.ints σ → i.eval P M σ = .ok (a, σ') →
            y = BitVec.ofInt 64 (a * P.sizeof t) ∧ σ' = σ := by
        intro k c c' v he
        rw [hb, ev] at he
        split at he
        · rename_i y c1 hy
          rw [Option.map_eq_some_iff] at he
          obtain ⟨⟨x, c2⟩, hx, e⟩ := he
          injection e with e1 e2
          subst e2
          obtain ⟨e3, e4⟩ := ii.idx _ _ _ _ _ hy
          subst e3
          rw [ev_ptrOf C P hC] at hx
          exact ⟨x, y, hx, by rw [← e1]; exact BitVec.add_comm _ _, e4⟩
        · cases he
      have hev : ∀ (σ σ' : Store) (a : BitVec 64), (PE.radd i p).eval P M σ = .ok (a, σ') →
          ∃ b σ1 x, p.eval P M σ1 = .ok (b, σ') ∧ i.eval P M σ = .ok (x, σ1) ∧ a = b + BitVec.ofInt 64 (x * P.sizeof t) := by
        intro σ σ' a he
        rw [PE.eval] at he
        obtain ⟨⟨x, σ1⟩, h1, h2⟩ := res_bind he
        obtain ⟨⟨b, σ2⟩, h3, h4⟩ := res_bind h2
        simp only [Res.ok.injEq, Prod.mk.injEq, h] at h4
        exact ⟨b, σ1, x, by rw [h3, h4.2], h1, h4.1.symm⟩
      refine ⟨⟨?_, ?_, ?_⟩, by intro t' m e; rw [hb] at e; cases e⟩
      · intro c c' v he hv hpd hs
        obtain ⟨x, y, h1, h2, h3⟩ := hsp _ _ _ _ he
        have := ip.agg c c' x h1 hv hpd hs
        refine ⟨this.1, ?_⟩
        intro σ σ' a hσ he
        obtain ⟨b, σ1, z, e1, e2, e3⟩ := hev σ σ' a he
        obtain ⟨e6, e7⟩ := h3 _ σ1 z hσ e2
        subst e7
        obtain ⟨e4, e5⟩ := this.2 _ σ' b hσ e1
        exact ⟨by rw [e3, e4, h2, e6, BitVec.add_assoc], e5⟩
      · intro c c' v he hv
        obtain ⟨x, y, h1, h2, h3⟩ := hsp _ _ _ _ he
        have := ip.lab c c' x h1 hv
        refine ⟨this.1, ?_⟩
        intro σ σ' a hσ hn he
        obtain ⟨b, σ1, z, e1, e2, e3⟩ := hev σ σ' a he
        obtain ⟨e6, e7⟩ := h3 _ σ1 z hσ e2
        subst e7
        obtain ⟨e4, e5⟩ := this.2 _ σ' b hσ hn e1
        exact ⟨by rw [e3, e4, h2, e6, BitVec.add_assoc], e5⟩
      · intro c c' v he
        obtain ⟨x, y, h1, h2, h3⟩ := hsp _ _ _ _ he
        have := ip.con c c' x h1
        refine ⟨this.1, ?_⟩
        intro σ σ' a hσ he
        obtain ⟨b, σ1, z, e1, e2, e3⟩ := hev σ σ' a he
        obtain ⟨e6, e7⟩ := h3 _ σ1 z hσ e2
        subst e7
        obtain ⟨e4, e5⟩ := this.2 _ σ' b hσ e1
        exact ⟨by rw [e3, e4, h2, e6], e5⟩
  | .sub p i, t, h, hw, hn => by
    unfold PE.pointee at h
    cases hi : i.ty P with
    | none => rw [hi] at h; cases h
    | some u =>
      rw [hi] at h
      have h : p.pointee P = some t := h
      have ip := (pc hC M p t h hw.1 hn.1).1
      have ii := ic hC M i u hi hw.2 hn.2
      have hb : buildP C P (.sub p i) = .sub (.ptr t) (ptrOf C P (buildP C P p)) (scale C P (buildI C P i) (P.sizeof t)) := by
        show ANode.sub _ _ _ = _
        rw [pointee_base C P hC p t h]
      have hsp : ∀ (k : EvKind) (c c' : Ctx) (v : BitVec 64), ev C P (buildP C P (.sub p i)) k c = some (v, c') →
          ∃ x y, ev C P (buildP C P p) k c = some (x, c') ∧ v = x - y ∧
          ∀ (σ σ' : Store) (a : Int), StoreOk P.ints σ → i.eval P M σ = .ok (a, σ') →
            y = BitVec.ofInt 64 (a * P.sizeof t) ∧ σ' = σ := by
        intro k c c' v he
        rw [hb, ev, ev_ptrOf C P hC] at he
        split at he
        · rename_i x c1 hx
          rw [Option.map_eq_some_iff] at he
          obtain ⟨⟨y, c2⟩, hy, e⟩ := he
          injection e with e1 e2
          subst e2
          exact ⟨x, y, hx, e1.symm, (ii.idx _ _ _ _ _ hy).2⟩
        · cases he
      have hev : ∀ (σ σ' : Store) (a : BitVec 64), (PE.sub p i).eval P M σ = .ok (a, σ') →
          ∃ b σ1 x, p.eval P M σ = .ok (b, σ1) ∧ i.eval P M σ1 = .ok (x, σ') ∧ a = b - BitVec.ofInt 64 (x * P.sizeof t) := by
        intro σ σ' a he
        rw [PE.eval] at he
        obtain ⟨⟨b, σ1⟩, h1, h2⟩ := res_bind he
        obtain ⟨⟨x, σ2⟩, h3, h4⟩ := res_bind h2
        simp only [Res.ok.injEq, Prod.mk.injEq, h] at h4
        exact ⟨b, σ1, x, h1, by rw [h3, h4.2], h4.1.symm⟩
      have hassoc : ∀ x y z : BitVec 64, x + y - z = x + (y - z) := by
        intro x y z
        rw [BitVec.sub_eq_add_neg, BitVec.sub_eq_add_neg, BitVec.add_assoc]
      refine ⟨⟨?_, ?_, ?_⟩, by intro t' m e; rw [hb] at e; cases e⟩
      · intro c c' v he hv hpd hs
        obtain ⟨x, y, h1, h2, h3⟩ := hsp _ _ _ _ he
        have := ip.agg c c' x h1 hv hpd hs
        refine ⟨this.1, ?_⟩
        intro σ σ' a hσ he
        obtain ⟨b, σ1, z, e1, e2, e3⟩ := hev σ σ' a he
        obtain ⟨e4, e5⟩ := this.2 σ σ1 b hσ e1
        subst e5
        obtain ⟨e6, e7⟩ := h3 _ σ' z hσ e2
        exact ⟨by rw [e3, e4, h2, e6, hassoc], e7⟩
      · intro c c' v he hv
        obtain ⟨x, y, h1, h2, h3⟩ := hsp _ _ _ _ he
        have := ip.lab c c' x h1 hv
        refine ⟨this.1, ?_⟩
        intro σ σ' a hσ hn he
        obtain ⟨b, σ1, z, e1, e2, e3⟩ := hev σ σ' a he
        obtain ⟨e4, e5⟩ := this.2 σ σ1 b hσ hn e1
        subst e5
        obtain ⟨e6, e7⟩ := h3 _ σ' z hσ e2
        exact ⟨by rw [e3, e4, h2, e6, hassoc], e7⟩
      · intro c c' v he
        obtain ⟨x, y, h1, h2, h3⟩ := hsp _ _ _ _ he
        have := ip.con c c' x h1
        refine ⟨this.1, ?_⟩
        intro σ σ' a hσ he
        obtain ⟨b, σ1, z, e1, e2, e3⟩ := hev σ σ' a he
        obtain ⟨e4, e5⟩ := this.2 σ σ1 b hσ e1
        subst e5
        obtain ⟨e6, e7⟩ := h3 _ σ' z hσ e2
        exact ⟨by rw [e3, e4, h2, e6], e7⟩
theorem ic (hC : C.Ok) (M : Machine) : ∀ (i : IE) (t : CTy), i.ty P = some t → i.Wf → i.NoSum →
    IC C P M (buildI C P i) (i.eval P M) i.root (fun σ => i.Near P M σ)
  | .expr e, t, h, hw, hn => by
    have hctx : ∀ (k : EvKind) (c c' : Ctx) (v : BitVec 64), ev C P (buildI C P (.expr e)) k c = some (v, c') → c' = c := by
      intro k c c' v h
      rw [show buildI C P (.expr e) = .int (e.ty P.ints) (build C.hs C.opt P.ints e) from rfl, ev] at h
      split at h
      · injection h with h; injection h with _ h; exact h.symm
      · cases h
    refine ⟨?_, ?_, ?_, ?_⟩
    · intro c c' v h hv _ _
      have := hctx _ _ _ _ h
      subst this
      refine ⟨hv, ?_⟩
      intro σ σ' a hσ he
      have := int_expr C P e hw _ _ _ _ v σ σ' hσ a he h
      rw [hv, base_none]
      exact ⟨this.1.symm, this.2.1⟩
    · intro c c' v h hv
      have := hctx _ _ _ _ h
      subst this
      refine ⟨hv, ?_⟩
      intro σ σ' a hσ _ he
      have := int_expr C P e hw _ _ _ _ v σ σ' hσ a he h
      rw [hv, base_none]
      exact ⟨this.1.symm, this.2.1⟩
    · intro c c' v h
      refine ⟨rfl, ?_⟩
      intro σ σ' a hσ he
      have := int_expr C P e hw _ _ _ _ v σ σ' hσ a he h
      exact ⟨this.1.symm, this.2.1⟩
    · intro size k c c' v h
      refine ⟨scale_ctx C P _ _ _ _ _ _ h, ?_⟩
      intro σ σ' a hσ he
      exact scale_expr C P e hw _ size k c c' v σ σ' hσ a he h
  | .obj l, t, h, hw, hn => by
    unfold IE.ty at h
    split at h
    · rename_i t' hs
      have il := (lc hC M l _ hs hw hn).1
      refine ⟨?_, ?_, ?_, ?_⟩
      · intro c c' v h hv hp hst
        have := (il.agg c c' v h hv hst).2.1 hp
        cases this
      · intro c c' v h hv
        have := (il.lab c c' v h hv).1
        cases this
      · intro c c' v h
        have e : ev C P (buildL C P l) .con c = some (v, c') := h
        rw [il.con] at e; cases e
      · intro size k c c' v h
        exfalso
        have hU : Unknown C P (buildL C P l) := by
          have hcon := il.con
          rcases buildL_place C P hC l _ hs with ⟨x, h⟩ | ⟨p, h, _⟩ | ⟨o, l', h⟩
          · rw [h]; exact .var _ _
          · rw [h] at hcon ⊢; exact .deref _ _ hcon
          · rw [h]; exact .member _ _ _
        have hne : ∀ (u : CTy) (m : Node), buildL C P l ≠ .int u m := by
          intro u m e; rw [e] at hU; cases hU
        have hU2 : Unknown C P (promoteA C P (buildL C P l)) := by
          unfold promoteA
          split
          · exact hU.castA C P .int (by decide)
          · exact hU
        have h : ev C P (scale C P (buildL C P l) size) k c = some (v, c') := h
        unfold scale at h
        split at h
        · rename_i u m e; exact hne _ _ e
        · have key : ∀ (T : CTy) (m : ANode), T ≠ .bool →
              ev C P (.mul (.int T) (castA C P (promoteA C P (buildL C P l)) (.int T)) m) k c = none := by
            intro T m hT
            rw [ev, (hU2.castA C P T hT).none C P {}]
          have h2 := (key _ _ ?_).symm.trans h
          · cases h2
          · split
            · rename_i u _; cases u <;> decide
            · decide
    · cases h
  | .ofPtr t' p, t, h, hw, hn => by
    unfold IE.ty at h
    cases hp : p.pointee P with
    | none => rw [hp] at h; cases h
    | some u =>
      rw [hp] at h
      simp only [Option.bind_some] at h
      split at h
      · rename_i h8
        injection h with h
        subst h
        have ip := (pc hC M p u hp hw hn).1
        have hne : ∀ w : CTy, (buildP C P p).ty ≠ .int w := by
          intro w
          rcases buildP_ty C P hC p u hp with e | ⟨k, e⟩ <;> rw [e] <;> intro h <;> cases h
        have hev : ∀ (σ σ' : Store) (a : Int), (IE.ofPtr t' p).eval P M σ = .ok (a, σ') →
            ∃ b, p.eval P M σ = .ok (b, σ') ∧ BitVec.ofInt 64 a = b := by
          intro σ σ' a he
          rw [IE.eval] at he
          obtain ⟨⟨b, σ1⟩, h1, h2⟩ := res_bind he
          simp only [Res.ok.injEq, Prod.mk.injEq] at h2
          refine ⟨b, by rw [h1, h2.2], ?_⟩
          rw [← h2.1, ofInt_conv64 _ _ h8, BitVec.ofInt_natCast, BitVec.ofNat_toNat, BitVec.setWidth_eq]
        have hb : buildI C P (.ofPtr t' p) = castA C P (buildP C P p) (.int t') := rfl
        rcases castA_ofPtr C P hC t' h8 _ hne with ⟨w, cw, e, hw'⟩ | e
        · have hc := ip.con _ _ _ hw'
          have hev2 : ∀ (k : EvKind) (c c' : Ctx) (v : BitVec 64), ev C P (buildI C P (.ofPtr t' p)) k c = some (v, c') →
              v = w ∧ c' = c := by
            intro k c c' v h
            rw [hb, e, ev] at h
            simp only [evalNode, Option.some.injEq, Prod.mk.injEq] at h
            exact ⟨h.1.symm, h.2.symm⟩
          refine ⟨?_, ?_, ?_, ?_⟩
          · intro c c' v h hv _ _
            obtain ⟨e1, e2⟩ := hev2 _ _ _ _ h
            subst e1 e2
            rw [hv]
            refine ⟨hc.1.symm, ?_⟩
            intro σ σ' a hσ he
            obtain ⟨b, h1, h2⟩ := hev σ σ' a he
            rw [base_none, h2]
            exact hc.2 σ σ' b hσ h1
          · intro c c' v h hv
            obtain ⟨e1, e2⟩ := hev2 _ _ _ _ h
            subst e1 e2
            rw [hv]
            refine ⟨hc.1.symm, ?_⟩
            intro σ σ' a hσ _ he
            obtain ⟨b, h1, h2⟩ := hev σ σ' a he
            rw [base_none, h2]
            exact hc.2 σ σ' b hσ h1
          · intro c c' v h
            obtain ⟨e1, e2⟩ := hev2 _ _ _ _ h
            subst e1 e2
            refine ⟨hc.1, ?_⟩
            intro σ σ' a hσ he
            obtain ⟨b, h1, h2⟩ := hev σ σ' a he
            rw [h2]
            exact hc.2 σ σ' b hσ h1
          · intro size k c c' v h
            refine ⟨scale_ctx C P _ _ _ _ _ _ h, ?_⟩
            obtain ⟨x, c0, h1, h2⟩ := scale_ofPtr C P hC t' h8 _ hne size k c c' v h
            have hc := ip.con _ _ _ h1
            intro σ σ' a hσ he
            obtain ⟨b, h3, h4⟩ := hev σ σ' a he
            obtain ⟨e1, e2⟩ := hc.2 σ σ' b hσ h3
            refine ⟨?_, e2⟩
            rw [h2, BitVec.ofInt_mul, h4, e1, BitVec.ofInt_natCast]
        · have hev2 : ∀ (k : EvKind) (c : Ctx), ev C P (buildI C P (.ofPtr t' p)) k c = ev C P (buildP C P p) k c := by
            intro k c
            rw [hb, e, ev_cast8 C P t' h8]
          refine ⟨?_, ?_, ?_, ?_⟩
          · intro c c' v h hv hpd hs
            rw [hev2] at h
            have := ip.agg c c' v h hv hpd hs
            refine ⟨this.1, ?_⟩
            intro σ σ' a hσ he
            obtain ⟨b, h1, h2⟩ := hev σ σ' a he
            rw [h2]
            exact this.2 σ σ' b hσ h1
          · intro c c' v h hv
            rw [hev2] at h
            have := ip.lab c c' v h hv
            refine ⟨this.1, ?_⟩
            intro σ σ' a hσ hn he
            obtain ⟨b, h1, h2⟩ := hev σ σ' a he
            rw [h2]
            exact this.2 σ σ' b hσ hn h1
          · intro c c' v h
            rw [hev2] at h
            have := ip.con c c' v h
            refine ⟨this.1, ?_⟩
            intro σ σ' a hσ he
            obtain ⟨b, h1, h2⟩ := hev σ σ' a he
            rw [h2]
            exact this.2 σ σ' b hσ h1
          · intro size k c c' v h
            refine ⟨scale_ctx C P _ _ _ _ _ _ h, ?_⟩
            obtain ⟨x, c0, h1, h2⟩ := scale_ofPtr C P hC t' h8 _ hne size k c c' v h
            have hc := ip.con _ _ _ h1
            intro σ σ' a hσ he
            obtain ⟨b, h3, h4⟩ := hev σ σ' a he
            obtain ⟨e1, e2⟩ := hc.2 σ σ' b hσ h3
            refine ⟨?_, e2⟩
            rw [h2, BitVec.ofInt_mul, h4, e1, BitVec.ofInt_natCast]
      · cases h
  | .plus a b, t, h, hw, hn => hn.elim
end

end
end Slimcc.Addr
