import Verif.Lemmas.ExprType
/-!
C79: the type of an expression is the one the C standard gives it.
-/
set_option autoImplicit false
namespace Slimcc.Props
open Slimcc Slimcc.Spec Slimcc.Ty Slimcc.ExprType

/-- The type `m` that the compiler holds is what C says of an expression of category `c` and type
`q t`. For an lvalue it is that type, except that qualifiers an array inherits (`k`) stand on the
array and not on its elements. For a value the qualifiers do not count, and a function may stand for
the pointer to it. -/
def TypeAgrees (c : XCat) (q : XQ) (t : XTy) (k : Bool) (m : XQ × XTy) : Prop :=
  match c with
  | .lval => t.isFn = false ∧ qualify m.1 m.2 = (q, t) ∧ (k = false → m = (q, t))
  | .func => m = (q, t) ∧ t.isFn = true ∧ q = XQ.none
  | .val => t.isArr = false ∧ t.isFn = false ∧ (m.2 = t ∨ (m = (XQ.none, m.2) ∧ m.2.isFn = true ∧ t = .ptr XQ.none m.2))

theorem union_comm (a b : XQ) : a.union b = b.union a := by
  simp only [XQ.union, Bool.or_comm]

theorem union_none (a : XQ) : a.union XQ.none = a := by
  cases a; simp [XQ.union, XQ.none]

theorem qualify_not_arr (q : XQ) (t : XTy) (h : t.isArr = false) : qualify q t = (q, t) := by
  cases t <;> first | rfl | cases h

theorem qualify_isArr (q : XQ) (t : XTy) : (qualify q t).2.isArr = t.isArr := by
  cases t <;> rfl

theorem qualify_isFn (q : XQ) (t : XTy) (h : t.isFn = false) : (qualify q t).2.isFn = false := by
  cases t <;> first | rfl | cases h

theorem inherit_none {q : XQ} {t : XTy} (h : decide (qualify q t ≠ (q, t)) = false) : (q, t) = qualify q t :=
  (Decidable.not_not.mp (of_decide_eq_false h)).symm

theorem qualify_void (q : XQ) (t : XTy) (h : (qualify q t).2 = .void) : t = .void := by
  cases t <;> first | rfl | cases h

/-- Not an array: the type itself. -/
theorem agrees_exact {c : XCat} {q : XQ} {t : XTy} {k : Bool} {m : XQ × XTy} (h : TypeAgrees c q t k m)
    (ha : t.isArr = false) (hp : ∀ f, t = .ptr XQ.none f → f.isFn = false) : m.2 = t := by
  cases c with
  | lval =>
    have h1 := h.2.1
    have h2 : m.2.isArr = false := by rw [← qualify_isArr m.1 m.2, h1]; exact ha
    rw [qualify_not_arr _ _ h2] at h1
    exact congrArg Prod.snd h1
  | func => rw [h.1]
  | val =>
    rcases h.2.2 with h1 | ⟨-, h1, h2⟩
    · exact h1
    · rw [hp _ h2] at h1; cases h1

theorem agrees_arith {c : XCat} {q : XQ} {a : CATy} {k : Bool} {m : XQ × XTy} (h : TypeAgrees c q (.arith a) k m) :
    m = (m.1, .arith a) := by
  rw [← agrees_exact h rfl (fun f e => by cases e)]

theorem agrees_struct {c : XCat} {q : XQ} {s : Nat} {k : Bool} {m : XQ × XTy} (h : TypeAgrees c q (.struct s) k m) :
    m = (m.1, .struct s) := by
  rw [← agrees_exact h rfl (fun f e => by cases e)]

theorem agrees_ptr {c : XCat} {q q' : XQ} {t' : XTy} {k : Bool} {m : XQ × XTy} (h : TypeAgrees c q (.ptr q' t') k m)
    (hf : t'.isFn = false) : m = (m.1, .ptr q' t') := by
  rw [← agrees_exact h rfl (fun f e => by cases e; exact hf)]

/-- Only lvalues are arrays. -/
theorem agrees_arr {c : XCat} {q q' : XQ} {t' : XTy} {n : Option Nat} {k : Bool} {m : XQ × XTy}
    (h : TypeAgrees c q (.arr q' t' n) k m) :
    ∃ q0 t0, m = (m.1, .arr q0 t0 n) ∧ qualify (m.1.union q0) t0 = (q', t') ∧
      (k = false → m.1.union q0 = q' ∧ t0 = t') := by
  cases c with
  | func => cases h.2.1
  | val => cases h.1
  | lval =>
    obtain ⟨-, h1, h2⟩ := h
    obtain ⟨q1, t1⟩ := m
    cases t1 with
    | arr q0 t0 n0 =>
      simp only [qualify, Prod.mk.injEq, XTy.arr.injEq] at h1
      obtain ⟨h3, h4, h5, h6⟩ := h1
      refine ⟨q0, t0, by rw [h6], by rw [← h4, ← h5], fun hk => ?_⟩
      have := h2 hk
      simp only [Prod.mk.injEq, XTy.arr.injEq] at this
      obtain ⟨e1, e2, e3, -⟩ := this
      refine ⟨?_, e3⟩
      rw [e1, ← h3, e2, union_comm, union_none]
    | _ => simp [qualify] at h1

/-- The type of the value. -/
theorem agrees_value {c : XCat} {q : XQ} {t : XTy} {k : Bool} {m : XQ × XTy} (h : TypeAgrees c q t k m)
    (hu : ByValue true t k) : m.2.conv = t.conv ∧ (m.2.isFn = true → m.1 = XQ.none) := by
  cases c with
  | lval =>
    obtain ⟨hf, h1, h3⟩ := h
    have key : m.2 = t := by
      cases ha : t.isArr with
      | true => rw [h3 (hu rfl ha)]
      | false =>
        have h2 : m.2.isArr = false := by rw [← qualify_isArr m.1 m.2, h1]; exact ha
        rw [qualify_not_arr _ _ h2] at h1
        exact congrArg Prod.snd h1
    rw [key]
    exact ⟨rfl, fun h => by rw [hf] at h; cases h⟩
  | func => rw [h.1]; exact ⟨rfl, fun _ => h.2.2⟩
  | val =>
    obtain ⟨ha, hf, h⟩ := h
    rcases h with h | ⟨h0, h1, h2⟩
    · rw [h]; exact ⟨rfl, fun h => by rw [hf] at h; cases h⟩
    · refine ⟨?_, fun _ => by rw [h0]⟩
      rw [h2]
      cases hm : m.2 with
      | fn r p => rfl
      | _ => rw [hm] at h1; cases h1

/-- What becomes a pointer. -/
theorem conv_ptr_cases {t : XTy} {q : XQ} {a : XTy} (h : t.conv = .ptr q a) :
    t = .ptr q a ∨ (∃ n, t = .arr q a n) ∨ (∃ r p, t = .fn r p ∧ q = XQ.none ∧ a = .fn r p) := by
  cases t with
  | ptr => exact .inl h
  | arr q' a' n => cases h; exact .inr (.inl ⟨n, rfl⟩)
  | fn r p => cases h; exact .inr (.inr ⟨r, p, rfl, rfl, rfl⟩)
  | _ => cases h

/-- An operand whose value is a pointer. -/
theorem pointer_operand {m : XQ × XTy} {q : XQ} {a : XTy} (h : m.2.conv = .ptr q a ∧ (m.2.isFn = true → m.1 = XQ.none)) :
    base (funcToPointer m) = some (q, a) ∧ isInteger (funcToPointer m) = false ∧ isNumeric m = false ∧
      (arrayToPointer (funcToPointer m)).2 = .ptr q a ∧ (ptrOperand (funcToPointer m)).2 = .ptr q a ∧
      m.2 ≠ .void ∧ (∀ dst, isFlonum dst = false → invalidCast m dst = false) ∧
      isInteger m = false ∧
      TypeAgrees .val XQ.none (.ptr q a) false (arrayToPointer m) := by
  obtain ⟨h, hf⟩ := h
  obtain ⟨q0, t0⟩ := m
  rcases conv_ptr_cases h with h | ⟨n, h⟩ | ⟨r, p, h1, h2, h3⟩
  · simp only at h; subst h
    refine ⟨rfl, rfl, rfl, rfl, rfl, nofun, fun d hd => ?_, rfl, rfl, rfl, .inl rfl⟩
    simp [invalidCast, hd, noValue]
  · simp only at h; subst h
    refine ⟨rfl, rfl, rfl, rfl, rfl, nofun, fun d hd => ?_, rfl, rfl, rfl, .inl rfl⟩
    simp [invalidCast, hd, noValue]
  · simp only at h1; subst h1 h2 h3
    have h0 : q0 = XQ.none := hf rfl
    subst h0
    refine ⟨rfl, rfl, rfl, rfl, rfl, nofun, fun d hd => ?_, rfl, rfl, rfl, .inr ⟨rfl, rfl, rfl⟩⟩
    simp [invalidCast, hd, noValue]

/-- A value of type `t`. -/
theorem val_agrees {m : XQ × XTy} {t : XTy} (h : m.2 = t) (ha : t.isArr = false) (hf : t.isFn = false) :
    TypeAgrees .val XQ.none t false m := ⟨ha, hf, .inl h⟩

theorem some_agrees {x : Option M} {q' : XQ} {t : XTy} (h : x = some (q', t)) (ha : t.isArr = false)
    (hf : t.isFn = false) : ∃ m, x = some m ∧ TypeAgrees .val XQ.none t false m := ⟨_, h, val_agrees rfl ha hf⟩

theorem invalidCast_arith (q : XQ) (a : CATy) (d : XQ × XTy) : invalidCast (q, .arith a) d = false := by
  simp [invalidCast, base, noValue]

theorem usual_arith (E : Env) (n1 n2 hp : Bool) (q1 q2 : XQ) (a b : CATy) :
    usualArithConv E n1 n2 (q1, .arith a) (q2, .arith b) hp =
      some (XQ.none, .arith ((a.promote none).common (b.promote none))) := by
  have h : getCommonType E n1 n2 (q1, .arith a) (q2, .arith b) hp = commonArith (q1, .arith a) (q2, .arith b) := by
    cases hp <;> rfl
  rw [usualArithConv, h, commonArith_eq]
  simp only [newCast, invalidCast_arith]
  rfl

/-- A sum of a pointer and an integer. -/
theorem newAdd_ptr (E : Env) {m1 m2 : XQ × XTy} {q q2 : XQ} {a : XTy} {b : CATy}
    (h : m1.2.conv = .ptr q a ∧ (m1.2.isFn = true → m1.1 = XQ.none)) (h2 : m2 = (q2, .arith b)) (hb : b.isInt = true) :
    newAdd E m1 m2 = some (ptrOperand (funcToPointer m1)) ∧ newSub E m1 m2 = some (ptrOperand (funcToPointer m1)) := by
  obtain ⟨p1, p2, p3, p4, p5, -⟩ := pointer_operand h
  have e : funcToPointer m2 = m2 := by rw [h2]; rfl
  have hi : isInteger m2 = true := by rw [h2, isInteger_arith, hb]
  constructor
  · simp [newAdd, p1, p2, p3, e, hi]
  · simp [newSub, p1, p3, e, hi]

theorem newAdd_ptr2 (E : Env) {m1 m2 : XQ × XTy} {q q1 : XQ} {a : XTy} {b : CATy}
    (h : m2.2.conv = .ptr q a ∧ (m2.2.isFn = true → m2.1 = XQ.none)) (h1 : m1 = (q1, .arith b)) (hb : b.isInt = true) :
    newAdd E m1 m2 = some (ptrOperand (funcToPointer m2)) := by
  obtain ⟨p1, p2, p3, p4, p5, -⟩ := pointer_operand h
  have e : funcToPointer m1 = m1 := by rw [h1]; rfl
  have hi : isInteger m1 = true := by rw [h1, isInteger_arith, hb]
  have hn : base m1 = none := by rw [h1]; rfl
  simp [newAdd, p1, p3, e, hi, hn]

theorem newAdd_num (E : Env) (q1 q2 : XQ) (a b : CATy) :
    newAdd E (q1, .arith a) (q2, .arith b) = some (XQ.none, .arith ((a.promote none).common (b.promote none))) ∧
    newSub E (q1, .arith a) (q2, .arith b) = some (XQ.none, .arith ((a.promote none).common (b.promote none))) := by
  constructor
  · simp [newAdd, isNumeric_arith, usual_arith]
  · simp [newSub, isNumeric_arith, usual_arith]

theorem posTy_eq (q : XQ) (a : CATy) : ∃ q', posTy (q, .arith a) = some (q', .arith (a.promote none)) := by
  cases a with
  | i t =>
    obtain ⟨q', h⟩ := intPromotion_eq q t
    exact ⟨q', by rw [posTy, isNumeric_arith]; simpa [isInteger_arith, CATy.isInt] using h⟩
  | _ => exact ⟨q, rfl⟩

theorem condCast_scalar {m : XQ × XTy} {t : XTy} (h : m.2.conv = t) (hs : t.scalar = true) :
    ∃ r, condCast m = some r := by
  obtain ⟨q0, t0⟩ := m
  simp only at h
  subst h
  have : invalidCast (q0, t0) (unqual (XQ.none, .arith (.i .bool))) = false := by
    cases t0 <;> first | (simp [invalidCast, unqual, base, isFlonum, noValue]; done) | cases hs
  exact ⟨_, by rw [condCast, newCast, this]; rfl⟩

/-- The condition is scalar whatever qualifiers an array has. -/
theorem agrees_scalar {c : XCat} {q : XQ} {t : XTy} {k : Bool} {m : XQ × XTy} (h : TypeAgrees c q t k m)
    (hs : t.conv.scalar = true) : m.2.conv.scalar = true := by
  cases c with
  | lval =>
    obtain ⟨-, h1, -⟩ := h
    cases hm : m.2 with
    | arr => rfl
    | ptr => rfl
    | arith => rfl
    | fn => rfl
    | void => rw [hm] at h1; cases h1; cases hs
    | struct => rw [hm] at h1; cases h1; cases hs
  | func => rw [h.1]; exact hs
  | val =>
    rcases h.2.2 with h | ⟨-, h1, -⟩
    · rw [h]; exact hs
    · cases hm : m.2 with
      | fn => rfl
      | _ => rw [hm] at h1; cases h1

theorem newCast_ok {c : XCat} {q : XQ} {t t0 : XTy} {k : Bool} {m : XQ × XTy} (q0 : XQ) (h : TypeAgrees c q t k m)
    (hc : Convertible t t0) : newCast m (q0, t0) = some (XQ.none, t0) := by
  have key : invalidCast m (XQ.none, t0) = false := by
    rcases hc with hc | ⟨hs, hs0, hf, -⟩
    · subst hc; simp [invalidCast, isFlonum]
    · have hm := agrees_scalar h hs
      have hfl : (base m).isSome = true → isFlonum (XQ.none, t0) = false := by
        intro hb
        cases t0 with
        | arith a =>
          cases a with
          | i => rfl
          | _ =>
            exfalso
            have hp : ∃ q p, t.conv = .ptr q p := by
              obtain ⟨q1, t1⟩ := m
              have hb' : (∃ q p, t1 = .ptr q p) ∨ t1.isArr = true := by
                cases t1 <;> first | exact .inl ⟨_, _, rfl⟩ | exact .inr rfl | cases hb
              cases c with
              | lval =>
                obtain ⟨-, h1, -⟩ := h
                rcases hb' with ⟨q2, p2, e⟩ | e
                · subst e; cases h1; exact ⟨_, _, rfl⟩
                · have : t.isArr = true := by
                    have := qualify_isArr q1 t1
                    rw [h1] at this; rw [this]; exact e
                  cases t <;> first | exact ⟨_, _, rfl⟩ | cases this
              | func =>
                obtain ⟨h1, h2, -⟩ := h
                cases h1
                cases t <;> first | (cases hb; done) | cases h2
              | val =>
                obtain ⟨h1, h2, h3⟩ := h
                rcases h3 with h3 | ⟨-, h3, -⟩
                · simp only at h3; subst h3
                  rcases hb' with ⟨q2, p2, e⟩ | e
                  · subst e; exact ⟨_, _, rfl⟩
                  · rw [h1] at e; cases e
                · cases t1 <;> first | (cases hb; done) | cases h3
            obtain ⟨q2, p2, e⟩ := hp
            exact Bool.noConfusion (hf _ q2 p2 e rfl)
        | _ => rfl
      have hsrc : noValue m.2 = false := by
        cases hm2 : m.2 <;> first | rfl | (rw [hm2] at hm; cases hm)
      rw [invalidCast, hsrc]
      cases hb : (base m).isSome with
      | false => simp
      | true => simp [hfl hb]
  show (if invalidCast m (XQ.none, t0) then none else some (XQ.none, t0)) = _
  rw [key]
  rfl

/-- Compatible operands point to compatible types. -/
theorem compat_conv {x y : XTy} {q r : XQ} {a b : XTy} (hx : x.conv = .ptr q a) (hy : y.conv = .ptr r b)
    (h : x.compat y = true) : a.compat b = true := by
  rcases conv_ptr_cases hx with e | ⟨n, e⟩ | ⟨_, _, e, -, e'⟩ <;>
    rcases conv_ptr_cases hy with f | ⟨m, f⟩ | ⟨_, _, f, -, f'⟩ <;> subst e <;> subst f <;>
    first
    | (simp only [XTy.compat, Bool.and_eq_true] at h; exact h.2)
    | (simp only [XTy.compat, Bool.and_eq_true] at h; exact h.1.2)
    | (subst e' f'; exact h)
    | cases h

theorem null_of_void_zero (E : Env) (q0 : XQ) (e : XExpr) (m : XQ × XTy) (h : E.ice0 e = true) :
    isNullptr E (.cast q0 (.ptr XQ.none .void) e) m = true := h

/-- A pointer is a null pointer for the compiler only if it is a 0 made a pointer to `void`. -/
theorem isNullptr_ptr (E : Env) (e : XExpr) (m : XQ × XTy) (h : isInteger m = false)
    (hn : isNullptr E e m = true) : ∃ q, VoidZero E.ice0 q e := by
  unfold isNullptr at hn
  split at hn
  · rename_i q0 q e'
    exact ⟨q, q0, e', rfl, hn⟩
  · rw [h] at hn; cases hn

theorem isNullptr_int (E : Env) (e : XExpr) (q : XQ) (a : CATy) (he : E.ice0 e = true) (ha : a.isInt = true)
    (hty : addType E e = some (q, .arith a)) : isNullptr E e (q, .arith a) = true := by
  unfold isNullptr
  split
  · rename_i q0 q1 e'
    simp only [addType] at hty
    cases h1 : addType E e' with
    | none => rw [h1] at hty; cases hty
    | some m =>
      rw [h1] at hty
      simp only [Option.bind_some, newCast] at hty
      split at hty
      · cases hty
      · cases hty
  · rw [isInteger_arith, ha, he]; rfl

/-- Two pointers. -/
theorem usual_ptr (E : Env) (hs : Identity E.same) (n1 n2 : Bool) {m1 m2 : XQ × XTy} {q r : XQ} {a b : XTy}
    (h1 : m1.2.conv = .ptr q a ∧ (m1.2.isFn = true → m1.1 = XQ.none))
    (h2 : m2.2.conv = .ptr r b ∧ (m2.2.isFn = true → m2.1 = XQ.none)) :
    ∃ m, usualArithConv E n1 n2 m1 m2 true = some m ∧
      m.2 = (if n2 then .ptr q a else if n1 then .ptr r b else if a.compat b then .ptr q a else .ptr XQ.none .void) := by
  obtain ⟨p1, p2, p3, p4, p5, p6, p7, -⟩ := pointer_operand h1
  obtain ⟨r1, r2, r3, r4, r5, r6, r7, -⟩ := pointer_operand h2
  have hg : ∃ g, getCommonType E n1 n2 m1 m2 true = some g ∧
      g.2 = (if n2 then .ptr q a else if n1 then .ptr r b else if a.compat b then .ptr q a else .ptr XQ.none .void) := by
    simp only [getCommonType, p1, r1, compatible_eq E hs]
    cases n2 <;> cases n1 <;> cases hab : a.compat b <;> simp [p4, r4, pointerTo]
  obtain ⟨g, hg1, hg2⟩ := hg
  have hfl : isFlonum (unqual g) = false := by
    rw [unqual, hg2]
    cases n2 <;> cases n1 <;> cases a.compat b <;> rfl
  refine ⟨unqual g, ?_, hg2⟩
  rw [usualArithConv, hg1]
  simp only [newCast, p7 _ hfl, r7 _ hfl]
  rfl

/-- A conditional expression whose second operand decides the type. -/
theorem cond_first (E : Env) (hs : Identity E.same) (n1 n2 : Bool) {m1 m2 : XQ × XTy} {q r : XQ} {a b : XTy}
    (h1 : m1.2.conv = .ptr q a ∧ (m1.2.isFn = true → m1.1 = XQ.none))
    (h2 : m2.2.conv = .ptr r b ∧ (m2.2.isFn = true → m2.1 = XQ.none))
    (hu : ∀ m, usualArithConv E n1 n2 m1 m2 true = some m → m.2 = .ptr q a) :
    ∃ m, condTy E n1 n2 m1 m2 = some m ∧ TypeAgrees .val XQ.none (.ptr q a) false m := by
  obtain ⟨-, -, p3, -, -, p6, -, -, p9⟩ := pointer_operand h1
  obtain ⟨-, -, -, -, -, s6, -⟩ := pointer_operand h2
  rw [condTy, if_neg (by simp [p6, s6]), p3]
  cases hx : compatible E m1 m2 with
  | true => exact ⟨_, rfl, p9⟩
  | false =>
    obtain ⟨m, hm, -⟩ := usual_ptr E hs n1 n2 h1 h2
    exact ⟨m, by simpa using hm, val_agrees (hu m hm) rfl rfl⟩

theorem not_null (E : Env) (e : XExpr) {m : XQ × XTy} {q : XQ} {a : XTy}
    (h : m.2.conv = .ptr q a ∧ (m.2.isFn = true → m.1 = XQ.none)) (hn : ∀ q, ¬ VoidZero E.ice0 q e) :
    isNullptr E e m = false := by
  cases hx : isNullptr E e m with
  | false => rfl
  | true =>
    obtain ⟨q, hq⟩ := isNullptr_ptr E e m (pointer_operand h).2.2.2.2.2.2.2.1 hx
    exact absurd hq (hn q)

theorem base_arith (q : XQ) (a : CATy) : base (q, .arith a) = none := rfl

theorem funcToPointer_arith (q : XQ) (a : CATy) : funcToPointer (q, .arith a) = (q, .arith a) := rfl

theorem lval_ptr {q q' : XQ} {t' : XTy} {k : Bool} {m : XQ × XTy} (h : TypeAgrees .lval q (.ptr q' t') k m) :
    m.2 = .ptr q' t' := by
  have h3 := h.2.1
  have h4 : m.2.isArr = false := by rw [← qualify_isArr m.1 m.2, h3]; rfl
  rw [qualify_not_arr _ _ h4] at h3
  exact congrArg Prod.snd h3

/-- The type of `(void *)0`. -/
theorem void0_type (E : Env) (q3 : XQ) (e : XExpr) {c : XCat} {q : XQ} {b : CATy} {k : Bool} {m : XQ × XTy}
    (h : TypeAgrees c q (.arith b) k m) (hb : b.isInt = true) (hm : addType E e = some m) :
    addType E (.cast q3 (.ptr XQ.none .void) e) = some (XQ.none, .ptr XQ.none .void) := by
  simp only [addType, hm, Option.bind_some]
  refine newCast_ok q3 h (.inr ⟨rfl, rfl, fun a q p h1 h2 => (by cases h2), fun a q p h1 h2 => ?_⟩)
  cases h2; exact hb

/-- Every typed expression of the plain part gets a type that agrees. -/
theorem addType_agrees (E : Env) (hs : Identity E.same) {e : XExpr} {c : XCat} {q : XQ} {t : XTy} {k : Bool}
    (h : HasType E.fields E.ice0 true e c q t k) : ∃ m, addType E e = some m ∧ TypeAgrees c q t k m := by
  induction h with
  | obj q t hf hv =>
    exact ⟨_, rfl, qualify_isFn q t hf, rfl, fun hk => inherit_none hk⟩
  | fnc r p => exact ⟨_, rfl, rfl, rfl, rfl⟩
  | num a => exact ⟨_, rfl, val_agrees rfl rfl rfl⟩
  | str n => exact ⟨_, rfl, rfl, rfl, fun _ => rfl⟩
  | pos e c q a k _ ih =>
    obtain ⟨m, e1, h1⟩ := ih
    rw [agrees_arith h1] at e1
    obtain ⟨q', h2⟩ := posTy_eq m.1 a
    exact ⟨_, by simp only [addType, e1, Option.bind_some]; exact h2, val_agrees rfl rfl rfl⟩
  | neg e c q a k _ ih =>
    obtain ⟨m, e1, h1⟩ := ih
    rw [agrees_arith h1] at e1
    obtain ⟨q', h2⟩ := posTy_eq m.1 a
    exact ⟨_, by simp only [addType, e1, Option.bind_some]; exact h2, val_agrees rfl rfl rfl⟩
  | bitnot e c q a k _ ha ih =>
    obtain ⟨m, e1, h1⟩ := ih
    rw [agrees_arith h1] at e1
    cases a with
    | i t =>
      obtain ⟨q', h2⟩ := intPromotion_eq m.1 t
      exact ⟨_, by simp only [addType, e1, Option.bind_some]; exact h2, val_agrees rfl rfl rfl⟩
    | _ => cases ha
  | lnot e c q t k _ hsc ih =>
    obtain ⟨m, e1, h1⟩ := ih
    obtain ⟨r, h2⟩ := condCast_scalar rfl (agrees_scalar h1 hsc)
    exact some_agrees (q' := XQ.none) (by simp only [addType, e1, Option.bind_some, h2, Option.map_some]) rfl rfl
  | sizeofE e c q t k _ ih =>
    obtain ⟨m, e1, h1⟩ := ih
    exact some_agrees (q' := XQ.none) (by simp only [addType, e1, Option.map_some]) rfl rfl
  | deref e c q q' t' k _ hv hf ih =>
    obtain ⟨m, e1, h1⟩ := ih
    rw [agrees_ptr h1 hf] at e1
    refine ⟨(q', t'), ?_, ?_, rfl, fun hk => inherit_none hk⟩
    · simp [addType, e1, XTy.isFn, derefTy, base, hv, XTy.isArr]
    · exact qualify_isFn _ _ hf
  | derefArr e c q q' t' n k _ hv hf ih =>
    obtain ⟨m, e1, h1⟩ := ih
    obtain ⟨q0, t0, em, hq, hk⟩ := agrees_arr h1
    rw [em] at e1
    have hv0 : t0 ≠ .void := by
      intro h; subst h; cases hq; exact hv rfl
    refine ⟨(q0.union m.1, t0), ?_, hf, ?_, fun h => ?_⟩
    · simp [addType, e1, XTy.isFn, derefTy, base, hv0, XTy.isArr, applyCv]
    · simp only [union_comm q0 m.1]; exact hq
    · obtain ⟨h2, h3⟩ := hk h
      rw [union_comm q0 m.1, h2, h3]
  | derefFn e c q t r p k _ hc ha ih =>
    obtain ⟨m, e1, h1⟩ := ih
    obtain ⟨h2, h3⟩ := agrees_value h1 (fun _ h => by rw [ha] at h; cases h)
    rw [hc] at h2
    obtain ⟨q1, t1⟩ := m
    refine ⟨(XQ.none, .fn r p), ?_, rfl, rfl, rfl⟩
    rcases conv_ptr_cases h2 with h | ⟨n, h⟩ | ⟨_, _, h, -, h'⟩
    · simp only at h; subst h
      simp [addType, e1, XTy.isFn, derefTy, base, XTy.isArr]
    · simp only at h; subst h
      exfalso
      cases c with
      | lval =>
        have := qualify_isArr q1 (.arr XQ.none (.fn r p) n)
        rw [h1.2.1, ha] at this; cases this
      | func => have e2 := h1.1; cases e2; cases ha
      | val =>
        rcases h1.2.2 with e2 | ⟨-, e2, -⟩
        · simp only at e2; subst e2; cases ha
        · cases e2
    · simp only at h; subst h; cases h'
      have : q1 = XQ.none := h3 rfl
      subst this
      simp [addType, e1, XTy.isFn]
  | addr e c q t k _ hc hu ih =>
    obtain ⟨m, e1, h1⟩ := ih
    refine ⟨pointerTo m, by simp only [addType, e1, Option.map_some], val_agrees ?_ rfl rfl⟩
    have : m = (q, t) := by
      cases c with
      | val => exact absurd rfl hc
      | func => exact h1.1
      | lval =>
        cases ha : t.isArr with
        | true => exact h1.2.2 (hu rfl ha)
        | false =>
          have h2 : m.2.isArr = false := by rw [← qualify_isArr m.1 m.2, h1.2.1]; exact ha
          have h3 := h1.2.1
          rwa [qualify_not_arr _ _ h2] at h3
    rw [this]; rfl
  | index a i c c' q q1 q' t' b k k1 _ _ hb hv hf ih1 ih2 =>
    obtain ⟨m, e1, h1⟩ := ih1
    obtain ⟨mi, e2, h2⟩ := ih2
    have hm := agrees_ptr h1 hf
    have hn := (newAdd_ptr E (m1 := m) (m2 := mi) (q := q') (a := t')
      ⟨by rw [hm]; rfl, fun h => by rw [hm] at h; cases h⟩ (agrees_arith h2) hb).1
    refine ⟨(q', t'), ?_, ?_, rfl, fun hk => inherit_none hk⟩
    · simp only [addType, e1, e2, Option.bind_some, hn]
      rw [hm]
      simp [funcToPointer, ptrOperand, derefTy, base, hv, XTy.isFn, XTy.isArr]
    · exact qualify_isFn _ _ hf
  | indexArr a i c c' q q1 q' t' n b k k1 _ _ hb hv hf ih1 ih2 =>
    obtain ⟨m, e1, h1⟩ := ih1
    obtain ⟨mi, e2, h2⟩ := ih2
    obtain ⟨q0, t0, em, hq, hk⟩ := agrees_arr h1
    have hv0 : t0 ≠ .void := by
      intro h; subst h; cases hq; exact hv rfl
    have hn := (newAdd_ptr E (m1 := m) (m2 := mi) (q := q0) (a := t0)
      ⟨by rw [em]; rfl, fun h => by rw [em] at h; cases h⟩ (agrees_arith h2) hb).1
    refine ⟨(q0.union m.1, t0), ?_, hf, ?_, fun h => ?_⟩
    · simp only [addType, e1, e2, Option.bind_some, hn]
      rw [em]
      simp [funcToPointer, ptrOperand, derefTy, base, hv0, XTy.isFn, XTy.isArr, applyCv, unqual, pointerTo]
    · simp only [union_comm q0 m.1]; exact hq
    · obtain ⟨h2, h3⟩ := hk h
      rw [union_comm q0 m.1, h2, h3]
  | member e n c q s k qf tf _ hfl hf hc ih =>
    obtain ⟨m, e1, h1⟩ := ih
    subst hc
    have hm : m = (q, .struct s) := by
      have h2 := agrees_struct h1
      have h3 := h1.2.1
      rw [h2] at h3
      rw [h2]; exact h3
    subst hm
    refine ⟨(qf.union q, tf), ?_, ?_, rfl, fun hk => inherit_none hk⟩
    · simp [addType, e1, structRef, hfl, applyCv]
    · exact qualify_isFn _ _ hf
  | memberVal e n q s k qf tf _ hfl hf ha ih =>
    obtain ⟨m, e1, h1⟩ := ih
    rw [agrees_struct h1] at e1
    exact ⟨(qf.union m.1, tf), by simp [addType, e1, structRef, hfl, applyCv], val_agrees rfl ha hf⟩
  | arrow e n c q q' s k qf tf _ hfl hf ih =>
    obtain ⟨m, e1, h1⟩ := ih
    rw [agrees_ptr h1 rfl] at e1
    refine ⟨(qf.union q', tf), ?_, ?_, rfl, fun hk => inherit_none hk⟩
    · simp [addType, e1, derefTy, base, structRef, hfl, applyCv, XTy.isArr]
    · exact qualify_isFn _ _ hf
  | call f c q t r p k _ hc ha hra hrf ih =>
    obtain ⟨m, e1, h1⟩ := ih
    obtain ⟨h2, -⟩ := agrees_value h1 (fun _ h => by rw [ha] at h; cases h)
    rw [hc] at h2
    obtain ⟨q1, t1⟩ := m
    refine ⟨(XQ.none, r), ?_, val_agrees rfl hra hrf⟩
    rcases conv_ptr_cases h2 with h | ⟨n, h⟩ | ⟨_, _, h, -, h'⟩
    · simp only at h; subst h
      simp [addType, e1]
    · simp only at h; subst h
      exfalso
      cases c with
      | lval =>
        have := qualify_isArr q1 (.arr XQ.none (.fn r p) n)
        rw [h1.2.1, ha] at this; cases this
      | func => have e2 := h1.1; cases e2; cases ha
      | val =>
        rcases h1.2.2 with e2 | ⟨-, e2, -⟩
        · simp only at e2; subst e2; cases ha
        · cases e2
    · simp only at h; subst h; cases h'
      simp [addType, e1]
  | cast q0 t0 e c q t k _ hc ih =>
    obtain ⟨m, e1, h1⟩ := ih
    have h2 := newCast_ok q0 h1 hc
    refine some_agrees (q' := XQ.none) (by simp only [addType, e1, Option.bind_some, h2]) ?_ ?_
    · rcases hc with hc | ⟨-, hc, -⟩
      · subst hc; rfl
      · cases t0 <;> first | rfl | cases hc
    · rcases hc with hc | ⟨-, hc, -⟩
      · subst hc; rfl
      · cases t0 <;> first | rfl | cases hc
  | mulOp e1 e2 c1 c2 q1 q2 a b k1 k2 _ _ ih1 ih2 =>
    obtain ⟨m1, f1, h1⟩ := ih1
    obtain ⟨m2, f2, h2⟩ := ih2
    rw [agrees_arith h1] at f1
    rw [agrees_arith h2] at f2
    exact some_agrees (q' := XQ.none) (by simp only [addType, f1, f2, Option.bind_some, usual_arith]) rfl rfl
  | addNum e1 e2 c1 c2 q1 q2 a b k1 k2 _ _ ih1 ih2 =>
    obtain ⟨m1, f1, h1⟩ := ih1
    obtain ⟨m2, f2, h2⟩ := ih2
    rw [agrees_arith h1] at f1
    rw [agrees_arith h2] at f2
    exact some_agrees (q' := XQ.none) (by simp only [addType, f1, f2, Option.bind_some, newAdd_num]) rfl rfl
  | subNum e1 e2 c1 c2 q1 q2 a b k1 k2 _ _ ih1 ih2 =>
    obtain ⟨m1, f1, h1⟩ := ih1
    obtain ⟨m2, f2, h2⟩ := ih2
    rw [agrees_arith h1] at f1
    rw [agrees_arith h2] at f2
    exact some_agrees (q' := XQ.none) (by simp only [addType, f1, f2, Option.bind_some, newAdd_num]) rfl rfl
  | addPtr e1 e2 c1 c2 q1 q2 t q' t' b k1 k2 _ hc hu _ hb ih1 ih2 =>
    obtain ⟨m1, f1, h1⟩ := ih1
    obtain ⟨m2, f2, h2⟩ := ih2
    have hv := agrees_value h1 hu
    rw [hc] at hv
    exact ⟨_, by simp only [addType, f1, f2, Option.bind_some, (newAdd_ptr E hv (agrees_arith h2) hb).1],
      val_agrees (pointer_operand hv).2.2.2.2.1 rfl rfl⟩
  | addPtr2 e1 e2 c1 c2 q1 q2 t q' t' b k1 k2 _ hb _ hc hu ih1 ih2 =>
    obtain ⟨m1, f1, h1⟩ := ih1
    obtain ⟨m2, f2, h2⟩ := ih2
    have hv := agrees_value h2 hu
    rw [hc] at hv
    exact ⟨_, by simp only [addType, f1, f2, Option.bind_some, newAdd_ptr2 E hv (agrees_arith h1) hb],
      val_agrees (pointer_operand hv).2.2.2.2.1 rfl rfl⟩
  | subPtr e1 e2 c1 c2 q1 q2 t q' t' b k1 k2 _ hc hu _ hb ih1 ih2 =>
    obtain ⟨m1, f1, h1⟩ := ih1
    obtain ⟨m2, f2, h2⟩ := ih2
    have hv := agrees_value h1 hu
    rw [hc] at hv
    exact ⟨_, by simp only [addType, f1, f2, Option.bind_some, (newAdd_ptr E hv (agrees_arith h2) hb).2],
      val_agrees (pointer_operand hv).2.2.2.2.1 rfl rfl⟩
  | diff e1 e2 c1 c2 q1 q2 t1 t2 r1 r2 a b k1 k2 _ hc1 hu1 _ hc2 hu2 _ ih1 ih2 =>
    obtain ⟨m1, f1, h1⟩ := ih1
    obtain ⟨m2, f2, h2⟩ := ih2
    have hv1 := agrees_value h1 hu1
    have hv2 := agrees_value h2 hu2
    rw [hc1] at hv1
    rw [hc2] at hv2
    obtain ⟨p1, p2, p3, p4, p5, p6, p7, -⟩ := pointer_operand hv1
    obtain ⟨r1, r2, r3, r4, r5, r6, r7, -⟩ := pointer_operand hv2
    have hp : ∀ m : XQ × XTy, (base (funcToPointer m)).isSome = true → isNumeric m = false →
        newCast (funcToPointer m) (XQ.none, .arith (.i .long)) = some (XQ.none, .arith (.i .long)) := by
      intro m hm _
      have : invalidCast (funcToPointer m) (unqual (XQ.none, .arith (.i .long))) = false := by
        cases hx : funcToPointer m with
        | mk x y => rw [hx] at hm; cases y <;> first | (simp [invalidCast, unqual, isFlonum, noValue]; done) | cases hm
      rw [newCast, this]; rfl
    refine ⟨_, ?_, val_agrees (m := (XQ.none, .arith (.i .long))) rfl rfl rfl⟩
    simp only [addType, f1, f2, Option.bind_some, newSub]
    simp [p1, p3, r1, r2, hp m1 (by rw [p1]; rfl) p3, hp m2 (by rw [r1]; rfl) r3]
  | shift e1 e2 c1 c2 q1 q2 a b k1 k2 _ _ ha hb ih1 ih2 =>
    obtain ⟨m1, f1, h1⟩ := ih1
    obtain ⟨m2, f2, h2⟩ := ih2
    rw [agrees_arith h1] at f1
    rw [agrees_arith h2] at f2
    cases a with
    | i t =>
      obtain ⟨q', h3⟩ := intPromotion_eq m1.1 t
      refine ⟨_, ?_, val_agrees (m := (q', .arith (CATy.promote (.i t) none))) rfl rfl rfl⟩
      simp only [addType, f1, f2, Option.bind_some, isInteger_arith, hb, h3]
      rfl
    | _ => cases ha
  | cmpNum e1 e2 c1 c2 q1 q2 a b k1 k2 _ _ ih1 ih2 =>
    obtain ⟨m1, f1, h1⟩ := ih1
    obtain ⟨m2, f2, h2⟩ := ih2
    rw [agrees_arith h1] at f1
    rw [agrees_arith h2] at f2
    exact some_agrees (q' := XQ.none) (by simp only [addType, f1, f2, Option.bind_some, usual_arith, Option.map_some]) rfl rfl
  | cmpPtr e1 e2 c1 c2 q1 q2 t1 t2 r1 r2 a b k1 k2 _ hc1 hu1 _ hc2 hu2 ih1 ih2 =>
    obtain ⟨m1, f1, h1⟩ := ih1
    obtain ⟨m2, f2, h2⟩ := ih2
    have hv1 := agrees_value h1 hu1
    have hv2 := agrees_value h2 hu2
    rw [hc1] at hv1
    rw [hc2] at hv2
    obtain ⟨r, hr, -⟩ := usual_ptr E hs (isNullptr E e1 m1) (isNullptr E e2 m2) hv1 hv2
    exact some_agrees (q' := XQ.none) (by simp only [addType, f1, f2, Option.bind_some, hr, Option.map_some]) rfl rfl
  | logic e1 e2 c1 c2 q1 q2 t1 t2 k1 k2 _ _ hs1 hs2 ih1 ih2 =>
    obtain ⟨m1, f1, h1⟩ := ih1
    obtain ⟨m2, f2, h2⟩ := ih2
    obtain ⟨r1, g1⟩ := condCast_scalar rfl (agrees_scalar h1 hs1)
    obtain ⟨r2, g2⟩ := condCast_scalar rfl (agrees_scalar h2 hs2)
    exact some_agrees (q' := XQ.none) (by simp only [addType, f1, f2, Option.bind_some, g1, g2, Option.map_some]) rfl rfl
  | comma e1 e2 c1 c2 q1 q2 t1 t2 k1 k2 _ _ hu ih1 ih2 =>
    obtain ⟨m1, f1, h1⟩ := ih1
    obtain ⟨m2, f2, h2⟩ := ih2
    have hv := agrees_value h2 hu
    refine ⟨arrayToPointer m2, by simp only [addType, f1, f2, Option.bind_some, Option.map_some], ?_⟩
    cases hcv : t2.conv with
    | ptr q a => rw [hcv] at hv; exact (pointer_operand hv).2.2.2.2.2.2.2.2
    | arr => cases t2 <;> cases hcv
    | fn => cases t2 <;> cases hcv
    | _ =>
      rw [hcv] at hv
      obtain ⟨q3, t3⟩ := m2
      cases t3 <;> first | exact val_agrees hv.1 rfl rfl | cases hv.1
  | assign e1 e2 c2 q1 q2 t1 t2 k1 k2 _ ha hf _ hv hc ih1 ih2 =>
    obtain ⟨m1, f1, h1⟩ := ih1
    obtain ⟨m2, f2, h2⟩ := ih2
    have hm : m1.2 = t1 := by
      have h3 := h1.2.1
      have h4 : m1.2.isArr = false := by rw [← qualify_isArr m1.1 m1.2, h3]; exact ha
      rw [qualify_not_arr _ _ h4] at h3
      exact congrArg Prod.snd h3
    refine ⟨m1, ?_, val_agrees hm ha hf⟩
    simp only [addType, f1, f2, Option.bind_some]
    rcases hc with ⟨s, hc, -⟩ | ⟨hn, hc⟩
    · rw [hm, hc]
    · have hnc := newCast_ok m1.1 h2 hc
      rw [← hm] at hnc
      rw [hm]
      cases t1 with
      | arr => cases ha
      | struct s => exact absurd rfl (hn s)
      | _ => simp only; rw [hnc]; rfl
  | mulAssign e1 e2 c2 q1 q2 a b k1 k2 _ _ ih1 ih2 =>
    obtain ⟨m1, f1, h1⟩ := ih1
    obtain ⟨m2, f2, h2⟩ := ih2
    exact ⟨m1, by simp only [addType, f1, f2, Option.bind_some, Option.map_some],
      val_agrees (by rw [agrees_arith h1]) rfl rfl⟩
  | addAssignNum e1 e2 c2 q1 q2 a b k1 k2 _ _ ih1 ih2 =>
    obtain ⟨m1, f1, h1⟩ := ih1
    obtain ⟨m2, f2, h2⟩ := ih2
    rw [agrees_arith h1] at f1
    rw [agrees_arith h2] at f2
    exact some_agrees (q' := m1.1) (by simp only [addType, f1, f2, Option.bind_some, addAssignTy, newAdd_num, Option.map_some]) rfl rfl
  | addAssignPtr e1 e2 c2 q1 q2 q' t' b k1 k2 _ _ hb ih1 ih2 =>
    obtain ⟨m1, f1, h1⟩ := ih1
    obtain ⟨m2, f2, h2⟩ := ih2
    have hm := lval_ptr h1
    refine ⟨m1, ?_, val_agrees hm rfl rfl⟩
    simp only [addType, f1, f2, Option.bind_some, addAssignTy]
    rw [(newAdd_ptr E (q := q') (a := t') ⟨by rw [hm]; rfl, fun h => by rw [hm] at h; cases h⟩ (agrees_arith h2) hb).1]
    rfl
  | preIncNum e q a k _ ih =>
    obtain ⟨m, f, h⟩ := ih
    rw [agrees_arith h] at f
    exact some_agrees (q' := m.1) (by simp only [addType, f, Option.bind_some, addAssignTy, newAdd_num, Option.map_some]) rfl rfl
  | preIncPtr e q q' t' k _ ih =>
    obtain ⟨m, f, h⟩ := ih
    have hm := lval_ptr h
    refine ⟨m, ?_, val_agrees hm rfl rfl⟩
    simp only [addType, f, Option.bind_some, addAssignTy]
    rw [(newAdd_ptr E (q := q') (a := t') ⟨by rw [hm]; rfl, fun h => by rw [hm] at h; cases h⟩ rfl rfl).1]
    rfl
  | postIncNum e q a k _ ih =>
    obtain ⟨m, f, h⟩ := ih
    rw [agrees_arith h] at f
    simp only [addType, f, Option.bind_some, postIncTy, newAdd_num, newCast, invalidCast_arith, Bool.false_eq_true, if_false]
    split
    · exact ⟨_, rfl, val_agrees rfl rfl rfl⟩
    · exact ⟨_, rfl, val_agrees rfl rfl rfl⟩
  | postIncPtr e q q' t' k _ ih =>
    obtain ⟨m, f, h⟩ := ih
    have hm := lval_ptr h
    have hn := (newAdd_ptr E (m1 := m) (m2 := (XQ.none, .arith (.i .int))) (q := q') (a := t')
      ⟨by rw [hm]; rfl, fun h => by rw [hm] at h; cases h⟩ rfl rfl).1
    simp only [addType, f, Option.bind_some, postIncTy, hn]
    split
    · refine ⟨unqual m, ?_, val_agrees hm rfl rfl⟩
      obtain ⟨q3, t3⟩ := m
      simp only at hm; subst hm
      simp [newCast, invalidCast, unqual, isFlonum, noValue, funcToPointer, ptrOperand, XTy.isFn]
    · exact ⟨m, rfl, val_agrees hm rfl rfl⟩
  | condNum e e1 e2 c0 c1 c2 q0 q1 q2 t0 a b k0 k1 k2 _ hsc _ _ ih0 ih1 ih2 =>
    obtain ⟨m0, f0, h0⟩ := ih0
    obtain ⟨m1, f1, h1⟩ := ih1
    obtain ⟨m2, f2, h2⟩ := ih2
    obtain ⟨r0, g0⟩ := condCast_scalar rfl (agrees_scalar h0 hsc)
    rw [agrees_arith h1] at f1
    rw [agrees_arith h2] at f2
    refine ⟨_, ?_, val_agrees (m := (XQ.none, .arith ((a.promote none).common (b.promote none)))) rfl rfl rfl⟩
    simp [addType, f0, f1, f2, g0, condTy, isNumeric_arith, usual_arith]
  | condStruct e e1 e2 c0 c1 c2 q0 q1 q2 t0 s k0 k1 k2 _ hsc _ _ ih0 ih1 ih2 =>
    obtain ⟨m0, f0, h0⟩ := ih0
    obtain ⟨m1, f1, h1⟩ := ih1
    obtain ⟨m2, f2, h2⟩ := ih2
    obtain ⟨r0, g0⟩ := condCast_scalar rfl (agrees_scalar h0 hsc)
    rw [agrees_struct h1] at f1
    rw [agrees_struct h2] at f2
    refine ⟨_, ?_, val_agrees (m := (m1.1, .struct s)) rfl rfl rfl⟩
    simp [addType, f0, f1, f2, g0, condTy, isNumeric, isInteger, isFlonum, compatible_eq E hs, XTy.compat, arrayToPointer]
  | condVoid e e1 e2 c0 c1 c2 q0 q1 q2 t0 k0 k1 k2 _ hsc _ _ ih0 ih1 ih2 =>
    obtain ⟨m0, f0, h0⟩ := ih0
    obtain ⟨m1, f1, h1⟩ := ih1
    obtain ⟨m2, f2, h2⟩ := ih2
    obtain ⟨r0, g0⟩ := condCast_scalar rfl (agrees_scalar h0 hsc)
    have hm : m1.2 = .void := agrees_exact h1 rfl (fun f e => by cases e)
    refine ⟨_, ?_, val_agrees (m := (XQ.none, .void)) rfl rfl rfl⟩
    simp [addType, f0, f1, f2, g0, condTy, hm]
  | condPtr e e1 e2 c0 c1 c2 q0 q1 q2 t0 t1 t2 r1 r2 a b k0 k1 k2 _ hsc _ hc1 hu1 _ hc2 hu2 _ _ hcomp hpl ih0 ih1 ih2 =>
    obtain ⟨m0, f0, h0⟩ := ih0
    obtain ⟨m1, f1, h1⟩ := ih1
    obtain ⟨m2, f2, h2⟩ := ih2
    obtain ⟨r0, g0⟩ := condCast_scalar rfl (agrees_scalar h0 hsc)
    have hv1 := agrees_value h1 hu1
    have hv2 := agrees_value h2 hu2
    rw [hc1] at hv1
    rw [hc2] at hv2
    obtain ⟨g1, g2, g3⟩ := hpl rfl
    have n1 := not_null E e1 hv1 (fun q => (g3 q).1)
    have n2 := not_null E e2 hv2 (fun q => (g3 q).2)
    simp only [addType, f0, f1, f2, g0, Option.bind_some, n1, n2]
    rw [g1, g2]
    exact cond_first E hs false false hv1 hv2 (fun r hr => by
      obtain ⟨r', hr', hr2⟩ := usual_ptr E hs false false hv1 hv2
      rw [hr] at hr'; cases hr'
      simpa [hcomp] using hr2)
  | condVoidPtr e e1 e2 c0 c1 c2 q0 q1 q2 t0 t1 t2 r1 r2 a b k0 k1 k2 _ hsc _ hc1 hu1 _ hc2 hu2 _ _ hab hcomp hpl ih0 ih1 ih2 =>
    obtain ⟨m0, f0, h0⟩ := ih0
    obtain ⟨m1, f1, h1⟩ := ih1
    obtain ⟨m2, f2, h2⟩ := ih2
    obtain ⟨r0, g0⟩ := condCast_scalar rfl (agrees_scalar h0 hsc)
    have hv1 := agrees_value h1 hu1
    have hv2 := agrees_value h2 hu2
    rw [hc1] at hv1
    rw [hc2] at hv2
    obtain ⟨g1, g3⟩ := hpl rfl
    have n1 := not_null E e1 hv1 (fun q => (g3 q).1)
    have n2 := not_null E e2 hv2 (fun q => (g3 q).2)
    simp only [addType, f0, f1, f2, g0, Option.bind_some, n1, n2]
    rw [g1]
    obtain ⟨r', hr', hr2⟩ := usual_ptr E hs false false hv1 hv2
    have hx : m1.2.compat m2.2 = false := by
      cases h : m1.2.compat m2.2 with
      | false => rfl
      | true => rw [compat_conv hv1.1 hv2.1 h] at hcomp; cases hcomp
    obtain ⟨-, -, p3, -, -, p6, -⟩ := pointer_operand hv1
    obtain ⟨-, -, -, -, -, s6, -⟩ := pointer_operand hv2
    refine ⟨r', ?_, val_agrees (by simpa [hcomp] using hr2) rfl rfl⟩
    rw [condTy, if_neg (by simp [p6, s6]), compatible_eq E hs, hx, Bool.and_false, if_neg (by simp)]
    exact hr'
  | condNullR e e1 e2 c0 c1 c2 q0 q1 q2 t0 t1 r1 a b k0 k1 k2 _ hsc _ hc1 hu1 _ hb hz ih0 ih1 ih2 =>
    obtain ⟨m0, f0, h0⟩ := ih0
    obtain ⟨m1, f1, h1⟩ := ih1
    obtain ⟨m2, f2, h2⟩ := ih2
    obtain ⟨r0, g0⟩ := condCast_scalar rfl (agrees_scalar h0 hsc)
    have hv1 := agrees_value h1 hu1
    rw [hc1] at hv1
    have hm2 := agrees_arith h2
    rw [hm2] at f2
    have n2 := isNullptr_int E e2 m2.1 b hz hb f2
    obtain ⟨p1, p2, p3, p4, p5, p6, p7, -⟩ := pointer_operand hv1
    have hx : m1.2.compat (.arith b) = false := by
      rcases conv_ptr_cases hv1.1 with h | ⟨n, h⟩ | ⟨_, _, h, -⟩ <;> rw [h] <;> rfl
    refine ⟨unqual (arrayToPointer (funcToPointer m1)), ?_, val_agrees p4 rfl rfl⟩
    simp only [addType, f0, f1, f2, g0, Option.bind_some, n2]
    rw [condTy, if_neg (by simp [p6]), compatible_eq E hs, hx, Bool.and_false, if_neg (by simp)]
    have hg : getCommonType E (isNullptr E e1 m1) true m1 (m2.1, .arith b) true =
        some (arrayToPointer (funcToPointer m1)) := by
      simp [getCommonType, p1, funcToPointer_arith, base_arith]
    rw [usualArithConv, hg]
    have hfl : isFlonum (unqual (arrayToPointer (funcToPointer m1))) = false := by
      rw [unqual, p4]; rfl
    simp only [newCast, p7 _ hfl, invalidCast_arith]
    rfl
  | condNullL e e1 e2 c0 c1 c2 q0 q1 q2 t0 t2 r2 b a k0 k1 k2 _ hsc _ ha hz _ hc2 hu2 ih0 ih1 ih2 =>
    obtain ⟨m0, f0, h0⟩ := ih0
    obtain ⟨m1, f1, h1⟩ := ih1
    obtain ⟨m2, f2, h2⟩ := ih2
    obtain ⟨r0, g0⟩ := condCast_scalar rfl (agrees_scalar h0 hsc)
    have hv2 := agrees_value h2 hu2
    rw [hc2] at hv2
    have hm1 := agrees_arith h1
    rw [hm1] at f1
    have n1 := isNullptr_int E e1 m1.1 a hz ha f1
    obtain ⟨p1, p2, p3, p4, p5, p6, p7, -⟩ := pointer_operand hv2
    refine ⟨unqual (arrayToPointer (funcToPointer m2)), ?_, val_agrees p4 rfl rfl⟩
    simp only [addType, f0, f1, f2, g0, Option.bind_some, n1]
    rw [condTy, if_neg (by simp [p6]), isNumeric_arith, if_neg (by simp)]
    have hg : getCommonType E true (isNullptr E e2 m2) (m1.1, .arith a) m2 true =
        some (arrayToPointer (funcToPointer m2)) := by
      simp [getCommonType, p1, funcToPointer_arith, base_arith]
    rw [usualArithConv, hg]
    have hfl : isFlonum (unqual (arrayToPointer (funcToPointer m2))) = false := by
      rw [unqual, p4]; rfl
    simp only [newCast, p7 _ hfl, invalidCast_arith]
    rfl
  | condVoid0R e e1 e2 c0 c1 c2 q0 q1 q2 q3 t0 t1 r1 a b k0 k1 k2 _ hsc _ hc1 hu1 _ hb hz ih0 ih1 ih2 =>
    obtain ⟨m0, f0, h0⟩ := ih0
    obtain ⟨m1, f1, h1⟩ := ih1
    obtain ⟨m2, f2, h2⟩ := ih2
    obtain ⟨r0, g0⟩ := condCast_scalar rfl (agrees_scalar h0 hsc)
    have hv1 := agrees_value h1 hu1
    rw [hc1] at hv1
    have hv2 : (XTy.ptr XQ.none .void).conv = .ptr XQ.none .void ∧ ((XTy.ptr XQ.none .void).isFn = true → XQ.none = XQ.none) :=
      ⟨rfl, fun _ => rfl⟩
    have f2' := void0_type E q3 e2 h2 hb f2
    simp only [addType] at f2'
    simp only [addType, f0, f1, f2', g0, Option.bind_some]
    have n2 : ∀ m, isNullptr E (.cast q3 (.ptr XQ.none .void) e2) m = true := fun m => null_of_void_zero E q3 e2 m hz
    rw [n2]
    exact cond_first E hs _ true hv1 (m2 := (XQ.none, .ptr XQ.none .void)) hv2 (fun r hr => by
      obtain ⟨r', hr', hr2⟩ := usual_ptr E hs (isNullptr E e1 m1) true hv1 (m2 := (XQ.none, .ptr XQ.none .void)) hv2
      rw [hr] at hr'; cases hr'
      simpa using hr2)
  | condVoid0L e e1 e2 c0 c1 c2 q0 q1 q2 q3 t0 t2 r2 b a k0 k1 k2 _ hsc _ ha hz _ hc2 hu2 hnz ih0 ih1 ih2 =>
    obtain ⟨m0, f0, h0⟩ := ih0
    obtain ⟨m1, f1, h1⟩ := ih1
    obtain ⟨m2, f2, h2⟩ := ih2
    obtain ⟨r0, g0⟩ := condCast_scalar rfl (agrees_scalar h0 hsc)
    have hv2 := agrees_value h2 hu2
    rw [hc2] at hv2
    have hv1 : (XTy.ptr XQ.none .void).conv = .ptr XQ.none .void ∧ ((XTy.ptr XQ.none .void).isFn = true → XQ.none = XQ.none) :=
      ⟨rfl, fun _ => rfl⟩
    have f1' := void0_type E q3 e1 h1 ha f1
    simp only [addType] at f1'
    have n1 : ∀ m, isNullptr E (.cast q3 (.ptr XQ.none .void) e1) m = true := fun m => null_of_void_zero E q3 e1 m hz
    have n2 := not_null E e2 hv2 (hnz rfl)
    simp only [addType, f0, f1', f2, g0, Option.bind_some]
    rw [n1, n2]
    obtain ⟨r', hr', hr2⟩ := usual_ptr E hs true false (m1 := (XQ.none, .ptr XQ.none .void)) hv1 hv2
    obtain ⟨-, -, p3, -, -, p6, -⟩ := pointer_operand (m := (XQ.none, .ptr XQ.none .void)) hv1
    obtain ⟨-, -, -, -, -, s6, -⟩ := pointer_operand hv2
    rw [condTy, if_neg (by simp [s6]), compatible_eq E hs]
    cases hx : (XTy.ptr XQ.none .void).compat m2.2 with
    | true =>
      refine ⟨(XQ.none, .ptr XQ.none .void), by simp [p3, arrayToPointer], val_agrees ?_ rfl rfl⟩
      rcases conv_ptr_cases hv2.1 with h | ⟨n, h⟩ | ⟨_, _, h, -⟩
      · rw [h] at hx
        simp only [XTy.compat, Bool.and_eq_true, beq_iff_eq] at hx
        obtain ⟨h1, h2⟩ := hx
        subst h1
        cases b <;> first | rfl | cases h2
      · rw [h] at hx; cases hx
      · rw [h] at hx; cases hx
    | false =>
      refine ⟨r', by rw [Bool.and_false, if_neg (by simp)]; exact hr', val_agrees (by simpa using hr2) rfl rfl⟩

/-- For every expression, of whatever depth, to which C gives a type (in the plain part of the
language), the compiler accepts it and holds the same type: exactly for an lvalue or a function (up
to where the qualifiers of an array are kept), without qualifiers for a value. -/
theorem C79_type (E : Env) (hs : Identity E.same) (e : XExpr) (c : XCat) (q : XQ) (t : XTy) (k : Bool)
    (h : HasType E.fields E.ice0 true e c q t k) : ∃ m, addType E e = some m ∧ TypeAgrees c q t k m :=
  addType_agrees E hs h

/-- What `sizeof` and `typeof` see of an lvalue that is not an array inheriting qualifiers: its type. -/
theorem C79_lvalue (E : Env) (hs : Identity E.same) (e : XExpr) (q : XQ) (t : XTy) (k : Bool)
    (h : HasType E.fields E.ice0 true e .lval q t k) (hk : t.isArr = true → k = false) : addType E e = some (q, t) := by
  obtain ⟨m, h1, h2⟩ := addType_agrees E hs h
  rw [h1]
  cases ha : t.isArr with
  | true => rw [h2.2.2 (hk ha)]
  | false =>
    have h3 := h2.2.1
    have h4 : m.2.isArr = false := by rw [← qualify_isArr m.1 m.2, h3]; exact ha
    rw [qualify_not_arr _ _ h4] at h3
    exact congrArg some h3

/-- What `_Generic` compares (parse.c:4117-4123), and what a use of the value has: the type after
the conversion of arrays and functions to pointers and without qualifiers. -/
theorem C79_value (E : Env) (hs : Identity E.same) (e : XExpr) (c : XCat) (q : XQ) (t : XTy) (k : Bool)
    (h : HasType E.fields E.ice0 true e c q t k) (hk : t.isArr = true → k = false) :
    ∃ m, addType E e = some m ∧ (arrayToPointer (funcToPointer m)).2 = t.conv := by
  obtain ⟨m, h1, h2⟩ := addType_agrees E hs h
  refine ⟨m, h1, ?_⟩
  obtain ⟨h3, h4⟩ := agrees_value h2 (fun _ => hk)
  rw [← h3]
  obtain ⟨q0, t0⟩ := m
  cases t0 with
  | fn r p => cases h4 rfl; rfl
  | _ => rfl

/-! ### Concrete cases -/

/-- Pointer equality as structural equality of the objects without a definition. -/
def tySame : CT → CT → Bool
  | .nominal a b, .nominal c d => a == c && b == d
  | _, _ => false

theorem tySame_identity : Identity tySame := by
  constructor
  · intro a b h
    cases a <;> cases b <;> first | (simp only [tySame, Bool.and_eq_true, beq_iff_eq] at h; rw [h.1, h.2]) | (cases h; done)
  · intro a b; simp [tySame]

/-- `struct S0 { int a[3]; const char *b; struct S0 *next; }`, and the constant 0. -/
def tyEnv : Env where
  fields := fun s m =>
    match s, m with
    | 0, 0 => some (XQ.none, .arr XQ.none (.arith (.i .int)) (some 3))
    | 0, 1 => some (XQ.none, .ptr ⟨true, false⟩ (.arith (.i .char)))
    | 0, 2 => some (XQ.none, .ptr XQ.none (.struct 0))
    | _, _ => none
  ice0 := fun e => e == .num (.i .int)
  same := tySame
  opt := true

def intX : XTy := .arith (.i .int)
def constX : XQ := ⟨true, false⟩

/-- `p->next->a[i]` with `const struct S0 *p` and `short i`: an lvalue of type `int` (what `next`
points to is not `const`); the premises hold. -/
example : HasType tyEnv.fields tyEnv.ice0 true
    (.index (.arrow (.arrow (.var XQ.none (.ptr constX (.struct 0))) 2) 0) (.var XQ.none (.arith (.i .short))))
    .lval XQ.none intX false :=
  .indexArr _ _ .lval .lval XQ.none XQ.none XQ.none intX (some 3) (.i .short) false false
    (.arrow _ 0 .lval constX XQ.none 0 false XQ.none (.arr XQ.none intX (some 3))
      (.arrow _ 2 .lval XQ.none constX 0 false XQ.none (.ptr XQ.none (.struct 0))
        (.obj XQ.none (.ptr constX (.struct 0)) rfl nofun) rfl rfl) rfl rfl)
    (.obj XQ.none (.arith (.i .short)) rfl nofun) rfl nofun rfl

/-- `c ? s.b : (void *)0` with `struct S0 s`: of type `const char *`. -/
example : HasType tyEnv.fields tyEnv.ice0 true
    (.cond (.var XQ.none intX) (.member (.var XQ.none (.struct 0)) 1) (.cast XQ.none (.ptr XQ.none .void) (.num (.i .int))))
    .val XQ.none (.ptr constX (.arith (.i .char))) false :=
  .condVoid0R _ _ _ .lval .lval .val XQ.none XQ.none XQ.none XQ.none intX (.ptr constX (.arith (.i .char))) constX
    (.arith (.i .char)) (.i .int) false false false
    (.obj XQ.none intX rfl nofun) rfl
    (.member _ 1 .lval XQ.none 0 false XQ.none (.ptr constX (.arith (.i .char)))
      (.obj XQ.none (.struct 0) rfl nofun) rfl rfl rfl)
    rfl (fun _ h => nomatch h) (.num _) rfl rfl

/-! ### Where the compiler departs from C -/

/-- `c ? p : q` with `int *p` and `const int *q` is a pointer to `const int`; the compiler keeps the
type of `p`. -/
theorem C79_cond_quals_departs :
    ∃ e, HasType tyEnv.fields tyEnv.ice0 false e .val XQ.none (.ptr constX intX) false ∧
      addType tyEnv e = some (XQ.none, .ptr XQ.none intX) :=
  ⟨.cond (.var XQ.none intX) (.var XQ.none (.ptr XQ.none intX)) (.var XQ.none (.ptr constX intX)),
    .condPtr _ _ _ .lval .lval .lval XQ.none XQ.none XQ.none intX (.ptr XQ.none intX) (.ptr constX intX) XQ.none constX
      intX intX false false false (.obj _ _ rfl nofun) rfl (.obj _ _ rfl nofun) rfl nofun (.obj _ _ rfl nofun) rfl nofun
      (fun ⟨_, _, h, _⟩ => nomatch h) (fun ⟨_, _, h, _⟩ => nomatch h) rfl nofun, by
    simp only [addType, Option.bind_some, condTy, usualArithConv, getCommonType, compatible_eq tyEnv tySame_identity]
    decide +kernel⟩

/-- `c ? p : q` with `void *p` and `const int *q` is a pointer to `const void`; for the compiler it
is a pointer to `void`. -/
theorem C79_cond_void_departs :
    ∃ e, HasType tyEnv.fields tyEnv.ice0 false e .val XQ.none (.ptr constX .void) false ∧
      addType tyEnv e = some (XQ.none, .ptr XQ.none .void) :=
  ⟨.cond (.var XQ.none intX) (.var XQ.none (.ptr XQ.none .void)) (.var XQ.none (.ptr constX intX)),
    .condVoidPtr _ _ _ .lval .lval .lval XQ.none XQ.none XQ.none intX (.ptr XQ.none .void) (.ptr constX intX) XQ.none constX
      .void intX false false false (.obj _ _ rfl nofun) rfl (.obj _ _ rfl nofun) rfl nofun (.obj _ _ rfl nofun) rfl nofun
      (fun ⟨_, _, h, _⟩ => nomatch h) (fun ⟨_, _, h, _⟩ => nomatch h) (.inl rfl) rfl nofun, by
    simp only [addType, Option.bind_some, condTy, usualArithConv, getCommonType, compatible_eq tyEnv tySame_identity]
    decide +kernel⟩

/-- `c ? p : q` with `int (*p)[]` and `int (*q)[3]` points to an array of three; for the compiler the
size stays unknown. -/
theorem C79_composite_departs :
    ∃ e, HasType tyEnv.fields tyEnv.ice0 false e .val XQ.none (.ptr XQ.none (.arr XQ.none intX (some 3))) false ∧
      addType tyEnv e = some (XQ.none, .ptr XQ.none (.arr XQ.none intX none)) :=
  ⟨.cond (.var XQ.none intX) (.var XQ.none (.ptr XQ.none (.arr XQ.none intX none)))
      (.var XQ.none (.ptr XQ.none (.arr XQ.none intX (some 3)))),
    .condPtr _ _ _ .lval .lval .lval XQ.none XQ.none XQ.none intX _ _ XQ.none XQ.none
      (.arr XQ.none intX none) (.arr XQ.none intX (some 3)) false false false (.obj _ _ rfl nofun) rfl
      (.obj _ (.ptr XQ.none (.arr XQ.none intX none)) rfl nofun) rfl nofun
      (.obj _ (.ptr XQ.none (.arr XQ.none intX (some 3))) rfl nofun) rfl nofun
      (fun ⟨_, _, h, _⟩ => nomatch h) (fun ⟨_, _, h, _⟩ => nomatch h) rfl nofun, by
    simp only [addType, Option.bind_some, condTy, usualArithConv, getCommonType, compatible_eq tyEnv tySame_identity]
    decide +kernel⟩

/-- `c ? (const void *)0 : p` with `int *p` is a pointer to `const void`, the 0 not being a null
pointer constant; the compiler takes it for one and gives `int *`. -/
theorem C79_null_departs :
    ∃ e, HasType tyEnv.fields tyEnv.ice0 false e .val XQ.none (.ptr constX .void) false ∧
      addType tyEnv e = some (XQ.none, .ptr XQ.none intX) :=
  ⟨.cond (.var XQ.none intX) (.cast XQ.none (.ptr constX .void) (.num (.i .int))) (.var XQ.none (.ptr XQ.none intX)),
    .condVoidPtr _ _ _ .lval .val .lval XQ.none XQ.none XQ.none intX (.ptr constX .void) (.ptr XQ.none intX) constX XQ.none
      .void intX false false false (.obj _ _ rfl nofun) rfl
      (.cast _ _ _ .val XQ.none (.arith (.i .int)) false (.num _)
        (.inr ⟨rfl, rfl, fun _ _ _ _ h => (by cases h), fun _ _ _ _ h => (by cases h; rfl)⟩)) rfl nofun
      (.obj _ _ rfl nofun) rfl nofun
      (fun ⟨_, _, h, _⟩ => by cases h) (fun ⟨_, _, h, _⟩ => nomatch h) (.inl rfl) rfl nofun, by
    simp only [addType, Option.bind_some, condTy, usualArithConv, getCommonType, compatible_eq tyEnv tySame_identity]
    decide +kernel⟩

/-- The array member of a `const` structure is an array of `const int`, and as a value a pointer to
`const int`; in `s.a + 1` the compiler makes it a pointer to `int`. -/
theorem C79_member_array_departs :
    ∃ e, HasType tyEnv.fields tyEnv.ice0 false e .val XQ.none (.ptr constX intX) false ∧
      addType tyEnv e = some (XQ.none, .ptr XQ.none intX) :=
  ⟨.add (.member (.var constX (.struct 0)) 0) (.num (.i .int)),
    .addPtr _ _ .lval .val XQ.none XQ.none (.arr constX intX (some 3)) constX intX (.i .int) true false
      (.member _ 0 .lval constX 0 false XQ.none (.arr XQ.none intX (some 3)) (.obj constX (.struct 0) rfl nofun) rfl rfl rfl)
      rfl nofun (.num _) rfl, by decide +kernel⟩

/-- A value has no qualifiers; `+x` of a `const int` keeps `const` (visible with `typeof`). -/
theorem C79_value_qualified_departs :
    ∃ e, HasType tyEnv.fields tyEnv.ice0 false e .val XQ.none intX false ∧ addType tyEnv e = some (constX, intX) :=
  ⟨.pos (.var constX intX), .pos _ .lval constX (.i .int) false (.obj constX intX rfl nofun), by decide +kernel⟩

/-- `(0, f)` with a function `f` is a pointer to it; for the compiler it is the function, so that its
`sizeof` is 1. -/
theorem C79_function_value_departs :
    ∃ e, HasType tyEnv.fields tyEnv.ice0 false e .val XQ.none (.ptr XQ.none (.fn intX 0)) false ∧
      addType tyEnv e = some (XQ.none, .fn intX 0) :=
  ⟨.comma (.num (.i .int)) (.var XQ.none (.fn intX 0)),
    .comma _ _ .val .func XQ.none XQ.none (.arith (.i .int)) (.fn intX 0) false false (.num _) (.fnc intX 0) nofun,
    by decide +kernel⟩

end Slimcc.Props
