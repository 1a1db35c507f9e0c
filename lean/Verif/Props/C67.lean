import Verif.Spec.AsmTmpl
import Verif.Props.C66
set_option autoImplicit false
/-!
C67 The template of an `asm` statement is printed as the text it stands for.

`asmBody` is the text that goes to the assembler, `none` an error; `Expands` says what a template
stands for.
-/
namespace Slimcc.Props
open Slimcc.Asm Slimcc.AsmSpec Slimcc.AsmL

theorem namedOp_iff (n : List Char) : ∀ (p r : List Char), namedOp p n = some r ↔ p = n ++ ']' :: r := by
  induction n with
  | nil =>
    intro p r
    unfold namedOp
    constructor
    · intro h
      split at h
      · cases h; rfl
      · cases h
    · rintro rfl
      rfl
  | cons d n ih =>
    intro p r
    cases p with
    | nil => simp [namedOp]
    | cons c p =>
      simp only [namedOp]
      by_cases e : c = d
      · rw [if_pos e, ih, e]
        simp
      · rw [if_neg e]
        simp [e]

theorem bracket_unique {n n' r r' : List Char} (h : ']' ∉ n) (h' : ']' ∉ n') (e : n ++ ']' :: r = n' ++ ']' :: r') : n = n' ∧ r = r' := by
  induction n generalizing n' with
  | nil =>
    cases n' with
    | nil => simpa using e
    | cons c n' =>
      simp only [List.nil_append, List.cons_append, List.cons.injEq] at e
      exact absurd (by rw [e.1]; exact List.mem_cons_self ..) h'
  | cons d n ih =>
    cases n' with
    | nil =>
      simp only [List.nil_append, List.cons_append, List.cons.injEq] at e
      exact absurd (by rw [e.1]; exact List.mem_cons_self ..) h
    | cons c n' =>
      simp only [List.cons_append, List.cons.injEq] at e
      obtain ⟨h1, h2⟩ := ih (fun x => h (List.mem_cons_of_mem _ x)) (fun x => h' (List.mem_cons_of_mem _ x)) e.2
      exact ⟨by rw [e.1, h1], h2⟩

/-- The names looked at. -/
def namesOf (isLabel : Bool) (o : Shown) : List (List Char) := if isLabel then o.labels else o.name.toList

/-- Names are identifiers: without brackets. -/
def NamesOk (ops : List Shown) : Prop := ∀ o ∈ ops, ∀ b, ∀ n ∈ namesOf b o, ']' ∉ n

theorem findSome_iff {l : List (List Char)} (hl : ∀ n ∈ l, ']' ∉ n) (p r : List Char) :
    l.findSome? (namedOp p) = some r ↔ ∃ n ∈ l, p = n ++ ']' :: r := by
  induction l with
  | nil => simp
  | cons x l ih =>
    rw [List.findSome?_cons]
    cases e : namedOp p x with
    | none =>
      rw [ih fun n hn => hl n (List.mem_cons_of_mem _ hn)]
      constructor
      · rintro ⟨n, hn, h⟩
        exact ⟨n, List.mem_cons_of_mem _ hn, h⟩
      · rintro ⟨n, hn, h⟩
        rcases List.mem_cons.mp hn with rfl | hn
        · rw [(namedOp_iff _ _ _).mpr h] at e; cases e
        · exact ⟨n, hn, h⟩
    | some z =>
      have ez := (namedOp_iff _ _ _).mp e
      simp only
      constructor
      · intro h
        cases h
        exact ⟨x, List.mem_cons_self .., ez⟩
      · rintro ⟨n, hn, h⟩
        rw [ez] at h
        rw [(bracket_unique (hl x (List.mem_cons_self ..)) (hl n hn) h).2]

theorem findNamed_iff (b : Bool) (p t : List Char) : ∀ (ops : List Shown) (k i : Nat), NamesOk ops →
    (findNamed b p ops k = some (i, t) ↔ k ≤ i ∧ ∃ n, p = n ++ ']' :: t ∧ ']' ∉ n ∧
      (∃ o, ops[i - k]? = some o ∧ n ∈ namesOf b o) ∧ ∀ j, j < i - k → ∀ o, ops[j]? = some o → n ∉ namesOf b o) := by
  intro ops
  induction ops with
  | nil =>
    intro k i _
    simp [findNamed]
  | cons x ops ih =>
    intro k i hok
    have hx := hok x (List.mem_cons_self ..) b
    have hr : NamesOk ops := fun o ho => hok o (List.mem_cons_of_mem _ ho)
    rw [findNamed]
    show (match (namesOf b x).findSome? (namedOp p) with | some r => some (k, r) | none => findNamed b p ops (k + 1)) = _ ↔ _
    cases e : (namesOf b x).findSome? (namedOp p) with
    | some r =>
      obtain ⟨n, hn, hp⟩ := (findSome_iff hx p r).mp e
      simp only [Option.some.injEq, Prod.mk.injEq]
      constructor
      · rintro ⟨rfl, rfl⟩
        refine ⟨Nat.le_refl _, n, hp, hx n hn, ⟨x, by simp, hn⟩, fun j hj => ?_⟩
        omega
      · rintro ⟨hki, n', hp', hn', ⟨o, ho, hno⟩, hmin⟩
        rw [hp] at hp'
        obtain ⟨rfl, rfl⟩ := bracket_unique (hx n hn) hn' hp'
        refine ⟨?_, rfl⟩
        refine Classical.byContradiction fun hne => ?_
        exact hmin 0 (by omega) x (by simp) hn
    | none =>
      simp only
      rw [ih (k + 1) i hr]
      have noX : ∀ n, p = n ++ ']' :: t → n ∉ namesOf b x := by
        intro n hp hn
        rw [(findSome_iff hx p t).mpr ⟨n, hn, hp⟩] at e
        cases e
      constructor
      · rintro ⟨hki, n, hp, hb, ⟨o, ho, hno⟩, hmin⟩
        refine ⟨by omega, n, hp, hb, ⟨o, ?_, hno⟩, fun j hj o' ho' => ?_⟩
        · rw [show i - k = i - (k + 1) + 1 by omega, List.getElem?_cons_succ]
          exact ho
        · cases j with
          | zero => simp only [List.getElem?_cons_zero, Option.some.injEq] at ho'; subst ho'; exact noX n hp
          | succ j => rw [List.getElem?_cons_succ] at ho'; exact hmin j (by omega) o' ho'
      · rintro ⟨hki, n, hp, hb, ⟨o, ho, hno⟩, hmin⟩
        have hne : i ≠ k := by
          rintro rfl
          rw [Nat.sub_self, List.getElem?_cons_zero] at ho
          cases ho
          exact noX n hp hno
        refine ⟨by omega, n, hp, hb, ⟨o, ?_, hno⟩, fun j hj o' ho' => ?_⟩
        · rw [show i - k = i - (k + 1) + 1 by omega, List.getElem?_cons_succ] at ho
          exact ho
        · exact hmin (j + 1) (by omega) o' (by rw [List.getElem?_cons_succ]; exact ho')

theorem span_digits {ds t : List Char} (h1 : ∀ d ∈ ds, d.isDigit = true) (h2 : ∀ c, t.head? = some c → ¬ c.isDigit = true) :
    (ds ++ t).takeWhile Char.isDigit = ds ∧ (ds ++ t).dropWhile Char.isDigit = t := by
  induction ds with
  | nil =>
    cases t with
    | nil => exact ⟨rfl, rfl⟩
    | cons c t =>
      have := h2 c rfl
      simp only [Bool.not_eq_true] at this
      simp [List.takeWhile_cons, List.dropWhile_cons, this]
  | cons d ds ih =>
    have hd := h1 d (List.mem_cons_self ..)
    obtain ⟨i1, i2⟩ := ih fun x hx => h1 x (List.mem_cons_of_mem _ hx)
    rw [List.cons_append, List.takeWhile_cons, List.dropWhile_cons]
    simp only [hd, if_true, i1, i2]
    exact ⟨trivial, trivial⟩

/-- A reference is found as the manual says. -/
theorem findOp_iff (b : Bool) {ops : List Shown} (hok : NamesOk ops) (p t : List Char) (i : Nat) :
    findOp b ops p = some (i, t) ↔ ∃ r : Ref, p = r.str ++ t ∧ r.Whole t ∧ Denotes ops (namesOf b) i r := by
  unfold findOp
  split
  · rename_i q
    rw [findNamed_iff b q t ops 0 i hok]
    simp only [Nat.zero_le, true_and, Nat.sub_zero]
    constructor
    · rintro ⟨n, hp, -, h1, h2⟩
      exact ⟨.name n, by rw [hp]; simp [Ref.str], trivial, h1, h2⟩
    · rintro ⟨r, hp, hw, hd⟩
      cases r with
      | num ds =>
        exfalso
        cases ds with
        | nil => exact hw.1 rfl
        | cons d ds =>
          simp only [Ref.str, List.cons_append, List.cons.injEq] at hp
          have := hw.2.1 d (List.mem_cons_self ..)
          rw [← hp.1] at this
          revert this
          decide
      | name n =>
        simp only [Ref.str, List.cons_append, List.append_assoc, List.nil_append, List.cons.injEq, true_and] at hp
        obtain ⟨⟨o, ho, hn⟩, h2⟩ := hd
        exact ⟨n, hp, hok o (List.mem_of_getElem? ho) b n hn, ⟨o, ho, hn⟩, h2⟩
  · rename_i c q hne
    by_cases hc : c.isDigit = true
    · rw [if_pos hc]
      simp only
      constructor
      · intro h
        split at h
        · rename_i hlt
          cases h
          refine ⟨.num ((c :: q).takeWhile Char.isDigit), (List.takeWhile_append_dropWhile).symm, ⟨?_, ?_, ?_⟩, hlt, rfl⟩
          · rw [List.takeWhile_cons, if_pos hc]; exact List.cons_ne_nil _ _
          · intro d hd
            exact (List.all_eq_true.mp (List.all_takeWhile (p := Char.isDigit) (l := c :: q))) d hd
          · intro d hd
            have := List.head?_dropWhile_not Char.isDigit (c :: q)
            rw [hd] at this
            simpa using this
        · cases h
      · rintro ⟨r, hp, hw, hd⟩
        cases r with
        | num ds =>
          obtain ⟨s1, s2⟩ := span_digits hw.2.1 hw.2.2
          simp only [Ref.str] at hp
          rw [hp, s1, s2]
          have : digitsVal ds = i := hd.2
          rw [this, if_pos hd.1]
        | name n =>
          simp only [Ref.str, List.cons_append, List.cons.injEq] at hp
          rw [hp.1] at hc
          exact absurd hc (by decide)
    · rw [if_neg hc]
      constructor
      · intro h; cases h
      · rintro ⟨r, hp, hw, hd⟩
        exfalso
        cases r with
        | num ds =>
          cases ds with
          | nil => exact hw.1 rfl
          | cons d ds =>
            simp only [Ref.str, List.cons_append, List.cons.injEq] at hp
            exact hc (by rw [hp.1]; exact hw.2.1 d (List.mem_cons_self ..))
        | name n =>
          simp only [Ref.str, List.cons_append, List.cons.injEq] at hp
          exact hne hp.1
  · constructor
    · intro h; cases h
    · rintro ⟨r, hp, hw, hd⟩
      exfalso
      cases r with
      | num ds =>
        cases ds with
        | nil => exact hw.1 rfl
        | cons d ds => cases hp
      | name n => cases hp

theorem regStr_eq {r : Reg} (h1 : rAX ≤ r) (h2 : r ≤ rSP) :
    regStr r 0 = regName r 1 ∧ regStr r 1 = regName r 2 ∧ regStr r 2 = regName r 4 ∧ regStr r 3 = regName r 8 := by
  have h1 : 1 ≤ r := h1
  have h2 : r ≤ 16 := h2
  have hc : r = 1 ∨ r = 2 ∨ r = 3 ∨ r = 4 ∨ r = 5 ∨ r = 6 ∨ r = 7 ∨ r = 8 ∨ r = 9 ∨ r = 10 ∨ r = 11 ∨ r = 12 ∨ r = 13 ∨ r = 14 ∨
      r = 15 ∨ r = 16 := by
    have : ∀ n : Nat, 1 ≤ n → n ≤ 16 → n = 1 ∨ n = 2 ∨ n = 3 ∨ n = 4 ∨ n = 5 ∨ n = 6 ∨ n = 7 ∨ n = 8 ∨ n = 9 ∨ n = 10 ∨ n = 11 ∨
        n = 12 ∨ n = 13 ∨ n = 14 ∨ n = 15 ∨ n = 16 := by omega
    exact this r h1 h2
  rcases hc with rfl | rfl | rfl | rfl | rfl | rfl | rfl | rfl | rfl | rfl | rfl | rfl | rfl | rfl | rfl | rfl <;> decide +kernel

/-- Operands as register assignment leaves them: addresses are in general registers. -/
structure TextOk (pl : Plan) (o : Shown) : Prop where
  base : ∀ f b g c, o.mem = some (.at_ f b) → altMem pl (.at_ f b) = .at_ g c → rAX ≤ c ∧ c ≤ rSP
  addr : o.kind = .mem → o.mem = none → o.reg ≠ 0 → o.reg ≤ rSP

theorem memStr_iff (symName : Nat → List Char) (a : AMem) (h : ∀ g c, a = .at_ g c → rAX ≤ c ∧ c ≤ rSP) (x : List Char) :
    memStr symName a = x ↔ MemText symName a x := by
  cases a with
  | at_ f b =>
    obtain ⟨h1, h2⟩ := h f b rfl
    simp only [memStr, decStr]
    rw [(regStr_eq h1 h2).2.2.2]
    constructor
    · rintro rfl; exact .frame f b
    · rintro ⟨⟩; rfl
  | sym y =>
    simp only [memStr]
    constructor
    · rintro rfl; exact .global y
    · rintro ⟨⟩; rfl

theorem opStr_iff (symName : Nat → List Char) (pl : Plan) {o : Shown} (ok : TextOk pl o) (m : Option Char)
    (hm : ∀ c, m = some c → IsMod c) (y : List Char) :
    opStr symName pl m o = some y ↔ Shows symName (altMem pl) o m y := by
  have mods : m = none ∨ m = some 'h' ∨ m = some 'b' ∨ m = some 'w' ∨ m = some 'k' ∨ m = some 'q' ∨ m = some 'c' := by
    cases m with
    | none => exact .inl rfl
    | some c =>
      have := hm c rfl
      simp only [IsMod, List.mem_cons, List.not_mem_nil, or_false] at this
      rcases this with rfl | rfl | rfl | rfl | rfl | rfl <;> simp
  unfold opStr
  cases hk : o.kind with
  | none => constructor
            · intro h; cases h
            · intro h; cases h <;> simp_all
  | flag => constructor
            · intro h; cases h
            · intro h; cases h <;> simp_all
  | num =>
    simp only [Option.some.injEq, decStr]
    constructor
    · rintro rfl
      by_cases hc : m = some 'c'
      · rw [if_pos hc, hc]; exact .numBare hk
      · rw [if_neg hc]; exact .num m hk hc
    · intro h
      cases h <;> simp_all
  | sym =>
    simp only
    cases hs : o.symTxt with
    | none =>
      constructor
      · intro h; cases h
      · intro h; cases h <;> simp_all
    | some x =>
      simp only [Option.map_some, Option.some.injEq]
      constructor
      · rintro rfl
        by_cases hc : m = some 'c'
        · rw [if_pos hc, hc]; exact .symBare x hk hs
        · rw [if_neg hc]; exact .sym m x hk hs hc
      · intro h
        cases h <;> simp_all
  | mem =>
    simp only
    cases hs : o.mem with
    | none =>
      simp only
      by_cases hr : o.reg = 0
      · simp only [hr, ne_eq, not_true, if_false]
        constructor
        · intro h; cases h
        · intro h; cases h <;> simp_all
      · simp only [ne_eq, hr, not_false_iff, if_true, Option.some.injEq]
        have hle := ok.addr hk hs hr
        rw [(regStr_eq (r := o.reg) (Nat.pos_of_ne_zero hr) hle).2.2.2]
        constructor
        · rintro rfl; exact .memAt m hk hs hr
        · intro h; cases h <;> simp_all
    | some a =>
      simp only [Option.some.injEq]
      rw [memStr_iff symName (altMem pl a) (fun g c e => by
        cases a with
        | at_ f b => exact ok.base f b g c hs e
        | sym z => cases e)]
      constructor
      · intro h; exact .mem m a y hk hs h
      · intro h; cases h <;> simp_all
  | reg =>
    simp only
    have notX : ∀ n, n < 16 → o.reg = rXMM0 + n → isXmm o.reg = true := by
      intro n h1 h2
      simp only [isXmm, Bool.and_eq_true, decide_eq_true_eq]
      romega
    have notS : ∀ n, n < 8 → o.reg = rST0 + n → isXmm o.reg = false ∧ isX87 o.reg = true := by
      intro n h1 h2
      simp only [isXmm, isX87, Bool.and_eq_true, decide_eq_true_eq, Bool.and_eq_false_iff, decide_eq_false_iff_not]
      romega
    have isG : rAX ≤ o.reg → o.reg ≤ rSP → isXmm o.reg = false ∧ isX87 o.reg = false ∧ isGp o.reg = true := by
      intro h1 h2
      simp only [isXmm, isX87, isGp, Bool.and_eq_true, decide_eq_true_eq, Bool.and_eq_false_iff, decide_eq_false_iff_not]
      romega
    by_cases hx : isXmm o.reg = true
    · rw [if_pos hx]
      have hx' := hx
      simp only [isXmm, Bool.and_eq_true, decide_eq_true_eq] at hx'
      constructor
      · intro h
        cases h
        refine .xmm m (o.reg - rXMM0) hk ?_ ?_ <;> romega
      · intro h
        cases h with
        | xmm m n _ h1 h2 =>
          have : o.reg - rXMM0 = n := by romega
          rw [this]
          rfl
        | st m n _ h1 h2 => rw [(notS n h1 h2).1] at hx; cases hx
        | gp m _ h1 h2 => rw [(isG h1 h2).1] at hx; cases hx
        | gpSized c n _ h1 h2 => rw [(isG h1 h2).1] at hx; cases hx
        | gpLow _ h1 h2 => rw [(isG h1 h2).1] at hx; cases hx
        | gpHigh z _ h1 =>
          have : rAX ≤ o.reg ∧ o.reg ≤ rSP := by
            simp only [List.mem_cons, Prod.mk.injEq, List.not_mem_nil, or_false] at h1
            rcases h1 with ⟨e, -⟩ | ⟨e, -⟩ | ⟨e, -⟩ | ⟨e, -⟩ <;> rw [e] <;> decide
          rw [(isG this.1 this.2).1] at hx; cases hx
        | _ => simp_all
    · rw [if_neg hx]
      by_cases hs : isX87 o.reg = true
      · rw [if_pos hs]
        have hs' := hs
        simp only [isX87, Bool.and_eq_true, decide_eq_true_eq] at hs'
        constructor
        · intro h
          cases h
          refine .st m (o.reg - rST0) hk ?_ ?_ <;> romega
        · intro h
          cases h with
          | xmm m n _ h1 h2 => exact absurd (notX n h1 h2) hx
          | st m n _ h1 h2 =>
            have : o.reg - rST0 = n := by romega
            rw [this]
            rfl
          | gp m _ h1 h2 => rw [(isG h1 h2).2.1] at hs; cases hs
          | gpSized c n _ h1 h2 => rw [(isG h1 h2).2.1] at hs; cases hs
          | gpLow _ h1 h2 => rw [(isG h1 h2).2.1] at hs; cases hs
          | gpHigh z _ h1 =>
            have : rAX ≤ o.reg ∧ o.reg ≤ rSP := by
              simp only [List.mem_cons, Prod.mk.injEq, List.not_mem_nil, or_false] at h1
              rcases h1 with ⟨e, -⟩ | ⟨e, -⟩ | ⟨e, -⟩ | ⟨e, -⟩ <;> rw [e] <;> decide
            rw [(isG this.1 this.2).2.1] at hs; cases hs
          | _ => simp_all
      · rw [if_neg hs]
        by_cases hg : isGp o.reg = true
        · rw [if_pos hg]
          have hg' := hg
          simp only [isGp, Bool.and_eq_true, decide_eq_true_eq] at hg'
          obtain ⟨e1, e2, e4, e8⟩ := regStr_eq hg'.1 hg'.2
          have sz : ∀ z, regSz o.reg o.size = some z ↔ (o.size = 1 ∨ o.size = 2 ∨ o.size = 4 ∨ o.size = 8) ∧ z = regName o.reg o.size := by
            intro z
            unfold regSz
            rw [if_pos hg, e1, e2, e4, e8]
            generalize o.size = k
            split
            · simp only [Option.some.injEq, true_or, true_and, eq_comm]
            · simp only [Option.some.injEq, true_or, or_true, true_and, eq_comm]
            · simp only [Option.some.injEq, true_or, or_true, true_and, eq_comm]
            · simp only [Option.some.injEq, or_true, true_and, eq_comm]
            · rename_i a1 a2 a4 a8
              constructor
              · intro h; cases h
              · rintro ⟨h | h | h | h, -⟩
                · exact absurd h a1
                · exact absurd h a2
                · exact absurd h a4
                · exact absurd h a8
          constructor
          · intro h
            rcases mods with rfl | rfl | rfl | rfl | rfl | rfl | rfl
            · obtain ⟨h1, rfl⟩ := (sz y).mp h
              exact .gp none hk hg'.1 hg'.2 (.inl rfl) h1
            · simp only [Option.some.injEq] at h
              subst h
              unfold highByte
              by_cases a1 : o.reg = rAX
              · rw [if_pos a1]; exact .gpHigh 'a' hk (by rw [a1]; decide)
              · rw [if_neg a1]
                by_cases a2 : o.reg = rBX
                · rw [if_pos a2]; exact .gpHigh 'b' hk (by rw [a2]; decide)
                · rw [if_neg a2]
                  by_cases a3 : o.reg = rCX
                  · rw [if_pos a3]; exact .gpHigh 'c' hk (by rw [a3]; decide)
                  · rw [if_neg a3]
                    by_cases a4 : o.reg = rDX
                    · rw [if_pos a4]; exact .gpHigh 'd' hk (by rw [a4]; decide)
                    · rw [if_neg a4, e1]
                      exact .gpLow hk hg'.1 hg'.2 (by simp [a1, a2, a3, a4])
            · simp only [Option.some.injEq] at h
              subst h; rw [e1]; exact .gpSized 'b' 1 hk hg'.1 hg'.2 rfl
            · simp only [Option.some.injEq] at h
              subst h; rw [e2]; exact .gpSized 'w' 2 hk hg'.1 hg'.2 rfl
            · simp only [Option.some.injEq] at h
              subst h; rw [e4]; exact .gpSized 'k' 4 hk hg'.1 hg'.2 rfl
            · simp only [Option.some.injEq] at h
              subst h; rw [e8]; exact .gpSized 'q' 8 hk hg'.1 hg'.2 rfl
            · obtain ⟨h1, rfl⟩ := (sz y).mp h
              exact .gp _ hk hg'.1 hg'.2 (.inr rfl) h1
          · intro h
            cases h with
            | xmm m n _ h1 h2 => exact absurd (notX n h1 h2) hx
            | st m n _ h1 h2 => exact absurd (notS n h1 h2).2 hs
            | gp m _ h1 h2 h3 h4 =>
              rcases h3 with rfl | rfl
              · exact (sz _).mpr ⟨h4, rfl⟩
              · exact (sz _).mpr ⟨h4, rfl⟩
            | gpSized c n _ h1 h2 h3 =>
              have hc := hm c rfl
              simp only [IsMod, List.mem_cons, List.not_mem_nil, or_false] at hc
              rcases hc with rfl | rfl | rfl | rfl | rfl | rfl
              · cases h3
              · cases h3; show some (regStr o.reg 0) = _; rw [e1]
              · cases h3; show some (regStr o.reg 1) = _; rw [e2]
              · cases h3; show some (regStr o.reg 2) = _; rw [e4]
              · cases h3; show some (regStr o.reg 3) = _; rw [e8]
              · cases h3
            | gpHigh z _ h1 =>
              simp only [List.mem_cons, Prod.mk.injEq, List.not_mem_nil, or_false] at h1
              show some (highByte o.reg) = _
              rcases h1 with ⟨e, rfl⟩ | ⟨e, rfl⟩ | ⟨e, rfl⟩ | ⟨e, rfl⟩ <;> rw [e] <;> rfl
            | gpLow _ h1 h2 h3 =>
              show some (highByte o.reg) = _
              simp only [List.mem_cons, List.not_mem_nil, or_false, not_or] at h3
              unfold highByte
              rw [if_neg h3.1, if_neg h3.2.1, if_neg h3.2.2.1, if_neg h3.2.2.2, e1]
            | _ => simp_all
        · rw [if_neg hg]
          constructor
          · intro h; cases h
          · intro h
            exfalso
            cases h with
            | xmm m n _ h1 h2 => exact absurd (notX n h1 h2) hx
            | st m n _ h1 h2 => exact absurd (notS n h1 h2).2 hs
            | gp m _ h1 h2 => exact hg (isG h1 h2).2.2
            | gpSized c n _ h1 h2 => exact hg (isG h1 h2).2.2
            | gpLow _ h1 h2 => exact hg (isG h1 h2).2.2
            | gpHigh z _ h1 =>
              have : rAX ≤ o.reg ∧ o.reg ≤ rSP := by
                simp only [List.mem_cons, Prod.mk.injEq, List.not_mem_nil, or_false] at h1
                rcases h1 with ⟨e, -⟩ | ⟨e, -⟩ | ⟨e, -⟩ | ⟨e, -⟩ <;> rw [e] <;> decide
              exact hg (isG this.1 this.2).2.2
            | _ => simp_all

theorem labelStr_iff (hasOut : Bool) (ops : List Shown) (i : Nat) (o : Shown) (h : ops[i]? = some o) (y : List Char) :
    labelStr hasOut ops i = some y ↔ ShowsLabel hasOut o i y := by
  unfold labelStr
  rw [List.getD_eq_getElem?_getD, h, Option.getD_some]
  cases hu : o.unique with
  | none =>
    constructor
    · intro h; cases h
    · intro h; cases h <;> simp_all
  | some u =>
    simp only [Option.some.injEq]
    cases hasOut with
    | false =>
      simp only [Bool.false_eq_true, if_false]
      constructor
      · rintro rfl; exact .direct _ hu rfl
      · intro h; cases h <;> simp_all
    | true =>
      simp only [if_true]
      constructor
      · rintro rfl; exact .staged u hu rfl
      · intro h
        cases h with
        | direct _ _ e => cases e
        | staged _ _ _ => rfl

theorem denotes_some {ops : List Shown} {names : Shown → List (List Char)} {i : Nat} {r : Ref} (h : Denotes ops names i r) :
    ∃ o, ops[i]? = some o := by
  cases r with
  | num ds => exact ⟨ops[i]'h.1, List.getElem?_eq_getElem h.1⟩
  | name n => exact ⟨h.1.choose, h.1.choose_spec.1⟩

theorem startsRef_str {r : Ref} {t : List Char} (h : r.Whole t) : startsRef (r.str ++ t) = true ∧
    ∃ c q, r.str ++ t = c :: q ∧ (c = '[' ∨ c.isDigit = true) := by
  cases r with
  | num ds =>
    cases ds with
    | nil => exact absurd rfl h.1
    | cons d ds =>
      have := h.2.1 d (List.mem_cons_self ..)
      exact ⟨by simp [Ref.str, startsRef, this], d, _, rfl, .inr this⟩
  | name n => exact ⟨by simp [Ref.str, startsRef], '[', _, rfl, .inl rfl⟩

theorem plain_head {c : Char} (h : c = '[' ∨ c.isDigit = true) : c ≠ '%' ∧ c ≠ 'l' ∧ ¬ IsMod c := by
  refine ⟨?_, ?_, ?_⟩
  · rintro rfl; revert h; decide
  · rintro rfl; revert h; decide
  · intro hm
    simp only [IsMod, List.mem_cons, List.not_mem_nil, or_false] at hm
    rcases hm with rfl | rfl | rfl | rfl | rfl | rfl <;> revert h <;> decide

theorem loop_text (symName : Nat → List Char) (pl : Plan) (hasOut : Bool) (ops : List Shown) (f : Nat) (c : Char) (p : List Char)
    (h : c ≠ '%') : bodyLoop symName pl hasOut ops (f + 1) (c :: p) = (bodyLoop symName pl hasOut ops f p).map (c :: ·) := by
  conv => lhs; unfold bodyLoop
  exact if_pos h

theorem loop_percent (symName : Nat → List Char) (pl : Plan) (hasOut : Bool) (ops : List Shown) (f : Nat) (p : List Char) :
    bodyLoop symName pl hasOut ops (f + 1) ('%' :: '%' :: p) = (bodyLoop symName pl hasOut ops f p).map ('%' :: ·) := by
  rw [bodyLoop]
  exact if_neg (fun e => e rfl)

theorem loop_ref (symName : Nat → List Char) (pl : Plan) (hasOut : Bool) (ops : List Shown) (f : Nat) (p : List Char)
    (h : p.head? ≠ some '%') : bodyLoop symName pl hasOut ops (f + 1) ('%' :: p) =
      if p.head? = some 'l' ∧ startsRef p.tail then
        (findOp true ops p.tail).bind fun a => (labelStr hasOut ops a.1).bind fun x =>
          (bodyLoop symName pl hasOut ops f a.2).map (x ++ ·)
      else if startsRef (modOf p).2 then
        (findOp false ops (modOf p).2).bind fun a => (opStr symName pl (modOf p).1 (ops.getD a.1 {})).bind fun x =>
          (bodyLoop symName pl hasOut ops f a.2).map (x ++ ·)
      else none := by
  rw [bodyLoop]
  · rw [if_neg (fun e => e rfl)]
    rfl
  · rintro q rfl
    exact h rfl

theorem loop_sound (symName : Nat → List Char) (pl : Plan) (hasOut : Bool) (ops : List Shown) (hn : NamesOk ops)
    (ht : ∀ o ∈ ops, TextOk pl o) : ∀ (f : Nat) (t x : List Char), bodyLoop symName pl hasOut ops f t = some x →
      Expands symName (altMem pl) hasOut ops t x := by
  intro f
  induction f with
  | zero => intro t x h; cases h
  | succ f ih =>
    intro t x h
    cases t with
    | nil => cases h; exact .done
    | cons c p =>
      by_cases hc : c = '%'
      · subst hc
        by_cases hp : p.head? = some '%'
        · obtain ⟨q, rfl⟩ : ∃ q, p = '%' :: q := by
            cases p with
            | nil => cases hp
            | cons d q => cases hp; exact ⟨q, rfl⟩
          rw [loop_percent, Option.map_eq_some_iff] at h
          obtain ⟨z, hz, rfl⟩ := h
          exact .percent q z (ih q z hz)
        · rw [loop_ref _ _ _ _ _ _ hp] at h
          by_cases hl : p.head? = some 'l' ∧ startsRef p.tail = true
          · rw [if_pos hl] at h
            obtain ⟨hl, -⟩ := hl
            obtain ⟨q, rfl⟩ : ∃ q, p = 'l' :: q := by
              cases p with
              | nil => cases hl
              | cons d q => cases hl; exact ⟨q, rfl⟩
            simp only [List.tail_cons, Option.bind_eq_some_iff, Option.map_eq_some_iff] at h
            obtain ⟨⟨i, r⟩, h1, y, h2, z, h3, rfl⟩ := h
            obtain ⟨w, rfl, hw, hd⟩ := (findOp_iff true hn _ _ _).mp h1
            obtain ⟨o, ho⟩ := denotes_some hd
            exact .label w r z y i o hw hd ho ((labelStr_iff hasOut ops i o ho y).mp h2) (ih r z h3)
          · rw [if_neg hl] at h
            cases hmo : modOf p with
            | mk md q =>
              rw [hmo] at h
              simp only at h
              have hp : p = md.toList ++ q ∧ ∀ c, md = some c → IsMod c := by
                cases p with
                | nil =>
                  cases hmo
                  exact ⟨rfl, fun c e => by cases e⟩
                | cons d r =>
                  simp only [modOf] at hmo
                  split at hmo
                  · rename_i hmm
                    cases hmo
                    exact ⟨rfl, fun c e => by cases e; exact hmm⟩
                  · cases hmo
                    exact ⟨rfl, fun c e => by cases e⟩
              obtain ⟨rfl, hmd⟩ := hp
              split at h
              · simp only [Option.bind_eq_some_iff, Option.map_eq_some_iff] at h
                obtain ⟨⟨i, r⟩, h1, y, h2, z, h3, rfl⟩ := h
                obtain ⟨w, rfl, hw, hd⟩ := (findOp_iff false hn _ _ _).mp h1
                obtain ⟨o, ho⟩ := denotes_some hd
                rw [List.getD_eq_getElem?_getD, ho, Option.getD_some] at h2
                have := (opStr_iff symName pl (ht o (List.mem_of_getElem? ho)) md hmd y).mp h2
                have e := Expands.operand (symName := symName) (shown := altMem pl) (hasOut := hasOut) (ops := ops) md w r z y i o hmd hw hd ho this (ih r z h3)
                rw [List.cons_append, List.cons_append, List.append_assoc] at e
                exact e
              · cases h
      · rw [loop_text _ _ _ _ _ _ _ hc, Option.map_eq_some_iff] at h
        obtain ⟨z, hz, rfl⟩ := h
        exact .text c p z hc (ih p z hz)

theorem loop_complete (symName : Nat → List Char) (pl : Plan) (hasOut : Bool) (ops : List Shown) (hn : NamesOk ops)
    (ht : ∀ o ∈ ops, TextOk pl o) {t x : List Char} (h : Expands symName (altMem pl) hasOut ops t x) :
    ∀ f, t.length < f → bodyLoop symName pl hasOut ops f t = some x := by
  induction h with
  | done =>
    intro f hf
    cases f with
    | zero => cases hf
    | succ f => rfl
  | text c t x hc _ ih =>
    intro f hf
    cases f with
    | zero => cases hf
    | succ f =>
      rw [loop_text _ _ _ _ _ _ _ hc, ih f (by simp only [List.length_cons] at hf; omega)]
      rfl
  | percent t x _ ih =>
    intro f hf
    cases f with
    | zero => cases hf
    | succ f =>
      rw [loop_percent, ih f (by simp only [List.length_cons] at hf; omega)]
      rfl
  | operand m r t x y i o hm hw hd ho hs _ ih =>
    intro f hf
    cases f with
    | zero => cases hf
    | succ f =>
      have hlen : t.length < f := by
        simp only [List.length_append, List.length_cons, List.cons_append] at hf
        omega
      obtain ⟨s1, c, q, s2, s3⟩ := startsRef_str hw
      obtain ⟨n1, n2, n3⟩ := plain_head s3
      have hfo := (findOp_iff false hn (r.str ++ t) t i).mpr ⟨r, rfl, hw, hd⟩
      have hop := (opStr_iff symName pl (ht o (List.mem_of_getElem? ho)) m hm y).mpr hs
      have hgo : ops.getD i {} = o := by rw [List.getD_eq_getElem?_getD, ho, Option.getD_some]
      have h0 : (m.toList ++ (r.str ++ t)).head? ≠ some '%' := by
        intro e
        cases m with
        | none =>
          rw [show (none : Option Char).toList ++ (r.str ++ t) = r.str ++ t from rfl, s2] at e
          cases e
          exact n1 rfl
        | some d =>
          cases e
          have := hm _ rfl
          revert this
          unfold IsMod
          decide
      rw [List.cons_append, List.cons_append, List.append_assoc, loop_ref _ _ _ _ _ _ h0]
      have hmo : modOf (m.toList ++ (r.str ++ t)) = (m, r.str ++ t) := by
        cases m with
        | none =>
          show modOf (r.str ++ t) = _
          rw [s2]
          exact if_neg n3
        | some d =>
          show modOf (d :: (r.str ++ t)) = _
          exact if_pos (hm d rfl)
      have hl : ¬ ((m.toList ++ (r.str ++ t)).head? = some 'l' ∧ startsRef (m.toList ++ (r.str ++ t)).tail = true) := by
        rintro ⟨e, -⟩
        cases m with
        | none =>
          rw [show (none : Option Char).toList ++ (r.str ++ t) = r.str ++ t from rfl, s2] at e
          cases e
          exact n2 rfl
        | some d =>
          cases e
          have := hm _ rfl
          revert this
          unfold IsMod
          decide
      rw [if_neg hl, hmo]
      simp only
      rw [if_pos s1, hfo]
      simp only [Option.bind_some]
      rw [hgo, hop]
      simp only [Option.bind_some]
      rw [ih f hlen]
      rfl
  | label r t x y i o hw hd ho hs _ ih =>
    intro f hf
    cases f with
    | zero => cases hf
    | succ f =>
      have hlen : t.length < f := by
        simp only [List.length_append, List.length_cons, List.cons_append] at hf
        omega
      obtain ⟨s1, c, q, s2, s3⟩ := startsRef_str hw
      have hfo := (findOp_iff true hn (r.str ++ t) t i).mpr ⟨r, rfl, hw, hd⟩
      have hop := (labelStr_iff hasOut ops i o ho y).mpr hs
      rw [List.cons_append, List.cons_append, loop_ref _ _ _ _ _ _ (by simp), if_pos ⟨rfl, s1⟩]
      simp only [List.tail_cons]
      rw [hfo]
      simp only [Option.bind_some]
      rw [hop]
      simp only [Option.bind_some]
      rw [ih f hlen]
      rfl

theorem describe_ok {outs ins : List (List Char × Arg)} {cl : List Clob} {p : Plan} (h : prepare outs ins cl = .ok p)
    {ops : List Shown} (hd : Describe (placed outs ins p.st) ops) : NamesOk ops ∧ ∀ o ∈ ops, TextOk p o := by
  have ro := roles h
  constructor
  · intro o ho b n hn
    cases b with
    | false =>
      refine (hd.names o ho).1 n ?_
      cases e : o.name with
      | none => simp [namesOf, e] at hn
      | some m => simp [namesOf, e] at hn; rw [hn]
    | true => exact (hd.names o ho).2 n hn
  · intro o ho
    refine ⟨fun f b g c hm he => ?_, fun hk hm hr => ?_⟩
    · have hc : altPtr p b = c := by
        simp only [altMem, AMem.at_.injEq] at he
        exact he.2
      rw [← hc]
      unfold altPtr
      rcases hd.frame o ho f b hm with rfl | rfl
      · rw [if_pos rfl]
        cases e : p.alt1 with
        | none => decide
        | some a => obtain ⟨h1, h2, -⟩ := ro.alt a (.inl e); exact ⟨h1, Nat.le_trans h2 (by decide)⟩
      · rw [if_neg (by decide), if_pos rfl]
        cases e : p.alt2 with
        | none => decide
        | some a => obtain ⟨h1, h2, -⟩ := ro.alt a (.inr e); exact ⟨h1, Nat.le_trans h2 (by decide)⟩
    · obtain ⟨i, hi, e⟩ := hd.addr o ho hk hm hr
      have := C48_fits h hi
      unfold Placed.Fits at this
      rw [e] at this
      exact Nat.le_trans this.2.2 (by decide)

/-- **C67.** The template of an accepted statement is printed as the text it stands for, followed by
the end of the line, and a template that stands for nothing is refused. -/
theorem C67_template {outs ins : List (List Char × Arg)} {cl : List Clob} {p : Plan} (h : prepare outs ins cl = .ok p)
    (symName : Nat → List Char) (hasOut : Bool) {ops : List Shown} (hd : Describe (placed outs ins p.st) ops) (t out : List Char) :
    asmBody symName p hasOut ops t = some out ↔ ∃ x, Expands symName (altMem p) hasOut ops t x ∧ out = x ++ ['\n'] := by
  obtain ⟨hn, ht⟩ := describe_ok h hd
  unfold asmBody
  rw [Option.map_eq_some_iff]
  constructor
  · rintro ⟨x, h, rfl⟩
    exact ⟨x, loop_sound symName p hasOut ops hn ht _ t x h, rfl⟩
  · rintro ⟨x, h, rfl⟩
    exact ⟨x, loop_complete symName p hasOut ops hn ht h _ (Nat.lt_succ_self _), rfl⟩

/-- **A template stands for one text at most.** -/
theorem C67_unique {outs ins : List (List Char × Arg)} {cl : List Clob} {p : Plan} (h : prepare outs ins cl = .ok p)
    (symName : Nat → List Char) (hasOut : Bool) {ops : List Shown} (hd : Describe (placed outs ins p.st) ops)
    {t x y : List Char} (hx : Expands symName (altMem p) hasOut ops t x) (hy : Expands symName (altMem p) hasOut ops t y) : x = y := by
  obtain ⟨hn, ht⟩ := describe_ok h hd
  have h1 := loop_complete symName p hasOut ops hn ht hx _ (Nat.lt_succ_self _)
  have h2 := loop_complete symName p hasOut ops hn ht hy _ (Nat.lt_succ_self _)
  rw [h1] at h2
  exact Option.some.inj h2

/-- **Operands are numbered from zero: outputs, inputs, then the outputs that are also read once more,
then labels.** -/
theorem C67_numbering (outs ins : List (List Char × Shown)) (labels : List Shown) :
    (∀ i, i < outs.length → (numbered outs ins labels)[i]? = (outs[i]?).map (·.2)) ∧
    (∀ i, i < ins.length → (numbered outs ins labels)[outs.length + i]? = (ins[i]?).map (·.2)) ∧
    (∀ i, i < labels.length →
      (numbered outs ins labels)[outs.length + ins.length + outs.countP (fun o => o.1.head? = some '+') + i]? = labels[i]?) := by
  unfold numbered
  refine ⟨fun i hi => ?_, fun i hi => ?_, fun i hi => ?_⟩
  · rw [List.append_assoc, List.append_assoc, List.getElem?_append_left (by simpa using hi), List.getElem?_map]
  · rw [List.append_assoc, List.append_assoc, List.getElem?_append_right (by simp), List.getElem?_append_left (by simp; omega),
      List.getElem?_map]
    simp
  · rw [List.getElem?_append_right (by simp [List.countP_eq_length_filter]; omega)]
    congr 1
    simp [List.countP_eq_length_filter]
    omega

/-- The operands of a statement with a result, five inputs and a label. -/
def ex67ops : List Shown :=
  [{ kind := .reg, reg := rAX, size := 4, name := some "y".toList },
   { kind := .mem, mem := some (.at_ (-8) rBP) },
   { kind := .num, val := -3 },
   { kind := .reg, reg := rCX, size := 8 },
   { kind := .reg, reg := rXMM0 + 3, size := 8 },
   { kind := .mem, mem := some (.sym 7) },
   { labels := ["out".toList], unique := some ".L.9".toList }]

def ex67outs : List (List Char × Arg) := [asmOp "=r"]
def ex67ins : List (List Char × Arg) :=
  [asmOp "m" { memop := true }, asmOp "n" { constInt := true }, asmOp "c", asmOp "x", asmOp "m" { memop := true }]

def ex67txt : List Char := "mov %1, %0; add $%c2, %k[y]; mov %w3, %h3; test %4, %5; 100%%; jmp %l[out]".toList

/-- A statement with `%rbp` clobbered is accepted, its operands are described by `ex67ops`, and its
template becomes a text in which `%rbp`'s stand-in is used. -/
theorem ex67_holds : ∃ p, prepare ex67outs ex67ins [.gp rBP] = .ok p ∧ Describe (placed ex67outs ex67ins p.st) ex67ops ∧
    asmBody (fun _ => "gv".toList) p false ex67ops ex67txt =
      some "mov -8(%rdx), %eax; add $-3, %eax; mov %cx, %ch; test %xmm3, gv(%rip); 100%; jmp .L.9\n".toList ∧
    asmBody (fun _ => "gv".toList) p false ex67ops "mov %7, %0".toList = none := by
  cases h : prepare ex67outs ex67ins [.gp rBP] with
  | error x =>
    exfalso
    have : (match prepare ex67outs ex67ins [.gp rBP] with | .ok _ => true | .error _ => false) = true := by decide +kernel
    rw [h] at this
    cases this
  | ok p =>
    have e1 : (match prepare ex67outs ex67ins [.gp rBP] with
      | .ok p => asmBody (fun _ => "gv".toList) p false ex67ops ex67txt
      | .error _ => none) =
        some "mov -8(%rdx), %eax; add $-3, %eax; mov %cx, %ch; test %xmm3, gv(%rip); 100%; jmp .L.9\n".toList := by decide +kernel
    have e2 : (match prepare ex67outs ex67ins [.gp rBP] with
      | .ok p => asmBody (fun _ => "gv".toList) p false ex67ops "mov %7, %0".toList
      | .error _ => none) = none := by decide +kernel
    rw [h] at e1 e2
    refine ⟨p, rfl, ⟨?_, ?_, ?_⟩, e1, e2⟩
    · intro o ho
      simp only [ex67ops, List.mem_cons, List.not_mem_nil, or_false] at ho
      rcases ho with rfl | rfl | rfl | rfl | rfl | rfl | rfl <;>
        exact ⟨by intro n hn; cases hn <;> decide, by decide⟩
    · intro o ho f b hm
      simp only [ex67ops, List.mem_cons, List.not_mem_nil, or_false] at ho
      rcases ho with rfl | rfl | rfl | rfl | rfl | rfl | rfl <;> cases hm
      exact .inl rfl
    · intro o ho hk hm hr
      simp only [ex67ops, List.mem_cons, List.not_mem_nil, or_false] at ho
      rcases ho with rfl | rfl | rfl | rfl | rfl | rfl | rfl <;> cases hk <;> cases hm

/-- **Departure.** `asm goto("jmp %l0" : : : "r12" : out)`: `%r12` is kept in the frame, but the text
jumps to the C label itself, past the instruction that restores it, so that the caller finds what the
text left in `%r12`. (With results the jump goes through a local label, and nothing is skipped.) -/
theorem C67_goto_skips_restore : ∃ p, prepare [] [] [.gp rR12] = .ok p ∧ pushed p = [rR12] ∧
    asmBody (fun _ => []) p false [{ labels := ["out".toList], unique := some ".L.9".toList }] "jmp %l0".toList =
      some "jmp .L.9\n".toList := by
  cases h : prepare [] [] [.gp rR12] with
  | error x =>
    exfalso
    have : (match prepare [] [] [.gp rR12] with | .ok _ => true | .error _ => false) = true := by decide +kernel
    rw [h] at this
    cases this
  | ok p =>
    have e1 : (match prepare [] [] [.gp rR12] with | .ok p => pushed p | .error _ => []) = [rR12] := by decide +kernel
    have e2 : (match prepare [] [] [.gp rR12] with
      | .ok p => asmBody (fun _ => []) p false [{ labels := ["out".toList], unique := some ".L.9".toList }] "jmp %l0".toList
      | .error _ => none) = some "jmp .L.9\n".toList := by decide +kernel
    rw [h] at e1 e2
    exact ⟨p, rfl, e1, e2⟩

end Slimcc.Props
