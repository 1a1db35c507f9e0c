import Verif.Model.Declarator
set_option autoImplicit false
namespace Slimcc.Declr

/-! ### Qualifiers and pointers -/

theorem quals_of (r : List Tok) (h : ∀ q r', r ≠ .qual q :: r') : ∀ (qs : List Qual) (q : Quals),
    quals (qs.map Tok.qual ++ r) q = (qs.foldl Quals.add q, r)
  | [], q => by
    cases r with
    | nil => rfl
    | cons t r => cases t <;> first | rfl | (exact absurd rfl (h _ _))
  | x :: qs, q => by simp only [List.map_cons, List.cons_append, quals, List.foldl_cons]; exact quals_of r h qs _

theorem pointers_of (r : List Tok) (hq : ∀ q r', r ≠ .qual q :: r') (hs : ∀ r', r ≠ .star :: r') :
    ∀ (ps : List (List Qual)) (f : Nat) (t : Ty), ps.length ≤ f →
    pointers f (ps.flatMap ptrText ++ r) t = (ptrTo ps t, r)
  | [], f, t, _ => by
    cases f with
    | zero => simp [pointers, ptrTo]
    | succ f =>
      cases r with
      | nil => simp [pointers, ptrTo]
      | cons k r => cases k <;> first | (simp [pointers, ptrTo]; done) | (exact absurd rfl (hs _))
  | p :: ps, f, t, h => by
    cases f with
    | zero => simp at h
    | succ f =>
      have hr : ∀ q r', ps.flatMap ptrText ++ r ≠ .qual q :: r' := by
        cases ps with
        | nil => simpa using hq
        | cons p ps => simp [ptrText]
      have := quals_of (ps.flatMap ptrText ++ r) hr p {}
      simp only [List.flatMap_cons, ptrText, List.cons_append, List.append_assoc, pointers]
      rw [this]
      simp only
      rw [pointers_of r hq hs ps f _ (by simp at h; omega)]
      rfl

theorem stars_length : ∀ ps : List (List Qual), ps.length ≤ (ps.flatMap ptrText).length
  | [] => by simp
  | p :: ps => by
    have := stars_length ps
    simp only [List.flatMap_cons, List.length_append, ptrText, List.length_cons] at *; omega

/-! ### Skipping what is in parentheses -/

def Bal (l : List Tok) : Prop := ∀ (n : Nat) (r : List Tok), skipParen n (l ++ r) = skipParen n r

theorem bal_nil : Bal [] := fun _ _ => rfl

theorem bal_app {a b : List Tok} (ha : Bal a) (hb : Bal b) : Bal (a ++ b) := fun n r => by
  rw [List.append_assoc, ha, hb]

theorem bal_one (t : Tok) (h1 : t ≠ .lp) (h2 : t ≠ .rp) : Bal [t] := fun n r => by
  cases t <;> first | (exact absurd rfl h1) | (exact absurd rfl h2) | (cases n <;> simp [skipParen])

theorem bal_cons {t : Tok} {l : List Tok} (h1 : t ≠ .lp) (h2 : t ≠ .rp) (h : Bal l) : Bal (t :: l) :=
  bal_app (bal_one t h1 h2) h

theorem bal_paren {l : List Tok} (h : Bal l) : Bal (.lp :: l ++ [.rp]) := fun n r => by
  have e : skipParen n (.lp :: (l ++ .rp :: r)) = skipParen (n + 1) (l ++ .rp :: r) := by cases n <;> simp [skipParen]
  simp only [List.cons_append, List.append_assoc, List.nil_append, e]
  rw [h]; simp [skipParen]

theorem bal_quals : ∀ qs : List Qual, Bal (qs.map Tok.qual)
  | [] => bal_nil
  | _ :: qs => bal_cons (by simp) (by simp) (bal_quals qs)

theorem bal_br (b : Br) : Bal b.text := by
  unfold Br.text
  refine bal_app (bal_app (bal_app (bal_cons (by simp) (by simp) (bal_quals _)) ?_) ?_) (bal_one _ (by simp) (by simp))
  · split
    · exact bal_one _ (by simp) (by simp)
    · exact bal_nil
  · split
    · exact bal_nil
    · exact bal_one _ (by simp) (by simp)
    · exact bal_one _ (by simp) (by simp)

theorem bal_ptrs : ∀ ps : List (List Qual), Bal (ps.flatMap ptrText)
  | [] => bal_nil
  | p :: ps => by
    rw [List.flatMap_cons]
    exact bal_app (bal_cons (by simp) (by simp) (bal_quals p)) (bal_ptrs ps)

mutual
theorem bal_dcl : ∀ d : Dcl, Bal d.text
  | .mk ps d => by rw [Dcl.text]; exact bal_app (bal_ptrs ps) (bal_direct d)
theorem bal_direct : ∀ d : Direct, Bal d.text
  | .name x => by rw [Direct.text]; exact bal_one _ (by simp) (by simp)
  | .abs => by rw [Direct.text]; exact bal_nil
  | .paren d => by rw [Direct.text]; exact bal_paren (bal_dcl d)
  | .arr d b => by rw [Direct.text]; exact bal_app (bal_direct d) (bal_br b)
  | .fn d ps => by
    rw [Direct.text, List.append_assoc]
    exact bal_app (bal_direct d) (bal_paren (bal_pars ps))
theorem bal_pars : ∀ ps : Pars, Bal ps.text
  | .empty => by rw [Pars.text]; exact bal_nil
  | .void => by rw [Pars.text]; exact bal_one _ (by simp) (by simp)
  | .dots => by rw [Pars.text]; exact bal_one _ (by simp) (by simp)
  | .list s d tl => by rw [Pars.text]; exact bal_app (bal_cons (by simp) (by simp) (bal_dcl d)) (bal_tl tl)
theorem bal_tl : ∀ tl : ParTl, Bal tl.text
  | .done => by rw [ParTl.text]; exact bal_nil
  | .dots => by
    rw [ParTl.text]
    exact bal_cons (by simp) (by simp) (bal_one _ (by simp) (by simp))
  | .more s d tl => by
    rw [ParTl.text]
    exact bal_app (bal_cons (by simp) (by simp) (bal_cons (by simp) (by simp) (bal_dcl d))) (bal_tl tl)
end

/-! ### Types -/

theorem paramTy_eq (t : Ty) : paramTy t = t.adjust := by cases t <;> rfl

theorem unqualified_eq (t : Ty) (h : t.isArr = false) : unqualified t = t.unqual := by
  cases t with
  | spec s => cases s <;> rfl
  | ptr => rfl
  | arr => simp [Ty.isArr] at h
  | fn => rfl

/-! ### Brackets -/

def sizeText : Size → List Tok
  | .none => []
  | .star => [.star]
  | .expr v => [.expr v]

theorem br_text (b : Br) : b.text =
    .lb :: (b.quals.map Tok.qual ++ ((if b.static then [.static] else []) ++ (sizeText b.size ++ [.rb]))) := by
  unfold Br.text sizeText; cases b.size <;> simp

theorem br_plain (b : Br) (h : b.plain = true) : b.quals = [] ∧ b.static = false ∧ b.size ≠ .star := by
  simp [Br.plain] at h; exact ⟨h.1.1, h.1.2, h.2⟩

/-- The array types of a list of brackets. -/
def arrsTy (bs : List Br) (t : Ty) : Ty := bs.foldr Br.of t

def AllAllowed (cc : Bool) : List Br → Ty → Prop
  | [], _ => True
  | b :: bs, t => b.allowed cc (arrsTy bs t) ∧ AllAllowed cc bs t

variable (std23 gi : Bool)

theorem more_none (f : Nat) (rest : List Tok) (cc : Bool) (t : Ty) (h : ∀ r, rest ≠ .lb :: r) :
    moreDims std23 gi (f + 1) rest cc t = .ok (t, rest) := by
  cases rest with
  | nil => simp [moreDims]
  | cons k r => cases k <;> first | (simp [moreDims]; done) | (exact absurd rfl (h _))

theorem arrayOf_ok (cc : Bool) (b : Br) (t : Ty) (v : Option Int) (hs : b.size = .expr v) (ha : b.allowed cc t) :
    arrayOf cc t v = .ok ((b.of t).setQuals {}) := by
  unfold Br.allowed Br.of at ha
  unfold arrayOf Br.of Ty.setQuals
  rw [hs] at *
  cases v with
  | none => cases cc <;> simp_all [Ty.isVla]
  | some n => cases hv : t.isVla <;> cases cc <;> simp_all [Ty.isVla]

theorem dims_ok (cc : Bool) (t : Ty) (rest : List Tok) (hr : ∀ r, rest ≠ .lb :: r) :
    ∀ (bs : List Br) (b : Br) (f : Nat), (∀ x ∈ bs, x.plain = true) → AllAllowed cc (b :: bs) t →
    8 * (sizeText b.size ++ .rb :: (bs.flatMap Br.text ++ rest)).length ≤ f →
    arrayDims std23 gi f (sizeText b.size ++ .rb :: (bs.flatMap Br.text ++ rest)) cc t =
      .ok ((arrsTy (b :: bs) t).setQuals {}, rest) := by
  intro bs
  induction bs with
  | nil =>
    intro b f _ ha hf
    have h1 := ha.1
    obtain ⟨f, rfl⟩ : ∃ g, f = g + 2 := ⟨f - 2, by simp at hf; omega⟩
    cases hs : b.size with
    | none => simp [sizeText, arrayDims, more_none std23 gi f rest cc t hr, arrsTy, Br.of, hs, Ty.setQuals, bind, Except.bind]
    | star => simp [sizeText, arrayDims, more_none std23 gi f rest cc t hr, arrsTy, Br.of, hs, Ty.setQuals, bind, Except.bind]
    | expr v =>
      have := arrayOf_ok cc b t v hs h1
      simp [sizeText, arrayDims, more_none std23 gi f rest cc t hr, arrsTy, bind, Except.bind, this]
  | cons b2 bs ih =>
    intro b f hp ha hf
    obtain ⟨q0, s0, _⟩ := br_plain b2 (hp b2 (by simp))
    obtain ⟨f, rfl⟩ : ∃ g, f = g + 2 := ⟨f - 2, by simp at hf; omega⟩
    have e2 : b2.text = .lb :: (sizeText b2.size ++ [.rb]) := by rw [br_text, q0, s0]; simp
    have hm : moreDims std23 gi (f + 1) ((b2 :: bs).flatMap Br.text ++ rest) cc t = .ok (arrsTy (b2 :: bs) t, rest) := by
      have hq : (arrsTy (b2 :: bs) t).setQuals {} = arrsTy (b2 :: bs) t := by
        simp [arrsTy, Br.of, Ty.setQuals, q0, Quals.of]
      have := ih b2 f (fun x hx => hp x (by simp [hx])) ha.2 (by
        simp only [List.flatMap_cons, e2, List.length_append, List.length_cons, List.length_nil] at hf ⊢; omega)
      rw [hq] at this
      rw [← this]
      simp [e2, moreDims]
    have h1 := ha.1
    cases hs : b.size with
    | none => simp only [sizeText, List.nil_append, arrayDims, hm, bind, Except.bind]; simp [arrsTy, Br.of, hs, Ty.setQuals]
    | star =>
      simp only [sizeText, List.cons_append, List.nil_append, arrayDims, hm, bind, Except.bind]
      simp [arrsTy, Br.of, hs, Ty.setQuals]
    | expr v =>
      have := arrayOf_ok cc b (arrsTy (b2 :: bs) t) v hs h1
      simp only [sizeText, List.cons_append, List.nil_append, arrayDims, hm, bind, Except.bind, this]
      simp [arrsTy]

/-- The suffix of brackets. -/
theorem suffix_arrs (cc : Bool) (t : Ty) (rest : List Tok) (hr : ∀ r, rest ≠ .lb :: r)
    (b : Br) (bs : List Br) (f : Nat) (hp : ∀ x ∈ bs, x.plain = true) (ha : AllAllowed cc (b :: bs) t)
    (hf : 8 * ((b :: bs).flatMap Br.text ++ rest).length ≤ f) :
    typeSuffix std23 gi f ((b :: bs).flatMap Br.text ++ rest) cc t = .ok (arrsTy (b :: bs) t, rest) := by
  obtain ⟨f, rfl⟩ : ∃ g, f = g + 1 := ⟨f - 1, by simp [br_text] at hf; omega⟩
  have hd := dims_ok std23 gi cc t rest hr bs b f hp ha (by
    simp only [List.flatMap_cons, br_text, List.length_append, List.length_cons, List.length_nil] at hf ⊢; omega)
  generalize hy : sizeText b.size ++ .rb :: (bs.flatMap Br.text ++ rest) = y at hd
  have hne : (∀ q r', y ≠ .qual q :: r') ∧ (∀ r', y ≠ .static :: r') ∧ startsType y = false := by
    subst hy; cases b.size <;> simp [sizeText, startsType, Tok.isTypename]
  have et : (b :: bs).flatMap Br.text ++ rest =
      .lb :: (b.quals.map Tok.qual ++ ((if b.static then [.static] else []) ++ y)) := by
    subst hy; simp [br_text]
  have hq : (arrsTy (b :: bs) t).setQuals (Quals.of b.quals) = arrsTy (b :: bs) t := by simp [arrsTy, Br.of, Ty.setQuals]
  have hqq : ∀ (q : Quals) (t : Ty), (t.setQuals {}).setQuals q = t.setQuals q := by intro q t; cases t <;> rfl
  rw [et, typeSuffix]
  have hquals : quals (b.quals.map Tok.qual ++ ((if b.static then [.static] else []) ++ y)) {} =
      (Quals.of b.quals, (if b.static then [.static] else []) ++ y) := by
    apply quals_of
    intro q r'
    cases b.static
    · simpa using hne.1 q r'
    · simp
  have hst : skipStatic ((if b.static then [Tok.static] else []) ++ y) = y := by
    cases b.static
    · simp only [Bool.false_eq_true, if_false, List.nil_append]
      unfold skipStatic; split
      · exact absurd rfl (hne.2.1 _)
      · rfl
    · rfl
  by_cases hb : b.quals = [] ∧ b.static = false
  · have : startsType (b.quals.map Tok.qual ++ ((if b.static then [.static] else []) ++ y)) = false := by
      simp [hb.1, hb.2, hne.2.2]
    rw [this]
    simp only [hb.1, hb.2, List.map_nil, List.nil_append, Bool.false_eq_true, if_false]
    rw [hd, ← hq, hb.1]; simp [Quals.of, hqq]
  · have : startsType (b.quals.map Tok.qual ++ ((if b.static then [.static] else []) ++ y)) = true := by
      cases hq : b.quals with
      | cons q qs => simp [startsType, Tok.isTypename]
      | nil =>
        have : b.static = true := by simpa [hq] using hb
        simp [this, startsType, Tok.isTypename]
    rw [this, hquals, hst]
    simp only [if_true, hd, bind, Except.bind, hqq, hq]

end Slimcc.Declr
