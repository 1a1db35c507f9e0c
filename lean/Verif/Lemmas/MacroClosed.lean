import Verif.Lemmas.MacroArgs
/-!
Macro expansion and parentheses: if no macro body has an unmatched opening parenthesis, no expansion has
one either.
-/
set_option autoImplicit false
namespace Slimcc.MacL
open Slimcc Slimcc.PP Slimcc.Mac Slimcc.Spec

/-- The parentheses of a token list; `true` is the opening one. -/
def par (t : PTok) : List Bool := if t.text = lpar then [true] else if t.text = rpar then [false] else []
def P (ts : List PTok) : List Bool := ts.flatMap par

theorem P_cons (t : PTok) (r : List PTok) : P (t :: r) = par t ++ P r := by simp [P]
theorem P_append (a b : List PTok) : P (a ++ b) = P a ++ P b := by simp [P]
theorem P_nil : P [] = [] := rfl

/-- The number of unmatched closing parentheses; `none` if an opening one is unmatched. -/
def cl : List Bool → Option Nat
  | [] => some 0
  | b :: r =>
    match cl r with
    | none => none
    | some k => if b then (match k with | 0 => none | k + 1 => some k) else some (k + 1)

theorem cl_append : ∀ (a b : List Bool) (i j : Nat), cl a = some i → cl b = some j → cl (a ++ b) = some (i + j)
  | [], b, i, j, ha, hb => by cases ha; rw [Nat.zero_add]; exact hb
  | x :: a, b, i, j, ha, hb => by
    rw [cl] at ha
    show cl (x :: (a ++ b)) = _
    rw [cl]
    cases h : cl a with
    | none => rw [h] at ha; cases ha
    | some k =>
      rw [h] at ha
      rw [cl_append a b k j h hb]
      cases x with
      | false => simp at ha ⊢; omega
      | true =>
        cases k with
        | zero => cases ha
        | succ k =>
          have : k = i := by simpa using ha
          subst this
          rw [show k + 1 + j = (k + j) + 1 by omega]; rfl

theorem cl_suffix : ∀ (a b : List Bool) (k : Nat), cl (a ++ b) = some k → ∃ j, cl b = some j
  | [], b, k, h => ⟨k, h⟩
  | x :: a, b, k, h => by
    have h' : cl (x :: (a ++ b)) = some k := h
    rw [cl] at h'
    cases e : cl (a ++ b) with
    | none => rw [e] at h'; cases h'
    | some i => exact cl_suffix a b i e

theorem cl_mono_cons (x : Bool) (a b : List Bool) (i j k : Nat) (ha : cl a = some i) (hb : cl b = some j) (hij : i ≤ j) (h : cl (x :: a) = some k) :
    ∃ k', k ≤ k' ∧ cl (x :: b) = some k' := by
  rw [cl, ha] at h
  rw [cl, hb]
  cases x with
  | false => simp at h ⊢; omega
  | true =>
    cases i with
    | zero => cases h
    | succ i =>
      have : i = k := by simpa using h
      subst this
      cases j with
      | zero => omega
      | succ j => exact ⟨j, by omega, rfl⟩

/-- `b` can take the place of `a`: it has no new unmatched opening parenthesis and no fewer closing
ones. -/
def Cl (a b : List Bool) : Prop := ∀ k, cl a = some k → ∃ k', k ≤ k' ∧ cl b = some k'

theorem Cl.refl (a : List Bool) : Cl a a := fun k h => ⟨k, Nat.le_refl _, h⟩
theorem Cl.trans {a b c : List Bool} (h1 : Cl a b) (h2 : Cl b c) : Cl a c := by
  intro k h
  obtain ⟨k1, e1, g1⟩ := h1 k h
  obtain ⟨k2, e2, g2⟩ := h2 k1 g1
  exact ⟨k2, by omega, g2⟩
theorem Cl.cons (x : Bool) {a b : List Bool} (h : Cl a b) : Cl (x :: a) (x :: b) := by
  intro k hk
  obtain ⟨i, hi⟩ := cl_suffix [x] a k hk
  obtain ⟨j, hij, hj⟩ := h i hi
  exact cl_mono_cons x a b i j k hi hj hij hk
theorem Cl.append_left (p : List Bool) {a b : List Bool} (h : Cl a b) : Cl (p ++ a) (p ++ b) := by
  induction p with
  | nil => exact h
  | cons x p ih => exact ih.cons x
/-- Something closed can be put in front. -/
theorem Cl.insert {a b p : List Bool} (hp : cl p ≠ none) (h : Cl a b) : Cl a (p ++ b) := by
  intro k hk
  obtain ⟨j, hj, e⟩ := h k hk
  cases hc : cl p with
  | none => exact absurd hc hp
  | some i => exact ⟨i + j, by omega, cl_append p b i j hc e⟩

theorem nested_cl {a : List PTok} (h : Nested a) : ∀ b, cl (P (a ++ b)) = cl (P b) := by
  induction h with
  | nil => intro b; rfl
  | tok t ts h1 h2 _ ih =>
    intro b
    have : par t = [] := by unfold par; rw [if_neg (show ¬ t.text = lpar from h1), if_neg (show ¬ t.text = rpar from h2)]
    rw [List.cons_append, P_cons, this]; exact ih b
  | paren o c a b ho hc _ _ iha ihb =>
    intro d
    have h1 : par o = [true] := by unfold par; rw [if_pos (show o.text = lpar from ho)]
    have hc' : c.text = rpar := hc
    have h2 : par c = [false] := by unfold par; rw [if_neg (by rw [hc']; decide), if_pos hc']
    have e : o :: a ++ c :: b ++ d = o :: (a ++ (c :: (b ++ d))) := by simp
    rw [e, P_cons, h1]
    show cl (true :: P (a ++ (c :: (b ++ d)))) = _
    rw [cl, iha, P_cons, h2]
    show (match cl (false :: P (b ++ d)) with | none => none | some k => _) = _
    rw [cl, ihb]
    cases cl (P d) <;> rfl

def NotParen (t : PTok) : Prop := t.text ≠ lpar ∧ t.text ≠ rpar
/-- Only punctuators are parentheses. -/
def WfTok (t : PTok) : Prop := t.kind ≠ .punct → NotParen t

theorem NotParen.par {t : PTok} (h : NotParen t) : par t = [] := by
  unfold MacL.par; rw [if_neg h.1, if_neg h.2]

/-- What the tokenizer contributes. -/
structure TokOk (E : Mac.Env) : Prop where
  paste : ∀ a b c, E.paste a b = .done c → NotParen a ∧ NotParen b ∧ NotParen c
  str : ∀ ts c, E.str ts = .done c → NotParen c
  builtin : ∀ t, NotParen (E.builtin t) ∧ (E.builtin t).kind ≠ .ident

theorem WfTok.of_np {t : PTok} (h : NotParen t) : WfTok t := fun _ => h

def WfToks (ts : List PTok) : Prop := ∀ t ∈ ts, WfTok t

theorem wf_cons {t : PTok} {r : List PTok} : WfToks (t :: r) ↔ WfTok t ∧ WfToks r := by
  unfold WfToks; simp
theorem wf_append {a b : List PTok} : WfToks (a ++ b) ↔ WfToks a ∧ WfToks b := by
  unfold WfToks; simp only [List.mem_append]
  constructor
  · intro h; exact ⟨fun t ht => h t (.inl ht), fun t ht => h t (.inr ht)⟩
  · rintro ⟨h1, h2⟩ t (ht | ht)
    · exact h1 t ht
    · exact h2 t ht
theorem wf_reverse {a : List PTok} : WfToks a.reverse ↔ WfToks a := by unfold WfToks; simp

theorem align_text (t u : PTok) : (align t u).text = t.text := rfl
theorem align_kind (t u : PTok) : (align t u).kind = t.kind := rfl
theorem par_align (t u : PTok) : par (align t u) = par t := rfl
theorem P_alignHead (ts : List PTok) (u : PTok) : P (alignHead ts u) = P ts := by
  cases ts with
  | nil => rfl
  | cons t r => rw [alignHead, P_cons, P_cons, par_align]
theorem wf_alignHead {ts : List PTok} (u : PTok) (h : WfToks ts) : WfToks (alignHead ts u) := by
  cases ts with
  | nil => exact h
  | cons t r => rw [alignHead]; rw [wf_cons] at h ⊢; exact h
theorem P_orFlags (ts : List PTok) (u : PTok) : P (orFlags ts u) = P ts := by
  cases ts with
  | nil => rfl
  | cons t r => rw [orFlags, P_cons, P_cons]; rfl
theorem wf_orFlags {ts : List PTok} (u : PTok) (h : WfToks ts) : WfToks (orFlags ts u) := by
  cases ts with
  | nil => exact h
  | cons t r => rw [orFlags]; rw [wf_cons] at h ⊢; exact h
theorem orFlags_length (ts : List PTok) (u : PTok) : (orFlags ts u).length = ts.length := by cases ts <;> rfl
theorem alignHead_length (ts : List PTok) (u : PTok) : (alignHead ts u).length = ts.length := by cases ts <;> rfl

theorem P_filter {ts : List PTok} (h : WfToks ts) : P (ts.filter fun t => t.kind ≠ .pmark) = P ts := by
  induction ts with
  | nil => rfl
  | cons t r ih =>
    rw [wf_cons] at h
    rw [List.filter_cons]
    split
    · rw [P_cons, P_cons, ih h.2]
    · rename_i hk
      have hk : t.kind = .pmark := by simpa using hk
      rw [P_cons, ih h.2, (h.1 (by rw [hk]; decide)).par]; rfl

theorem par_reverse_append (acc : List PTok) (t : PTok) : P (t :: acc).reverse = P acc.reverse ++ par t := by
  rw [List.reverse_cons, P_append, P_cons]; simp [P_nil]

theorem insertObj_ok (E : Mac.Env) (hE : TokOk E) : ∀ (acc ts out : List PTok), insertObj E acc ts = .done out → WfToks acc → WfToks ts →
    WfToks out ∧ P out = P acc.reverse ++ P ts
  | acc, [], out, h, ha, ht => by
    rw [insertObj] at h; cases h
    exact ⟨wf_reverse.2 ha, by rw [P_nil, List.append_nil]⟩
  | acc, [t], out, h, ha, ht => by
    rw [insertObj] at h
    split at h
    · cases h
    · cases h
      refine ⟨wf_reverse.2 (wf_cons.2 ⟨(wf_cons.1 ht).1, ha⟩), ?_⟩
      rw [par_reverse_append, P_cons, P_nil, List.append_nil]
  | acc, t :: u :: r, out, h, ha, ht => by
    rw [insertObj.eq_def] at h
    dsimp only at h
    have ht1 := wf_cons.1 ht
    have ht2 := wf_cons.1 ht1.2
    split at h
    · rename_i hh
      cases acc with
      | nil => cases h
      | cons cur acc' =>
        dsimp only at h
        obtain ⟨y, h1, h2⟩ := (bind_done_iff _ _ _).1 h
        obtain ⟨p1, p2, p3⟩ := hE.paste _ _ _ h1
        have hac := wf_cons.1 ha
        obtain ⟨i1, i2⟩ := insertObj_ok E hE _ _ _ h2 (wf_cons.2 ⟨WfTok.of_np p3, hac.2⟩) ht2.2
        refine ⟨i1, ?_⟩
        have hth : par t = [] := by unfold par; rw [hh]; rfl
        rw [i2, par_reverse_append, par_reverse_append, p1.par, p3.par, P_cons, P_cons, hth, p2.par]; rfl
    · obtain ⟨i1, i2⟩ := insertObj_ok E hE _ _ _ h (wf_cons.2 ⟨ht1.1, ha⟩) ht1.2
      refine ⟨i1, ?_⟩
      rw [i2, par_reverse_append, P_cons t, List.append_assoc]

end Slimcc.MacL

namespace Slimcc.MacL
open Slimcc Slimcc.PP Slimcc.Mac Slimcc.Spec

structure ArgOk (a : Arg) : Prop where
  wf : WfToks a.raw
  raw : cl (P a.raw) ≠ none
  exp : ∀ e, a.exp = .done e → WfToks e ∧ cl (P e) ≠ none

def CtxOk (c : Ctx) : Prop := ∀ a ∈ c.args, ArgOk a

def SubstOk (E : Mac.Env) (c : Ctx) (n : Nat) : Prop :=
  ∀ acc ts out, subst E c n acc ts = .done out → WfToks acc → WfToks ts →
    WfToks out ∧ ∃ q, P out = P acc.reverse ++ q ∧ Cl (P ts) q

def FindOk (E : Mac.Env) (c : Ctx) (n : Nat) : Prop :=
  ∀ ts a i rest, findArg E c n ts = .done (some (a, i, rest)) → WfToks ts →
    ArgOk a ∧ WfToks rest ∧ cl (P ts) = cl (P rest) ∧ (i.isSome = true → ∃ t, ts = t :: rest ∧ NotParen t)

theorem wf_of_append_right {a b : List PTok} (h : WfToks (a ++ b)) : WfToks b := (wf_append.1 h).2

theorem isText_cons {s : Name} {ts : List PTok} (h : isText s ts = true) : ∃ t r, ts = t :: r ∧ t.text = s := by
  cases ts with
  | nil => cases h
  | cons t r => exact ⟨t, r, rfl, by simpa [isText] using h⟩

/-- `__VA_OPT__ ( a )`. -/
theorem vaopt_cl {t p c : PTok} {a r : List PTok} (ht : NotParen t) (hp : p.text = lpar) (ha : Nested a) (hc : IsClose c) :
    cl (P (t :: p :: (a ++ c :: r))) = cl (P r) := by
  have h1 : par p = [true] := by unfold par; rw [if_pos hp]
  have hc' : c.text = rpar := hc
  have h2 : par c = [false] := by unfold par; rw [if_neg (by rw [hc']; decide), if_pos hc']
  rw [P_cons, ht.par, P_cons, h1]
  show cl (true :: P (a ++ c :: r)) = _
  rw [cl, nested_cl ha, P_cons, h2]
  show (match cl (false :: P r) with | none => none | some k => _) = _
  rw [cl]
  cases cl (P r) <;> rfl

theorem findArg_ok (E : Mac.Env) (c : Ctx) (hc : CtxOk c) (n : Nat) (hs : ∀ m, n = m + 1 → SubstOk E c m) : FindOk E c n := by
  intro ts a i rest h hw
  cases ts with
  | nil => rw [findArg] at h; cases h
  | cons t r =>
    rw [findArg.eq_def] at h
    dsimp only at h
    have hw1 := wf_cons.1 hw
    split at h
    · cases h
    · rename_i hk
      have hk : t.kind = .ident := Decidable.not_not.1 hk
      have hnp : NotParen t := hw1.1 (by rw [hk]; decide)
      have hpt : P (t :: r) = P r := by rw [P_cons, hnp.par]; rfl
      split at h
      · rename_i j hj
        split at h
        · rename_i x hx
          cases h
          exact ⟨hc a (List.mem_of_getElem? hx), hw1.2, by rw [hpt], fun _ => ⟨t, rfl, hnp⟩⟩
        · cases h
      · split at h
        · rename_i hv
          obtain ⟨p, r1, rfl, hp⟩ := isText_cons hv.2
          split at h
          · cases h
          · rename_i m
            obtain ⟨⟨x, rest0⟩, h1, h2⟩ := (bind_done_iff _ _ _).1 h
            obtain ⟨ne, h3, h4⟩ := (bind_done_iff _ _ _).1 h2
            obtain ⟨y, h5, h6⟩ := (bind_done_iff _ _ _).1 h4
            cases h6
            have h1' : readArgOne true 0 r1 = .done (x, rest0) := h1
            obtain ⟨e1, e2, d, r', e3, e4⟩ := (var_iff _ _ _).1 h1'
            subst e3
            have hwr : WfToks r1 := (wf_cons.1 hw1.2).2
            rw [e1] at hwr
            have hwx := (wf_append.1 hwr).1
            have hwr' := (wf_cons.1 (wf_append.1 hwr).2).2
            have hx : WfToks y ∧ cl (P y) ≠ none := by
              cases ne with
              | false => cases h5; exact ⟨(fun t ht => absurd ht (by simp)), by rw [P_nil]; decide⟩
              | true =>
                have h5' : subst E c m [] x = .done y := h5
                obtain ⟨w, q, e5, e6⟩ := hs m rfl [] x y h5' (fun t ht => absurd ht (by simp)) hwx
                refine ⟨w, ?_⟩
                rw [e5]
                have hz : cl (P x) = some 0 := by
                  have := nested_cl e2 []
                  rwa [List.append_nil] at this
                obtain ⟨k', _, e7⟩ := e6 0 hz
                rw [List.reverse_nil, P_nil, List.nil_append, e7]; simp
            refine ⟨⟨hx.1, hx.2, fun e he => by cases he; exact hx⟩, hwr', ?_, fun h => (nomatch h)⟩
            show cl (P (t :: p :: r1)) = cl (P r')
            rw [e1]
            exact vaopt_cl hnp hp e2 e4
        · cases h

theorem cl_none_imp {a b : List Bool} (h : cl a = cl b) {q : List Bool} (hq : Cl b q) : Cl a q := by
  intro k hk; exact hq k (h ▸ hk)

theorem subst_step_ok (E : Mac.Env) (hE : TokOk E) (c : Ctx) (n : Nat) (hs : SubstOk E c n) (hf : FindOk E c n) : SubstOk E c (n + 1) := by
  intro acc ts out h hwa hwt
  cases ts with
  | nil =>
    rw [subst.eq_def] at h; cases h
    exact ⟨wf_reverse.2 hwa, [], by rw [List.append_nil], Cl.refl _⟩
  | cons t r =>
    have hw1 := wf_cons.1 hwt
    -- the token `x` was added, the text from `rest` is left
    have push : ∀ (x : PTok) (rest : List PTok), subst E c n (x :: acc) rest = .done out → WfTok x → WfToks rest →
        Cl (P (t :: r)) (par x ++ P rest) → WfToks out ∧ ∃ q, P out = P acc.reverse ++ q ∧ Cl (P (t :: r)) q := by
      intro x rest h hx hr hcl
      obtain ⟨w, q, e1, e2⟩ := hs _ _ _ h (wf_cons.2 ⟨hx, hwa⟩) hr
      refine ⟨w, par x ++ q, ?_, hcl.trans (e2.append_left _)⟩
      rw [e1, par_reverse_append, List.append_assoc]
    rw [subst.eq_def] at h
    dsimp only at h
    split at h
    · -- `#`
      rename_i hh
      have hth : par t = [] := by unfold par; rw [hh]; rfl
      obtain ⟨fo, h1, h2⟩ := (bind_done_iff _ _ _).1 h
      cases fo with
      | none => cases h2
      | some v =>
        obtain ⟨a, i, rest⟩ := v
        obtain ⟨s, h3, h4⟩ := (bind_done_iff _ _ _).1 h2
        obtain ⟨f1, f2, f3, f4⟩ := hf _ _ _ _ h1 hw1.2
        have hnp := hE.str _ _ h3
        refine push (align s t) rest h4 (WfTok.of_np hnp) f2 ?_
        rw [par_align, hnp.par, P_cons, hth]
        exact cl_none_imp f3 (Cl.refl _)
    · obtain ⟨gnu, h1, h2⟩ := (bind_done_iff _ _ _).1 h
      cases gnu with
      | true =>
        rw [if_pos rfl] at h2
        split at h1
        · rename_i hg
          obtain ⟨fo, h3, h4⟩ := (bind_done_iff _ _ _).1 h1
          have hcomma : par t = [] := by unfold par; rw [hg.1]; rfl
          obtain ⟨d, r1, rfl, hd⟩ := isText_cons hg.2.1
          have hdp : par d = [] := by unfold par; rw [hd]; rfl
          have hw2 := wf_cons.1 hw1.2
          cases fo with
          | none => cases h4
          | some v =>
            obtain ⟨a, i, rest⟩ := v
            cases i with
            | none => cases h4
            | some i =>
              obtain ⟨f1, f2, f3, f4⟩ := hf _ _ _ _ h3 hw2.2
              obtain ⟨u, e, hu⟩ := f4 rfl
              have e : r1 = u :: rest := e
              subst e
              have hw3 := wf_cons.1 hw2.2
              split at h2
              · obtain ⟨w, q, e1, e2⟩ := hs _ _ _ h2 hwa hw3.2
                refine ⟨w, q, e1, ?_⟩
                rw [P_cons, hcomma, P_cons, hdp, P_cons, hu.par]
                exact e2
              · refine push t _ h2 hw1.1 hw2.2 ?_
                rw [P_cons, P_cons d, hdp]
                exact Cl.refl _
        · cases h1
      | false =>
        simp only [Bool.false_eq_true, if_false] at h2
        split at h2
        · rename_i hhh
          have hth : par t = [] := by unfold par; rw [hhh]; rfl
          cases acc with
          | nil => cases h2
          | cons cur acc' =>
            cases r with
            | nil => cases h2
            | cons u r' =>
              dsimp only at h2
              have hwc := wf_cons.1 hwa
              split at h2
              · obtain ⟨w, q, e1, e2⟩ := hs _ _ _ h2 hwa hw1.2
                refine ⟨w, q, e1, ?_⟩
                rw [P_cons, hth]; exact e2
              · obtain ⟨fo, h3, h4⟩ := (bind_done_iff _ _ _).1 h2
                cases fo with
                | none =>
                  obtain ⟨y, h5, h6⟩ := (bind_done_iff _ _ _).1 h4
                  obtain ⟨p1, p2, p3⟩ := hE.paste _ _ _ h5
                  obtain ⟨w, q, e1, e2⟩ := hs _ _ _ h6 (wf_cons.2 ⟨WfTok.of_np p3, hwc.2⟩) (wf_cons.1 hw1.2).2
                  refine ⟨w, q, ?_, ?_⟩
                  · rw [e1, par_reverse_append, par_reverse_append, p1.par, p3.par]
                  · rw [P_cons, hth, P_cons, p2.par]; exact e2
                | some v =>
                  obtain ⟨a, i, rest⟩ := v
                  obtain ⟨f1, f2, f3, f4⟩ := hf _ _ _ _ h3 hw1.2
                  dsimp only at h4
                  have hraw := f1.raw
                  have hwraw := f1.wf
                  cases hr : a.raw with
                  | nil =>
                    rw [hr] at h4
                    obtain ⟨w, q, e1, e2⟩ := hs _ _ _ h4 hwa f2
                    refine ⟨w, q, e1, ?_⟩
                    rw [P_cons, hth]; exact cl_none_imp f3 e2
                  | cons x xs =>
                    rw [hr] at h4 hraw hwraw
                    dsimp only at h4
                    have hwx := wf_cons.1 hwraw
                    -- one token `y` for `cur`, and the tokens `xs`
                    have both : ∀ y, subst E c n (xs.reverse ++ y :: acc') rest = .done out → WfTok y → par y = par cur → par x = [] →
                        WfToks out ∧ ∃ q, P out = P (cur :: acc').reverse ++ q ∧ Cl (P (t :: u :: r')) q := by
                      intro y h5 hy hyc hxp
                      obtain ⟨w, q, e1, e2⟩ := hs _ _ _ h5 (wf_append.2 ⟨wf_reverse.2 hwx.2, wf_cons.2 ⟨hy, hwc.2⟩⟩) f2
                      refine ⟨w, P xs ++ q, ?_, ?_⟩
                      · rw [e1, List.reverse_append, List.reverse_reverse, P_append, par_reverse_append, par_reverse_append, hyc]
                        simp [List.append_assoc]
                      · rw [P_cons, hth]
                        refine Cl.insert ?_ (cl_none_imp f3 e2)
                        rw [P_cons, hxp] at hraw; exact hraw
                    split at h4
                    · obtain ⟨y, h5, h6⟩ := (bind_done_iff _ _ _).1 h4
                      obtain ⟨p1, p2, p3⟩ := hE.paste _ _ _ h5
                      exact both y h6 (WfTok.of_np p3) (by rw [p1.par, p3.par]) p2.par
                    · rename_i hxk
                      have hxk : x.kind = .pmark := Decidable.not_not.1 hxk
                      exact both cur h4 hwc.1 rfl (hwx.1 (by rw [hxk]; decide)).par
        · obtain ⟨fo, h3, h4⟩ := (bind_done_iff _ _ _).1 h2
          cases fo with
          | none => exact push t r h4 hw1.1 hw1.2 (by rw [P_cons]; exact Cl.refl _)
          | some v =>
            obtain ⟨a, i, rest⟩ := v
            obtain ⟨f1, f2, f3, f4⟩ := hf _ _ _ _ h3 hwt
            obtain ⟨xs, h5, h6⟩ := (bind_done_iff _ _ _).1 h4
            have hx : WfToks xs ∧ cl (P xs) ≠ none := by
              split at h5
              · cases h5; exact ⟨f1.wf, f1.raw⟩
              · exact f1.exp _ h5
            split at h6
            · refine push pmark rest h6 (WfTok.of_np ⟨by decide, by decide⟩) f2 ?_
              exact cl_none_imp f3 (Cl.refl _)
            · obtain ⟨w, q, e1, e2⟩ := hs _ _ _ h6 (wf_append.2 ⟨wf_reverse.2 (wf_alignHead t hx.1), hwa⟩) f2
              refine ⟨w, P xs ++ q, ?_, Cl.insert hx.2 (cl_none_imp f3 e2)⟩
              rw [e1, List.reverse_append, List.reverse_reverse, P_append, P_alignHead, List.append_assoc]

theorem subst_ok (E : Mac.Env) (hE : TokOk E) (c : Ctx) (hc : CtxOk c) : ∀ n, SubstOk E c n ∧ FindOk E c n
  | 0 => by
    refine ⟨?_, findArg_ok E c hc 0 (fun m h => by omega)⟩
    intro acc ts out h hwa hwt
    cases ts with
    | nil =>
      rw [subst.eq_def] at h; cases h
      exact ⟨wf_reverse.2 hwa, [], by rw [List.append_nil], Cl.refl _⟩
    | cons t r => rw [subst.eq_def] at h; cases h
  | n + 1 => by
    obtain ⟨h1, h2⟩ := subst_ok E hE c hc n
    exact ⟨subst_step_ok E hE c n h1 h2, findArg_ok E c hc (n + 1) (fun m h => by cases h; exact h1)⟩

end Slimcc.MacL
