import Verif.Lemmas.MacroMono
import Verif.Spec.MacroSubst
set_option autoImplicit false
namespace Slimcc.SubstL
open Slimcc Slimcc.Lex Slimcc.PP Slimcc.Mac Slimcc.MacL Slimcc.SubstSpec

theorem bind_assoc {α β γ : Type} (x : Run α) (f : α → Run β) (g : β → Run γ) : (x >>= f >>= g) = (x >>= fun a => f a >>= g) := by
  cases x <;> rfl

theorem bind_pure {α : Type} (x : Run α) : (x >>= fun a => Run.done a) = x := by cases x <;> rfl

/-- The model's context for a call. -/
structure CtxOf (E : Mac.Env) (k : Call) (c : Ctx) : Prop where
  params : c.params = k.params
  va : c.vaArg = k.variadic
  omit' : c.omitC = k.omitted
  nodup : k.params.Nodup
  args : ∀ i, i < k.params.length → c.args[i]? = some { raw := k.raw i, exp := .done (k.exp i) }
  some_va : k.variadic = true → k.params ≠ []
  opname : ∀ p ∈ k.params, p ≠ Mac.hash ∧ p ≠ Mac.hashhash ∧ p ≠ Mac.comma ∧ p ≠ Mac.vaOpt
  paste : E.paste = k.paste
  str : E.str = k.str
  /-- concatenation takes no notice of the white space before its right operand -/
  blind : ∀ l x b s, E.paste l { x with atBol := b, hasSpace := s } = E.paste l x
  pasted : ∀ l x y, E.paste l x = .done y → y.kind ≠ .pmark
  strung : ∀ ts y, E.str ts = .done y → y.kind ≠ .pmark
  raws : ∀ i, ∀ t ∈ k.raw i, t.kind ≠ .pmark
  exps : ∀ i, ∀ t ∈ k.exp i, t.kind ≠ .pmark

variable {E : Mac.Env} {k : Call} {c : Ctx}

theorem findIdx_get (s : Name) : ∀ (ps : List Name) (n i : Nat), ps.Nodup → ps[i]? = some s → findIdx s ps n = some (n + i)
  | [], n, i, _, h => by simp at h
  | p :: ps, n, 0, _, h => by
    simp only [List.getElem?_cons_zero, Option.some.injEq] at h
    rw [findIdx, if_pos h]; rfl
  | p :: ps, n, i + 1, hn, h => by
    rw [List.getElem?_cons_succ] at h
    have hm : s ∈ ps := List.mem_of_getElem? h
    rw [List.nodup_cons] at hn
    rw [findIdx, if_neg (fun e : p = s => hn.1 (by rw [e]; exact hm)), findIdx_get s ps (n + 1) i hn.2 h]
    congr 1; omega

theorem findIdx_none (s : Name) : ∀ (ps : List Name) (n : Nat), s ∉ ps → findIdx s ps n = none
  | [], _, _ => rfl
  | p :: ps, n, h => by
    rw [List.mem_cons, not_or] at h
    rw [findIdx, if_neg (fun e => h.1 e.symm), findIdx_none s ps (n + 1) h.2]

theorem find_par (h : CtxOf E k c) {t : PTok} {i : Nat} (ht : IsPar k t i) (n : Nat) (r : List PTok) :
    findArg E c n (t :: r) = .done (some ({ raw := k.raw i, exp := .done (k.exp i) }, some i, r)) := by
  have hi := (List.getElem?_eq_some_iff.1 ht.2).1
  rw [findArg.eq_def]; dsimp only; rw [if_neg (by rw [ht.1]; simp), h.params, findIdx_get _ _ _ _ h.nodup ht.2, Nat.zero_add]
  dsimp only
  rw [h.args i hi]

theorem find_tok (h : CtxOf E k c) {t : PTok} (ht : IsTok k t) (n : Nat) (r : List PTok) : findArg E c n (t :: r) = .done none := by
  rw [findArg.eq_def]; dsimp only
  by_cases hk : t.kind = .ident
  · obtain ⟨h1, h2⟩ := ht.2.2.2 hk
    rw [if_neg (by rw [hk]; simp), h.params, findIdx_none _ _ _ h1]
    dsimp only
    rw [if_neg (fun e => h2 e.1)]
  · rw [if_pos hk]

theorem nonEmpty_eq (h : CtxOf E k c) : nonEmptyVa c = .done k.optOn := by
  unfold nonEmptyVa Call.optOn
  rw [h.va]
  cases hv : k.variadic with
  | false => rfl
  | true =>
    have hl : k.params.length - 1 < k.params.length := by
      have := h.some_va hv
      cases hp : k.params with
      | nil => exact absurd hp this
      | cons a l => simp
    rw [if_pos rfl, h.params, h.args _ hl]
    rfl

/-- What the nested body yields. -/
def NestedOk (E : Mac.Env) (k : Call) (c : Ctx) (b : Body) : Prop :=
  ∀ n, b.toks.length ≤ n → subst E c n [] b.toks = b.val k

theorem find_opt (h : CtxOf E k c) {t lp rp : PTok} {b : Body} (hw : (Ref.opt t lp b rp).WF k) (hb : NestedOk E k c b) (n : Nat) (r : List PTok)
    (hn : b.toks.length < n) (hp : SubstSpec.vaOpt ∉ k.params) :
    findArg E c n (t :: lp :: (b.toks ++ rp :: r)) =
      (if k.optOn then b.val k else .done []) >>= fun v => .done (some ({ raw := v, exp := .done v }, none, r)) := by
  obtain ⟨h1, h2, h3, h4, h5, h6⟩ := hw
  rw [findArg.eq_def]; dsimp only; rw [if_neg (by rw [h1]; simp), h.params, findIdx_none _ _ _ (by rw [h2]; exact hp)]
  dsimp only
  rw [if_pos ⟨h2, by show (lp.text == lpar) = true; rw [show lp.text = lpar from h3]; rfl⟩]
  cases n with
  | zero => omega
  | succ m =>
    dsimp only
    have hr : readArgOne true 0 ((lp :: (b.toks ++ rp :: r)).drop 1) = .done (b.toks, rp :: r) :=
      (var_iff _ _ _).2 ⟨rfl, h5, rp, r, rfl, h4⟩
    rw [hr, Run.bind_done]
    dsimp only
    rw [nonEmpty_eq h, Run.bind_done]
    cases k.optOn with
    | false => rfl
    | true => rw [if_pos rfl, hb m (by omega)]; rfl

/-- `find_arg` on what stands for an argument. -/
def Ref.found (k : Call) (a : Ref) (r : List PTok) : Run Found :=
  match a with
  | .par _ i => .done (some ({ raw := k.raw i, exp := .done (k.exp i) }, some i, r))
  | .opt _ _ b _ => (if k.optOn then b.val k else .done []) >>= fun v => .done (some ({ raw := v, exp := .done v }, none, r))

def RefOk (E : Mac.Env) (k : Call) (c : Ctx) : Ref → Prop
  | .par _ _ => True
  | .opt _ _ b _ => NestedOk E k c b

def OpOk (E : Mac.Env) (k : Call) (c : Ctx) : Op → Prop
  | .tok _ => True
  | .arg a => RefOk E k c a
  | .str _ a => RefOk E k c a

theorem vaOpt_not (h : CtxOf E k c) : SubstSpec.vaOpt ∉ k.params := fun hm => (h.opname _ hm).2.2.2 rfl

theorem find_ref (h : CtxOf E k c) (a : Ref) (hw : a.WF k) (ha : RefOk E k c a) (n : Nat) (r : List PTok) (hn : a.toks.length ≤ n) :
    findArg E c n (a.toks ++ r) = Ref.found k a r := by
  cases a with
  | par t i => exact find_par h hw n r
  | opt t lp b rp =>
    have := find_opt h hw ha n r (by simp only [Ref.toks, List.length_cons, List.length_append] at hn; omega) (vaOpt_not h)
    simpa [Ref.toks, Ref.found] using this

theorem ref_head (h : CtxOf E k c) (a : Ref) (hw : a.WF k) : ∃ t ts, a.toks = t :: ts ∧ t.kind = .ident ∧ t.text ≠ Mac.hash ∧ t.text ≠ Mac.hashhash ∧ t.text ≠ Mac.comma := by
  cases a with
  | par t i =>
    obtain ⟨a1, a2, a3, _⟩ := h.opname _ (List.mem_of_getElem? hw.2)
    exact ⟨t, [], rfl, hw.1, a1, a2, a3⟩
  | opt t lp b rp =>
    refine ⟨t, _, rfl, hw.1, ?_⟩
    rw [hw.2.1]
    refine ⟨?_, ?_, ?_⟩ <;> (unfold SubstSpec.vaOpt; intro e; cases e)

/-- The value of the argument, as the model pushes it. -/
theorem place_eq (t : PTok) (ts : List PTok) : (if ts.isEmpty = true then [pmark] else alignHead ts t) = place t ts := by
  cases ts <;> rfl

theorem ref_val (a : Ref) (op : Bool) (t : PTok) (ts : List PTok) (ht : a.toks = t :: ts) :
    a.val k op = (match a with
      | .par _ i => .done (place t (if op then k.raw i else k.exp i))
      | .opt _ _ b _ => (if k.optOn then b.val k else .done []) >>= fun v => .done (place t v)) := by
  cases a with
  | par t' i => cases ht; rfl
  | opt t' lp b rp =>
    cases ht
    rw [Ref.val]
    cases k.optOn <;> rfl

/-- Substituting an operand that does not stand after `##`, or stands after it and a placemarker. -/
theorem norm (h : CtxOf E k c) (o : Op) (hw : o.WF k) (ho : OpOk E k c o) (n : Nat) (acc r : List PTok) (hn : (o.toks ++ r).length ≤ n + 1)
    (hc : ¬ o.isComma ∨ isText Mac.hashhash r = false) :
    subst E c (n + 1) acc (o.toks ++ r) = (o.val k (isText Mac.hashhash r) >>= fun x => subst E c n (x.reverse ++ acc) r) := by
  cases o with
  | tok t =>
    show subst E c (n + 1) acc (t :: r) = subst E c n (t :: acc) r
    have hw' : IsTok k t := hw
    rw [subst.eq_def]; dsimp only; rw [if_neg (show ¬ t.text = Mac.hash from hw'.1)]
    have hg : ¬ (t.text = Mac.comma ∧ isText Mac.hashhash r = true ∧ c.vaArg = true) := by
      rintro ⟨e1, e2, _⟩
      rcases hc with hc | hc
      · exact hc e1
      · rw [hc] at e2; cases e2
    rw [if_neg hg, Run.bind_done, if_neg (by simp), if_neg (show ¬ t.text = Mac.hashhash from hw'.2.1), find_tok h hw', Run.bind_done]
  | arg a =>
    obtain ⟨t, ts, e, e1, e2, e3, e4⟩ := ref_head h a hw
    have ef := find_ref h a hw ho n r
    show subst E c (n + 1) acc (a.toks ++ r) = _
    have hn' : a.toks.length ≤ n + 1 := by simp only [Op.toks, List.length_append] at hn; omega
    show _ = (a.val k _ >>= _)
    rw [ref_val a _ t ts e]
    have hn2 : (∀ t i, a ≠ .par t i) → a.toks.length ≤ n + 1 := fun _ => hn'
    -- one token of fuel is spent before `find_arg` is asked
    have ef : findArg E c n (a.toks ++ r) = Ref.found k a r := by
      cases a with
      | par t i => exact find_par h hw n r
      | opt t lp b rp =>
        have := find_opt h hw ho n r (by simp only [Ref.toks, List.length_cons, List.length_append, List.length_nil] at hn'; omega) (vaOpt_not h)
        simpa [Ref.toks, Ref.found] using this
    rw [e, List.cons_append] at ef
    rw [e, List.cons_append, subst.eq_def]; dsimp only; rw [if_neg e2]
    rw [if_neg (fun x : _ ∧ _ => e4 x.1), Run.bind_done, if_neg (by simp), if_neg e3, ef]
    cases a with
    | par t' i =>
      dsimp only [Ref.found]
      rw [Run.bind_done, Run.bind_done]
      dsimp only
      cases hh : isText Mac.hashhash r with
      | true =>
        rw [if_pos rfl, if_pos rfl, Run.bind_done, ← place_eq]
        split <;> rfl
      | false =>
        rw [if_neg (by simp), if_neg (by simp), Run.bind_done, ← place_eq]
        split <;> rfl
    | opt t' lp b rp =>
      dsimp only [Ref.found]
      rw [bind_assoc, bind_assoc]
      congr 1
      funext v
      rw [Run.bind_done, Run.bind_done]
      dsimp only
      rw [ite_self, Run.bind_done, ← place_eq]
      split <;> rfl
  | str hh a =>
    obtain ⟨hh1, hh2⟩ : hh.text = SubstSpec.hash ∧ a.WF k := hw
    show subst E c (n + 1) acc (hh :: (a.toks ++ r)) = _
    have hn' : a.toks.length ≤ n := by
      simp only [Op.toks, List.length_append, List.length_cons] at hn; omega
    rw [subst.eq_def]; dsimp only; rw [if_pos hh1, find_ref h a hh2 ho n r hn']
    rw [Op.val]
    cases a with
    | par t' i =>
      dsimp only [Ref.found]
      rw [Ref.spelled, Run.bind_done, Run.bind_done]
      dsimp only
      rw [h.str, bind_assoc]
      rfl
    | opt t' lp b rp =>
      dsimp only [Ref.found]
      rw [Ref.spelled, bind_assoc, bind_assoc]
      congr 1
      funext v
      rw [Run.bind_done, h.str, bind_assoc]
      rfl

theorem glue_append (pre : List PTok) (cur : PTok) (x : List PTok) :
    glue k.paste (pre ++ [cur]) x = (glue k.paste [cur] x >>= fun y => .done (pre ++ y)) := by
  unfold glue
  rw [List.getLast?_append, List.dropLast_concat]
  show (match some cur, x with | some l, y :: ys => _ | _, _ => _) = _
  cases x with
  | nil => rfl
  | cons y ys =>
    dsimp only [List.getLast?_singleton]
    split
    · rfl
    · split
      · simp
      · rw [bind_assoc]; rfl

/-- Substituting an operand after `##`. -/
theorem pasteStep (h : CtxOf E k c) (o : Op) (hw : o.WF k) (ho : OpOk E k c o) (hs : ¬ o.isStr) (hh : PTok) (hht : hh.text = SubstSpec.hashhash)
    (n : Nat) (cur : PTok) (hcur : cur.kind ≠ .pmark) (acc r : List PTok) (hn : (o.toks ++ r).length ≤ n) :
    subst E c (n + 1) (cur :: acc) (hh :: (o.toks ++ r)) =
      (o.val k true >>= fun x => glue k.paste [cur] x >>= fun y => subst E c n (y.reverse ++ acc) r) := by
  have hb : ∀ (l : PTok) (x t : PTok), k.paste l { x with atBol := t.atBol, hasSpace := t.hasSpace } = E.paste l x := by
    intro l x t; rw [← h.paste]; exact h.blind _ _ _ _
  have hm : isMark cur = false := by unfold isMark; simpa using hcur
  have e0 : ¬ hh.text = Mac.hash := by rw [hht]; unfold SubstSpec.hashhash; decide
  have e1 : ¬ hh.text = Mac.comma := by rw [hht]; unfold SubstSpec.hashhash; decide
  rw [subst.eq_def]; dsimp only; rw [if_neg e0, if_neg (fun x => e1 x.1), Run.bind_done, if_neg (by simp), if_pos (show hh.text = Mac.hashhash from hht)]
  cases o with
  | tok t =>
    have hw' : IsTok k t := hw
    dsimp only [Op.toks, List.cons_append, List.nil_append]
    rw [if_neg hcur, find_tok h hw', Run.bind_done]
    dsimp only
    show _ = (glue k.paste [cur] [t] >>= _)
    unfold glue
    dsimp only [List.getLast?_singleton]
    rw [hm, if_neg (by simp), if_neg (by unfold isMark; simpa using hw'.2.2.1), bind_assoc, h.paste]
    rfl
  | str hh a => exact absurd trivial hs
  | arg a =>
    obtain ⟨t, ts, e, e1, e2, e3, e4⟩ := ref_head h a hw
    have hn' : a.toks.length ≤ n := by simp only [Op.toks, List.length_append] at hn; omega
    have ef := find_ref h a hw ho n r hn'
    show (match cur :: acc, a.toks ++ r with | [], _ => _ | _, [] => _ | cur :: acc', u :: r' => _) = (a.val k true >>= _)
    rw [ref_val a _ t ts e]
    rw [e, List.cons_append] at ef ⊢
    dsimp only
    rw [if_neg hcur, ef]
    have key : ∀ (v : List PTok) (f : Run (List PTok)), (match v with
          | [] => subst E c n (cur :: acc) r
          | x :: xs => if x.kind ≠ .pmark then do let y ← E.paste cur x; subst E c n (xs.reverse ++ y :: acc) r
            else subst E c n (xs.reverse ++ cur :: acc) r) =
        (glue k.paste [cur] (place t v) >>= fun y => subst E c n (y.reverse ++ acc) r) := by
      intro v _
      cases v with
      | nil =>
        show _ = (glue k.paste [cur] [mark] >>= _)
        unfold glue
        dsimp only [List.getLast?_singleton]
        rw [hm, if_neg (by simp), if_pos (show isMark mark = true from rfl)]
        rfl
      | cons x xs =>
        dsimp only [place]
        unfold glue
        dsimp only [List.getLast?_singleton]
        rw [hm, if_neg (show ¬ false = true by simp)]
        by_cases hx : x.kind = .pmark
        · rw [if_neg (show ¬ (x.kind ≠ .pmark) from fun g => g hx),
            if_pos (show isMark { x with atBol := t.atBol, hasSpace := t.hasSpace } = true by unfold isMark; simpa using hx), Run.bind_done]
          simp
        · rw [if_pos (show x.kind ≠ .pmark from hx),
            if_neg (show ¬ isMark { x with atBol := t.atBol, hasSpace := t.hasSpace } = true by unfold isMark; simpa using hx), hb, bind_assoc]
          congr 1
          funext y
          rw [Run.bind_done]
          simp
    cases a with
    | par t' i =>
      dsimp only [Ref.found]
      rw [Run.bind_done, Run.bind_done]
      dsimp only
      exact key _ .fail
    | opt t' lp b rp =>
      dsimp only [Ref.found]
      rw [bind_assoc, bind_assoc]
      congr 1
      funext v
      rw [Run.bind_done, Run.bind_done]
      exact key _ .fail

/-! ### The whole list -/

theorem bind_congr {α β : Type} {x : Run α} {f g : α → Run β} (h : ∀ a, x = .done a → f a = g a) : (x >>= f) = (x >>= g) := by
  cases x with
  | done a => exact h a rfl
  | fail => rfl
  | crash => rfl
  | more => rfl

theorem place_ne (t : PTok) (ts : List PTok) : place t ts ≠ [] := by cases ts <;> simp [place]

theorem val_ne (o : Op) (op : Bool) (x : List PTok) (hx : o.val k op = .done x) : x ≠ [] := by
  cases o with
  | tok t => rw [Op.val] at hx; cases hx; simp
  | arg a =>
    cases a with
    | par t i => rw [Op.val, Ref.val] at hx; cases hx; exact place_ne _ _
    | opt t lp b rp =>
      rw [Op.val, Ref.val] at hx
      split at hx
      · obtain ⟨v, _, e⟩ := (bind_done_iff _ _ _).1 hx
        cases e; exact place_ne _ _
      · cases hx; simp
  | str h a =>
    rw [Op.val] at hx
    obtain ⟨v, _, e⟩ := (bind_done_iff _ _ _).1 hx
    obtain ⟨w, _, e⟩ := (bind_done_iff _ _ _).1 e
    cases e; simp

theorem op_toks_ne (o : Op) : o.toks ≠ [] := by
  cases o with
  | tok t => simp [Op.toks]
  | arg a => cases a <;> simp [Op.toks, Ref.toks]
  | str h a => simp [Op.toks]

theorem op_head (h : CtxOf E k c) (o : Op) (hw : o.WF k) (r : List PTok) : isText Mac.hashhash (o.toks ++ r) = false := by
  cases o with
  | tok t =>
    have hw' : IsTok k t := hw
    show (t.text == Mac.hashhash) = false
    simpa using hw'.2.1
  | arg a =>
    obtain ⟨t, ts, e, _, _, e3, _⟩ := ref_head h a hw
    show isText Mac.hashhash (a.toks ++ r) = false
    rw [e]
    show (t.text == Mac.hashhash) = false
    simpa using e3
  | str hh a =>
    obtain ⟨hh1, _⟩ : hh.text = SubstSpec.hash ∧ a.WF k := hw
    show (hh.text == Mac.hashhash) = false
    rw [hh1]; rfl

theorem body_head (h : CtxOf E k c) (b : Body) (hw : b.WF k) : isText Mac.hashhash b.toks = false := by
  cases b with
  | nil => rfl
  | one o r => rw [Body.WF] at hw; exact op_head h o hw.1 _
  | chain o ops r => rw [Body.WF] at hw; exact op_head h o hw.1 _
  | gnu kk hh v r =>
    rw [Body.WF] at hw
    show (kk.text == Mac.hashhash) = false
    rw [hw.1]; rfl

theorem chain_head (ops : Chain) (hw : ops.WF k) (r : List PTok) : isText Mac.hashhash (ops.toks ++ r) = true := by
  cases ops with
  | last hh o =>
    rw [Chain.WF] at hw
    show (hh.text == Mac.hashhash) = true
    rw [hw.1]; rfl
  | more hh o c =>
    rw [Chain.WF] at hw
    show (hh.text == Mac.hashhash) = true
    rw [hw.1]; rfl

def np (t : PTok) : Bool := !isMark t

/-- The model's result so far and the one of the specification, both with the last token first: the same inside
`__VA_OPT__`; elsewhere the model has more placemarkers. -/
def Rel (ne : Bool) (m s : List PTok) : Prop :=
  if ne then m = s else m.filter np = s.filter np ∧ m.head? = s.head?

def proj (ne : Bool) (x : List PTok) : List PTok := if ne then x else x.filter np

theorem Rel.push {ne : Bool} {m s : List PTok} (h : Rel ne m s) (x : List PTok) : Rel ne (x ++ m) (x ++ s) := by
  unfold Rel at h ⊢
  cases ne with
  | true =>
    rw [if_pos rfl] at h ⊢
    rw [h]
  | false =>
    rw [if_neg (by simp)] at h ⊢
    refine ⟨by rw [List.filter_append, List.filter_append, h.1], ?_⟩
    cases x with
    | nil => exact h.2
    | cons a l => rfl

theorem Rel.head {ne : Bool} {m s : List PTok} (h : Rel ne m s) : m.head? = s.head? := by
  unfold Rel at h
  cases ne with
  | true => rw [if_pos rfl] at h; rw [h]
  | false => rw [if_neg (by simp)] at h; exact h.2

/-- The head is replaced by other tokens. -/
theorem Rel.swap {ne : Bool} {cur : PTok} {m s : List PTok} (h : Rel ne (cur :: m) (cur :: s)) (y : List PTok) (hy : y ≠ []) :
    Rel ne (y ++ m) (y ++ s) := by
  unfold Rel at h ⊢
  cases ne with
  | true =>
    rw [if_pos rfl] at h ⊢
    cases h; rfl
  | false =>
    rw [if_neg (by simp)] at h ⊢
    refine ⟨?_, ?_⟩
    · have := h.1
      rw [List.filter_cons, List.filter_cons] at this
      rw [List.filter_append, List.filter_append]
      split at this
      · rw [List.cons.inj this |>.2]
      · rw [this]
    · cases y with
      | nil => exact absurd rfl hy
      | cons a l => rfl

/-- The model keeps a placemarker. -/
theorem Rel.keep {cur : PTok} (hc : cur.kind = .pmark) {m s : List PTok} (h : Rel false (cur :: m) (cur :: s)) (y : List PTok) (hy : y ≠ []) :
    Rel false (y ++ cur :: m) (y ++ s) := by
  have h1 := h.swap y hy
  unfold Rel at h1 ⊢
  rw [if_neg (by simp)] at h1 ⊢
  have hn : np cur = false := by unfold np isMark; rw [hc]; rfl
  refine ⟨?_, ?_⟩
  · rw [List.filter_append, List.filter_cons, hn, if_neg (by simp), ← List.filter_append, h1.1]
  · cases y with
    | nil => exact absurd rfl hy
    | cons a l => rfl

theorem Rel.final {ne : Bool} {m s : List PTok} (h : Rel ne m s) (y : List PTok) : proj ne (m.reverse ++ y) = proj ne (s.reverse ++ y) := by
  unfold Rel at h
  unfold proj
  cases ne with
  | true => rw [if_pos rfl] at h; rw [h]
  | false =>
    rw [if_neg (by simp)] at h ⊢
    rw [if_neg (by simp), List.filter_append, List.filter_append, List.filter_reverse, List.filter_reverse, h.1]

/-- `##` after a placemarker. -/
theorem markStep (hh : PTok) (hht : hh.text = SubstSpec.hashhash) (n : Nat) (cur : PTok) (hcur : cur.kind = .pmark) (acc r : List PTok)
    (hr : r ≠ []) : subst E c (n + 1) (cur :: acc) (hh :: r) = subst E c n (cur :: acc) r := by
  have e0 : ¬ hh.text = Mac.hash := by rw [hht]; decide
  have e1 : ¬ hh.text = Mac.comma := by rw [hht]; decide
  rw [subst.eq_def]; dsimp only
  rw [if_neg e0, if_neg (fun x => e1 x.1), Run.bind_done, if_neg (by simp), if_pos (show hh.text = Mac.hashhash from hht)]
  cases r with
  | nil => exact absurd rfl hr
  | cons u r' =>
    dsimp only
    rw [if_pos hcur]

def Solid (v : List PTok) : Prop := ∀ l, v.getLast? = some l → l.kind ≠ .pmark

theorem place_solid (t : PTok) (ts : List PTok) (h1 : ts ≠ []) (h : ∀ x ∈ ts, x.kind ≠ .pmark) : Solid (place t ts) := by
  cases ts with
  | nil => exact absurd rfl h1
  | cons x xs =>
    intro l hl
    have := List.mem_of_getLast? hl
    rcases List.mem_cons.1 this with e | e
    · rw [e]; exact h x (by simp)
    · exact h l (by simp [e])

theorem val_solid (h : CtxOf E k c) (o : Op) (hw : o.WF k) (x : List PTok) (hx : o.val k true = .done x) (hs : o.solid k false = true) : Solid x := by
  cases o with
  | tok t =>
    have hw' : IsTok k t := hw
    rw [Op.val] at hx; cases hx
    intro l hl; cases hl; exact hw'.2.2.1
  | arg a =>
    cases a with
    | par t i =>
      rw [Op.val, Ref.val] at hx; cases hx
      refine place_solid _ _ ?_ (h.raws i)
      rw [Op.solid] at hs
      intro e
      rw [if_pos rfl] at e
      rw [e] at hs; cases hs
    | opt t lp b rp => rw [Op.solid] at hs; cases hs
  | str hh a =>
    rw [Op.val] at hx
    obtain ⟨v, _, e⟩ := (bind_done_iff _ _ _).1 hx
    obtain ⟨w, e2, e⟩ := (bind_done_iff _ _ _).1 e
    cases e
    intro l hl; cases hl
    rw [← h.str] at e2
    exact (h.strung _ _ e2 : w.kind ≠ .pmark)

theorem glue_ne (cur : PTok) (hcur : cur.kind ≠ .pmark) (x y : List PTok) (hy : glue k.paste [cur] x = .done y) : y ≠ [] := by
  have hm : isMark cur = false := by unfold isMark; simpa using hcur
  unfold glue at hy
  cases x with
  | nil => cases hy
  | cons z zs =>
    dsimp only [List.getLast?_singleton] at hy
    rw [hm, if_neg (by simp)] at hy
    split at hy
    · cases hy; simp
    · obtain ⟨v, _, e⟩ := (bind_done_iff _ _ _).1 hy
      cases e; simp

theorem glue_solid (h : CtxOf E k c) (o : Op) (hw : o.WF k) (solid : Bool) (cur : PTok) (hcur : cur.kind ≠ .pmark) (x y : List PTok)
    (hx : o.val k true = .done x) (hs : o.solid k solid = true) (hy : glue k.paste [cur] x = .done y) : Solid y := by
  have hm : isMark cur = false := by unfold isMark; simpa using hcur
  by_cases hx1 : x = [mark]
  · rw [hx1] at hy
    unfold glue at hy
    dsimp only [List.getLast?_singleton] at hy
    rw [hm, if_neg (by simp), if_pos (show isMark mark = true from rfl)] at hy
    cases hy
    intro l hl; cases hl; exact hcur
  · have hsx : Solid x := by
      refine val_solid h o hw x hx ?_
      cases o with
      | tok t => rfl
      | str hh a => rfl
      | arg a =>
        cases a with
        | opt t lp b rp => rw [Op.solid] at hs; cases hs
        | par t i =>
          rw [Op.val, Ref.val] at hx; cases hx
          rw [if_pos rfl] at hx1
          rw [Op.solid]
          cases he : k.raw i with
          | nil => rw [he] at hx1; exact absurd rfl hx1
          | cons a l => rfl
    unfold glue at hy
    cases x with
    | nil => cases hy
    | cons z zs =>
      dsimp only [List.getLast?_singleton] at hy
      rw [hm, if_neg (by simp)] at hy
      have hz : ∀ w, zs.getLast? = some w → w.kind ≠ .pmark := by
        intro w hw
        refine hsx w ?_
        cases zs with
        | nil => cases hw
        | cons a l => simpa [List.getLast?_cons_cons] using hw
      split at hy
      · rename_i hzm
        cases hy
        intro l hl
        cases zs with
        | nil => simp at hl; rw [← hl]; exact hcur
        | cons a l' => exact hz l (by simpa [List.getLast?_cons_cons] using hl)
      · obtain ⟨v, e1, e⟩ := (bind_done_iff _ _ _).1 hy
        cases e
        intro l hl
        cases zs with
        | nil =>
          simp at hl; rw [← hl]
          rw [← h.paste] at e1
          exact h.pasted _ _ _ e1
        | cons a l' => exact hz l (by simpa [List.getLast?_cons_cons] using hl)

/-- What has to be shown of a list. -/
def BodyOk (E : Mac.Env) (k : Call) (c : Ctx) (ne : Bool) (b : Body) : Prop :=
  ∀ n m s, Rel ne m s → b.toks.length ≤ n →
    (subst E c n m b.toks >>= fun x => .done (proj ne x)) = (b.val k >>= fun v => .done (proj ne (s.reverse ++ v)))

/-- One `## o`, and what follows. -/
theorem link (h : CtxOf E k c) (o : Op) (hw : o.WF k) (hok : OpOk E k c o) (hs : ¬ o.isStr) (hh : PTok) (hht : hh.text = SubstSpec.hashhash)
    (ne solid : Bool) (hne : ne = true → solid = true) (r : List PTok) (hc : ¬ o.isComma ∨ isText Mac.hashhash r = false)
    (hlast : isText Mac.hashhash r = true ∨ solid = true ∨ o.same k)
    (n : Nat) (m s v : List PTok) (hv : v ≠ []) (hrel : Rel ne m (v.reverse ++ s)) (hsol : solid = true → Solid v)
    (hn : (hh :: (o.toks ++ r)).length ≤ n) (f : List PTok → Run (List PTok))
    (hf : ∀ n' m' w, w ≠ [] → Rel ne m' (w.reverse ++ s) → (o.solid k solid = true → Solid w) → r.length ≤ n' →
      (subst E c n' m' r >>= fun x => .done (proj ne x)) = f w) :
    (subst E c n m (hh :: (o.toks ++ r)) >>= fun x => .done (proj ne x)) = (o.val k true >>= fun x => glue k.paste v x >>= f) := by
  obtain ⟨pre, cur, rfl⟩ : ∃ pre cur, v = pre ++ [cur] := ⟨v.dropLast, v.getLast hv, (List.dropLast_concat_getLast hv).symm⟩
  have hhd := hrel.head
  rw [List.reverse_append, List.reverse_singleton, List.append_assoc, List.singleton_append] at hrel hhd
  obtain ⟨m', rfl⟩ : ∃ m', m = cur :: m' := by
    cases m with
    | nil => cases hhd
    | cons a l => simp only [List.head?_cons, Option.some.injEq] at hhd; exact ⟨l, by rw [hhd]⟩
  have hlen := hn
  simp only [List.length_cons, List.length_append] at hlen
  obtain ⟨n1, rfl⟩ : ∃ n1, n = n1 + 1 := ⟨n - 1, by omega⟩
  by_cases hcur : cur.kind = .pmark
  · have hns : solid = false := by
      cases hsv : solid with
      | false => rfl
      | true => exact absurd hcur (hsol hsv cur (by simp))
    have hnn : ne = false := by
      cases hv : ne with
      | false => rfl
      | true => rw [hne hv] at hns; cases hns
    subst hns hnn
    have htn := op_toks_ne o
    have hpos : 0 < o.toks.length := List.length_pos_iff.2 htn
    rw [markStep hh hht n1 cur hcur m' _ (by simp [htn])]
    obtain ⟨n2, rfl⟩ : ∃ n2, n1 = n2 + 1 := ⟨n1 - 1, by omega⟩
    rw [norm h o hw hok n2 _ _ (by simp only [List.length_append]; omega) hc]
    have hval : o.val k (isText Mac.hashhash r) = o.val k true := by
      cases hr : isText Mac.hashhash r with
      | true => rfl
      | false =>
        have hsame : o.same k := by
          rcases hlast with e | e | e
          · rw [hr] at e; cases e
          · cases e
          · exact e
        cases o with
        | tok t => rfl
        | str a b => rfl
        | arg a =>
          cases a with
          | opt t lp b rp => rfl
          | par t i =>
            have hsame : k.exp i = k.raw i := hsame
            rw [Op.val, Ref.val, Op.val, Ref.val, if_neg (by simp), if_pos rfl, hsame]
    rw [hval, bind_assoc]
    refine bind_congr fun x hx => ?_
    have hxn := val_ne o true x hx
    have hg : glue k.paste (pre ++ [cur]) x = .done (pre ++ x) := by
      unfold glue
      rw [List.getLast?_append, List.dropLast_concat]
      cases x with
      | nil => exact absurd rfl hxn
      | cons y ys =>
        show (if isMark cur = true then _ else _) = _
        rw [if_pos (by unfold isMark; rw [hcur]; rfl)]
    rw [hg, Run.bind_done]
    refine hf _ _ _ (by simp [hxn]) ?_ ?_ (by omega)
    · have := hrel.keep hcur x.reverse (by simp [hxn])
      simpa using this
    · intro e l hl
      have := val_solid h o hw x hx e
      refine this l ?_
      rw [List.getLast?_append] at hl
      cases hxl : x.getLast? with
      | none => rw [List.getLast?_eq_none_iff] at hxl; exact absurd hxl hxn
      | some z => rw [hxl] at hl; exact hl
  · rw [pasteStep h o hw hok hs hh hht n1 cur hcur m' r (by simp only [List.length_append]; omega), bind_assoc]
    refine bind_congr fun x hx => ?_
    rw [glue_append, bind_assoc, bind_assoc]
    refine bind_congr fun y hy => ?_
    rw [Run.bind_done]
    have hyn := glue_ne cur hcur x y hy
    refine hf _ _ _ (by simp [hyn]) ?_ ?_ (by omega)
    · have := hrel.swap y.reverse (by simp [hyn])
      simpa using this
    · intro e l hl
      have := glue_solid h o hw solid cur hcur x y hx e hy
      refine this l ?_
      rw [List.getLast?_append] at hl
      cases hxl : y.getLast? with
      | none => rw [List.getLast?_eq_none_iff] at hxl; exact absurd hxl hyn
      | some z => rw [hxl] at hl; exact hl

mutual
theorem body_ok (h : CtxOf E k c) (ne : Bool) : ∀ (b : Body), b.WF k → b.Plain k ne → BodyOk E k c ne b
  | .nil, _, _ => by
    intro n m s hr _
    have e : subst E c n m (Body.nil).toks = .done m.reverse := by
      rw [Body.toks, subst.eq_def]
    rw [e, Run.bind_done, Body.val, Run.bind_done]
    have := hr.final []
    simpa using this
  | .one o r, hw, hp => by
    intro n m s hr hn
    rw [Body.WF] at hw
    rw [Body.Plain] at hp
    have ih := body_ok h ne r hw.2 hp.2
    have hok := op_ok h o hw.1 hp.1
    have hpos : 0 < o.toks.length := List.length_pos_iff.2 (op_toks_ne o)
    rw [Body.toks] at hn ⊢
    have hlen := hn
    rw [List.length_append] at hlen
    obtain ⟨n1, rfl⟩ : ∃ n1, n = n1 + 1 := ⟨n - 1, by omega⟩
    have hbh := body_head h r hw.2
    rw [norm h o hw.1 hok n1 m _ hn (.inr hbh), hbh, Body.val, bind_assoc, bind_assoc]
    refine bind_congr fun x hx => ?_
    rw [ih n1 _ _ (hr.push x.reverse) (by omega), bind_assoc]
    refine bind_congr fun y _ => ?_
    rw [Run.bind_done]
    simp
  | .chain o ops r, hw, hp => by
    intro n m s hr hn
    rw [Body.WF] at hw
    rw [Body.Plain] at hp
    have ih := body_ok h ne r hw.2.2.2 hp.2.2
    have hok := op_ok h o hw.1 hp.1
    have hpos : 0 < o.toks.length := List.length_pos_iff.2 (op_toks_ne o)
    rw [Body.toks] at hn ⊢
    have hlen := hn
    rw [List.length_append] at hlen
    obtain ⟨n1, rfl⟩ : ∃ n1, n = n1 + 1 := ⟨n - 1, by omega⟩
    rw [norm h o hw.1 hok n1 m _ hn (.inl hw.2.1), chain_head ops hw.2.2.1, Body.val, bind_assoc, bind_assoc]
    refine bind_congr fun x hx => ?_
    rw [chain_ok h ne ops r ih hw.2.2.1 hw.2.2.2 (o.solid k false) hp.2.1 n1 (x.reverse ++ m) s x (val_ne o true x hx) (hr.push _)
      (fun e => val_solid h o hw.1 x hx e) (by omega), bind_assoc]
    refine bind_congr fun w _ => ?_
    rw [bind_assoc]
    refine bind_congr fun y _ => ?_
    rw [Run.bind_done]
  | .gnu kk hh v r, hw, hp => by
    intro n m s hr hn
    rw [Body.WF] at hw
    rw [Body.Plain] at hp
    obtain ⟨w1, w2, w3, w4, w5⟩ := hw
    have ih := body_ok h ne r w5 hp
    rw [Body.toks] at hn ⊢
    have hlen := hn
    simp only [List.length_cons] at hlen
    obtain ⟨n1, rfl⟩ : ∃ n1, n = n1 + 1 := ⟨n - 1, by omega⟩
    have e0 : ¬ kk.text = Mac.hash := by rw [w1]; decide
    have hfa := find_par h w4 n1 r.toks
    rw [subst.eq_def]; dsimp only
    rw [if_neg e0, if_pos ⟨w1, by show (hh.text == Mac.hashhash) = true; rw [w2]; rfl, by rw [h.va, w3]⟩]
    rw [show (hh :: v :: r.toks).drop 1 = v :: r.toks from rfl, hfa, Run.bind_done]
    dsimp only
    rw [Run.bind_done, if_pos (by rw [h.params]; exact decide_eq_true rfl), h.omit', Body.val]
    cases ho : k.omitted with
    | true =>
      rw [if_pos rfl, if_pos rfl, show (hh :: v :: r.toks).drop 2 = r.toks from rfl, ih n1 m s hr (by omega), bind_assoc]
      rfl
    | false =>
      rw [if_neg (by simp), if_neg (by simp)]
      obtain ⟨n2, rfl⟩ : ∃ n2, n1 = n2 + 1 := ⟨n1 - 1, by omega⟩
      have hbh := body_head h r w5
      have := norm h (.arg (.par v k.last)) w4 trivial n2 (kk :: m) r.toks (by simp [Op.toks, Ref.toks]; omega) (.inr hbh)
      rw [hbh] at this
      rw [show v :: r.toks = (Op.arg (.par v k.last)).toks ++ r.toks from rfl, this]
      rw [Op.val, Ref.val, Run.bind_done, if_neg (by simp)]
      have hr2 := (hr.push [kk]).push (place v (k.exp k.last)).reverse
      rw [show (place v (k.exp k.last)).reverse ++ kk :: m = (place v (k.exp k.last)).reverse ++ ([kk] ++ m) from rfl, ih n2 _ _ hr2 (by omega), bind_assoc]
      refine bind_congr fun y _ => ?_
      rw [Run.bind_done]
      simp
theorem chain_ok (h : CtxOf E k c) (ne : Bool) : ∀ (ops : Chain) (r : Body), BodyOk E k c ne r → ops.WF k → r.WF k →
    ∀ (solid : Bool), ops.Plain k ne solid → ∀ (n : Nat) (m s v : List PTok), v ≠ [] → Rel ne m (v.reverse ++ s) → (solid = true → Solid v) →
    (ops.toks ++ r.toks).length ≤ n →
    (subst E c n m (ops.toks ++ r.toks) >>= fun x => .done (proj ne x)) =
      (ops.onto k v >>= fun w => r.val k >>= fun y => .done (proj ne (s.reverse ++ (w ++ y))))
  | .last hh o, r, ih, hw, hwr, solid, hp, n, m, s, v, hv, hrel, hsol, hn => by
    rw [Chain.WF] at hw
    rw [Chain.Plain] at hp
    have hok := op_ok h o hw.2.1 hp.1
    have hbh := body_head h r hwr
    rw [Chain.toks, List.cons_append] at hn ⊢
    rw [Chain.onto, bind_assoc]
    refine link h o hw.2.1 hok hw.2.2 hh hw.1 ne solid hp.2.1 r.toks (.inr hbh) (.inr hp.2.2) n m s v hv hrel hsol hn _ ?_
    intro n' m' w _ hr _ hn'
    rw [ih n' m' _ hr hn']
    refine bind_congr fun y _ => ?_
    simp
  | .more hh o ops, r, ih, hw, hwr, solid, hp, n, m, s, v, hv, hrel, hsol, hn => by
    rw [Chain.WF] at hw
    rw [Chain.Plain] at hp
    have hok := op_ok h o hw.2.1 hp.1
    have hch := chain_head ops hw.2.2.2.2 r.toks
    rw [Chain.toks, List.cons_append, List.append_assoc] at hn ⊢
    rw [Chain.onto, bind_assoc]
    have := link h o hw.2.1 hok hw.2.2.1 hh hw.1 ne solid hp.2.1 (ops.toks ++ r.toks) (.inl hw.2.2.2.1) (.inl hch) n m s v hv hrel hsol hn
      (fun w => ops.onto k w >>= fun w => r.val k >>= fun y => .done (proj ne (s.reverse ++ (w ++ y)))) (by
        intro n' m' w hwn hr hsw hn'
        exact chain_ok h ne ops r ih hw.2.2.2.2 hwr _ hp.2.2 n' m' s w hwn hr hsw hn')
    rw [this]
    refine bind_congr fun x _ => ?_
    rw [bind_assoc]
theorem op_ok (h : CtxOf E k c) : ∀ (o : Op), o.WF k → o.Plain k → OpOk E k c o
  | .tok _, _, _ => trivial
  | .arg a, hw, hp => by
    rw [Op.WF] at hw
    rw [Op.Plain] at hp
    exact ref_ok h a hw hp
  | .str _ a, hw, hp => by
    rw [Op.WF] at hw
    rw [Op.Plain] at hp
    exact ref_ok h a hw.2 hp
theorem ref_ok (h : CtxOf E k c) : ∀ (a : Ref), a.WF k → a.Plain k → RefOk E k c a
  | .par _ _, _, _ => trivial
  | .opt t lp b rp, hw, hp => by
    rw [Ref.WF] at hw
    rw [Ref.Plain] at hp
    intro n hn
    have := body_ok h true b hw.2.2.2.2.2 hp n [] [] (by unfold Rel; rw [if_pos rfl]) hn
    unfold proj at this
    simpa [bind_pure] using this
end

/-- Substitution with placemarkers removed is the replacement of the specification. -/
theorem subst_eq (h : CtxOf E k c) (b : Body) (hw : b.WF k) (hp : b.Plain k false) (n : Nat) (hn : b.toks.length ≤ n) :
    (subst E c n [] b.toks >>= fun x => .done (x.filter fun t => t.kind ≠ .pmark)) = b.replacement k := by
  have := body_ok h false b hw hp n [] [] (by unfold Rel; rw [if_neg (by simp)]; exact ⟨rfl, rfl⟩) hn
  unfold Body.replacement
  have hf : (fun t : PTok => decide (t.kind ≠ .pmark)) = np := by
    funext t
    unfold np isMark
    cases t.kind <;> rfl
  rw [hf]
  exact this

end Slimcc.SubstL
