import Verif.Lemmas.MacroSubst
import Verif.Props.C28
import Verif.Props.C26
/-!
C54: the arguments of a function-like macro are substituted as C prescribes.

`expand E f outer locks (t :: r)` is the expansion of the list `t :: r` with fuel `f`; `enter` puts a
replacement before the rest of the list and locks the macro's name. What stands between the parentheses is
read into arguments as C28 says. `Body.replacement` is the specification: operands alone and chains of operands
joined by `##`, parameters replaced by their expanded or their written arguments, placemarkers, `#`,
`__VA_OPT__` and the GNU `, ## __VA_ARGS__`.
-/
set_option autoImplicit false
namespace Slimcc.Props
open Slimcc Slimcc.Lex Slimcc.PP Slimcc.Mac Slimcc.MacL Slimcc.Spec Slimcc.SubstSpec Slimcc.SubstL

/-- What is assumed of the tokenizer: pasting takes no notice of the white space before its right operand,
and neither it nor `#` nor a built-in macro yields a placemarker. -/
structure TokenOps (E : Mac.Env) : Prop where
  blind : ∀ l x b s, E.paste l { x with atBol := b, hasSpace := s } = E.paste l x
  pasted : ∀ l x y, E.paste l x = .done y → y.kind ≠ .pmark
  strung : ∀ ts y, E.str ts = .done y → y.kind ≠ .pmark
  builtin : ∀ t, (E.builtin t).kind ≠ .pmark

/-- A function-like macro as the parser of `#define` leaves it. -/
structure FnMacro (m : Macro) : Prop where
  fn : m.isObj = false
  plain : m.handler = false
  nodup : m.params.Nodup
  names : ∀ p ∈ m.params, p ≠ Mac.hash ∧ p ≠ Mac.hashhash ∧ p ≠ Mac.comma ∧ p ≠ Mac.vaOpt
  last : m.vaArg = true → m.params ≠ []

/-- No replacement list has a placemarker. -/
def NoMarks (ts : List PTok) : Prop := ∀ t ∈ ts, t.kind ≠ .pmark

/-- What the specification is told of an invocation. -/
def callOf (E : Mac.Env) (m : Macro) (raw exp : List (List PTok)) (omitted : Bool) : SubstSpec.Call :=
  { params := m.params, variadic := m.vaArg, raw := fun i => (raw[i]?).getD [], exp := fun i => (exp[i]?).getD [],
    omitted := omitted, str := E.str, paste := E.paste }

/-- `text` reads as these arguments; `omitted` says that `, ## __VA_ARGS__` vanishes: the variable arguments are
left out together with their comma (or, as an extension, they are all there is and empty). -/
def ReadAs (strict : Bool) (m : Macro) (text : List PTok) (args : List (List PTok)) (omitted : Bool) : Prop :=
  if m.vaArg then ∃ o, VarArgs m.params.length args o text ∧ omitted = (if m.params.length = 1 then text.isEmpty && !strict else o)
  else omitted = false ∧ FixedArgs m.params.length args text

theorem readAs_read (strict : Bool) (m : Macro) (hm : FnMacro m) (text : List PTok) (close : PTok) (hc : IsClose close) (args : List (List PTok))
    (omitted : Bool) (h : ReadAs strict m text args omitted) : readArgs strict m (text ++ [close]) = .done (args, omitted, []) := by
  unfold ReadAs at h
  cases hv : m.vaArg with
  | true =>
    rw [hv, if_pos rfl] at h
    obtain ⟨o, h1, h2⟩ := h
    exact (C28_variadic strict m hv (hm.last hv) _ _ _ _).2 ⟨text, close, o, rfl, hc, h1, h2⟩
  | false =>
    rw [hv, if_neg (by simp)] at h
    exact (C28_fixed strict m hv _ _ _ _).2 ⟨h.1, text, close, rfl, hc, h.2⟩

theorem commas_sub {args : List (List PTok)} {ts : List PTok} (h : Commas args ts) : ∀ a ∈ args, ∀ t ∈ a, t ∈ ts := by
  induction h with
  | one a => intro x hx t ht; rw [List.mem_singleton] at hx; rw [← hx]; exact ht
  | more a c args ts _ _ ih =>
    intro x hx t ht
    rcases List.mem_cons.1 hx with e | e
    · rw [e] at ht; simp [ht]
    · simp [ih x e t ht]

theorem readAs_sub (strict : Bool) (m : Macro) (text : List PTok) (args : List (List PTok)) (omitted : Bool)
    (h : ReadAs strict m text args omitted) : args.length = m.params.length ∧ ∀ a ∈ args, ∀ t ∈ a, t ∈ text := by
  unfold ReadAs at h
  cases hv : m.vaArg with
  | true =>
    rw [hv, if_pos rfl] at h
    obtain ⟨o, ⟨fixed, va, e, hl, _, _, h1⟩, _⟩ := h
    refine ⟨hl, ?_⟩
    cases o with
    | true =>
      rw [if_pos rfl] at h1
      obtain ⟨rfl, h1⟩ := h1
      intro a ha t ht
      rw [e, List.mem_append, List.mem_singleton] at ha
      rcases ha with ha | ha
      · rw [if_neg (by intro e; rw [e] at ha; simp at ha)] at h1
        exact commas_sub h1 a ha t ht
      · rw [ha] at ht; simp at ht
    | false => rw [if_neg (by simp)] at h1; exact commas_sub h1
  | false =>
    rw [hv, if_neg (by simp)] at h
    obtain ⟨_, hl, _, h1⟩ := h
    refine ⟨hl, ?_⟩
    split at h1
    · rename_i e
      intro a ha
      rw [e] at hl
      rw [List.length_eq_zero_iff.1 hl] at ha
      simp at ha
    · exact commas_sub h1

/-! ### Expansion makes no placemarkers -/

theorem insertObj_marks (E : Mac.Env) (hE : TokenOps E) : ∀ (n : Nat) (acc ts out : List PTok), ts.length ≤ n → NoMarks acc → NoMarks ts →
    insertObj E acc ts = .done out → NoMarks out
  | _, acc, [], out, _, ha, _, h => by
    rw [insertObj] at h; cases h
    intro t ht; exact ha t (by simpa using ht)
  | _, acc, [t], out, _, ha, hs, h => by
    rw [insertObj] at h
    split at h
    · cases h
    · cases h
      intro u hu
      simp at hu
      rcases hu with hu | hu
      · exact ha u hu
      · rw [hu]; exact hs t (by simp)
  | 0, acc, t :: u :: r, out, hn, _, _, _ => by simp at hn
  | n + 1, acc, t :: u :: r, out, hn, ha, hs, h => by
    simp only [List.length_cons] at hn
    rw [insertObj.eq_def] at h
    dsimp only at h
    split at h
    · cases acc with
      | nil => cases h
      | cons cur acc' =>
        obtain ⟨y, h1, h2⟩ := (bind_done_iff _ _ _).1 h
        refine insertObj_marks E hE n _ _ _ (by omega) ?_ (fun x hx => hs x (by simp [hx])) h2
        intro x hx
        rcases List.mem_cons.1 hx with e | e
        · rw [e]; exact hE.pasted _ _ _ h1
        · exact ha x (by simp [e])
    · refine insertObj_marks E hE n _ _ _ (by simp only [List.length_cons]; omega) ?_ (fun x hx => hs x (by simp [List.mem_cons.1 hx])) h
      intro x hx
      rcases List.mem_cons.1 hx with e | e
      · rw [e]; exact hs t (by simp)
      · exact ha x e

theorem enter_marks (locks : Locks) (t : PTok) (b rest : List PTok) (hb : NoMarks b) (hr : NoMarks rest) : NoMarks (enter locks t b rest).2 := by
  unfold enter
  split
  · unfold orFlags
    cases rest with
    | nil => exact hr
    | cons x xs =>
      intro u hu
      rcases List.mem_cons.1 hu with e | e
      · rw [e]; exact hr x (by simp)
      · exact hr u (by simp [e])
  · intro u hu
    rcases List.mem_append.1 hu with e | e
    · unfold alignHead at e
      cases b with
      | nil => simp at e
      | cons x xs =>
        rcases List.mem_cons.1 e with e | e
        · rw [e]; exact hb x (by simp)
        · exact hb u (by simp [e])
    · exact hr u e

theorem expand_marks (E : Mac.Env) (hE : TokenOps E) (hT : ∀ s m, E.find s = some m → NoMarks m.body) : ∀ (f : Nat) (outer : List Name) (locks : Locks)
    (ts out : List PTok), NoMarks ts → expand E f outer locks ts = .done out → NoMarks out
  | 0, _, _, _, _, _, h => by rw [expand] at h; cases h
  | f + 1, outer, locks, [], out, _, h => by
    rw [expand] at h
    split at h
    · cases h; exact fun t ht => by simp at ht
    · cases h
  | f + 1, outer, locks, t :: r, out, hs, h => by
    rw [expand] at h
    obtain ⟨x, h1, h2⟩ := (bind_done_iff _ _ _).1 h
    have hr : NoMarks r := fun u hu => hs u (by simp [hu])
    cases x with
    | inl t' =>
      obtain ⟨o, h3, h4⟩ := (bind_done_iff _ _ _).1 h2
      cases h4
      have ih := expand_marks E hE hT f _ _ _ _ hr h3
      intro u hu
      rcases List.mem_cons.1 hu with e | e
      · rw [e]
        rcases expandMacro_inl E _ _ _ _ _ _ h1 with ⟨e2, _⟩ | ⟨e2, _⟩ <;> · rw [e2]; exact hs t (by simp)
      · exact ih u e
    | inr s =>
      obtain ⟨l, ts⟩ := s
      refine expand_marks E hE hT f _ _ _ _ ?_ h2
      obtain ⟨_, m, hm, _, hrepl⟩ := expandMacro_inr E _ _ _ _ _ _ h1
      have hfind : E.find t.text = some m := by
        unfold Env.look at hm
        split at hm
        · exact hm
        · cases hm
      generalize hs' : (l, ts) = s at hrepl
      have : ts = s.2 := by rw [← hs']
      rw [this]
      cases hrepl with
      | builtin _ =>
        intro u hu
        rcases List.mem_cons.1 hu with e | e
        · rw [e]; exact hE.builtin t
        · exact hr u e
      | obj b _ _ hb => exact enter_marks _ _ _ _ (insertObj_marks E hE _ _ _ _ (Nat.le_refl _) (fun t ht => by simp at ht) (hT _ _ hfind) hb) hr
      | fn c b _ _ hb =>
        refine enter_marks _ _ _ _ (fun u hu => by simpa using (List.mem_filter.1 hu).2) ?_
        obtain ⟨text, cl, e, _⟩ := C28_extent E _ _ _ _ _ _ c.prep
        intro u hu
        refine hr u ?_
        rw [c.hr, e]
        simp [hu]

/-! ### The arguments as they are read -/

/-- The macros that are being replaced where `n` tokens are left: each lock ends where its second component says,
the inner ones first. -/
def Replacing (locks : Locks) (n : Nat) (s : Name) : Prop := ∃ l ∈ locks, l.1 = s ∧ l.2 < n

instance (locks : Locks) (n : Nat) (s : Name) : Decidable (Replacing locks n s) := by unfold Replacing; infer_instance

/-- 6.10.5.5: a name of a macro that is being replaced at this place is not available for replacement any more. -/
def marked (E : Mac.Env) (outer : List Name) (locks : Locks) (n : Nat) (t : PTok) : PTok :=
  if t.kind = .ident ∧ (E.find t.text).isSome ∧ (t.text ∈ outer ∨ Replacing locks n t.text) then { t with noExpand := true } else t

/-- All of a list, with `n` tokens after it. -/
def markedAll (E : Mac.Env) (outer : List Name) (locks : Locks) (n : Nat) : List PTok → List PTok
  | [] => []
  | t :: r => marked E outer locks (n + r.length + 1) t :: markedAll E outer locks n r

theorem replacing_filter (locks : Locks) (n m : Nat) (s : Name) (h : n ≤ m) :
    Replacing (locks.filter fun l => decide (l.2 < m)) n s ↔ Replacing locks n s := by
  unfold Replacing
  constructor
  · rintro ⟨l, h1, h2⟩; exact ⟨l, (List.mem_filter.1 h1).1, h2⟩
  · rintro ⟨l, h1, h2, h3⟩; exact ⟨l, List.mem_filter.2 ⟨h1, by simp; omega⟩, h2, h3⟩

theorem marked_filter (E : Mac.Env) (outer : List Name) (locks : Locks) (n m : Nat) (t : PTok) (h : n ≤ m) :
    marked E outer (locks.filter fun l => decide (l.2 < m)) n t = marked E outer locks n t := by
  unfold marked
  simp only [replacing_filter locks n m t.text h]

theorem markedAll_filter (E : Mac.Env) (outer : List Name) (locks : Locks) (n m : Nat) : ∀ (ts : List PTok), n + ts.length ≤ m →
    markedAll E outer (locks.filter fun l => decide (l.2 < m)) n ts = markedAll E outer locks n ts
  | [], _ => rfl
  | t :: r, h => by
    simp only [List.length_cons] at h
    rw [markedAll, markedAll, marked_filter E outer locks _ m t (by omega), markedAll_filter E outer locks n m r (by omega)]

theorem paint_eq (E : Mac.Env) (outer : List Name) (locks : Locks) (n : Nat) (t : PTok) :
    paint E outer (locks.filter fun l => decide (l.2 < n)) t = marked E outer locks n t := by
  unfold paint marked isLocked Env.look
  by_cases hk : t.kind = .ident
  · rw [if_pos hk]
    have : (List.map Prod.fst (locks.filter fun l => decide (l.2 < n))).contains t.text = decide (Replacing locks n t.text) := by
      rw [Bool.eq_iff_iff]
      simp only [List.contains_iff_mem, List.mem_map, List.mem_filter, decide_eq_true_eq]
      unfold Replacing
      constructor
      · rintro ⟨l, ⟨h1, h2⟩, h3⟩; exact ⟨l, h1, h3, h2⟩
      · rintro ⟨l, h1, h2, h3⟩; exact ⟨l, ⟨h1, h3⟩, h2⟩
    rw [this]
    simp [hk]
  · rw [if_neg hk, if_neg (by simp), if_neg (fun h => hk h.1)]

theorem prepare_marks (E : Mac.Env) (outer : List Name) : ∀ (ts : List PTok) (k : Nat) (locks : Locks) (as rest : List PTok) (l : Locks),
    prepare E outer k locks ts = .done (as, rest, l) → Desc ts.length locks →
    ∃ text c, ts = text ++ c :: rest ∧ as = markedAll E outer locks rest.length (text ++ [c])
  | [], k, locks, as, rest, l, h, _ => by rw [prepare] at h; cases h
  | t :: r, k, locks, as, rest, l, h, hd => by
    have hd1 : Desc r.length (popLocks (r.length + 1) locks) := popLocks_desc hd
    have he : popLocks (r.length + 1) locks = locks.filter (fun x => decide (x.2 < r.length + 1)) := (popLocks_eq hd).1
    rw [prepare] at h
    dsimp only at h
    split at h
    · cases h
      refine ⟨[], t, rfl, ?_⟩
      rw [he, paint_eq]; rfl
    · obtain ⟨⟨as2, rest2, l2⟩, h1, h2⟩ := (bind_done_iff _ _ _).1 h
      obtain ⟨rfl, rfl, rfl⟩ : as = paint E outer (popLocks (r.length + 1) locks) t :: as2 ∧ rest = rest2 ∧ l = l2 := by cases h2; exact ⟨rfl, rfl, rfl⟩
      obtain ⟨text, c, e1, e2⟩ := prepare_marks E outer r _ _ _ _ _ h1 hd1
      refine ⟨t :: text, c, by rw [e1]; rfl, ?_⟩
      have hl : r.length = rest.length + (text ++ [c]).length := by rw [e1]; simp; omega
      rw [e2, he, paint_eq, markedAll_filter _ _ _ _ _ _ (by omega), List.cons_append, markedAll, hl]

theorem prepare_goes (E : Mac.Env) (outer : List Name) {a : List PTok} (ha : Nested a) : ∀ (k : Nat) (locks : Locks) (b rest : List PTok),
    (∀ locks, ∃ as l, prepare E outer k locks b = .done (as, rest, l)) → ∃ as l, prepare E outer k locks (a ++ b) = .done (as, rest, l) := by
  have step : ∀ (k : Nat) (t : PTok) (r rest : List PTok), ¬ (k = 0 ∧ t.text = rpar) →
      (∀ locks, ∃ as l, prepare E outer (if t.text = lpar then k + 1 else if t.text = rpar then k - 1 else k) locks r = .done (as, rest, l)) →
      ∀ locks, ∃ as l, prepare E outer k locks (t :: r) = .done (as, rest, l) := by
    intro k t r rest hk h locks
    obtain ⟨as, l, e⟩ := h (popLocks (r.length + 1) locks)
    refine ⟨paint E outer (popLocks (r.length + 1) locks) t :: as, l, ?_⟩
    rw [prepare]
    dsimp only
    rw [if_neg hk, e, Run.bind_done]
  induction ha with
  | nil => intro k locks b rest h; exact h locks
  | tok t ts h1 h2 _ ih =>
    intro k locks b rest h
    refine step k t (ts ++ b) rest (fun x => h2 x.2) (fun locks => ?_) locks
    rw [if_neg (show ¬ t.text = lpar from h1), if_neg (show ¬ t.text = rpar from h2)]
    exact ih k locks b rest h
  | paren o c a1 b1 h1 h2 _ _ ih1 ih2 =>
    intro k locks b rest h
    have h1' : o.text = lpar := h1
    have h2' : c.text = rpar := h2
    rw [List.append_assoc, List.cons_append]
    refine step k o _ rest (fun x => by rw [h1'] at x; exact absurd x.2 (by decide)) (fun locks => ?_) locks
    rw [if_pos h1']
    refine ih1 (k + 1) locks _ rest (fun locks => ?_)
    rw [List.cons_append]
    refine step (k + 1) c _ rest (fun x => by omega) (fun locks => ?_) locks
    rw [if_neg (by rw [h2']; decide), if_pos h2', Nat.add_sub_cancel]
    exact ih2 k locks b rest h

theorem Nested.split {a b : List PTok} {c d : PTok} {r s : List PTok} (ha : Nested a) (hb : Nested b) (hc : IsClose c) (hd : IsClose d)
    (e : a ++ c :: r = b ++ d :: s) : a = b ∧ c = d ∧ r = s := by
  have h1 := (var_iff (a ++ c :: r) a (c :: r)).2 ⟨rfl, ha, c, r, rfl, hc⟩
  have h2 := (var_iff (b ++ d :: s) b (d :: s)).2 ⟨rfl, hb, d, s, rfl, hd⟩
  rw [e, h2] at h1
  cases h1
  exact ⟨rfl, rfl, rfl⟩

/-- The arguments end at the matching parenthesis; in them the names of macros that are being replaced there are
marked; after them the locks that go beyond are left. -/
theorem C54_collected (E : Mac.Env) (outer : List Name) (locks : Locks) (text : List PTok) (close : PTok) (rest : List PTok) (ht : Nested text) (hc : IsClose close)
    (hd : Desc (text ++ close :: rest).length locks) :
    prepare E outer 0 locks (text ++ close :: rest) =
      .done (markedAll E outer locks (rest.length + 1) text ++ [marked E outer locks (rest.length + 1) close], rest, locks.filter fun l => decide (l.2 ≤ rest.length)) := by
  obtain ⟨as, l, e⟩ := prepare_goes E outer ht 0 locks (close :: rest) rest (fun locks => by
    refine ⟨[paint E outer (popLocks (rest.length + 1) locks) close], popLocks (rest.length + 1) locks, ?_⟩
    rw [prepare]
    dsimp only
    rw [if_pos ⟨rfl, hc⟩])
  obtain ⟨text2, c2, e1, e2⟩ := prepare_marks E outer _ _ _ _ _ _ e hd
  obtain ⟨text3, c3, e3, hc3, hn3, _⟩ := C28_extent E outer locks l _ as rest e
  obtain ⟨_, _, g⟩ := prepare_locks E outer _ _ _ _ _ _ e hd
  have e4 := e1.symm.trans e3
  have hl : text2.length = text3.length := by
    have := congrArg List.length e4
    simp at this; omega
  obtain ⟨rfl, e5⟩ := List.append_inj e4 hl
  cases e5
  obtain ⟨rfl, rfl, _⟩ := Nested.split ht hn3 hc hc3 e3
  rw [e, e2]
  have hm : ∀ ts, markedAll E outer locks rest.length (ts ++ [close]) = markedAll E outer locks (rest.length + 1) ts ++ [marked E outer locks (rest.length + 1) close] := by
    intro ts
    induction ts with
    | nil => rfl
    | cons t r ih =>
      rw [List.cons_append, markedAll, ih, markedAll]
      simp only [List.length_append, List.length_singleton, List.cons_append]
      rw [show rest.length + (r.length + 1) + 1 = rest.length + 1 + r.length + 1 by omega]
  rw [hm, (prepare_locks E outer _ _ _ _ _ _ e hd).2.1]

theorem markedAll_marks (E : Mac.Env) (outer : List Name) (locks : Locks) (n : Nat) : ∀ (ts : List PTok), NoMarks ts → NoMarks (markedAll E outer locks n ts)
  | [], _ => fun t ht => by simp [markedAll] at ht
  | t :: r, h => by
    intro u hu
    rw [markedAll] at hu
    rcases List.mem_cons.1 hu with e | e
    · rw [e]
      unfold marked
      split <;> exact h t (by simp)
    · exact markedAll_marks E outer locks n r (fun x hx => h x (by simp [hx])) u e

theorem substitution_of_prepared (E : Mac.Env) (hE : TokenOps E) (hT : ∀ s m, E.find s = some m → NoMarks m.body) (f : Nat) (outer : List Name) (locks l : Locks)
    (t : PTok) (ht : t.kind = .ident) (hn : t.noExpand = false) (m : Macro) (hm : E.find t.text = some m) (hfn : FnMacro m)
    (hl : isLocked outer locks t.text = false) (op : PTok) (hop : IsOpen op) (r text : List PTok) (close : PTok) (hclose : IsClose close) (rest : List PTok)
    (hprep : prepare E outer 0 (popLocks (r.length + 1) locks) r = .done (text ++ [close], rest, l)) (htext : NoMarks text)
    (raw exp : List (List PTok)) (omitted : Bool) (hread : ReadAs E.strict m text raw omitted) (hlen : exp.length = raw.length)
    (hexp : ∀ (i : Nat) (a e : List PTok), raw[i]? = some a → exp[i]? = some e → expand E f (l.map Prod.fst ++ outer) [] a = .done e)
    (b : Body) (hb : m.body = b.toks) (hw : b.WF (callOf E m raw exp omitted)) (hp : b.Plain (callOf E m raw exp omitted) false) :
    expand E (f + 1) outer locks (t :: op :: r) =
      (b.replacement (callOf E m raw exp omitted) >>= fun x =>
        expand E f outer (popLocks (enter l t x rest).2.length (enter l t x rest).1) (enter l t x rest).2) := by
  obtain ⟨hrl, hsub⟩ := readAs_sub _ _ _ _ _ hread
  have hraw : ∀ i, NoMarks ((callOf E m raw exp omitted).raw i) := by
    intro i x hx
    change x ∈ (raw[i]?).getD [] at hx
    cases hi : raw[i]? with
    | none => rw [hi] at hx; simp at hx
    | some a => rw [hi] at hx; exact htext x (hsub a (List.mem_of_getElem? hi) x hx)
  have hctx : CtxOf E (callOf E m raw exp omitted)
      { params := m.params, vaArg := m.vaArg, omitC := omitted,
        args := raw.map fun a => { raw := a, exp := expand E f (l.map Prod.fst ++ outer) [] a } } := by
    refine ⟨rfl, rfl, rfl, hfn.nodup, ?_, hfn.last, hfn.names, rfl, rfl, hE.blind, hE.pasted, hE.strung, hraw, ?_⟩
    · intro i hi
      change i < m.params.length at hi
      have h1 : i < raw.length := by omega
      have h2 : i < exp.length := by omega
      rw [List.getElem?_map, List.getElem?_eq_getElem h1]
      show some _ = some _
      congr 1
      have e1 : (callOf E m raw exp omitted).raw i = raw[i] := by
        show (raw[i]?).getD [] = _
        rw [List.getElem?_eq_getElem h1]; rfl
      have e2 : (callOf E m raw exp omitted).exp i = exp[i] := by
        show (exp[i]?).getD [] = _
        rw [List.getElem?_eq_getElem h2]; rfl
      dsimp only
      rw [e1, e2, hexp i _ _ (List.getElem?_eq_getElem h1) (List.getElem?_eq_getElem h2)]
    · intro i x hx
      change x ∈ (exp[i]?).getD [] at hx
      cases hi : exp[i]? with
      | none => rw [hi] at hx; simp at hx
      | some e =>
        rw [hi] at hx
        have hlt : i < raw.length := by rw [← hlen]; exact (List.getElem?_eq_some_iff.1 hi).1
        have hri := List.getElem?_eq_getElem hlt
        refine expand_marks E hE hT f _ _ _ _ ?_ (hexp i _ _ hri hi) x hx
        intro y hy
        exact htext y (hsub _ (List.getElem_mem hlt) y hy)
  have hsubst := subst_eq hctx b hw hp m.body.length (Nat.le_of_eq (by rw [hb]))
  rw [← hb] at hsubst
  have hlook : E.look t = some m := by unfold Env.look; rw [if_pos ht, hm]
  rw [expand]
  unfold expandMacro
  rw [hn, if_neg (by simp), hlook]
  dsimp only
  rw [hl, if_neg (by simp), hfn.plain, if_neg (by simp), hfn.fn, if_neg (by simp)]
  rw [if_pos (show isText lpar (op :: r) = true by show (op.text == lpar) = true; rw [hop]; rfl)]
  rw [show (op :: r).length = r.length + 1 from rfl, show (op :: r).drop 1 = r from rfl, hprep, Run.bind_done]
  dsimp only
  rw [readAs_read _ m hfn _ _ hclose _ _ hread, Run.bind_done]
  dsimp only
  rw [← hsubst, SubstL.bind_assoc, SubstL.bind_assoc]
  refine bind_congr fun x _ => ?_
  rw [Run.bind_done, Run.bind_done]

/-! ### The theorem -/

/-- A function-like macro `t` is invoked: `t ( text ) rest`. The text, with the names marked that are being
replaced, reads as the arguments `raw`, whose expansions are `exp`. If the replacement list of the macro reads as
`b`, and no operand of `##` follows an empty one (`Plain`, which see), then the list goes on with the replacement
that the specification gives, before the rest. -/
theorem C54_substitution (E : Mac.Env) (hE : TokenOps E) (hT : ∀ s m, E.find s = some m → NoMarks m.body) (f : Nat) (outer : List Name) (locks l : Locks)
    (t : PTok) (ht : t.kind = .ident) (hn : t.noExpand = false) (m : Macro) (hm : E.find t.text = some m) (hfn : FnMacro m)
    (text rest : List PTok) (hd : Desc (text.length + rest.length + 2) locks) (hl : t.text ∉ outer ∧ ∀ l ∈ locks, l.1 ≠ t.text)
    (op : PTok) (hop : IsOpen op) (close : PTok) (hclose : IsClose close) (htext : NoMarks text) (hnest : Nested text)
    (hleft : l = locks.filter fun l => decide (l.2 ≤ rest.length))
    (raw exp : List (List PTok)) (omitted : Bool) (hread : ReadAs E.strict m (markedAll E outer locks (rest.length + 1) text) raw omitted)
    (hlen : exp.length = raw.length)
    (hexp : ∀ (i : Nat) (a e : List PTok), raw[i]? = some a → exp[i]? = some e → expand E f (l.map Prod.fst ++ outer) [] a = .done e)
    (b : Body) (hb : m.body = b.toks) (hw : b.WF (callOf E m raw exp omitted)) (hp : b.Plain (callOf E m raw exp omitted) false) :
    expand E (f + 1) outer locks (t :: op :: (text ++ close :: rest)) =
      (b.replacement (callOf E m raw exp omitted) >>= fun x =>
        expand E f outer (popLocks (enter l t x rest).2.length (enter l t x rest).1) (enter l t x rest).2) := by
  have hlk : isLocked outer locks t.text = false := by
    unfold isLocked
    rw [Bool.or_eq_false_iff]
    constructor
    · simpa using hl.1
    · simp
      intro x hx
      exact hl.2 _ hx rfl
  have hd2 : Desc ((text ++ close :: rest).length + 1) locks := by
    rw [show (text ++ close :: rest).length + 1 = text.length + rest.length + 2 by simp; omega]; exact hd
  have hfil := (popLocks_eq hd2).1
  have hprep := C54_collected E outer (popLocks ((text ++ close :: rest).length + 1) locks) text close rest hnest hclose (popLocks_desc hd2)
  rw [hfil, markedAll_filter _ _ _ _ _ _ (by simp; omega), marked_filter _ _ _ _ _ _ (by simp; omega), List.filter_filter] at hprep
  rw [show (fun a : Name × Nat => decide (a.2 ≤ rest.length) && decide (a.2 < (text ++ close :: rest).length + 1)) = fun l => decide (l.2 ≤ rest.length) from by
    funext a
    by_cases ha : a.2 ≤ rest.length
    · have : a.2 < (text ++ close :: rest).length + 1 := by simp; omega
      simp only [ha, this, decide_true, Bool.and_self]
    · simp only [ha, decide_false, Bool.false_and], ← hleft, ← hfil] at hprep
  refine substitution_of_prepared E hE hT f outer locks l t ht hn m hm hfn hlk op hop _ _ _ ?_ rest hprep (markedAll_marks _ _ _ _ _ htext) raw exp omitted hread hlen hexp b hb hw hp
  show (marked E outer locks (rest.length + 1) close).text = _
  unfold marked
  split <;> exact hclose

/-! ### Object-like macros -/

theorem insertObj_tok (E : Mac.Env) (acc : List PTok) (t : PTok) (r : List PTok) (ht : t.text ≠ Mac.hashhash) : insertObj E acc (t :: r) = insertObj E (t :: acc) r := by
  cases r with
  | nil => rw [insertObj.eq_def, insertObj]; dsimp only; rw [if_neg ht]
  | cons u r => rw [insertObj.eq_def]; dsimp only; rw [if_neg ht]

theorem insertObj_joined (E : Mac.Env) (acc r : List PTok) : ∀ (ys : List (PTok × PTok)) (x : PTok), (∀ y ∈ ys, y.1.text = Mac.hashhash) →
    insertObj E (x :: acc) ((ys.flatMap fun y => [y.1, y.2]) ++ r) = (joined E.paste x ys >>= fun z => insertObj E (z :: acc) r)
  | [], x, _ => rfl
  | y :: ys, x, h => by
    rw [List.flatMap_cons, List.append_assoc, List.cons_append, List.cons_append, List.nil_append, insertObj.eq_def]
    dsimp only
    rw [if_pos (h y (by simp)), joined, SubstL.bind_assoc]
    exact SubstL.bind_congr fun z _ => insertObj_joined E acc r ys z (fun y hy => h y (by simp [hy]))

theorem insertObj_eq (E : Mac.Env) : ∀ (gs : List (PTok × List (PTok × PTok))) (acc : List PTok),
    (∀ g ∈ gs, g.1.text ≠ Mac.hashhash ∧ ∀ y ∈ g.2, y.1.text = Mac.hashhash) →
    insertObj E acc (objToks gs) = (objReplacement E.paste gs >>= fun v => .done (acc.reverse ++ v))
  | [], acc, _ => by rw [objToks, insertObj, objReplacement, Run.bind_done, List.append_nil]
  | (x, ys) :: gs, acc, h => by
    have hg := h _ (List.mem_cons_self ..)
    rw [objToks, List.cons_append, insertObj_tok E acc x _ hg.1, insertObj_joined E acc _ ys x hg.2, objReplacement, SubstL.bind_assoc]
    refine SubstL.bind_congr fun z _ => ?_
    rw [insertObj_eq E gs _ (fun g hg => h g (by simp [hg])), SubstL.bind_assoc]
    refine SubstL.bind_congr fun v _ => ?_
    rw [Run.bind_done]
    simp

/-- An object-like macro is replaced by its list in which what stands at both sides of a `##` is concatenated, from
left to right. -/
theorem C54_object_like (E : Mac.Env) (f : Nat) (outer : List Name) (locks : Locks) (t : PTok) (ht : t.kind = .ident) (hn : t.noExpand = false)
    (m : Macro) (hm : E.find t.text = some m) (ho : m.isObj = true) (hh : m.handler = false) (hl : t.text ∉ outer ∧ ∀ l ∈ locks, l.1 ≠ t.text)
    (gs : List (PTok × List (PTok × PTok))) (hb : m.body = objToks gs)
    (hg : ∀ g ∈ gs, g.1.text ≠ SubstSpec.hashhash ∧ ∀ y ∈ g.2, y.1.text = SubstSpec.hashhash) (rest : List PTok) :
    expand E (f + 1) outer locks (t :: rest) =
      (objReplacement E.paste gs >>= fun x =>
        expand E f outer (popLocks (enter locks t x rest).2.length (enter locks t x rest).1) (enter locks t x rest).2) := by
  have hlk : isLocked outer locks t.text = false := by
    unfold isLocked
    rw [Bool.or_eq_false_iff]
    constructor
    · simpa using hl.1
    · simp
      intro x hx
      exact hl.2 _ hx rfl
  have hlook : E.look t = some m := by unfold Env.look; rw [if_pos ht, hm]
  rw [expand]
  unfold expandMacro
  rw [hn, if_neg (by simp), hlook]
  dsimp only
  rw [hlk, if_neg (by simp), hh, if_neg (by simp), ho, if_pos rfl, hb, insertObj_eq E gs [] hg, SubstL.bind_assoc, SubstL.bind_assoc]
  refine SubstL.bind_congr fun x _ => ?_
  rw [Run.bind_done, Run.bind_done]
  rfl

/-! ### A case, and the departures -/

/-- Pasting joins the spellings; `#` yields a string. -/
def substEnv (find : Name → Option Macro) : Mac.Env :=
  { find := find, paste := fun l x => .done { l with kind := .ident, text := l.text ++ x.text },
    str := fun ts => .done { kind := .str, text := ts.flatMap PTok.text, atBol := false, hasSpace := false },
    builtin := fun t => { t with kind := .ppNum, text := [49] }, strict := false }

/-- `#define f(x,y) x ## y`, `#define A f(p,q)`, `#define g(x,y,...) x ## y # x y __VA_OPT__(x) , ## __VA_ARGS__`, `#define h(x,...) x __VA_OPT__(a x ## x)`,
`#define k(x,...) z ## __VA_OPT__(x ## b)` -/
def substFind (s : Name) : Option Macro :=
  if s = [102] then some { isObj := false, params := [[120], [121]], body := [id' [120], pu [35, 35], id' [121]] }
  else if s = [65] then some { isObj := true, body := [id' [102], pu [40], id' [112], pu [44], id' [113], pu [41]] }
  else if s = [103] then some { isObj := false, params := [[120], [121], [118]], vaArg := true, body := [id' [120], pu [35, 35], id' [121], pu [35], id' [120], id' [121],
    id' Mac.vaOpt, pu [40], id' [120], pu [41], pu [44], pu [35, 35], id' [118]] }
  else if s = [107] then some { isObj := false, params := [[120], [118]], vaArg := true, body := [id' [122], pu [35, 35], id' Mac.vaOpt, pu [40], id' [120], pu [35, 35], id' [98], pu [41]] }
  else none

theorem substEnv_ok (find : Name → Option Macro) : TokenOps (substEnv find) := by
  refine ⟨fun _ _ _ _ => rfl, ?_, ?_, ?_⟩
  · intro l x y h; cases h; simp
  · intro l x h; cases h; simp
  · intro t; simp [substEnv]

theorem substFind_marks : ∀ s m, substFind s = some m → NoMarks m.body := by
  intro s m h
  unfold substFind at h
  repeat' split at h
  all_goals first | (cases h; done) | (cases h; unfold NoMarks; decide)

/-- `x ## y # x y __VA_OPT__(x) , ## __VA_ARGS__` -/
def substBody : Body :=
  .chain (.arg (.par (id' [120]) 0)) (.last (pu [35, 35]) (.arg (.par (id' [121]) 1)))
    (.one (.str (pu [35]) (.par (id' [120]) 0)) (.one (.arg (.par (id' [121]) 1))
      (.one (.arg (.opt (id' Mac.vaOpt) (pu [40]) (.one (.arg (.par (id' [120]) 0)) .nil) (pu [41])))
        (.gnu (pu [44]) (pu [35, 35]) (id' [118]) .nil))))

/-- The call `g ( A , p , r s )`. -/
def substCall : SubstSpec.Call :=
  callOf (substEnv substFind) ((substFind [103]).getD { isObj := true }) [[id' [65]], [id' [112]], [id' [114], id' [115]]]
    [[id' [112, 113]], [id' [112]], [id' [114], id' [115]]] false

/-- All hypotheses of the theorem hold for this call; its right side is the replacement `Ap "A" p pq , r s`. -/
example : expand (substEnv substFind) 20 [] [] [id' [103], pu [40], id' [65], pu [44], id' [112], pu [44], id' [114], id' [115], pu [41], pu [59]] =
    .done [id' [65, 112], { kind := .str, text := [65], atBol := false, hasSpace := true }, id' [112], id' [112, 113], pu [44], id' [114], id' [115], pu [59]] := by
  have := C54_substitution (substEnv substFind) (substEnv_ok _) substFind_marks 19 [] [] [] (id' [103]) rfl rfl
    ((substFind [103]).getD { isObj := true }) rfl ⟨rfl, rfl, by decide, by decide, by decide⟩
    [id' [65], pu [44], id' [112], pu [44], id' [114], id' [115]] [pu [59]] trivial (by simp) (pu [40]) rfl (pu [41]) rfl (by unfold NoMarks; decide)
    (by repeat (first | exact .nil | refine .tok _ _ (by unfold IsOpen; decide) (by unfold IsClose; decide) ?_)) rfl
    [[id' [65]], [id' [112]], [id' [114], id' [115]]] [[id' [112, 113]], [id' [112]], [id' [114], id' [115]]] false
    ⟨false, ⟨[[id' [65]], [id' [112]]], [id' [114], id' [115]], rfl, rfl, by
      intro a ha
      simp at ha
      rcases ha with rfl | rfl <;> exact .tok _ _ (by unfold IsOpen; decide) (by unfold IsClose; decide) (by unfold IsComma; decide) .nil, by
      repeat (first | exact .nil | refine .tok _ _ (by unfold IsOpen; decide) (by unfold IsClose; decide) ?_),
      .more [id' [65]] (pu [44]) _ _ rfl (.more [id' [112]] (pu [44]) _ _ rfl (.one _))⟩, rfl⟩ rfl
    (by
      intro i a e h1 h2
      match i, h1, h2 with
      | 0, h1, h2 => cases h1; cases h2; rfl
      | 1, h1, h2 => cases h1; cases h2; rfl
      | 2, h1, h2 => cases h1; cases h2; rfl)
    substBody rfl
    (by
      unfold substBody
      simp only [Body.WF, Chain.WF, Op.WF, Ref.WF, IsPar]
      refine ⟨⟨rfl, rfl⟩, fun h => h, ⟨rfl, ⟨rfl, rfl⟩, fun h => h⟩, ⟨rfl, rfl, rfl⟩, ⟨rfl, rfl⟩, ⟨rfl, rfl, rfl, rfl, ?_, ⟨rfl, rfl⟩, trivial⟩, rfl, rfl, rfl, ⟨rfl, rfl⟩, trivial⟩
      exact .tok _ _ (by unfold IsOpen; decide) (by unfold IsClose; decide) .nil)
    (by
      unfold substBody
      simp only [Body.Plain, Chain.Plain, Op.Plain, Ref.Plain]
      exact ⟨trivial, ⟨trivial, (fun h => by cases h), .inl rfl⟩, trivial, trivial, ⟨trivial, trivial⟩, trivial⟩)
  rw [show ([id' [103], pu [40], id' [65], pu [44], id' [112], pu [44], id' [114], id' [115], pu [41], pu [59]] : List PTok) =
    id' [103] :: pu [40] :: ([id' [65], pu [44], id' [112], pu [44], id' [114], id' [115]] ++ pu [41] :: [pu [59]]) from rfl, this]
  rfl

/-- With `#define f(x,y) x ## y` and `#define A f(p,q)`, the second operand in `f(,A)` is an operand of `##` and must not be
expanded before the replacement: the result is `A`, which yields `f(p,q)` when it is rescanned, as `f` is being
replaced. The code expands the argument since nothing stands before the `##`, and the result is `pq`. -/
theorem C54_after_empty_operand :
    let b : Body := .chain (.arg (.par (id' [120]) 0)) (.last (pu [35, 35]) (.arg (.par (id' [121]) 1))) .nil
    let call := [id' [102], pu [40], pu [44], id' [65], pu [41]]
    b.toks = ((substFind [102]).getD { isObj := true }).body ∧
    b.replacement (callOf (substEnv substFind) ((substFind [102]).getD { isObj := true }) [[], [id' [65]]] [[], [id' [112, 113]]] false) = .done [id' [65]] ∧
    (∀ x, x = [id' [65]] → expand (substEnv substFind) 20 [] (enter [] (id' [102]) x []).1 (enter [] (id' [102]) x []).2 =
      .done [{ id' [102] with noExpand := true }, pu [40], id' [112], pu [44], id' [113], pu [41]]) ∧
    expand (substEnv substFind) 20 [] [] call = .done [id' [112, 113]] :=
  ⟨rfl, rfl, fun x hx => by rw [hx]; rfl, rfl⟩

/-- With `#define k(x,...) z ## __VA_OPT__(x ## b)`, the call `k(,1)` must yield `zb`, since the empty operand disappears
inside the `__VA_OPT__`; the code keeps it there, and the result is `z b`. -/
theorem C54_empty_operand_in_va_opt :
    let b : Body := .chain (.tok (id' [122])) (.last (pu [35, 35]) (.arg (.opt (id' Mac.vaOpt) (pu [40])
      (.chain (.arg (.par (id' [120]) 0)) (.last (pu [35, 35]) (.tok (id' [98]))) .nil) (pu [41])))) .nil
    let call := [id' [107], pu [40], pu [44], id' [49], pu [41]]
    b.toks = ((substFind [107]).getD { isObj := true }).body ∧
    b.replacement (callOf (substEnv substFind) ((substFind [107]).getD { isObj := true }) [[], [id' [49]]] [[], [id' [49]]] false) = .done [id' [122, 98]] ∧
    expand (substEnv substFind) 20 [] [] call = .done [id' [122], id' [98]] := ⟨rfl, rfl, rfl⟩

/-- `a ## b ## c` in an object-like macro. -/
example : objReplacement (substEnv substFind).paste [(id' [97], [(pu [35, 35], id' [98]), (pu [35, 35], id' [99])]), (pu [59], [])] =
    .done [id' [97, 98, 99], pu [59]] := rfl

end Slimcc.Props
