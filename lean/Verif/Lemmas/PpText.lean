import Verif.Lemmas.PpMono
set_option autoImplicit false
/-!
A run of ordinary tokens in front of a directive is expanded as if it stood alone.
-/
namespace Slimcc.PpL
open Slimcc Slimcc.PP Slimcc.Mac Slimcc.MacL Slimcc.Pp

def shift (k : Nat) (l : Locks) : Locks := l.map fun x => (x.1, x.2 + k)

theorem shift_names (k : Nat) (l : Locks) : (shift k l).map Prod.fst = l.map Prod.fst := by
  unfold shift; rw [List.map_map]; rfl

theorem shift_pop (k n : Nat) : ∀ l : Locks, popLocks (n + k) (shift k l) = shift k (popLocks n l)
  | [] => rfl
  | x :: l => by
    show (if x.2 + k = n + k then popLocks (n + k) (shift k l) else _) = _
    rw [popLocks]
    by_cases h : x.2 = n
    · rw [if_pos (by omega), if_pos h]; exact shift_pop k n l
    · rw [if_neg (by omega), if_neg h]; rfl

theorem shift_empty (k : Nat) (l : Locks) : (shift k l).isEmpty = l.isEmpty := by cases l <;> rfl

theorem isLocked_shift (outer : List Name) (k : Nat) (l : Locks) (s : Name) : isLocked outer (shift k l) s = isLocked outer l s := by
  unfold isLocked; rw [shift_names]

theorem paint_shift (E : Mac.Env) (outer : List Name) (k : Nat) (l : Locks) (t : PTok) : paint E outer (shift k l) t = paint E outer l t := by
  unfold paint; rw [isLocked_shift]

theorem prepare_frame (E : Mac.Env) (outer : List Name) (rest : List PTok) : ∀ (ts : List PTok) (lvl : Nat) (locks l : Locks) (as r : List PTok),
    prepare E outer lvl locks ts = .done (as, r, l) → prepare E outer lvl (shift rest.length locks) (ts ++ rest) = .done (as, r ++ rest, shift rest.length l)
  | [], lvl, locks, l, as, r, h => by rw [prepare] at h; cases h
  | t :: ts, lvl, locks, l, as, r, h => by
    rw [prepare] at h
    rw [List.cons_append, prepare]
    dsimp only at h ⊢
    have e : (ts ++ rest).length + 1 = (ts.length + 1) + rest.length := by simp; omega
    rw [e, shift_pop, paint_shift]
    by_cases hc : lvl = 0 ∧ t.text = rpar
    · rw [if_pos hc] at h ⊢
      cases h; rfl
    · rw [if_neg hc] at h ⊢
      obtain ⟨⟨as2, r2, l2⟩, h1, h2⟩ := (bind_done_iff _ _ _).1 h
      obtain ⟨rfl, rfl, rfl⟩ : as = paint E outer (popLocks (ts.length + 1) locks) t :: as2 ∧ r = r2 ∧ l = l2 := by cases h2; exact ⟨rfl, rfl, rfl⟩
      rw [prepare_frame E outer rest ts _ _ _ _ _ h1]
      rfl

/-- The same list but for the white space before its first token. -/
inductive SameHead : List PTok → List PTok → Prop where
  | refl (a : List PTok) : SameHead a a
  | head (h h' : PTok) (r : List PTok) : h'.text = h.text → h'.kind = h.kind → h'.noExpand = h.noExpand → (h.atBol = true → h'.atBol = true) → SameHead (h :: r) (h' :: r)

theorem SameHead.trans {a b c : List PTok} (h1 : SameHead a b) (h2 : SameHead b c) : SameHead a c := by
  cases h1 with
  | refl => exact h2
  | head h h' r e1 e2 e3 e4 =>
    cases h2 with
    | refl => exact .head h h' r e1 e2 e3 e4
    | head _ h'' _ g1 g2 g3 g4 => exact .head h h'' r (g1.trans e1) (g2.trans e2) (g3.trans e3) (fun x => g4 (e4 x))

theorem SameHead.len {a b : List PTok} (h : SameHead a b) : b.length = a.length := by cases h <;> rfl
theorem SameHead.isText {a b : List PTok} (h : SameHead a b) (s : Name) : Mac.isText s b = Mac.isText s a := by
  cases h with
  | refl => rfl
  | head h h' r e1 _ _ _ => unfold Mac.isText; dsimp only; rw [e1]

theorem sameHead_orFlags (a : List PTok) (t : PTok) : SameHead a (orFlags a t) := by
  cases a with
  | nil => exact .refl _
  | cons h r => exact .head _ _ _ rfl rfl rfl (fun x => by simp [x])

theorem enter_frame (l : Locks) (t : PTok) (b r rest : List PTok) : ∃ rest', SameHead rest rest' ∧
    enter (shift rest.length l) t b (r ++ rest) = (shift rest.length (enter l t b r).1, (enter l t b r).2 ++ rest') := by
  unfold enter
  by_cases hb : b.isEmpty = true
  · rw [if_pos hb, if_pos hb]
    cases r with
    | nil => exact ⟨orFlags rest t, sameHead_orFlags _ _, rfl⟩
    | cons x r => exact ⟨rest, .refl _, rfl⟩
  · rw [if_neg hb, if_neg hb]
    refine ⟨rest, .refl _, ?_⟩
    simp [shift]

def frameRes (k : Nat) (rest' : List PTok) : PTok ⊕ (Locks × List PTok) → PTok ⊕ (Locks × List PTok)
  | .inl t' => .inl t'
  | .inr x => .inr (shift k x.1, x.2 ++ rest')

theorem expandMacro_frame (E : Mac.Env) (exp : List Name → List PTok → Run (List PTok)) (L : Locks) (t : PTok) (r rest : List PTok) (s : PTok ⊕ (Locks × List PTok))
    (hp : isText lpar rest = false) (h : expandMacro E exp [] L t r = .done s) :
    ∃ rest', SameHead rest rest' ∧ expandMacro E exp [] (shift rest.length L) t (r ++ rest) =
      .done (frameRes rest.length rest' s) ∧ (∀ t', s = .inl t' → rest' = rest) := by
  unfold expandMacro at h ⊢
  by_cases c1 : t.noExpand = true
  · rw [if_pos c1] at h ⊢; cases h; exact ⟨rest, .refl _, rfl, fun _ _ => rfl⟩
  rw [if_neg c1] at h ⊢
  cases hm : E.look t with
  | none => rw [hm] at h; cases h; exact ⟨rest, .refl _, rfl, fun _ _ => rfl⟩
  | some m =>
    rw [hm] at h
    dsimp only at h ⊢
    rw [isLocked_shift]
    by_cases c2 : isLocked [] L t.text = true
    · rw [if_pos c2] at h ⊢; cases h; exact ⟨rest, .refl _, rfl, fun _ _ => rfl⟩
    rw [if_neg c2] at h ⊢
    by_cases c3 : m.handler = true
    · rw [if_pos c3] at h ⊢; cases h; exact ⟨rest, .refl _, rfl, fun _ hh => by cases hh⟩
    rw [if_neg c3] at h ⊢
    by_cases c4 : m.isObj = true
    · rw [if_pos c4] at h ⊢
      obtain ⟨b, h1, h2⟩ := (bind_done_iff _ _ _).1 h
      cases h2
      obtain ⟨rest', g1, g2⟩ := enter_frame L t b r rest
      refine ⟨rest', g1, ?_, fun _ hh => by cases hh⟩
      rw [h1, Run.bind_done, g2]
      rfl
    rw [if_neg c4] at h ⊢
    by_cases c5 : isText lpar r = true
    · rw [if_pos c5] at h
      obtain ⟨p, r1, rfl, hp1⟩ := isText_cons c5
      rw [if_pos (by exact c5)]
      obtain ⟨⟨as, r2, l⟩, h1, h2⟩ := (bind_done_iff _ _ _).1 h
      obtain ⟨⟨args, o, tl⟩, h3, h4⟩ := (bind_done_iff _ _ _).1 h2
      obtain ⟨b, h5, h6⟩ := (bind_done_iff _ _ _).1 h4
      cases h6
      obtain ⟨rest', g1, g2⟩ := enter_frame l t (b.filter fun t => t.kind ≠ .pmark) r2 rest
      refine ⟨rest', g1, ?_, fun _ hh => by cases hh⟩
      have e : ((p :: r1) ++ rest).length = (p :: r1).length + rest.length := by simp; omega
      rw [e, shift_pop]
      have e2 : ((p :: r1) ++ rest).drop 1 = r1 ++ rest := rfl
      rw [e2, prepare_frame E [] rest r1 0 _ _ _ _ h1, Run.bind_done]
      dsimp only
      rw [h3, Run.bind_done]
      dsimp only
      dsimp only at h5
      rw [shift_names, h5, Run.bind_done, g2]
      rfl
    · rw [if_neg c5] at h
      cases h
      have : isText lpar (r ++ rest) = false := by
        cases r with
        | nil => exact hp
        | cons x r =>
          have : isText lpar (x :: r) = false := by simpa using c5
          exact this
      rw [if_neg (by rw [this]; simp)]
      exact ⟨rest, .refl _, rfl, fun _ _ => rfl⟩

/-- Every `#` stands inside an expansion. -/
def NH (locks : Locks) (toks : List PTok) : Prop := ∀ (pre : List PTok) (t : PTok) (post : List PTok), toks = pre ++ t :: post → t.text = Mac.hash → ∃ l ∈ locks, l.2 ≤ post.length

theorem NH.tail {locks : Locks} {t : PTok} {r : List PTok} (h : NH locks (t :: r)) : NH locks r :=
  fun pre x post e hx => h (t :: pre) x post (by rw [e]; rfl) hx

theorem NH.suffix {locks : Locks} {pre r : List PTok} (h : NH locks (pre ++ r)) : NH locks r :=
  fun p x post e hx => h (pre ++ p) x post (by rw [e, List.append_assoc]) hx

theorem NH.pop {locks : Locks} {toks : List PTok} (h : NH locks toks) (hd : Desc toks.length locks) : NH (popLocks toks.length locks) toks := by
  intro pre t post e ht
  obtain ⟨l, hl, hle⟩ := h pre t post e ht
  refine ⟨l, ?_, hle⟩
  rw [(popLocks_eq hd).1]
  refine List.mem_filter.2 ⟨hl, ?_⟩
  have : toks.length = pre.length + (post.length + 1) := by rw [e]; simp
  simp; omega

theorem NH.entered {l : Locks} {t : PTok} {b r : List PTok} (h : NH l r) : NH (enter l t b r).1 (enter l t b r).2 := by
  unfold Mac.enter
  split
  · intro pre x post e hx
    cases r with
    | nil => cases pre <;> cases e
    | cons y r =>
      cases pre with
      | nil =>
        cases e
        exact h [] y post rfl hx
      | cons z pre =>
        cases e
        exact h (y :: pre) x post rfl hx
  · intro pre x post e hx
    dsimp only at e ⊢
    by_cases hlen : r.length ≤ post.length
    · exact ⟨_, List.mem_cons_self .., hlen⟩
    · have : ∃ p2, r = p2 ++ x :: post := by
        rcases List.append_eq_append_iff.1 e with ⟨a', e1, e2⟩ | ⟨c', e1, e2⟩
        · exact ⟨a', e2⟩
        · cases c' with
          | nil => exact ⟨[], by simpa using e2.symm⟩
          | cons y ys =>
            exfalso
            have := congrArg List.length e2
            simp at this
            omega
      obtain ⟨p2, e2⟩ := this
      obtain ⟨l', hl', hle⟩ := h p2 x post e2 hx
      exact ⟨l', List.mem_cons_of_mem _ hl', hle⟩

theorem NH.repl {E : Mac.Env} (hb : ∀ t, (E.builtin t).text ≠ Mac.hash) {exp : List Name → List PTok → Run (List PTok)} {L : Locks} {t : PTok} {r : List PTok} {m : Macro}
    {s : Locks × List PTok} (hva : m.vaArg = true → m.params ≠ []) (h : NH L (t :: r)) (hd : Desc r.length L) (hr : Repl E exp [] L t r m s) : NH s.1 s.2 ∧ Desc s.2.length s.1 := by
  have hent : ∀ (l : Locks) (b rest : List PTok), Desc rest.length l → Desc (enter l t b rest).2.length (enter l t b rest).1 := by
    intro l b rest h
    unfold enter
    split
    · dsimp only; rw [orFlags_length]; exact h
    · exact ⟨by simp, h⟩
  cases hr with
  | builtin _ =>
    refine ⟨?_, ?_⟩
    · intro pre x post e hx
      cases pre with
      | nil =>
        cases e
        exact absurd hx (hb t)
      | cons y pre =>
        cases e
        exact h (t :: pre) x post rfl hx
    · cases L with
      | nil => trivial
      | cons x xs => exact ⟨by have := hd.1; simp; omega, hd.2⟩
  | obj b _ _ _ => exact ⟨h.tail.entered, hent _ _ _ hd⟩
  | fn c b _ _ _ =>
    obtain ⟨l1, l2, l3⟩ := c.locks_eq hd
    refine ⟨NH.entered ?_, hent _ _ _ l3⟩
    obtain ⟨text, q, er, _⟩ := c.facts hva
    intro pre x post e hx
    have e' : r = (c.p :: (text ++ [q]) ++ pre) ++ x :: post := by
      refine er.trans ?_
      have : c.p :: (text ++ q :: c.rest) = c.p :: (text ++ q :: (pre ++ x :: post)) := congrArg (fun z => c.p :: (text ++ q :: z)) e
      rw [this]; simp
    obtain ⟨l', hl', hle⟩ := h.tail _ x post e' hx
    refine ⟨l', ?_, hle⟩
    rw [l2]
    refine List.mem_filter.2 ⟨hl', ?_⟩
    have : c.rest.length = pre.length + (post.length + 1) := by rw [e]; simp
    simp; omega

/-- The table is as `#define` makes it. -/
structure TbOk (E : PEnv) (tb : Macros) : Prop where
  builtin : ∀ t, (E.builtin t).text ≠ Mac.hash
  va : ∀ s m, tb s = some m → m.vaArg = true → m.params ≠ []

theorem text_run (E : PEnv) (st : St) (hE : TbOk E st.macros.get) : ∀ (f : Nat) (locks : Locks) (toks out : List PTok) (files : Files) (rest : List PTok) (x : Run (List PTok × St)),
    expand (E.mac st.macros.get) f [] (popLocks toks.length locks) toks = .done out → Desc toks.length locks → NH locks toks → isText lpar rest = false →
    (∀ rest', SameHead rest rest' → PpR E st [] files rest' x) →
    PpR E st (shift rest.length (popLocks toks.length locks)) files (toks ++ rest) (pre out x)
  | 0, locks, toks, out, files, rest, x, h, _, _, _, _ => by rw [expand] at h; cases h
  | f + 1, locks, [], out, files, rest, x, h, hd, _, _, hk => by
    have : popLocks ([] : List PTok).length locks = [] := popLocks_zero hd
    rw [this] at h ⊢
    rw [expand] at h
    cases h
    rw [pre_nil]; exact hk rest (.refl _)
  | f + 1, locks, t :: r, out, files, rest, x, h, hd, hn, hp, hk => by
    have hd1 : Desc r.length (popLocks (t :: r).length locks) := popLocks_desc hd
    have hn1 := hn.pop hd
    generalize popLocks (t :: r).length locks = L at hd1 h hn1
    rw [expand] at h
    obtain ⟨s, h1, h2⟩ := (bind_done_iff _ _ _).1 h
    obtain ⟨rest', g1, g2, g3⟩ := expandMacro_frame _ _ L t r rest s hp h1
    -- the files that are dropped
    have hfiles : ∀ rest'', SameHead rest rest'' → PpR E st [] (if (shift rest.length L).isEmpty then popFiles ((r ++ rest).length + 1) files else files) rest'' x := by
      intro rest'' hs
      refine PpR.files ?_ (hk rest'' hs)
      split
      · rw [popFiles_idem _ _ _ (by rw [hs.len]; simp; omega)]
      · rfl
    generalize hF : (if (shift rest.length L).isEmpty then popFiles ((r ++ rest).length + 1) files else files) = F at hfiles
    -- what has to be shown
    have go : ∀ (y : Run (List PTok × St)) (g : Nat), f ≤ g →
        (y = match s with
          | .inl t' => (do let (o, s2) ← pp E g st (popLocks (r ++ rest).length (shift rest.length L)) F (r ++ rest); .done (t' :: o, s2))
          | .inr (l, ts) => pp E g st (popLocks (ts ++ rest').length (shift rest.length l)) F (ts ++ rest')) →
        (∀ t', s = .inl t' → (isHash t' && (shift rest.length L).isEmpty) = false) →
        pp E (g + 1) st (shift rest.length L) files (t :: r ++ rest) = y := by
      intro y g hg hx hne
      obtain ⟨k, rfl⟩ := Nat.le.dest hg
      rw [List.cons_append, pp]
      dsimp only
      rw [hF]
      have e : expandMacro (E.mac st.macros.get) (fun o ts => expand (E.mac st.macros.get) (f + k) o [] ts) [] (shift rest.length L) t (r ++ rest) = _ :=
        ((expandMacro_mono _ (fun o a => expand_mono _ f o [] a k) [] (shift rest.length L) t (r ++ rest)).eq (ne_more g2)).symm.trans g2
      rw [e, Run.bind_done, hx]
      cases s with
      | inl t' =>
        dsimp only [frameRes]
        rw [hne t' rfl]
        rfl
      | inr s => rfl
    cases s with
    | inl t' =>
      dsimp only at h2
      obtain ⟨o1, h3, h4⟩ := (bind_done_iff _ _ _).1 h2
      cases h4
      have ih := text_run E st hE f L r o1 F rest x h3 hd1 hn1.tail hp hfiles
      obtain ⟨hne, g, ih⟩ := ih
      have ih2 := PpR.at hne ih f
      refine ⟨by rw [← pre_cons]; cases x <;> first | exact hne | (intro h; cases h), g + f + 1, go _ (g + f) (Nat.le_add_left _ _) ?_ ?_⟩
      · dsimp only
        rw [List.length_append, shift_pop, ih2]
        exact (pre_cons _ _ _).symm
      · intro t'' et
        cases et
        rw [shift_empty]
        cases hh : isHash t' with
        | false => rfl
        | true =>
          have ht : t'.text = Mac.hash := by unfold isHash at hh; simp at hh; exact hh.2
          have ht2 : t.text = Mac.hash := by
            rcases expandMacro_inl _ _ _ _ _ _ _ h1 with ⟨e, _⟩ | ⟨e, _⟩
            · rw [e] at ht; exact ht
            · rw [← e]; exact ht
          obtain ⟨l, hl, _⟩ := hn1 [] t r rfl ht2
          cases L with
          | nil => simp at hl
          | cons _ _ => rfl
    | inr s =>
      obtain ⟨l, ts⟩ := s
      dsimp only at h2
      obtain ⟨_, m, hm, _, hrep⟩ := expandMacro_inr _ _ _ _ _ _ _ h1
      obtain ⟨hk2, hf2⟩ := look_find hm
      obtain ⟨hn3, hd3⟩ := NH.repl (E := E.mac st.macros.get) hE.builtin (hE.va _ _ hf2) hn1 hd1 hrep
      have hfiles' : ∀ rest'', SameHead rest' rest'' → PpR E st [] F rest'' x := fun r'' hs => hfiles r'' (g1.trans hs)
      have ih := text_run E st hE f l ts out F rest' x h2 hd3 hn3 (by rw [g1.isText]; exact hp) hfiles'
      obtain ⟨hne, g, ih⟩ := ih
      have ih2 := PpR.at hne ih f
      refine ⟨hne, g + f + 1, go _ (g + f) (Nat.le_add_left _ _) ?_ (fun _ e => by cases e)⟩
      dsimp only
      rw [List.length_append, ← g1.len, shift_pop, ih2]

/-- Tokens without a `#` in front of a directive, or at the end. -/
theorem text_then (E : PEnv) (st : St) (hE : TbOk E st.macros.get) (toks out : List PTok) (files : Files) (rest : List PTok) (x : Run (List PTok × St))
    (h : ∃ f, expand (E.mac st.macros.get) f [] [] toks = .done out) (hn : ∀ t ∈ toks, t.text ≠ Mac.hash) (hr : rest = [] ∨ ∃ h r, rest = h :: r ∧ isHash h = true ∧ h.kind ≠ .ident)
    (hk : PpR E st [] files rest x) : PpR E st [] files (toks ++ rest) (pre out x) := by
  obtain ⟨f, h⟩ := h
  refine text_run E st hE f [] toks out files rest x h trivial ?_ ?_ ?_
  · intro pre t post e ht
    exact absurd ht (hn t (by rw [e]; simp))
  · rcases hr with rfl | ⟨x, r, rfl, hx, _⟩
    · rfl
    · unfold isHash at hx
      simp at hx
      show (x.text == lpar) = false
      rw [hx.2]; rfl
  · intro rest' hs
    cases hs with
    | refl => exact hk
    | head x x' r e1 e2 e3 e4 =>
      rcases hr with h | ⟨x2, r2, e, hx, hki⟩
      · cases h
      · cases e
        have hx' : isHash x' = true := by
          unfold isHash at hx ⊢
          simp at hx
          rw [e1, e4 hx.1, hx.2]; rfl
        obtain ⟨hne, g, hk⟩ := hk
        refine ⟨hne, g, ?_⟩
        rw [← hk]
        cases g with
        | zero => rfl
        | succ g =>
          rw [pp, pp]
          dsimp only
          have hxx : ∀ (y : PTok) (ex : List Name → List PTok → Run (List PTok)), y.kind ≠ .ident → expandMacro (E.mac st.macros.get) ex [] [] y r = .done (.inl y) := by
            intro y ex hy
            unfold expandMacro
            split
            · rfl
            · have : (E.mac st.macros.get).look y = none := by unfold Mac.Env.look; rw [if_neg hy]
              rw [this]
          rw [hxx x _ hki, hxx x' _ (by rw [e2]; exact hki)]
          rw [Run.bind_done, Run.bind_done]
          dsimp only
          rw [hx, hx']
          rfl

end Slimcc.PpL
