import Verif.Lemmas.PpSem
set_option autoImplicit false
/-!
The preprocessor computes the meaning of the tree.
-/
namespace Slimcc.PpL
open Slimcc Slimcc.PP Slimcc.Mac Slimcc.MacL Slimcc.Pp Slimcc.Spec

theorem Goes.then {E : PEnv} {tree : Path → Option Items} {files : Files} {st : St} {cs cs' : List Cond} {a b rest o o2 : List PTok} {s1 s2 : PpState}
    (h1 : Goes E tree files st cs a (b ++ rest) o s1) (h2 : ∀ st', Ok tree s1 st' → st'.conds = cs → Goes E tree files st' cs' b rest o2 s2) :
    Goes E tree files st cs' (a ++ b) rest (o ++ o2) s2 := by
  obtain ⟨st1, k1, c1, g1⟩ := h1
  obtain ⟨st2, k2, c2, g2⟩ := h2 st1 k1 c1
  refine ⟨st2, k2, c2, fun x hx => ?_⟩
  rw [List.append_assoc, ← pre_pre]
  exact g1 _ (g2 x hx)

theorem Goes.nil {E : PEnv} {tree : Path → Option Items} {files : Files} {st : St} {s : PpState} {rest : List PTok} (h : Ok tree s st) :
    Goes E tree files st st.conds [] rest [] s :=
  ⟨st, h, rfl, fun x hx => by rw [pre_nil]; exact hx⟩

theorem toks_length (l : Line) : l.toks.length = l.args.length + 2 := by unfold Line.toks; simp

/-- The last line of a group. -/
theorem endif_goes {E : PEnv} {tree : Path → Option Items} {s : PpState} {st : St} (hok : Ok tree s st) {l : Line} (hw : l.WF) (hk : l.Is ["endif"])
    {c : Cond} {cs : List Cond} (hc : st.conds = c :: cs) (f : FileE) (fs : Files) (rest : List PTok) (hR : Bol rest) (hs : f.stop ≤ rest.length)
    (hg : ∀ q nm, c.guard = some (q, nm) → l.args.length + rest.length = f.stop → IsGuarded tree q nm) :
    Goes E tree (f :: fs) st cs l.toks rest [] s := by
  obtain ⟨st', k, e, fu, hd⟩ := endif_step (E := E) hok hw hk hc f fs (l.toks.length + rest.length) rest hR hg
  refine ⟨st', k, e, fun x hx => ?_⟩
  rw [pre_nil]
  exact line_step hw hs ⟨fu, hd⟩ hx

/-- The rest of a group one branch of which has been taken. -/
theorem finish_alts {E : PEnv} {tree : Path → Option Items} {s : PpState} (f : FileE) (fs : Files) (rest : List PTok) (hR : Bol rest) (hs : f.stop ≤ rest.length) (cs : List Cond) :
    ∀ (alts : Alts) (st : St) (c : Cond), Ok tree s st → alts.WF → st.conds = c :: cs → c.isElse = false → c.beenActive = true →
      (∀ q nm, c.guard = some (q, nm) → ∀ l, alts = .endif l → l.args.length + rest.length = f.stop → IsGuarded tree q nm) →
      Goes E tree (f :: fs) st cs alts.flat rest [] s
  | .endif l, st, c, hok, hw, hc, h1, h2, hg => by
    rw [Alts.WF] at hw
    exact endif_goes hok hw.1 hw.2 hc f fs rest hR hs (fun q nm h e => hg q nm h l rfl e)
  | .elif l body alts, st, c, hok, hw, hc, h1, h2, hg => by
    rw [Alts.WF] at hw
    obtain ⟨fu, hd⟩ := elif_done (E := E) (st := st) hw.1 hw.2.1 hc h1 h2 (f :: fs) (l.toks.length + (body.flat ++ (alts.flat ++ rest)).length) (body.flat ++ (alts.flat ++ rest))
    rw [skip_items body 0 _ hw.2.2.1 (alts_hashNil hw.2.2.2), skip_at_alts _ _ hw.2.2.2] at hd
    obtain ⟨st', k, e, hg'⟩ := finish_alts f fs rest hR hs cs alts { st with conds := { c with guard := none } :: cs } { c with guard := none } (hok.conds _) hw.2.2.2 rfl h1 h2
      (fun _ _ h => by cases h)
    refine ⟨st', k, e, fun x hx => ?_⟩
    rw [Alts.flat, List.append_assoc, List.append_assoc]
    exact line_step hw.1 (by simp; omega) ⟨fu, hd⟩ (hg' x hx)
  | .els l body last, st, c, hok, hw, hc, h1, h2, hg => by
    rw [Alts.WF] at hw
    obtain ⟨fu, hd⟩ := else_step (E := E) (st := st) hw.1 hw.2.1 hc h1 (f :: fs) (l.toks.length + (body.flat ++ (last.toks ++ rest)).length) (body.flat ++ (last.toks ++ rest))
      (by
        cases hb : body with
        | nil => exact (line_hashNil hw.2.2.2.1 _).bol
        | text ts r =>
          have := hw.2.2.1
          rw [hb, Items.WF] at this
          obtain ⟨t, u, rfl, ht⟩ := this.1
          intro x hx
          cases hx
          exact ht
        | _ =>
          have := hw.2.2.1
          rw [hb] at this
          exact (items_hashNil this rfl (line_hashNil hw.2.2.2.1 _)).bol)
    rw [if_pos h2, skip_items body 0 _ hw.2.2.1 (line_hashNil hw.2.2.2.1 _), skip_stop hw.2.2.2.1 (.inr (.inr hw.2.2.2.2))] at hd
    obtain ⟨st', k, e, hg'⟩ := endif_goes (E := E) (hok.conds ({ c with guard := none, isElse := true } :: cs)) hw.2.2.2.1 hw.2.2.2.2 rfl f fs rest hR hs (fun _ _ h => by cases h)
    refine ⟨st', k, e, fun x hx => ?_⟩
    rw [Alts.flat, List.append_assoc, List.append_assoc]
    exact line_step hw.1 (by simp; omega) ⟨fu, hd⟩ (hg' x hx)

theorem items_bol {r : Items} {rest : List PTok} (hw : r.WF) (hr : Bol rest) : Bol (r.flat ++ rest) := by
  cases r with
  | nil => exact hr
  | text ts r =>
    rw [Items.WF] at hw
    obtain ⟨t, u, rfl, ht⟩ := hw.1
    intro x hx
    cases hx
    exact ht
  | dir l r => rw [Items.WF] at hw; rw [Items.flat, List.append_assoc]; exact (line_hashNil hw.1 _).bol
  | null h r => rw [Items.WF] at hw; intro x hx; cases hx; exact hw.1.1
  | group l body alts r => rw [Items.WF] at hw; rw [Items.flat, List.append_assoc]; exact (line_hashNil hw.1 _).bol

theorem flat_nil {r : Items} (hw : r.WF) (h : r.flat = []) : r = .nil := by
  cases r with
  | nil => rfl
  | text ts r =>
    rw [Items.WF] at hw
    obtain ⟨t, u, rfl, ht⟩ := hw.1
    cases h
  | dir l r => cases h
  | null x r => cases h
  | group l body alts r => cases h

/-- What may follow the lines. -/
def Tail (items : Items) (rest : List PTok) : Prop := Bol rest ∧ (items.sealed = true ∨ HashNil rest)

theorem Tail.of_hash {items : Items} {rest : List PTok} (h : HashNil rest) : Tail items rest := ⟨h.bol, .inr h⟩

theorem sealed_text {ts : List PTok} {r : Items} (h : (Items.text ts r).sealed = true) : r ≠ .nil ∧ r.sealed = true := by
  cases r <;> first | (simp only [Items.sealed] at h; cases h) | exact ⟨(by intro h; cases h), by simpa only [Items.sealed] using h⟩
theorem sealed_null {t : PTok} {r : Items} (h : (Items.null t r).sealed = true) : r ≠ .nil ∧ r.sealed = true := by
  cases r <;> first | (simp only [Items.sealed] at h; cases h) | exact ⟨(by intro h; cases h), by simpa only [Items.sealed] using h⟩
theorem sealed_dir {l : Line} {r : Items} (h : (Items.dir l r).sealed = true) : r.sealed = true := by
  cases r <;> first | rfl | simpa only [Items.sealed] using h
theorem sealed_group {l : Line} {b : Items} {a : Alts} {r : Items} (h : (Items.group l b a r).sealed = true) : r.sealed = true := by
  cases r <;> first | rfl | simpa only [Items.sealed] using h

theorem Tail.text {ts : List PTok} {r : Items} {rest : List PTok} (h : Tail (.text ts r) rest) : Tail r rest ∧ (r = .nil → HashNil rest) :=
  ⟨⟨h.1, h.2.imp (fun h => (sealed_text h).2) id⟩, fun e => h.2.elim (fun h => absurd e (sealed_text h).1) id⟩
theorem Tail.null {t : PTok} {r : Items} {rest : List PTok} (h : Tail (.null t r) rest) : Tail r rest ∧ (r = .nil → HashNil rest) :=
  ⟨⟨h.1, h.2.imp (fun h => (sealed_null h).2) id⟩, fun e => h.2.elim (fun h => absurd e (sealed_null h).1) id⟩
theorem Tail.dir {l : Line} {r : Items} {rest : List PTok} (h : Tail (.dir l r) rest) : Tail r rest := ⟨h.1, h.2.imp sealed_dir id⟩
theorem Tail.group {l : Line} {b : Items} {a : Alts} {r : Items} {rest : List PTok} (h : Tail (.group l b a r) rest) : Tail r rest := ⟨h.1, h.2.imp sealed_group id⟩

theorem next_hash {r : Items} {rest : List PTok} (hw : r.WF) (hs : r.startsText = false) (hn : r = .nil → HashNil rest) : HashNil (r.flat ++ rest) := by
  by_cases h : r = .nil
  · subst h; exact hn rfl
  · cases r with
    | nil => exact absurd rfl h
    | text => cases hs
    | dir l r => rw [Items.WF] at hw; rw [Items.flat, List.append_assoc]; exact line_hashNil hw.1 _
    | null x r => rw [Items.WF] at hw; exact .inr ⟨_, _, rfl, hw.1⟩
    | group l body alts r => rw [Items.WF] at hw; rw [Items.flat, List.append_assoc]; exact line_hashNil hw.1 _

theorem starts_kind {h : PTok} (hs : StartsLine h) : isHash h = true ∧ h.kind ≠ .ident := ⟨starts_isHash hs, by rw [hs.2.2]; decide⟩

theorem hashNil_for {r : List PTok} (h : HashNil r) : r = [] ∨ ∃ h u, r = h :: u ∧ isHash h = true ∧ h.kind ≠ .ident :=
  h.imp id fun ⟨x, u, e, hs⟩ => ⟨x, u, e, starts_kind hs⟩

theorem get_put (tb : Table) (n : Name) (m : Macro) : (tb.put n m).get = fun x => if x = n then some m else tb.get x := by
  funext x
  show (if n = x then some m else tb.get x) = _
  by_cases h : n = x
  · rw [if_pos h, if_pos h.symm]
  · rw [if_neg h, if_neg (fun e => h e.symm)]
theorem get_del (tb : Table) (n : Name) : (tb.del n).get = fun x => if x = n then none else tb.get x := by
  funext x
  show (if n = x then none else tb.get x) = _
  by_cases h : n = x
  · rw [if_pos h, if_pos h.symm]
  · rw [if_neg h, if_neg (fun e => h e.symm)]


/-- A directive line that only changes the state, and what follows. -/
theorem dir_goes {E : PEnv} {tree : Path → Option Items} {f : FileE} {fs : Files} {st st1 : St} {l : Line} {r : Items} {rest o : List PTok} {s' : PpState} (hw : l.WF)
    (hs : f.stop ≤ rest.length)
    (hd : ∃ fu, Pp.directive E fu st (f :: fs) (l.toks.length + (r.flat ++ rest).length) (l.kw :: (l.args ++ (r.flat ++ rest))) = .done (st1, f :: fs, r.flat ++ rest))
    (hc : st1.conds = st.conds) (hr : Goes E tree (f :: fs) st1 st1.conds r.flat rest o s') : Goes E tree (f :: fs) st st.conds (Items.dir l r).flat rest o s' := by
  obtain ⟨st', k, e, g⟩ := hr
  refine ⟨st', k, e.trans hc, fun x hx => ?_⟩
  rw [Items.flat, List.append_assoc]
  exact line_step hw (by simp; omega) hd (g x hx)

theorem isText_of {s : Name} {t : PTok} {r : List PTok} (h : t.text = s) : isText s (t :: r) = true := by
  show (t.text == s) = true; rw [h]; exact beq_self_eq_true _
theorem isText_ne {s : Name} {t : PTok} {r : List PTok} (h : t.text ≠ s) : isText s (t :: r) = false := by
  show (t.text == s) = false; simpa using h

theorem startsParen_of {r : Items} {rest : List PTok} (hw : r.WF) (h : r.startsParen = false) (hn : r = .nil → HashNil rest) :
    ∀ p ∈ (r.flat ++ rest).head?, ¬ (p.text = lpar ∧ p.hasSpace = false) := by
  cases hr : r.startsText with
  | false =>
    rcases next_hash hw hr hn with e | ⟨x, u, e, hx⟩
    · rw [e]; intro p hp; cases hp
    · rw [e]; intro p hp; cases hp
      rintro ⟨h1, _⟩
      rw [hx.2.1, w_hash] at h1
      cases h1
  | true =>
    cases r with
    | text ts r =>
      rw [Items.WF] at hw
      obtain ⟨t, u, rfl, _⟩ := hw.1
      intro p hp
      cases hp
      rintro ⟨h1, h2⟩
      have h3 : (t.text == word "(" && !t.hasSpace) = false := h
      rw [h1, h2, w_lpar] at h3
      cases h3
    | _ => cases hr

mutual
theorem sem_goes {E : PEnv} {tree : Path → Option Items} (hE : EnvOk E tree) : ∀ {p : Path} {s : PpState} {items : Items} {o : List PTok} {s' : PpState},
    Sem (langOf E tree) p s items o s' → ∀ (st : St) (f : FileE) (fs : Files) (rest : List PTok), Ok tree s st → items.WF → FC tree f p items rest → Tail items rest →
      Goes E tree (f :: fs) st st.conds items.flat rest o s'
  | _, _, _, _, _, .nil p s, st, f, fs, rest, hok, hw, hf, ht => Goes.nil hok
  | _, _, _, _, _, .text p s s' ts o o2 r hn he hr, st, f, fs, rest, hok, hw, hf, ht => by
    rw [Items.WF] at hw
    obtain ⟨t, u, e, _⟩ := hw.1
    have hl : 0 < ts.length := by rw [e]; simp
    have ih := sem_goes hE hr st f fs rest hok hw.2.2.2 (hf.inner (Nat.le_refl _) (by rw [Items.flat]; simp; omega)) ht.text.1
    obtain ⟨st', k, c, g⟩ := ih
    refine ⟨st', k, c, fun x hx => ?_⟩
    rw [Items.flat, List.append_assoc, ← pre_pre]
    refine text_then E st ⟨hE.builtin, fun n m h => ?_⟩ ts o (f :: fs) (r.flat ++ rest) _ ?_ (fun t h => by rw [← w_hash]; exact hn t h) ?_ (g x hx)
    · rw [hok.mac] at h; exact hok.va n m h
    · rw [hok.mac]; exact he
    · exact hashNil_for (next_hash hw.2.2.2 hw.2.2.1 ht.text.2)
  | _, _, _, _, _, .define p s s' l n m o r hk hd hpa hr, st, f, fs, rest, hok, hw, hf, ht => by
    rw [Items.WF] at hw
    have hk2 := (is_one _ _).1 hk
    rw [w_define] at hk2
    have hb := items_bol hw.2.2.2.2 ht.1
    have hd2 := define_ok st.macros hd hw.1.2.2 (r.flat ++ rest) hb (fun h1 => by
      refine startsParen_of hw.2.2.2.2 (hpa h1) (fun e => ?_)
      subst e
      rcases ht.2 with h2 | h2
      · exfalso
        simp only [Items.sealed] at h2
        rw [h1] at h2
        simp at h2
      · exact h2)
    refine dir_goes (st1 := { st with macros := st.macros.put n m }) hw.1 hf.stop ⟨0, ?_⟩ rfl ?_
    · rw [dir_define _ _ _ _ _ _ _ hk2, hd2]; rfl
    · refine sem_goes hE hr _ f fs rest ⟨?_, hok.once, ?_, hok.guards⟩ hw.2.2.2.2 (hf.inner (Nat.le_refl _) (by rw [Items.flat, List.length_append, toks_length]; omega)) ht.dir
      · show (st.macros.put n m).get = _
        rw [get_put, hok.mac]; rfl
      · intro n' m' h
        have h : (if n' = n then some m else s.macros n') = some m' := h
        split at h
        · cases h; exact Defines.va_ne hd
        · exact hok.va n' m' h
  | _, _, _, _, _, .undef p s s' l t ex o r hk ha hi hr, st, f, fs, rest, hok, hw, hf, ht => by
    rw [Items.WF] at hw
    have hk2 := (is_one _ _).1 hk
    rw [w_undef] at hk2
    have hb := items_bol hw.2.2.2.2 ht.1
    refine dir_goes (st1 := { st with macros := st.macros.del t.text }) hw.1 hf.stop ⟨0, ?_⟩ rfl ?_
    · have hex := hw.1.2.2
      rw [ha] at hex ⊢
      rw [List.cons_append, dir_undef _ _ _ _ _ _ hk2 _ _ hi, skipLine_args (fun a h => hex a (List.mem_cons_of_mem _ h)) hb]
    · refine sem_goes hE hr _ f fs rest ⟨?_, hok.once, ?_, hok.guards⟩ hw.2.2.2.2 (hf.inner (Nat.le_refl _) (by rw [Items.flat, List.length_append, toks_length]; omega)) ht.dir
      · show (st.macros.del t.text).get = _
        rw [get_del, hok.mac]; rfl
      · intro n' m' h
        have h : (if n' = t.text then none else s.macros n') = some m' := h
        split at h
        · cases h
        · exact hok.va n' m' h
  | _, _, _, _, _, .once p s s' l t ex o r hk ha hi hr, st, f, fs, rest, hok, hw, hf, ht => by
    rw [Items.WF] at hw
    have hk2 := (is_one _ _).1 hk
    rw [w_pragma] at hk2
    rw [w_once] at hi
    have hb := items_bol hw.2.2.2.2 ht.1
    refine dir_goes (st1 := { st with once := p :: st.once }) hw.1 hf.stop ⟨0, ?_⟩ rfl ?_
    · have hex := hw.1.2.2
      rw [ha] at hex
      rw [dir_pragma _ _ _ _ _ _ _ hk2 (by rw [hw.1.2.1.2]; decide), ha, List.cons_append, if_pos (isText_of hi)]
      show Run.done ({ st with once := f.path :: st.once }, f :: fs, skipLine (ex ++ (r.flat ++ rest))) = _
      rw [skipLine_args (fun a h => hex a (List.mem_cons_of_mem _ h)) hb, hf.fpath]
    · refine sem_goes hE hr _ f fs rest ⟨hok.mac, ?_, hok.va, hok.guards⟩ hw.2.2.2.2 (hf.inner (Nat.le_refl _) (by rw [Items.flat, List.length_append, toks_length]; omega)) ht.dir
      show p :: st.once = p :: s.once
      rw [hok.once]
  | _, _, _, _, _, .inert p s s' l o r hk hr, st, f, fs, rest, hok, hw, hf, ht => by
    rw [Items.WF] at hw
    have hb := items_bol hw.2.2.2.2 ht.1
    have hkk : l.kw.kind ≠ .ppNum := by rw [hw.1.2.1.2]; decide
    refine dir_goes (st1 := st) hw.1 hf.stop ⟨0, ?_⟩ rfl
      (sem_goes hE hr _ f fs rest hok hw.2.2.2.2 (hf.inner (Nat.le_refl _) (by rw [Items.flat, List.length_append, toks_length]; omega)) ht.dir)
    rcases hk with ⟨hk, t, ex, ha, hi⟩ | hk | ⟨hk, hl⟩
    · have hk2 := (is_one _ _).1 hk
      rw [w_pragma] at hk2
      rw [w_once] at hi
      rw [dir_pragma _ _ _ _ _ _ _ hk2 hkk, skipLine_args hw.1.2.2 hb, ha, List.cons_append, if_neg (by rw [isText_ne hi]; simp)]
    · have hk2 := (is_one _ _).1 hk
      rw [w_warning] at hk2
      rw [dir_warning _ _ _ _ _ _ _ hk2 hkk, skipLine_args hw.1.2.2 hb]
    · have hk2 := (is_one _ _).1 hk
      rw [w_line] at hk2
      rw [dir_line _ _ _ _ _ _ _ hk2 (by rw [splitLine_args hw.1.2.2 hb, hok.mac]; exact hl), splitLine_args hw.1.2.2 hb]
  | _, _, _, _, _, .null p s s' h o r hr, st, f, fs, rest, hok, hw, hf, ht => by
    rw [Items.WF] at hw
    obtain ⟨st', k, c, g⟩ := sem_goes hE hr st f fs rest hok hw.2.2 (hf.inner (Nat.le_refl _) (by rw [Items.flat]; simp)) ht.null.1
    refine ⟨st', k, c, fun x hx => ?_⟩
    rw [Items.flat, List.cons_append]
    have hs := hf.stop
    refine PpR.directive (files1 := f :: fs) (st1 := st) (ts := r.flat ++ rest) (starts_isHash hw.1) (by rw [hw.1.2.2]; decide) ⟨0, ?_⟩ (g x hx)
    rw [popFiles_self (by simp; omega)]
    rcases next_hash hw.2.2 hw.2.1 ht.null.2 with e | ⟨y, u, e, hy⟩
    · rw [e]; rfl
    · rw [e, dir_null _ _ _ _ _ _ _ (by rw [hy.2.1, w_hash]) hy.1 (by rw [hy.2.2]; decide)]
  | _, _, _, _, _, .incl p q s s1 s' l next items o o2 r hk hres hno htr hse hi hr, st, f, fs, rest, hok, hw, hf, ht => by
    rw [Items.WF] at hw
    have ihr := sem_goes hE hr
    have ihi := sem_goes hE hi
    have hb := items_bol hw.2.2.2.2 ht.1
    have hs := hf.stop
    have hkw : (l.kw.text = kwInclude ∨ l.kw.text = kwIncludeNext) ∧ (l.kw.text == kwIncludeNext) = next := by
      cases next with
      | true => rw [if_pos rfl, w_include_next] at hk; rw [hk]; decide
      | false => rw [if_neg (by simp), w_include] at hk; rw [hk]; decide
    obtain ⟨hfile, hwi⟩ := hE.file q items htr
    have hf' : FC tree f p r rest := hf.inner (Nat.le_refl _) (by rw [Items.flat, List.length_append, toks_length]; omega)
    have hlast : r = .nil → HashNil rest := by
      intro e
      subst e
      rcases ht.2 with h | h
      · exfalso
        simp only [Items.sealed] at h
        rcases hkw.1 with hk | hk
        · rw [hk, w_include] at h; simp at h
        · rw [hk, w_include_next] at h; simp at h
      · exact h
    have htail : Tail items (r.flat ++ rest) := ⟨hb, hse.imp id fun h => next_hash hw.2.2.2.2 h hlast⟩
    -- the directive, given what `include_file` does
    have step : ∀ (fs1 : Files) (ts : List PTok) (x : Run (List PTok × St)), includeFile E st (f :: fs) q (r.flat ++ rest) = .done (fs1, ts) → PpR E st [] fs1 ts x →
        PpR E st [] (f :: fs) (l.toks ++ (r.flat ++ rest)) x := by
      intro fs1 ts x hinc hx
      refine line_step hw.1 (by simp; omega) ⟨0, ?_⟩ hx
      refine dir_include _ _ _ _ _ _ hkw.1 f fs q fs1 ts ?_ ?_
      · rw [hkw.2, splitLine_args hw.1.2.2 hb, hok.mac, hf.fpath]; exact hres
      · rw [splitLine_args hw.1.2.2 hb]; exact hinc
    have hno' : ¬ (st.once.contains q = true) := by rw [hok.once]; simpa using hno
    by_cases hguard : (match assoc q st.guards with | some g => (st.macros.get g).isSome | none => false) = true
    · -- the file is one group that would be skipped
      obtain ⟨g, hg1, hg2⟩ : ∃ g, assoc q st.guards = some g ∧ (st.macros.get g).isSome = true := by
        cases ha : assoc q st.guards with
        | none => rw [ha] at hguard; cases hguard
        | some g => rw [ha] at hguard; exact ⟨g, rfl, hguard⟩
      obtain ⟨gl, gb, gl2, gt, gex, e1, e2, e3, _, e4⟩ := hok.guards q g (assoc_mem hg1)
      rw [w_ifndef] at e2
      have e5 : items = .group gl gb (.endif gl2) .nil := by
        have htr : tree q = some items := htr
        rw [e1] at htr; cases htr; rfl
      subst e5
      have hempty : o = [] ∧ s1 = s := by
        have hdef : (s.macros g).isSome = true := by rw [← hok.mac]; exact hg2
        cases hi with
        | yes _ _ s2 _ _ _ _ _ o1 o3 hT _ _ =>
          exfalso
          generalize hbt : true = b at hT
          cases hT with
          | expr b hk _ => rw [is_two, e2] at hk; revert hk; decide
          | defd t ex hk _ _ => rw [is_two, e2] at hk; revert hk; decide
          | ndefd t ex hk ha _ =>
            rw [e3] at ha
            cases ha
            rw [e4, isNone_not, hdef] at hbt
            cases hbt
        | no _ _ s2 _ _ _ _ _ o1 o3 _ ha hn => cases ha; cases hn; exact ⟨rfl, rfl⟩
      obtain ⟨rfl, rfl⟩ := hempty
      obtain ⟨st', k, c, g'⟩ := ihr st f fs rest hok hw.2.2.2.2 hf' ht.dir
      refine ⟨st', k, c, fun x hx => ?_⟩
      rw [Items.flat, List.append_assoc]
      refine step (f :: fs) (r.flat ++ rest) _ ?_ (g' x hx)
      unfold includeFile
      rw [if_neg hno']
      exact if_pos hguard
    · by_cases hnil : items = .nil
      · subst hnil
        cases hi
        obtain ⟨st', k, c, g'⟩ := ihr st f fs rest hok hw.2.2.2.2 hf' ht.dir
        refine ⟨st', k, c, fun x hx => ?_⟩
        rw [Items.flat, List.append_assoc]
        refine step (f :: fs) (r.flat ++ rest) _ ?_ (g' x hx)
        unfold includeFile
        rw [if_neg hno']
        refine (if_neg hguard).trans ?_
        rw [hfile]
        rfl
      · let nf : FileE := { path := q, start := items.flat.length + (r.flat ++ rest).length, stop := (r.flat ++ rest).length, incl := true }
        have hinc : includeFile E st (f :: fs) q (r.flat ++ rest) = .done (nf :: f :: fs, items.flat ++ (r.flat ++ rest)) := by
          unfold includeFile
          rw [if_neg hno']
          refine (if_neg hguard).trans ?_
          rw [hfile]
          cases hfl : items.flat with
          | nil => exact absurd (flat_nil hwi hfl) hnil
          | cons a b =>
            dsimp only [nf]
            rw [hfl]
        have ih1 := ihi st nf (f :: fs) (r.flat ++ rest) hok hwi ⟨rfl, Nat.le_refl _, Nat.le_refl _, fun _ _ => ⟨rfl, htr⟩⟩ htail
        obtain ⟨st1, k1, c1, g1⟩ := ih1
        obtain ⟨st2, k2, c2, g2⟩ := ihr st1 f fs rest k1 hw.2.2.2.2 hf' ht.dir
        refine ⟨st2, k2, c2.trans c1, fun x hx => ?_⟩
        rw [Items.flat, List.append_assoc, ← pre_pre]
        refine step _ _ _ hinc (g1 _ ?_)
        refine PpR.files ?_ (g2 x hx)
        rw [popFiles, popFiles, if_pos (show (r.flat ++ rest).length ≤ nf.stop from Nat.le_refl _), popFiles]
  | _, _, _, _, _, .inclOnce p q s s' l next o r hk hres hyes hr, st, f, fs, rest, hok, hw, hf, ht => by
    rw [Items.WF] at hw
    have hb := items_bol hw.2.2.2.2 ht.1
    have hkw : (l.kw.text = kwInclude ∨ l.kw.text = kwIncludeNext) ∧ (l.kw.text == kwIncludeNext) = next := by
      cases next with
      | true => rw [if_pos rfl, w_include_next] at hk; rw [hk]; decide
      | false => rw [if_neg (by simp), w_include] at hk; rw [hk]; decide
    refine dir_goes (st1 := st) hw.1 hf.stop ⟨0, ?_⟩ rfl
      (sem_goes hE hr _ f fs rest hok hw.2.2.2.2 (hf.inner (Nat.le_refl _) (by rw [Items.flat, List.length_append, toks_length]; omega)) ht.dir)
    refine dir_include _ _ _ _ _ _ hkw.1 f fs q _ _ ?_ ?_
    · rw [hkw.2, splitLine_args hw.1.2.2 hb, hok.mac, hf.fpath]; exact hres
    · rw [splitLine_args hw.1.2.2 hb]
      unfold includeFile
      rw [if_pos (by rw [hok.once]; simpa using hyes)]
  | _, _, _, _, _, .yes p s s1 s' l body alts r o o2 hT hbd hr, st, f, fs, rest, hok, hw, hf, ht => by
    rw [Items.WF] at hw
    have hb := items_bol hw.2.2.2.2 ht.1
    have hs := hf.stop
    have hlen : (Items.group l body alts r).flat.length = l.toks.length + (body.flat.length + (alts.flat.length + r.flat.length)) := by rw [Items.flat]; simp
    obtain ⟨g, hg, fu, hd⟩ := if_step hok hw.1 hw.2.1 hT f fs (l.toks.length + (body.flat ++ (alts.flat ++ (r.flat ++ rest))).length) (body.flat ++ (alts.flat ++ (r.flat ++ rest)))
      (items_bol hw.2.2.1 (alts_hashNil hw.2.2.2.1).bol)
    rw [if_pos rfl] at hd
    obtain ⟨st1, k1, c1, g1⟩ := sem_goes hE hbd { st with conds := ⟨false, true, g⟩ :: st.conds } f fs (alts.flat ++ (r.flat ++ rest)) (hok.conds _) hw.2.2.1
      (hf.inner (by simp; omega) (by rw [hlen, toks_length]; simp; omega)) (.of_hash (alts_hashNil hw.2.2.2.1))
    obtain ⟨st2, k2, c2, g2⟩ := finish_alts (E := E) f fs (r.flat ++ rest) hb (by simp; omega) st.conds alts st1 ⟨false, true, g⟩ k1 hw.2.2.2.1 c1 rfl rfl (by
      intro q nm e l2 ea he
      obtain ⟨h1, h2, h3, h4, t, ex, h5, h6, h9⟩ := hg q nm e
      subst ea
      have hl3 : (Alts.endif l2).flat = l2.toks := by rw [Alts.flat]
      rw [hl3] at hlen h2
      obtain ⟨h7, h8⟩ := hf.whole h1 (by rw [hlen, ← h2]; simp; omega)
      rw [h7] at he
      have : r = .nil := flat_nil hw.2.2.2.2 (List.length_eq_zero_iff.1 (by simp at he; omega))
      subst this
      rw [h3, hf.fpath]
      exact ⟨l, body, l2, t, ex, h8, by rw [w_ifndef]; exact h4, h5, h6, h9⟩)
    obtain ⟨st3, k3, c3, g3⟩ := sem_goes hE hr st2 f fs rest k2 hw.2.2.2.2 (hf.inner (Nat.le_refl _) (by rw [hlen, toks_length]; omega)) ht.group
    refine ⟨st3, k3, c3.trans c2, fun x hx => ?_⟩
    rw [Items.flat, List.append_assoc, List.append_assoc, List.append_assoc, ← pre_pre]
    have h1 := g2 _ (g3 x hx)
    rw [pre_nil] at h1
    exact line_step hw.1 (by simp; omega) ⟨fu, hd⟩ (g1 _ h1)
  | _, _, _, _, _, .no p s s1 s' l body alts r o o2 hT hal hr, st, f, fs, rest, hok, hw, hf, ht => by
    rw [Items.WF] at hw
    have hb := items_bol hw.2.2.2.2 ht.1
    have hs := hf.stop
    have hlen : (Items.group l body alts r).flat.length = l.toks.length + (body.flat.length + (alts.flat.length + r.flat.length)) := by rw [Items.flat]; simp
    obtain ⟨g, hg, fu, hd⟩ := if_step hok hw.1 hw.2.1 hT f fs (l.toks.length + (body.flat ++ (alts.flat ++ (r.flat ++ rest))).length) (body.flat ++ (alts.flat ++ (r.flat ++ rest)))
      (items_bol hw.2.2.1 (alts_hashNil hw.2.2.2.1).bol)
    rw [if_neg (by simp), skip_items body 0 _ hw.2.2.1 (alts_hashNil hw.2.2.2.1), skip_at_alts _ _ hw.2.2.2.1] at hd
    have hst := hf.start
    obtain ⟨st2, k2, c2, g2⟩ := alts_goes hE hal { st with conds := ⟨false, false, g⟩ :: st.conds } ⟨false, false, g⟩ st.conds f fs (r.flat ++ rest) (hok.conds _) hw.2.2.2.1 rfl rfl rfl hf.fpath
      (by simp; omega) (by rw [hlen, toks_length] at hst; simp; omega) hb (by
      intro q nm e l2 ea he
      obtain ⟨h1, h2, h3, h4, t, ex, h5, h6, h9⟩ := hg q nm e
      subst ea
      have hl3 : (Alts.endif l2).flat = l2.toks := by rw [Alts.flat]
      rw [hl3] at hlen h2
      obtain ⟨h7, h8⟩ := hf.whole h1 (by rw [hlen, ← h2]; simp; omega)
      rw [h7] at he
      have : r = .nil := flat_nil hw.2.2.2.2 (List.length_eq_zero_iff.1 (by simp at he; omega))
      subst this
      rw [h3, hf.fpath]
      exact ⟨l, body, l2, t, ex, h8, by rw [w_ifndef]; exact h4, h5, h6, h9⟩)
    obtain ⟨st3, k3, c3, g3⟩ := sem_goes hE hr st2 f fs rest k2 hw.2.2.2.2 (hf.inner (Nat.le_refl _) (by rw [hlen, toks_length]; omega)) ht.group
    refine ⟨st3, k3, c3.trans c2, fun x hx => ?_⟩
    rw [Items.flat, List.append_assoc, List.append_assoc, List.append_assoc, ← pre_pre]
    exact line_step hw.1 (by simp; omega) ⟨fu, hd⟩ (g2 _ (g3 x hx))
theorem alts_goes {E : PEnv} {tree : Path → Option Items} (hE : EnvOk E tree) : ∀ {p : Path} {s : PpState} {alts : Alts} {o : List PTok} {s' : PpState},
    SemAlts (langOf E tree) p s alts o s' → ∀ (st : St) (c : Cond) (cs : List Cond) (f : FileE) (fs : Files) (rest : List PTok), Ok tree s st → alts.WF → st.conds = c :: cs →
      c.isElse = false → c.beenActive = false → f.path = p → f.stop ≤ rest.length → alts.flat.length + rest.length < f.start → Bol rest →
      (∀ q nm, c.guard = some (q, nm) → ∀ l, alts = .endif l → l.args.length + rest.length = f.stop → IsGuarded tree q nm) →
      Goes E tree (f :: fs) st cs alts.flat rest o s'
  | _, _, _, _, _, .endif p s l, st, c, cs, f, fs, rest, hok, hw, hc, h1, h2, hp, hs, hst, hR, hg => by
    rw [Alts.WF] at hw
    exact endif_goes hok hw.1 hw.2 hc f fs rest hR hs (fun q nm h e => hg q nm h l rfl e)
  | _, _, _, _, _, .yes p s s1 l body alts o hT hb, st, c, cs, f, fs, rest, hok, hw, hc, h1, h2, hp, hs, hst, hR, hg => by
    rw [Alts.WF] at hw
    have hlen : (Alts.elif l body alts).flat.length = l.toks.length + (body.flat.length + alts.flat.length) := by rw [Alts.flat]; simp
    rw [hlen] at hst
    obtain ⟨fu, hd⟩ := elif_step hok hw.1 hw.2.1 hT hc h1 h2 (f :: fs) (l.toks.length + (body.flat ++ (alts.flat ++ rest)).length) (body.flat ++ (alts.flat ++ rest))
      (items_bol hw.2.2.1 (alts_hashNil hw.2.2.2).bol)
    rw [if_pos rfl] at hd
    obtain ⟨st1, k1, c1, g1⟩ := sem_goes hE hb { st with conds := ⟨false, true, none⟩ :: cs } f fs (alts.flat ++ rest) (hok.conds _) hw.2.2.1
      ⟨hp, by simp; omega, by simp; omega, fun _ h => by simp at h; omega⟩ (.of_hash (alts_hashNil hw.2.2.2))
    obtain ⟨st2, k2, c2, g2⟩ := finish_alts (E := E) f fs rest hR hs cs alts st1 ⟨false, true, none⟩ k1 hw.2.2.2 c1 rfl rfl (fun _ _ h => by cases h)
    refine ⟨st2, k2, c2, fun x hx => ?_⟩
    rw [Alts.flat, List.append_assoc, List.append_assoc]
    have h3 := g2 _ hx
    rw [pre_nil] at h3
    exact line_step hw.1 (by simp; omega) ⟨fu, hd⟩ (g1 _ h3)
  | _, _, _, _, _, .no p s s1 l body alts o hT hb, st, c, cs, f, fs, rest, hok, hw, hc, h1, h2, hp, hs, hst, hR, hg => by
    rw [Alts.WF] at hw
    have hlen : (Alts.elif l body alts).flat.length = l.toks.length + (body.flat.length + alts.flat.length) := by rw [Alts.flat]; simp
    rw [hlen] at hst
    obtain ⟨fu, hd⟩ := elif_step hok hw.1 hw.2.1 hT hc h1 h2 (f :: fs) (l.toks.length + (body.flat ++ (alts.flat ++ rest)).length) (body.flat ++ (alts.flat ++ rest))
      (items_bol hw.2.2.1 (alts_hashNil hw.2.2.2).bol)
    rw [if_neg (by simp), skip_items body 0 _ hw.2.2.1 (alts_hashNil hw.2.2.2), skip_at_alts _ _ hw.2.2.2] at hd
    obtain ⟨st2, k2, c2, g2⟩ := alts_goes hE hb { st with conds := ⟨false, false, none⟩ :: cs } ⟨false, false, none⟩ cs f fs rest (hok.conds _) hw.2.2.2 rfl rfl rfl hp hs
      (by omega) hR (fun _ _ h => by cases h)
    refine ⟨st2, k2, c2, fun x hx => ?_⟩
    rw [Alts.flat, List.append_assoc, List.append_assoc]
    exact line_step hw.1 (by simp; omega) ⟨fu, hd⟩ (g2 _ hx)
  | _, _, _, _, _, .els p s s1 l last body o hb, st, c, cs, f, fs, rest, hok, hw, hc, h1, h2, hp, hs, hst, hR, hg => by
    rw [Alts.WF] at hw
    have hlen : (Alts.els l body last).flat.length = l.toks.length + (body.flat.length + last.toks.length) := by rw [Alts.flat]; simp
    rw [hlen] at hst
    obtain ⟨fu, hd⟩ := else_step (E := E) (st := st) hw.1 hw.2.1 hc h1 (f :: fs) (l.toks.length + (body.flat ++ (last.toks ++ rest)).length) (body.flat ++ (last.toks ++ rest))
      (items_bol hw.2.2.1 (line_hashNil hw.2.2.2.1 _).bol)
    rw [if_neg (by rw [h2]; simp)] at hd
    obtain ⟨st1, k1, c1, g1⟩ := sem_goes hE hb { st with conds := { c with guard := none, isElse := true } :: cs } f fs (last.toks ++ rest) (hok.conds _) hw.2.2.1
      ⟨hp, by simp; omega, by simp; omega, fun _ h => by simp at h; omega⟩ (.of_hash (line_hashNil hw.2.2.2.1 _))
    obtain ⟨st2, k2, c2, g2⟩ := endif_goes (E := E) k1 hw.2.2.2.1 hw.2.2.2.2 c1 f fs rest hR hs (fun _ _ h => by cases h)
    refine ⟨st2, k2, c2, fun x hx => ?_⟩
    rw [Alts.flat, List.append_assoc, List.append_assoc]
    have h3 := g2 _ hx
    rw [pre_nil] at h3
    exact line_step hw.1 (by simp; omega) ⟨fu, hd⟩ (g1 _ h3)
end

end Slimcc.PpL
