import Verif.Lemmas.MacroMono
import Mathlib.Data.Multiset.DershowitzManna
set_option autoImplicit false
/-!
The expansion ends. Every token has a weight, the number of macros that are not locked where it stands.
A step replaces a token by tokens of smaller weight, or expands a part of the list on its own; the
multiset of the weights goes down.
-/
namespace Slimcc.MacL
open Slimcc Slimcc.PP Slimcc.Mac Slimcc.Spec

def cnt (locks : Locks) (n : Nat) : Nat := (locks.filter (fun l => decide (l.2 < n))).length

/-- The weights of the positions `n`, ..., 1, with `K` macros not locked outside. -/
def ws (K : Nat) (locks : Locks) : Nat → List Nat
  | 0 => []
  | n + 1 => (K - cnt locks (n + 1)) :: ws K locks n

theorem ws_congr (K : Nat) (l l' : Locks) : ∀ (n : Nat), (∀ i, i ≤ n → cnt l i = cnt l' i) → ws K l n = ws K l' n
  | 0, _ => rfl
  | n + 1, h => by rw [ws, ws, h _ (Nat.le_refl _), ws_congr K l l' n (fun i hi => h i (by omega))]

theorem ws_split (K : Nat) (l : Locks) (n : Nat) : ∀ a : Nat, ∃ top, ws K l (n + a) = top ++ ws K l n
  | 0 => ⟨[], rfl⟩
  | a + 1 => by
    obtain ⟨top, h⟩ := ws_split K l n a
    exact ⟨(K - cnt l (n + a + 1)) :: top, by rw [← Nat.add_assoc, ws, h]; rfl⟩

theorem ws_const (K : Nat) (l : Locks) (n q : Nat) : ∀ a : Nat, (∀ i, n < i → i ≤ n + a → cnt l i = q) → ws K l (n + a) = List.replicate a (K - q) ++ ws K l n
  | 0, _ => rfl
  | a + 1, h => by
    rw [← Nat.add_assoc, ws, ws_const K l n q a (fun i h1 h2 => h i h1 (by omega)), h (n + a + 1) (by omega) (by omega)]
    rfl

theorem cnt_pop {n : Nat} {ls : Locks} (h : Desc n ls) (i : Nat) (hi : i ≤ n) : cnt (popLocks n ls) i = cnt ls i := by
  unfold cnt
  rw [(popLocks_eq h).1, List.filter_filter]
  congr 2
  funext x
  by_cases hx : x.2 < i
  · have : x.2 < n := by omega
    simp [hx, this]
  · simp [hx]

theorem cnt_all {n : Nat} {ls : Locks} (h : ∀ l ∈ ls, l.2 < n) : cnt ls n = ls.length := by
  unfold cnt
  rw [List.filter_eq_self.2]
  intro l hl
  simpa using h l hl

theorem cnt_filter (n : Nat) (ls : Locks) (i : Nat) (hi : i ≤ n + 1) : cnt (ls.filter (fun x => decide (x.2 ≤ n))) i = cnt ls i := by
  unfold cnt
  rw [List.filter_filter]
  congr 2
  funext x
  by_cases hx : x.2 < i
  · have : x.2 ≤ n := by omega
    simp [hx, this]
  · simp [hx]

theorem cnt_cons (s : Name) (k : Nat) (ls : Locks) (i : Nat) : cnt ((s, k) :: ls) i = (if k < i then 1 else 0) + cnt ls i := by
  unfold cnt
  rw [List.filter_cons]
  by_cases h : k < i
  · simp [h]; omega
  · simp [h]

abbrev MLt (a b : List Nat) : Prop := Multiset.IsDershowitzMannaLT (a : Multiset Nat) (b : Multiset Nat)

theorem mlt_drop (a b top : List Nat) (x : Nat) (h : b = x :: (top ++ a)) : MLt a b := by
  refine ⟨(a : Multiset Nat), 0, ((x :: top : List Nat) : Multiset Nat), ?_, by simp, ?_, by simp⟩
  · intro hh; simp at hh
  · rw [h, Multiset.coe_add, Multiset.coe_eq_coe]
    rw [← List.cons_append]
    exact List.perm_append_comm

theorem mlt_repl (a new top : List Nat) (x : Nat) (hn : ∀ y ∈ new, y < x) : MLt (new ++ a) (top ++ x :: a) := by
  refine ⟨(a : Multiset Nat), (new : Multiset Nat), ((x :: top : List Nat) : Multiset Nat), ?_, ?_, ?_, ?_⟩
  · intro hh; simp at hh
  · rw [Multiset.coe_add, Multiset.coe_eq_coe]; exact List.perm_append_comm
  · rw [Multiset.coe_add, Multiset.coe_eq_coe]
    have h1 : (top ++ x :: a).Perm (x :: (top ++ a)) := List.perm_middle
    refine h1.trans ?_
    rw [← List.cons_append]
    exact List.perm_append_comm
  · intro y hy
    exact ⟨x, by simp, hn y (by simpa using hy)⟩

/-- A smaller number of tokens of a weight. -/
theorem mlt_sub (x a b : Nat) (top rest : List Nat) (h : a ≤ b) : MLt (List.replicate a x) (top ++ (List.replicate (b + 1) x ++ rest)) := by
  obtain ⟨d, rfl⟩ := Nat.le.dest h
  · refine ⟨(List.replicate a x : Multiset Nat), 0, ((x :: (List.replicate d x ++ (top ++ rest)) : List Nat) : Multiset Nat), ?_, by simp, ?_, by simp⟩
    · intro hh; simp at hh
    · rw [Multiset.coe_add, Multiset.coe_eq_coe]
      have e : List.replicate (a + d + 1) x = List.replicate a x ++ x :: List.replicate d x := by
        rw [Nat.add_assoc, ← List.replicate_append_replicate]; rfl
      rw [e, ← List.append_assoc, ← List.append_assoc]
      have p1 : (top ++ List.replicate a x ++ x :: List.replicate d x).Perm (List.replicate a x ++ (x :: List.replicate d x) ++ top) := by
        rw [List.append_assoc]; exact List.perm_append_comm
      have p2 := p1.append_right rest
      simpa [List.append_assoc] using p2

/-! ### The invariant -/

structure Inv (names : List Name) (outer : List Name) (locks : Locks) (toks : List PTok) : Prop where
  nodup : (locks.map Prod.fst ++ outer).Nodup
  sub : ∀ s ∈ locks.map Prod.fst ++ outer, s ∈ names
  desc : Desc toks.length locks
  closed : ∀ l ∈ locks, cl (P (toks.take (toks.length - l.2))) ≠ none
  wf : WfToks toks

theorem nodup_le {a b : List Name} (h : a.Nodup) (hs : ∀ s ∈ a, s ∈ b) : a.length ≤ b.length :=
  (List.subperm_of_subset h hs).length_le

theorem Inv.filter {names outer : List Name} {locks : Locks} {toks : List PTok} (h : Inv names outer locks toks) {p : Name × Nat → Bool}
    (hd : Desc toks.length (locks.filter p)) : Inv names outer (locks.filter p) toks := by
  have hsub : ((locks.filter p).map Prod.fst ++ outer).Sublist (locks.map Prod.fst ++ outer) :=
    (List.filter_sublist.map _).append_right _
  exact ⟨h.nodup.sublist hsub, fun s hs => h.sub s (hsub.subset hs), hd, fun l hl => h.closed l (List.mem_filter.1 hl).1, h.wf⟩

theorem Inv.pop {names outer : List Name} {locks : Locks} {toks : List PTok} (h : Inv names outer locks toks) : Inv names outer (popLocks toks.length locks) toks := by
  obtain ⟨h1, h2⟩ := popLocks_eq h.desc
  rw [h1] at h2 ⊢
  exact h.filter h2

theorem cl_suffix' {a b : List Bool} (h : cl (a ++ b) ≠ none) : cl b ≠ none := by
  cases hc : cl (a ++ b) with
  | none => exact absurd hc h
  | some k =>
    obtain ⟨j, hj⟩ := cl_suffix a b k hc
    rw [hj]; simp

theorem cl_append' {a b : List Bool} (ha : cl a ≠ none) (hb : cl b ≠ none) : cl (a ++ b) ≠ none := by
  cases h1 : cl a with
  | none => exact absurd h1 ha
  | some i =>
    cases h2 : cl b with
    | none => exact absurd h2 hb
    | some j => rw [cl_append _ _ _ _ h1 h2]; simp

/-- The regions of the locks that end after `pre` stay closed when `pre` is replaced. -/
theorem region_replace {pre rest b : List PTok} {k : Nat} (hk : k ≤ rest.length) (hb : cl (P b) ≠ none)
    (h : cl (P ((pre ++ rest).take ((pre ++ rest).length - k))) ≠ none) : cl (P ((b ++ rest).take ((b ++ rest).length - k))) ≠ none := by
  have e : ∀ x : List PTok, (x ++ rest).take ((x ++ rest).length - k) = x ++ rest.take (rest.length - k) := by
    intro x
    have : (x ++ rest).length - k = x.length + (rest.length - k) := by simp; omega
    rw [this, List.take_length_add_append]
  rw [e, P_append] at h ⊢
  exact cl_append' hb (cl_suffix' h)

theorem Inv.enter {names outer : List Name} {locks : Locks} {t : PTok} {pre rest b : List PTok} (h : Inv names outer locks (pre ++ rest))
    (hd : Desc rest.length locks) (ht : t.text ∈ names) (hl : isLocked outer locks t.text = false) (hb : cl (P b) ≠ none) (hwb : WfToks b) :
    Inv names outer (enter locks t b rest).1 (enter locks t b rest).2 := by
  have hwr : WfToks rest := (wf_append.1 h.wf).2
  unfold Mac.enter
  split
  · rename_i he
    have hb0 : b = [] := by simpa using he
    subst hb0
    refine ⟨h.nodup, h.sub, by rw [orFlags_length]; exact hd, ?_, wf_orFlags t hwr⟩
    intro l hl
    have := region_replace (b := []) (hd.le l hl) hb (h.closed l hl)
    have e : ∀ n, P ((orFlags rest t).take n) = P (rest.take n) := by
      intro n
      cases rest with
      | nil => rfl
      | cons x xs =>
        cases n with
        | zero => rfl
        | succ n => rw [orFlags, List.take_succ_cons, List.take_succ_cons, P_cons, P_cons]; rfl
    dsimp only
    rw [orFlags_length, e]
    exact this
  · have hb' : cl (P (alignHead b t)) ≠ none := by rw [P_alignHead]; exact hb
    refine ⟨?_, ?_, ?_, ?_, wf_append.2 ⟨wf_alignHead t hwb, hwr⟩⟩
    · show (t.text :: (locks.map Prod.fst ++ outer)).Nodup
      refine List.nodup_cons.2 ⟨?_, h.nodup⟩
      unfold isLocked at hl
      simp only [Bool.or_eq_false_iff] at hl
      intro hm
      rcases List.mem_append.1 hm with hm | hm
      · have := hl.2; rw [List.contains_iff_mem.2 hm] at this; cases this
      · have := hl.1; rw [List.contains_iff_mem.2 hm] at this; cases this
    · intro s hs
      rcases List.mem_cons.1 (show s ∈ t.text :: (locks.map Prod.fst ++ outer) from hs) with rfl | hs
      · exact ht
      · exact h.sub s hs
    · refine ⟨by simp, ?_⟩
      exact hd
    · intro l hl'
      rcases List.mem_cons.1 hl' with rfl | hl'
      · dsimp only
        have : (alignHead b t ++ rest).length - rest.length = (alignHead b t).length := by simp
        rw [this, List.take_left]
        exact hb'
      · exact region_replace (hd.le l hl') hb' (h.closed l hl')

/-- Where a call with its parentheses stands, the locks are those after it. -/
theorem prefix_cl {text : List PTok} (hn : Nested text) (j : Nat) : ∀ k, cl (P (text.take j)) = some k → k = 0 := by
  intro k hk
  have h0 := nested_cl0 hn
  have e : P text = P (text.take j) ++ P (text.drop j) := by rw [← P_append, List.take_append_drop]
  rw [e] at h0
  obtain ⟨i, hi⟩ := cl_suffix _ _ _ h0
  rw [cl_append _ _ _ _ hk hi] at h0
  simp at h0
  omega

theorem cl_open {t p : PTok} {text : List PTok} (ht : NotParen t) (hp : p.text = lpar) (hn : Nested text) (j : Nat) : cl (P (t :: p :: text.take j)) = none := by
  have h1 : par p = [true] := by unfold par; rw [if_pos hp]
  rw [P_cons, P_cons, ht.par, h1]
  show cl (true :: P (text.take j)) = none
  rw [cl]
  cases hc : cl (P (text.take j)) with
  | none => rfl
  | some k => rw [prefix_cl hn j k hc]; rfl

/-- Inside the parentheses of a call no lock ends. -/
theorem call_cnt {names outer : List Name} {locks : Locks} {t p q : PTok} {text rest : List PTok} (h : Inv names outer locks (t :: p :: (text ++ q :: rest)))
    (ht : NotParen t) (hp : p.text = lpar) (hn : Nested text) (i : Nat) (h1 : rest.length < i) (h2 : i ≤ rest.length + (text.length + 1)) :
    cnt locks i = (locks.filter (fun x => decide (x.2 ≤ rest.length))).length := by
  unfold cnt
  congr 1
  apply List.filter_congr
  intro l hl
  by_cases hx : l.2 ≤ rest.length
  · have : l.2 < i := by omega
    simp [hx, this]
  · have : ¬ l.2 < i := by
      intro hlt
      have hc := h.closed l hl
      -- the region of the lock ends inside the parentheses
      have e : (t :: p :: (text ++ q :: rest)).take ((t :: p :: (text ++ q :: rest)).length - l.2) = t :: p :: text.take (text.length + rest.length + 1 - l.2) := by
        have : (t :: p :: (text ++ q :: rest)).length - l.2 = (text.length + rest.length + 1 - l.2) + 1 + 1 := by simp; omega
        rw [this, List.take_succ_cons, List.take_succ_cons, List.take_append_of_le_length (by omega)]
      rw [e, cl_open ht hp hn] at hc
      exact hc rfl
    simp [hx, this]

/-- The finitely many names of macros. -/
def Names (E : Mac.Env) (names : List Name) : Prop := ∀ s m, E.find s = some m → s ∈ names

/-- The weights of a state. -/
abbrev wt (names outer : List Name) (locks : Locks) (toks : List PTok) : List Nat := ws (names.length - outer.length) locks toks.length

theorem wt_pop {names outer : List Name} {locks : Locks} {toks : List PTok} (h : Inv names outer locks toks) :
    wt names outer (popLocks toks.length locks) toks = wt names outer locks toks :=
  ws_congr _ _ _ _ (fun i hi => cnt_pop h.desc i hi)

theorem mlt_emit {names outer : List Name} {locks : Locks} {t : PTok} {r : List PTok} : MLt (wt names outer locks r) (wt names outer locks (t :: r)) :=
  mlt_drop _ _ [] _ rfl

theorem enter_len (locks : Locks) (t : PTok) (b rest : List PTok) : (enter locks t b rest).2.length = b.length + rest.length := by
  unfold enter
  split
  · rename_i h; have : b = [] := by simpa using h
    subst this; simp [orFlags_length]
  · simp [alignHead_length]

/-- The insertion of `b` for `pre` with the locks that are left. -/
theorem mlt_enter {names outer : List Name} {locks : Locks} {t : PTok} {pre rest b : List PTok} {toks : List PTok} (hpre : pre ≠ []) (htoks : toks.length = pre.length + rest.length)
    (hn : (t.text :: ((locks.filter (fun x => decide (x.2 ≤ rest.length))).map Prod.fst ++ outer)).length ≤ names.length) :
    MLt (wt names outer (enter (locks.filter (fun x => decide (x.2 ≤ rest.length))) t b rest).1 (enter (locks.filter (fun x => decide (x.2 ≤ rest.length))) t b rest).2)
      (wt names outer locks toks) := by
  generalize hl : locks.filter (fun x => decide (x.2 ≤ rest.length)) = l at hn
  have hcnt : ∀ i, i ≤ rest.length + 1 → cnt l i = cnt locks i := fun i hi => by rw [← hl]; exact cnt_filter _ _ _ hi
  have hle : ∀ x ∈ l, x.2 ≤ rest.length := by
    intro x hx; rw [← hl] at hx; simpa using (List.mem_filter.1 hx).2
  have hall : ∀ i, rest.length < i → cnt l i = l.length := fun i hi => cnt_all (fun x hx => by have := hle x hx; omega)
  -- the old weights
  have hold : ∃ top, wt names outer locks toks = top ++ (names.length - outer.length - l.length) :: ws (names.length - outer.length) locks rest.length := by
    have hp : 0 < pre.length := List.length_pos_iff.2 hpre
    obtain ⟨top, ht⟩ := ws_split (names.length - outer.length) locks (rest.length + 1) (pre.length - 1)
    refine ⟨top, ?_⟩
    have e : toks.length = rest.length + 1 + (pre.length - 1) := by omega
    unfold wt
    rw [e, ht, ws, ← hcnt _ (Nat.le_refl _), hall _ (by omega)]
  obtain ⟨top, hold⟩ := hold
  rw [hold]
  -- the new ones
  have hnew : wt names outer (enter l t b rest).1 (enter l t b rest).2 =
      List.replicate b.length (names.length - outer.length - (l.length + 1)) ++ ws (names.length - outer.length) locks rest.length := by
    unfold wt
    rw [enter_len, Nat.add_comm]
    unfold enter
    by_cases hb : b = []
    · subst hb
      simp only [List.isEmpty_nil, if_true, List.length_nil, List.replicate_zero, List.nil_append, Nat.add_zero]
      exact ws_congr _ _ _ _ (fun i hi => hcnt i (by omega))
    · rw [if_neg (by simpa using hb)]
      dsimp only
      rw [ws_const _ _ rest.length (l.length + 1) b.length ?_]
      · congr 1
        refine ws_congr _ _ _ _ (fun i hi => ?_)
        rw [cnt_cons, if_neg (by omega), Nat.zero_add, hcnt i (by omega)]
      · intro i h1 h2
        rw [cnt_cons, if_pos h1, hall i h1]; omega
  rw [hnew]
  refine mlt_repl _ _ _ _ ?_
  intro y hy
  rw [(List.mem_replicate.1 hy).2]
  simp at hn
  omega

theorem Call.same {E : Mac.Env} {e1 e2 : List Name → List PTok → Run (List PTok)} {outer : List Name} {locks : Locks} {t : PTok} {r : List PTok}
    {m : Macro} (c : Call E e1 outer locks t r m) (d : Call E e2 outer locks t r m) : c.args = d.args ∧ c.l = d.l := by
  obtain ⟨p, r1, as, rest, l, args, o, tl, hr, hp, prep, read⟩ := c
  obtain ⟨p', r1', as', rest', l', args', o', tl', hr', hp', prep', read'⟩ := d
  dsimp only
  subst hr
  cases hr'
  rw [prep] at prep'
  cases prep'
  rw [read] at read'
  cases read'
  exact ⟨rfl, rfl⟩

theorem args_end (E : Mac.Env) (o : List Name) : ∀ (args : List (List PTok)), (∀ a ∈ args, ∃ f, Ends (expand E f o [] a)) → ∃ f, ∀ a ∈ args, Ends (expand E f o [] a)
  | [], _ => ⟨0, fun a h => by simp at h⟩
  | a :: as, h => by
    obtain ⟨f, hf⟩ := h a (by simp)
    obtain ⟨g, hg⟩ := args_end E o as (fun a ha => h a (by simp [ha]))
    refine ⟨f + g, ?_⟩
    intro x hx
    rcases List.mem_cons.1 hx with rfl | hx
    · rw [expand_stable E hf.1 (Nat.le_add_right _ _)]; exact hf
    · rw [expand_stable E (hg x hx).1 (Nat.le_add_left _ _)]; exact hg x hx

theorem Inv.emit {names outer : List Name} {locks : Locks} {t : PTok} {r : List PTok} (h : Inv names outer locks (t :: r)) (hd : Desc r.length locks) :
    Inv names outer locks r := by
  refine ⟨h.nodup, h.sub, hd, ?_, (wf_cons.1 h.wf).2⟩
  intro l hl
  exact region_replace (pre := [t]) (b := []) (hd.le l hl) (by simp [P_nil, cl]) (h.closed l hl)

theorem Inv.arg {names outer : List Name} {l : Locks} {a : List PTok} (h1 : (l.map Prod.fst ++ outer).Nodup) (h2 : ∀ s ∈ l.map Prod.fst ++ outer, s ∈ names) (hw : WfToks a) :
    Inv names (l.map Prod.fst ++ outer) [] a :=
  ⟨h1, h2, trivial, fun l hl => by simp at hl, hw⟩

/-- The expansion ends, without an internal error. -/
theorem expand_ends (E : Mac.Env) (hE : TableOk E) (hT : Total E) (names : List Name) (hN : Names E names) (M : List Nat) :
    ∀ (outer : List Name) (locks : Locks) (toks : List PTok), Inv names outer locks toks → wt names outer locks toks = M →
    ∃ f, Ends (expand E f outer (popLocks toks.length locks) toks) := by
  have wfM : WellFounded MLt := InvImage.wf (fun l : List Nat => (l : Multiset Nat)) Multiset.wellFounded_isDershowitzMannaLT
  induction M using wfM.induction with
  | _ M IH =>
  intro outer locks toks hI0 hM
  have IH : ∀ (outer' : List Name) (locks' : Locks) (toks' : List PTok), Inv names outer' locks' toks' → MLt (wt names outer' locks' toks') (wt names outer locks toks) →
      ∃ f, Ends (expand E f outer' (popLocks toks'.length locks') toks') := by
    intro o' l' ts' hI hlt
    exact IH _ (hM ▸ hlt) o' l' ts' hI rfl
  rw [← wt_pop hI0] at IH
  have hI := hI0.pop
  have hlt : ∀ l ∈ popLocks toks.length locks, l.2 < toks.length := by
    intro l hl
    rw [(popLocks_eq hI0.desc).1] at hl
    simpa using (List.mem_filter.1 hl).2
  clear hM
  generalize popLocks toks.length locks = L at IH hI hlt
  clear hI0 locks
  cases toks with
  | nil =>
    have : L = [] := by
      cases L with
      | nil => rfl
      | cons x xs => exact absurd (hlt x (by simp)) (by simp)
    subst this
    exact ⟨1, by rw [expand]; exact .done _⟩
  | cons t r =>
    have hd : Desc r.length L := hI.desc.down (fun l hl => by have := hlt l hl; simp at this; omega)
    have hwt := (wf_cons.1 hI.wf).1
    have hwr := (wf_cons.1 hI.wf).2
    -- what a call consists of
    have callFacts : ∀ (m : Macro) (e : List Name → List PTok → Run (List PTok)) (c : Call E e outer L t r m), E.look t = some m →
        (∃ text q, r = c.p :: (text ++ q :: c.rest) ∧ ∀ a ∈ c.args, WfToks a ∧ a.length ≤ text.length) ∧
        c.l = L.filter (fun x => decide (x.2 ≤ c.rest.length)) ∧ Desc c.rest.length c.l ∧
        (∀ i, c.rest.length < i → i ≤ r.length - 1 → cnt L i = c.l.length) := by
      intro m e c hm
      obtain ⟨hk, hf⟩ := look_find hm
      have hnp : NotParen t := hwt (by rw [hk]; decide)
      obtain ⟨text, q, er, hq, hn, _, ha, _⟩ := c.facts (hE.va _ _ hf)
      obtain ⟨l1, l2, l3⟩ := c.locks_eq hd
      refine ⟨⟨text, q, er, fun a haa => ⟨?_, (ha a haa).2.1⟩⟩, l2, l3, ?_⟩
      · intro y hy
        obtain ⟨z, hz, ez⟩ := (ha a haa).2.2 y hy
        have := hwr z (by rw [er]; simp [hz])
        have e1 : y.kind = z.kind := by have := congrArg PTok.kind ez; exact this
        have e2 : y.text = z.text := by have := congrArg PTok.text ez; exact this
        unfold WfTok NotParen at this ⊢
        rw [e1, e2]; exact this
      · intro i h1 h2
        rw [l2]
        have hI' : Inv names outer L (t :: c.p :: (text ++ q :: c.rest)) := er ▸ hI
        refine call_cnt hI' hnp c.hp hn i h1 ?_
        have : r.length = text.length + c.rest.length + 2 := by have := congrArg List.length er; simp at this; omega
        omega
    -- the arguments end
    have argsEnd : ∃ F, ∀ m (c : Call E (fun o ts => expand E F o [] ts) outer L t r m), E.look t = some m → ∀ a ∈ c.args,
        Ends (expand E F (c.l.map Prod.fst ++ outer) [] a) := by
      by_cases hc : ∃ m, E.look t = some m ∧ Nonempty (Call E (fun _ _ => .fail) outer L t r m)
      · obtain ⟨m, hm, ⟨c⟩⟩ := hc
        obtain ⟨⟨text, q, er, ha⟩, l2, l3, l4⟩ := callFacts m _ c hm
        have hlen : r.length = text.length + c.rest.length + 2 := by have := congrArg List.length er; simp at this; omega
        have hsub : (c.l.map Prod.fst ++ outer).Sublist (L.map Prod.fst ++ outer) := by
          rw [l2]; exact (List.filter_sublist.map _).append_right _
        have hnd := hI.nodup.sublist hsub
        have hin : ∀ s ∈ c.l.map Prod.fst ++ outer, s ∈ names := fun s hs => hI.sub s (hsub.subset hs)
        have : ∀ a ∈ c.args, ∃ f, Ends (expand E f (c.l.map Prod.fst ++ outer) [] a) := by
          intro a haa
          refine IH (c.l.map Prod.fst ++ outer) [] a (Inv.arg hnd hin (ha a haa).1) ?_
          -- the weights
          have w1 : wt names (c.l.map Prod.fst ++ outer) [] a = List.replicate a.length (names.length - outer.length - c.l.length) := by
            unfold wt
            have := ws_const (names.length - (c.l.map Prod.fst ++ outer).length) [] 0 0 a.length (fun i _ _ => rfl)
            rw [Nat.zero_add] at this
            rw [this, ws, List.append_nil]
            congr 1
            simp; omega
          have w2 : ∃ top, wt names outer L (t :: r) = top ++ (List.replicate (text.length + 1) (names.length - outer.length - c.l.length) ++ ws (names.length - outer.length) L c.rest.length) := by
            unfold wt
            obtain ⟨top, ht⟩ := ws_split (names.length - outer.length) L (c.rest.length + (text.length + 1)) 2
            refine ⟨top, ?_⟩
            have e : (t :: r).length = c.rest.length + (text.length + 1) + 2 := by simp; omega
            rw [e, ht, ws_const _ _ _ _ _ (fun i h1 h2 => l4 i h1 (by omega))]
          obtain ⟨top, w2⟩ := w2
          rw [w1, w2]
          exact mlt_sub _ _ _ _ _ (ha a haa).2
        obtain ⟨F, hF⟩ := args_end E _ _ this
        refine ⟨F, ?_⟩
        intro m' c' hm'
        rw [hm] at hm'
        cases hm'
        obtain ⟨e1, e2⟩ := c'.same c
        rw [e1, e2]
        exact hF
      · refine ⟨0, ?_⟩
        intro m c hm
        obtain ⟨p, r1, as, rest, l, args, o, tl, hr, hp, prep, read⟩ := c
        exact absurd ⟨m, hm, ⟨⟨p, r1, as, rest, l, args, o, tl, hr, hp, prep, read⟩⟩⟩ hc
    obtain ⟨F, hF⟩ := argsEnd
    have hstep : Ends (expandMacro E (fun o ts => expand E F o [] ts) outer L t r) := by
      by_cases hk : ∃ m, E.look t = some m
      · obtain ⟨m0, hm0⟩ := hk
        refine expandMacro_ends E hT hE.va _ outer L t r ?_
        intro m c hf
        refine hF m c ?_
        rw [hm0, ← hf, ← (look_find hm0).2]
      · unfold expandMacro
        split
        · exact .done _
        · cases hl : E.look t with
          | none => exact .done _
          | some m => exact absurd ⟨m, hl⟩ hk
    -- with more fuel it is the same
    have hmono : ∀ g, F ≤ g → expandMacro E (fun o ts => expand E g o [] ts) outer L t r = expandMacro E (fun o ts => expand E F o [] ts) outer L t r := by
      intro g hg
      obtain ⟨k, rfl⟩ := Nat.le.dest hg
      exact ((expandMacro_mono E (fun o a => expand_mono E F o [] a k) outer L t r).eq hstep.1).symm
    have cont : ∀ g, F ≤ g → expand E (g + 1) outer L (t :: r) = (expandMacro E (fun o ts => expand E F o [] ts) outer L t r >>= fun s =>
        match s with
        | .inl t' => do
          let out ← expand E g outer (popLocks r.length L) r
          .done (t' :: out)
        | .inr (l, ts) => expand E g outer (popLocks ts.length l) ts) := by
      intro g hg
      rw [expand, hmono g hg]
      rfl
    cases hres : expandMacro E (fun o ts => expand E F o [] ts) outer L t r with
    | fail => exact ⟨F + 1, by rw [cont F (Nat.le_refl _), hres]; exact .fail⟩
    | crash => exact absurd hres hstep.2
    | more => exact absurd hres hstep.1
    | done s =>
      cases s with
      | inl t' =>
        obtain ⟨f, hf⟩ := IH outer L r (hI.emit hd) mlt_emit
        refine ⟨F + f + 1, ?_⟩
        rw [cont _ (Nat.le_add_right _ _), hres, Run.bind_done]
        dsimp only
        rw [expand_stable E hf.1 (Nat.le_add_left _ _)]
        exact hf.bind (fun _ _ => .done _)
      | inr s =>
        obtain ⟨hne, m, hm, hlock, hr⟩ := expandMacro_inr E _ _ _ _ _ _ hres
        obtain ⟨hk, hf⟩ := look_find hm
        have hlocked : ∀ l', (l'.map Prod.fst).Sublist (L.map Prod.fst) → isLocked outer l' t.text = false := by
          intro l' hs
          unfold isLocked at hlock ⊢
          simp only [Bool.or_eq_false_iff] at hlock ⊢
          refine ⟨hlock.1, ?_⟩
          cases hcc : (l'.map Prod.fst).contains t.text with
          | false => rfl
          | true =>
            have := hs.subset (List.contains_iff_mem.1 hcc)
            rw [List.contains_iff_mem.2 this] at hlock
            exact absurd hlock.2 (by simp)
        have hnames : ∀ l' : Locks, (l'.map Prod.fst).Sublist (L.map Prod.fst) → (t.text :: (l'.map Prod.fst ++ outer)).length ≤ names.length := by
          intro l' hs
          have hsub : (l'.map Prod.fst ++ outer).Sublist (L.map Prod.fst ++ outer) := hs.append_right _
          refine nodup_le (List.nodup_cons.2 ⟨?_, hI.nodup.sublist hsub⟩) ?_
          · intro hmem
            have := hlocked L (List.Sublist.refl _)
            unfold isLocked at this
            simp only [Bool.or_eq_false_iff] at this
            rcases List.mem_append.1 (hsub.subset hmem) with h | h
            · rw [List.contains_iff_mem.2 h] at this; exact absurd this.2 (by simp)
            · rw [List.contains_iff_mem.2 h] at this; exact absurd this.1 (by simp)
          · intro s hs'
            rcases List.mem_cons.1 hs' with rfl | hs'
            · exact hN _ _ hf
            · exact hI.sub s (hsub.subset hs')
        have hexp : KeepsClosed (fun o ts => expand E F o [] ts) := fun o a e he hwa => expand_closed hE F o [] a e he hwa
        rcases hr.shape hE hexp hf hk hI.wf with ⟨_, e⟩ | ⟨b, e, hb1, hb2⟩ | ⟨c, b, e, hb1, hb2⟩
        · -- a built-in: the token is emitted at once
          obtain ⟨f, hff⟩ := IH outer L r (hI.emit hd) mlt_emit
          refine ⟨F + f + 1 + 1, ?_⟩
          rw [cont _ (by omega), hres, Run.bind_done, e]
          dsimp only
          have hL : popLocks (align (E.builtin t) t :: r).length L = L := by
            show popLocks (t :: r).length L = L
            rw [(popLocks_eq hI.desc).1, List.filter_eq_self]
            intro l hl
            simpa using hlt l hl
          rw [hL, expand]
          have hem : ∀ ex, ∃ t', expandMacro E ex outer L (align (E.builtin t) t) r = .done (.inl t') := by
            intro ex
            unfold expandMacro
            split
            · exact ⟨_, rfl⟩
            · have : E.look (align (E.builtin t) t) = none := by
                unfold Mac.Env.look
                rw [if_neg (by rw [align_kind]; exact (hE.builtin t).2)]
              rw [this]; exact ⟨_, rfl⟩
          obtain ⟨t', ht'⟩ := hem (fun o ts => expand E (F + f) o [] ts)
          rw [ht', Run.bind_done]
          dsimp only
          rw [expand_stable E hff.1 (Nat.le_add_left _ _)]
          exact hff.bind (fun _ _ => .done _)
        · have hfil : L.filter (fun x => decide (x.2 ≤ r.length)) = L := by
            rw [List.filter_eq_self]
            intro l hl
            have := hlt l hl; simp at this ⊢; omega
          have hlt2 := mlt_enter (names := names) (outer := outer) (locks := L) (t := t) (pre := [t]) (rest := r) (b := b) (toks := t :: r) (by simp) (by simp; omega)
            (by rw [hfil]; exact hnames L (List.Sublist.refl _))
          rw [hfil] at hlt2
          obtain ⟨f, hff⟩ := IH outer _ _ (Inv.enter (pre := [t]) (rest := r) hI hd (hN _ _ hf) hlock hb2 hb1) hlt2
          refine ⟨F + f + 1, ?_⟩
          rw [cont _ (Nat.le_add_right _ _), hres, Run.bind_done, e]
          show Ends (expand E (F + f) outer (popLocks (enter L t b r).2.length (enter L t b r).1) (enter L t b r).2)
          rw [expand_stable E hff.1 (Nat.le_add_left _ _)]
          exact hff
        · obtain ⟨⟨text, q, er, ha⟩, l2, l3, l4⟩ := callFacts m _ c hm
          have hsl : (c.l.map Prod.fst).Sublist (L.map Prod.fst) := by rw [l2]; exact List.filter_sublist.map _
          have hlen : (t :: r).length = (t :: c.p :: (text ++ [q])).length + c.rest.length := by
            have := congrArg List.length er; simp at this ⊢; omega
          have hI' : Inv names outer c.l ((t :: c.p :: (text ++ [q])) ++ c.rest) := by
            have e1 : (t :: c.p :: (text ++ [q])) ++ c.rest = t :: r := by
              have : t :: r = t :: (c.p :: (text ++ q :: c.rest)) := congrArg _ er
              refine Eq.trans ?_ this.symm
              simp
            rw [e1, l2]
            refine hI.filter ?_
            rw [← l2]
            have : Desc r.length c.l := by
              cases hcl : c.l with
              | nil => trivial
              | cons x xs =>
                rw [hcl] at l3
                exact ⟨by have := l3.1; have := (c.locks_eq hd).1; omega, l3.2⟩
            cases hcl : c.l with
            | nil => trivial
            | cons x xs => rw [hcl] at this; exact ⟨by have := this.1; simp; omega, this.2⟩
          have hlt2 := mlt_enter (names := names) (outer := outer) (locks := L) (t := t) (pre := t :: c.p :: (text ++ [q])) (rest := c.rest) (b := b) (toks := t :: r) (by simp) hlen
            (by rw [← l2]; exact hnames c.l hsl)
          rw [← l2] at hlt2
          obtain ⟨f, hff⟩ := IH outer _ _ (Inv.enter hI' l3 (hN _ _ hf) (hlocked _ hsl) hb2 hb1) hlt2
          refine ⟨F + f + 1, ?_⟩
          rw [cont _ (Nat.le_add_right _ _), hres, Run.bind_done, e]
          show Ends (expand E (F + f) outer (popLocks (enter c.l t b c.rest).2.length (enter c.l t b c.rest).1) (enter c.l t b c.rest).2)
          rw [expand_stable E hff.1 (Nat.le_add_left _ _)]
          exact hff

end Slimcc.MacL
