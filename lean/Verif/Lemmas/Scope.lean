import Verif.Model.Scope
/-!
The scopes of the parser follow the declarations that can be seen.
-/
set_option autoImplicit false
namespace Slimcc.ScpL
open Slimcc.Spec Slimcc.Scp

theorem getEntry_eq (n : List Nat) (l : List (List Nat × Ent)) : getEntry n l = latestOf n l := by
  induction l with
  | nil => rfl
  | cons d l ih => obtain ⟨m, v⟩ := d; simp only [getEntry, latestOf, ih]

theorem latest_append (n : List Nat) (a b : List (List Nat × Ent)) :
    latestOf n (a ++ b) = match latestOf n a with | some v => some v | none => latestOf n b := by
  induction a with
  | nil => rfl
  | cons d a ih =>
    obtain ⟨m, v⟩ := d
    simp only [List.cons_append, latestOf]
    by_cases h : m = n
    · simp [h]
    · simp [h, ih]

theorem noDecl_meanings (b : Hist) : ∀ (l1 o1 l2 o2 : Decls), noDecl b = true → l1.over o1 = l2.over o2 →
    (meanings b l1 o1).1 = (meanings b l2 o2).1 ∧ (meanings b l1 o1).2 = l1 := by
  induction b with
  | nil => intro l1 o1 l2 o2 _ _; exact ⟨rfl, rfl⟩
  | var n v r _ => intro l1 o1 l2 o2 h; cases h
  | tag n v r _ => intro l1 o1 l2 o2 h; cases h
  | useVar n r ih =>
    intro l1 o1 l2 o2 h he
    obtain ⟨h1, h2⟩ := ih l1 o1 l2 o2 h he
    simp only [meanings, he, h1, h2, and_self]
  | useTag n r ih =>
    intro l1 o1 l2 o2 h he
    obtain ⟨h1, h2⟩ := ih l1 o1 l2 o2 h he
    simp only [meanings, he, h1, h2, and_self]
  | block b r _ ih =>
    intro l1 o1 l2 o2 h he
    obtain ⟨h1, h2⟩ := ih l1 o1 l2 o2 h he
    simp only [meanings, he, h1, h2, and_self]
  | tmp b r ihb ih =>
    intro l1 o1 l2 o2 h he
    simp only [noDecl, Bool.and_eq_true] at h
    obtain ⟨h1, h2⟩ := ihb l1 o1 l2 o2 h.1 he
    obtain ⟨_, h2'⟩ := ihb l2 o2 l1 o1 h.1 he.symm
    obtain ⟨h3, h4⟩ := ih l1 o1 l2 o2 h.2 he
    simp only [meanings, h1, h2, h2', h3, h4, and_self]
  | fn ps f body r _ _ _ => intro l1 o1 l2 o2 h; cases h

/-- The chain of parents from a scope, all below `k`, with what they declare. -/
inductive Outer (scopes : List Sc) : Nat → Option Nat → Decls → Prop
  | none {k : Nat} : Outer scopes k none ⟨[], []⟩
  | some {k p : Nat} {sc : Sc} {e : Decls} : p < k → scopes[p]? = some sc → sc.freed = false → Outer scopes p sc.parent e →
      Outer scopes k (some p) (Decls.over ⟨sc.vars, sc.tags⟩ e)

theorem Outer.same {a b : List Sc} {k : Nat} {p : Option Nat} {e : Decls} (h : Outer a k p e) :
    (∀ i, i < k → b[i]? = a[i]?) → Outer b k p e := by
  induction h with
  | none => intro _; exact .none
  | some hp hs hf _ ih => intro hab; exact .some hp (by rw [hab _ hp]; exact hs) hf (ih (fun i hi => hab i (by omega)))

theorem Outer.weaken {a : List Sc} {k j : Nat} {p : Option Nat} {e : Decls} (h : Outer a k p e) (hj : k ≤ j) : Outer a j p e := by
  cases h with
  | none => exact .none
  | some hp hs hf ho => exact .some (by omega) hs hf ho

theorem walk_vars {scopes : List Sc} {k : Nat} {p : Option Nat} {e : Decls} (h : Outer scopes k p e) (n : List Nat) :
    ∀ m, k ≤ m → walk Sc.vars n scopes m p = .ok (latestOf n e.vars) := by
  induction h with
  | none => intro m _; cases m <;> rfl
  | @some k p sc e hp hs hf _ ih =>
    intro m hm
    obtain ⟨m, rfl⟩ : ∃ j, m = j + 1 := ⟨m - 1, by omega⟩
    simp only [walk, hs, hf, getEntry_eq, Decls.over, latest_append]
    cases latestOf n sc.vars with
    | some v => rfl
    | none => exact ih m (by omega)

theorem walk_tags {scopes : List Sc} {k : Nat} {p : Option Nat} {e : Decls} (h : Outer scopes k p e) (n : List Nat) :
    ∀ m, k ≤ m → walk Sc.tags n scopes m p = .ok (latestOf n e.tags) := by
  induction h with
  | none => intro m _; cases m <;> rfl
  | @some k p sc e hp hs hf _ ih =>
    intro m hm
    obtain ⟨m, rfl⟩ : ∃ j, m = j + 1 := ⟨m - 1, by omega⟩
    simp only [walk, hs, hf, getEntry_eq, Decls.over, latest_append]
    cases latestOf n sc.tags with
    | some v => rfl
    | none => exact ih m (by omega)

/-- The scope of the parser has declared `loc`, and its parents `out`. -/
structure Inv (s : PS) (loc out : Decls) : Prop where
  lt : s.cur < s.scopes.length
  here : ∃ sc, s.scopes[s.cur]? = some sc ∧ sc.freed = false ∧ loc = ⟨sc.vars, sc.tags⟩ ∧ Outer s.scopes s.cur sc.parent out

/-- Nothing but the scope of the parser itself and new scopes has changed. -/
structure Keep (s s' : PS) : Prop where
  cur : s'.cur = s.cur
  inFn : s'.inFn = s.inFn
  len : s.scopes.length ≤ s'.scopes.length
  same : ∀ i, i < s.scopes.length → i ≠ s.cur → s'.scopes[i]? = s.scopes[i]?
  parent : ∀ sc sc', s.scopes[s.cur]? = some sc → s'.scopes[s.cur]? = some sc' → sc'.parent = sc.parent

theorem Keep.refl (s : PS) : Keep s s :=
  ⟨rfl, rfl, Nat.le_refl _, fun _ _ _ => rfl, fun sc sc' h h' => by rw [h] at h'; cases h'; rfl⟩

theorem Keep.trans {a b c : PS} (hab : Keep a b) (hbc : Keep b c) (hlt : a.cur < a.scopes.length) : Keep a c := by
  have hl := hab.len
  refine ⟨hbc.cur.trans hab.cur, hbc.inFn.trans hab.inFn, by have := hbc.len; omega, fun i hi hne => ?_, fun sc sc' h h' => ?_⟩
  · rw [hbc.same i (by omega) (by rw [hab.cur]; exact hne)]; exact hab.same i hi hne
  · obtain ⟨m, hm⟩ : ∃ m, b.scopes[a.cur]? = some m := by
      rw [List.getElem?_eq_getElem (show a.cur < b.scopes.length by omega)]; exact ⟨_, rfl⟩
    rw [hbc.parent m sc' (by rw [hab.cur]; exact hm) (by rw [hab.cur]; exact h'), hab.parent sc m h hm]

theorem Inv.over {s : PS} {loc out : Decls} (h : Inv s loc out) : Outer s.scopes (s.cur + 1) (some s.cur) (loc.over out) := by
  obtain ⟨_, sc, hs, hf, rfl, ho⟩ := h
  exact .some (by omega) hs hf ho

theorem Inv.enter {s : PS} {loc out : Decls} (h : Inv s loc out) : Inv (enterScope s) ⟨[], []⟩ (loc.over out) := by
  refine ⟨by simp [enterScope], ⟨some s.cur, [], [], false⟩, by simp [enterScope], rfl, rfl, ?_⟩
  refine (h.over.weaken h.lt).same (fun i hi => ?_)
  simp only [enterScope] at hi ⊢
  rw [List.getElem?_append_left (by simpa using hi)]

/-- What comes of a history. -/
def Follows (h : Hist) (s : PS) (loc out : Decls) : Prop :=
  ∃ s', run (calls h) s = .ok (s', (meanings h loc out).1) ∧ Inv s' (meanings h loc out).2 out ∧ Keep s s'

theorem run_append (a b : List Call) (s : PS) :
    run (a ++ b) s = (run a s >>= fun r => run b r.1 >>= fun q => .ok (q.1, r.2 ++ q.2)) := by
  induction a generalizing s with
  | nil =>
    simp only [List.nil_append, run, Outcome.bind_ok]
    cases run b s with
    | ok q => rfl
    | error => rfl
    | ub => rfl
  | cons c a ih =>
    simp only [List.cons_append, run]
    cases call c s with
    | error => rfl
    | ub => rfl
    | ok r =>
      simp only [Outcome.bind_ok, ih]
      cases run a r.1 with
      | error => rfl
      | ub => rfl
      | ok q =>
        simp only [Outcome.bind_ok]
        cases run b q.1 with
        | error => rfl
        | ub => rfl
        | ok q2 => simp [List.append_assoc]

theorem run_then {a b : List Call} {s s1 s2 : PS} {r1 r2 : List (Option Ent)} (h1 : run a s = .ok (s1, r1)) (h2 : run b s1 = .ok (s2, r2)) :
    run (a ++ b) s = .ok (s2, r1 ++ r2) := by
  rw [run_append, h1]; simp only [Outcome.bind_ok, h2]

theorem run_cons {c : Call} {b : List Call} {s s1 s2 : PS} {r1 r2 : List (Option Ent)} (h1 : call c s = .ok (s1, r1)) (h2 : run b s1 = .ok (s2, r2)) :
    run (c :: b) s = .ok (s2, r1 ++ r2) := by
  simp only [run, h1, Outcome.bind_ok, h2]

/-- Leaving the scope that was entered. -/
theorem leave_ok {s s1 : PS} {loc out loc' : Decls} (h : Inv s loc out) (hk : Keep (enterScope s) s1) (h1 : Inv s1 loc' (loc.over out)) :
    ∃ s2, leaveScope s1 = .ok s2 ∧ Inv s2 loc out ∧ Keep s s2 := by
  obtain ⟨hlt, sc, hs, hf, rfl, ho⟩ := h
  have hlen : s.scopes.length < s1.scopes.length := by have := hk.len; simp [enterScope] at this; omega
  have hcur : s1.cur = s.scopes.length := hk.cur
  have hfn : s1.inFn = s.inFn := hk.inFn
  have hold : ∀ i, i < s.scopes.length → s1.scopes[i]? = s.scopes[i]? := by
    intro i hi
    rw [hk.same i (by simp [enterScope]; omega) (by simp [enterScope]; omega)]
    simp only [enterScope]; rw [List.getElem?_append_left hi]
  obtain ⟨_, sc1, hs1, _, _, _⟩ := h1
  have hpar : sc1.parent = some s.cur := by
    have := hk.parent ⟨some s.cur, [], [], false⟩ sc1 (by simp [enterScope]) (by rw [show (enterScope s).cur = s1.cur from hcur.symm]; exact hs1)
    exact this
  refine ⟨_, by simp only [leaveScope, hs1, hpar]; rfl, ?_, ?_⟩
  · have hnew : ∀ i, i < s.scopes.length → (if s1.inFn then s1.scopes.set s1.cur sc1.free else s1.scopes)[i]? = s.scopes[i]? := by
      intro i hi
      split
      · rw [List.getElem?_set_ne (by omega)]; exact hold i hi
      · exact hold i hi
    refine ⟨?_, sc, by rw [hnew _ hlt]; exact hs, hf, rfl, ho.same (fun i hi => hnew i (by omega))⟩
    dsimp only; split <;> (try simp only [List.length_set]) <;> omega
  · refine ⟨rfl, hfn, ?_, fun i hi _ => ?_, fun a b ha hb => ?_⟩
    · dsimp only; split <;> (try simp only [List.length_set]) <;> omega
    · simp only; split
      · rw [List.getElem?_set_ne (by omega)]; exact hold i hi
      · exact hold i hi
    · simp only at hb
      have : (if s1.inFn then s1.scopes.set s1.cur sc1.free else s1.scopes)[s.cur]? = s.scopes[s.cur]? := by
        split
        · rw [List.getElem?_set_ne (by omega)]; exact hold _ hlt
        · exact hold _ hlt
      rw [this, ha] at hb; cases hb; rfl

theorem push_var_ok {s : PS} {loc out : Decls} (h : Inv s loc out) (n : List Nat) (v : Ent) :
    ∃ s', pushScope n v s = .ok s' ∧ Inv s' ⟨(n, v) :: loc.vars, loc.tags⟩ out ∧ Keep s s' := by
  obtain ⟨hlt, sc, hs, hf, rfl, ho⟩ := h
  refine ⟨_, by simp only [pushScope, hs, hf]; rfl, ⟨by simpa using hlt, { sc with vars := (n, v) :: sc.vars }, ?_, hf, rfl, ?_⟩, ?_⟩
  · simp [List.getElem?_set_self hlt, hf]
  · refine ho.same (fun i hi => ?_)
    rw [List.getElem?_set_ne (by omega)]
  · refine ⟨rfl, rfl, by simp, fun i hi hne => ?_, fun a b ha hb => ?_⟩
    · rw [List.getElem?_set_ne (fun h => hne h.symm)]
    · simp only [List.getElem?_set_self hlt] at hb
      rw [hs] at ha; cases ha; cases hb; rfl

theorem push_tag_ok {s : PS} {loc out : Decls} (h : Inv s loc out) (n : List Nat) (v : Ent) :
    ∃ s', pushTagScope n v s = .ok s' ∧ Inv s' ⟨loc.vars, (n, v) :: loc.tags⟩ out ∧ Keep s s' := by
  obtain ⟨hlt, sc, hs, hf, rfl, ho⟩ := h
  refine ⟨_, by simp only [pushTagScope, hs, hf]; rfl, ⟨by simpa using hlt, { sc with tags := (n, v) :: sc.tags }, ?_, hf, rfl, ?_⟩, ?_⟩
  · simp [List.getElem?_set_self hlt, hf]
  · refine ho.same (fun i hi => ?_)
    rw [List.getElem?_set_ne (by omega)]
  · refine ⟨rfl, rfl, by simp, fun i hi hne => ?_, fun a b ha hb => ?_⟩
    · rw [List.getElem?_set_ne (fun h => hne h.symm)]
    · simp only [List.getElem?_set_self hlt] at hb
      rw [hs] at ha; cases ha; cases hb; rfl

theorem findVar_ok {s : PS} {loc out : Decls} (h : Inv s loc out) (n : List Nat) : findVar n s = .ok (latestOf n (loc.over out).vars) :=
  walk_vars h.over n _ h.lt

theorem findTag_ok {s : PS} {loc out : Decls} (h : Inv s loc out) (n : List Nat) : findTag n s = .ok (latestOf n (loc.over out).tags) :=
  walk_tags h.over n _ h.lt

theorem name_ok {s : PS} {loc out : Decls} (h : Inv s loc out) (f : Option (List Nat × Ent)) :
    ∃ s', run (nameCall f) s = .ok (s', []) ∧ Inv s' (loc.name f) out ∧ Keep s s' ∧ s'.proto = s.proto := by
  cases f with
  | none => exact ⟨s, rfl, h, Keep.refl s, rfl⟩
  | some d =>
    obtain ⟨f, v⟩ := d
    obtain ⟨s', h1, h2, h3⟩ := push_var_ok h f v
    refine ⟨s', by simp only [nameCall, run, call, h1, silent, Outcome.bind_ok, List.append_nil], h2, h3, ?_⟩
    simp only [pushScope] at h1
    split at h1
    · cases h1
    · split at h1
      · cases h1
      · cases h1; rfl


theorem leave_eq {s : PS} {sc : Sc} {p : Nat} (hs : s.scopes[s.cur]? = some sc) (hp : sc.parent = some p) :
    leaveScope s = .ok { s with scopes := if s.inFn then s.scopes.set s.cur sc.free else s.scopes, cur := p } := by
  simp only [leaveScope, hs, hp]

theorem freed_other {s : PS} {sc : Sc} {i : Nat} (hi : i ≠ s.cur) : (if s.inFn then s.scopes.set s.cur sc.free else s.scopes)[i]? = s.scopes[i]? := by
  split
  · rw [List.getElem?_set_ne (fun h => hi h.symm)]
  · rfl

theorem freed_len (s : PS) (sc : Sc) : (if s.inFn then s.scopes.set s.cur sc.free else s.scopes).length = s.scopes.length := by
  split <;> simp

/-- A block. -/
theorem block_ok {b : Hist} {s : PS} {loc out : Decls} (h : Inv s loc out) (ih : Follows b (enterScope s) ⟨[], []⟩ (loc.over out)) :
    ∃ s', run (.enter :: (calls b ++ [.leave])) s = .ok (s', (meanings b ⟨[], []⟩ (loc.over out)).1) ∧ Inv s' loc out ∧ Keep s s' := by
  obtain ⟨s1, hr, hi, hk⟩ := ih
  obtain ⟨s2, hl, hi2, hk2⟩ := leave_ok h hk hi
  refine ⟨s2, ?_, hi2, hk2⟩
  have hlast : run [.leave] s1 = .ok (s2, []) := by simp only [run, call, hl, silent, Outcome.bind_ok, List.append_nil]
  have := run_cons (c := .enter) (s := s) (r1 := []) rfl (run_then hr hlast)
  simpa using this

/-- A function. -/
theorem fn_ok {ps body : Hist} {f : Option (List Nat × Ent)} {s : PS} {loc out : Decls} (h : Inv s loc out) (hfn : s.inFn = false)
    (ihp : Follows ps (enterScope s) ⟨[], []⟩ (loc.over out))
    (ihb : ∀ (t : PS) (l o : Decls), Inv t l o → Follows body t l o) :
    ∃ s', run (.enter :: (calls ps ++ .leaveParams :: (nameCall f ++ .enterBody :: .enter :: (calls body ++ [.leave, .leaveBody])))) s =
        .ok (s', (meanings ps ⟨[], []⟩ (loc.over out)).1 ++
          (meanings body ⟨[], []⟩ ((meanings ps ⟨[], []⟩ (loc.over out)).2.over ((loc.name f).over out))).1) ∧
      Inv s' (loc.name f) out ∧ Keep s s' := by
  obtain ⟨s1, hr1, hi1, hk1⟩ := ihp
  -- the parameters
  have hlt := h.lt
  have hlen1 : s.scopes.length < s1.scopes.length := by have := hk1.len; simp [enterScope] at this; omega
  have hcur1 : s1.cur = s.scopes.length := hk1.cur
  have hfn1 : s1.inFn = false := hk1.inFn.trans hfn
  obtain ⟨s2, hl2, hi2, hk2⟩ := leave_ok (s1 := { s1 with proto := s1.cur }) h ⟨hk1.cur, hk1.inFn, hk1.len, hk1.same, hk1.parent⟩ ⟨hi1.lt, hi1.here⟩
  obtain ⟨_, sc1, hs1, hf1, hl1, ho1⟩ := hi1
  have hpar : sc1.parent = some s.cur :=
    hk1.parent ⟨some s.cur, [], [], false⟩ sc1 (by simp [enterScope]) (by rw [show (enterScope s).cur = s1.cur from hcur1.symm]; exact hs1)
  have he2 : s2 = { s1 with proto := s1.cur, cur := s.cur } := by
    rw [leave_eq (s := { s1 with proto := s1.cur }) (sc := sc1) hs1 hpar] at hl2
    simp only [hfn1] at hl2
    cases hl2; simp [hfn1]
  obtain ⟨s3, hr3, hi3, hk3, hp3⟩ := name_ok hi2 f
  have hcur3 : s3.cur = s.cur := by rw [hk3.cur, he2]
  have hpr3 : s3.proto = s.scopes.length := by rw [hp3, he2]; exact hcur1
  have hsc3 : s3.scopes[s.scopes.length]? = some sc1 := by
    rw [hk3.same _ (by rw [he2]; exact hlen1) (by rw [he2]; exact (by omega : s.scopes.length ≠ s.cur)), he2, ← hcur1]; exact hs1
  have hlen3 : s.scopes.length < s3.scopes.length := by have := hk3.len; rw [he2] at this; simp at this; omega
  -- the body
  have hi4 : Inv { s3 with cur := s3.proto, inFn := true } (meanings ps ⟨[], []⟩ (loc.over out)).2 ((loc.name f).over out) := by
    refine ⟨by simp only [hpr3]; exact hlen3, sc1, by simp only [hpr3]; exact hsc3, hf1, hl1, ?_⟩
    rw [hpar]
    have := hi3.over
    rw [hcur3] at this
    exact this.weaken (by simp only [hpr3]; omega)
  obtain ⟨s6, hr6, hi6, hk6⟩ := block_ok hi4 (ihb _ _ _ hi4.enter)
  have hcur6 : s6.cur = s.scopes.length := by rw [hk6.cur]; exact hpr3
  obtain ⟨hlt6, sc6, hs6, hf6, hl6, ho6⟩ := hi6
  have hpar6 : sc6.parent = some s.cur := by
    rw [← hpar]
    exact hk6.parent sc1 sc6 (by simp only [hpr3]; exact hsc3) (by simp only [hpr3, ← hcur6]; exact hs6)
  have hold : ∀ i, i < s3.scopes.length → i ≠ s.scopes.length → s6.scopes[i]? = s3.scopes[i]? := by
    intro i hi hne
    exact hk6.same i hi (by simp only [hpr3]; exact hne)
  have hlen6 : s3.scopes.length ≤ s6.scopes.length := hk6.len
  have hl7 := leave_eq hs6 hpar6
  obtain ⟨hlt3, sc3, hs3, hf3, hloc3, ho3⟩ := hi3
  rw [hcur3] at hs3 ho3
  refine ⟨{ s6 with scopes := if s6.inFn then s6.scopes.set s6.cur sc6.free else s6.scopes, cur := s.cur, inFn := false }, ?_, ?_, ?_⟩
  · have h7 : run [.leaveBody] s6 = .ok ({ s6 with scopes := if s6.inFn then s6.scopes.set s6.cur sc6.free else s6.scopes, cur := s.cur, inFn := false }, []) := by
      simp only [run, call, hl7, Outcome.bind_ok, silent, List.append_nil]
    have h6 := run_then hr6 h7
    rw [show (Call.enter :: (calls body ++ [.leave])) ++ [.leaveBody] = .enter :: (calls body ++ [.leave, .leaveBody]) by simp] at h6
    have h4 : run (.enterBody :: .enter :: (calls body ++ [.leave, .leaveBody])) s3 = _ := run_cons (r1 := []) rfl h6
    have h3 := run_then hr3 h4
    have h2 : run (.leaveParams :: (nameCall f ++ .enterBody :: .enter :: (calls body ++ [.leave, .leaveBody]))) s1 = _ :=
      run_cons (r1 := []) (by simp only [call, hl2, silent]) h3
    have h1 := run_then hr1 h2
    have h0 := run_cons (c := .enter) (s := s) (r1 := []) rfl h1
    simpa using h0
  · refine ⟨?_, sc3, ?_, hf3, hloc3, ?_⟩
    · simp only [freed_len]; omega
    · simp only [freed_other (show s.cur ≠ s6.cur by omega)]
      rw [hold s.cur (by omega) (by omega)]; exact hs3
    · refine ho3.same (fun i hi => ?_)
      have hi' : i < s.cur := hi
      simp only [freed_other (show i ≠ s6.cur by omega)]
      exact hold i (by omega) (by omega)
  · refine ⟨rfl, hfn.symm, ?_, fun i hi hne => ?_, fun a b ha hb => ?_⟩
    · simp only [freed_len]; omega
    · simp only [freed_other (show i ≠ s6.cur by omega)]
      rw [hold i (by omega) (by omega), hk3.same i (by rw [he2]; show i < s1.scopes.length; omega) (by rw [he2]; exact hne)]
      exact hk2.same i hi hne
    · simp only [freed_other (show s.cur ≠ s6.cur by omega)] at hb
      rw [hold s.cur (by omega) (by omega)] at hb
      have hk23 := hk2.trans hk3 hlt
      exact hk23.parent a b ha hb

theorem follows (h : Hist) : ∀ (s : PS) (loc out : Decls) (top : Bool), Inv s loc out → h.Ok top → (top = true → s.inFn = false) →
    Follows h s loc out := by
  induction h with
  | nil => intro s loc out _ hi _ _; exact ⟨s, rfl, hi, Keep.refl s⟩
  | var n v r ih =>
    intro s loc out top hi ho ht
    obtain ⟨s1, h1, hi1, hk1⟩ := push_var_ok hi n v
    obtain ⟨s2, h2, hi2, hk2⟩ := ih s1 _ out top hi1 ho (fun h => hk1.inFn.trans (ht h))
    exact ⟨s2, run_cons (r1 := []) (by simp only [call, h1, silent]) h2, hi2, hk1.trans hk2 hi.lt⟩
  | tag n v r ih =>
    intro s loc out top hi ho ht
    obtain ⟨s1, h1, hi1, hk1⟩ := push_tag_ok hi n v
    obtain ⟨s2, h2, hi2, hk2⟩ := ih s1 _ out top hi1 ho (fun h => hk1.inFn.trans (ht h))
    exact ⟨s2, run_cons (r1 := []) (by simp only [call, h1, silent]) h2, hi2, hk1.trans hk2 hi.lt⟩
  | useVar n r ih =>
    intro s loc out top hi ho ht
    obtain ⟨s2, h2, hi2, hk2⟩ := ih s loc out top hi ho ht
    exact ⟨s2, run_cons (r1 := [_]) (by simp only [call, findVar_ok hi, found]) h2, hi2, hk2⟩
  | useTag n r ih =>
    intro s loc out top hi ho ht
    obtain ⟨s2, h2, hi2, hk2⟩ := ih s loc out top hi ho ht
    exact ⟨s2, run_cons (r1 := [_]) (by simp only [call, findTag_ok hi, found]) h2, hi2, hk2⟩
  | block b r ihb ih =>
    intro s loc out top hi ho ht
    obtain ⟨s1, h1, hi1, hk1⟩ := block_ok hi (ihb _ _ _ false hi.enter ho.1 (fun h => by cases h))
    obtain ⟨s2, h2, hi2, hk2⟩ := ih s1 loc out top hi1 ho.2 (fun h => hk1.inFn.trans (ht h))
    refine ⟨s2, ?_, hi2, hk1.trans hk2 hi.lt⟩
    have := run_then h1 h2
    simpa [calls, meanings] using this
  | tmp b r ihb ih =>
    intro s loc out top hi ho ht
    obtain ⟨s1, h1, hi1, hk1⟩ := block_ok hi (ihb _ _ _ false hi.enter ho.1 (fun h => by cases h))
    obtain ⟨s2, h2, hi2, hk2⟩ := ih s1 loc out top hi1 ho.2.2 (fun h => hk1.inFn.trans (ht h))
    have he : Decls.over loc out = Decls.over ⟨[], []⟩ (loc.over out) := rfl
    have hd := noDecl_meanings b loc out ⟨[], []⟩ (loc.over out) ho.2.1 he
    refine ⟨s2, ?_, by simp only [meanings, hd.2]; exact hi2, hk1.trans hk2 hi.lt⟩
    have := run_then h1 h2
    simp only [meanings, hd.2, hd.1]
    simpa [calls, meanings] using this
  | fn ps f body r ihp ihb ih =>
    intro s loc out top hi ho ht
    obtain ⟨htop, hop, hob, hor⟩ := ho
    obtain ⟨s1, h1, hi1, hk1⟩ := fn_ok (f := f) hi (ht htop) (ihp _ _ _ false hi.enter hop (fun h => by cases h))
      (fun t l o hio => ihb t l o false hio hob (fun h => by cases h))
    obtain ⟨s2, h2, hi2, hk2⟩ := ih s1 _ out top hi1 hor (fun h => hk1.inFn.trans (ht h))
    refine ⟨s2, ?_, hi2, hk1.trans hk2 hi.lt⟩
    have := run_then h1 h2
    simpa [calls, meanings, List.append_assoc] using this

theorem init_inv : Inv PS.init ⟨[], []⟩ ⟨[], []⟩ := ⟨by simp [PS.init], ⟨none, [], [], false⟩, rfl, rfl, rfl, .none⟩

end Slimcc.ScpL
