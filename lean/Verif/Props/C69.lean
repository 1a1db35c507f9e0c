import Verif.Spec.Member
set_option autoImplicit false
/-!
C69 A member access denotes the member.
-/
namespace Slimcc.Props
open Slimcc.Mem Slimcc.Spec

/-- The sum of the offsets along the chain of nodes. -/
def totalOfs (l : List Member) : Nat := (l.map Member.ofs).sum

/-- The qualifiers of an anonymous member in an object. -/
def joinQ (q q2 : Quals) : Quals := { q2 with const := q.const || q2.const, volatile := q.volatile || q2.volatile }

theorem getMember_listed (n : List Nat) (m : Member) : ∀ (ms : Mems), getMember n ms = some m →
    Listed m ms ∧ (m.name = some n ∨ m.name = none ∧ m.ty.has n = true)
  | .nil, h => by simp [getMember] at h
  | .cons nm ofs ty rest, h => by
    rw [getMember] at h
    by_cases h1 : (nm.isNone && ty.has n) = true
    · rw [if_pos h1] at h
      cases h
      simp only [Bool.and_eq_true, Option.isNone_iff_eq_none] at h1
      exact ⟨.here ⟨nm, ofs, ty⟩ rest, .inr h1⟩
    · rw [if_neg h1] at h
      by_cases h2 : nm = some n
      · rw [if_pos h2] at h
        cases h
        exact ⟨.here ⟨nm, ofs, ty⟩ rest, .inl h2⟩
      · rw [if_neg h2] at h
        obtain ⟨a, b⟩ := getMember_listed n m rest h
        exact ⟨.there m _ _ _ _ a, b⟩

theorem getMember_has (n : List Nat) : ∀ (ms : Mems), (∃ m, getMember n ms = some m) ↔ ms.has n = true
  | .nil => by simp [getMember, Mems.has]
  | .cons nm ofs ty rest => by
    rw [getMember, Mems.has]
    have := getMember_has n rest
    by_cases h1 : (nm.isNone && ty.has n) = true
    · rw [if_pos h1]; simp [h1]
    · rw [if_neg h1]
      by_cases h2 : nm = some n
      · rw [if_pos h2]; simp [h2]
      · rw [if_neg h2, this]
        simp only [Bool.not_eq_true] at h1
        simp [h1, h2]

theorem has_listed (n : List Nat) {m : Member} {ms : Mems} (h : Listed m ms) (hm : m.name = some n ∨ m.name = none ∧ m.ty.has n = true) :
    ms.has n = true := by
  induction h with
  | here rest =>
    rw [Mems.has]
    rcases hm with hm | ⟨hm, ht⟩
    · simp [hm]
    · simp [hm, ht]
  | there nm o t rest _ ih => rw [Mems.has, ih, Bool.or_true]

theorem has_path (n : List Nat) {q q' : Quals} {ms : Mems} {o : Nat} {t : MTy} (h : MemPath n q ms o q' t) : ms.has n = true := by
  induction h with
  | named q ms o t h => exact has_listed n h (.inl rfl)
  | anon q q2 q' ms ms' u o o' t h _ ih => exact has_listed n h (.inr ⟨rfl, ih⟩)

/-- What the code finds, it finds along a path; and it gives the type the qualifiers of the innermost
structure only. -/
theorem ref_path (n : List Nat) : ∀ (k : Nat) (q q0 : Quals) (u : Bool) (ms : Mems), sizeOf (MTy.agg q u ms) < k → ms.has n = true →
    ∃ l t t' q' m, structRef n (.agg q u ms) = some (l, t') ∧ MemPath n q0 ms (totalOfs l) q' t ∧ l.getLast? = some m ∧
      m.name = some n ∧ m.ty = t ∧ (l.length = 1 → q' = q0 ∧ t' = applyCV t q) := by
  intro k
  induction k with
  | zero => intro q q0 u ms h; omega
  | succ k ih =>
    intro q q0 u ms hk hh
    obtain ⟨m, hm⟩ := (getMember_has n ms).mpr hh
    obtain ⟨hl, hn⟩ := getMember_listed n m ms hm
    rw [structRef]
    split
    · next h => rw [hm] at h; cases h
    · next m' h =>
      rw [hm] at h
      cases h
      obtain ⟨nm, ofs, ty⟩ := m
      rcases hn with hn | ⟨hn, ht⟩
      · simp only at hn
        subst hn
        refine ⟨_, ty, _, q0, _, rfl, ?_, rfl, rfl, rfl, fun _ => ⟨rfl, rfl⟩⟩
        simp only [totalOfs, List.map_cons, List.map_nil, List.sum_cons, List.sum_nil, Nat.add_zero]
        exact .named _ _ _ _ hl
      · simp only at hn ht
        subst hn
        cases ty with
        | other _ _ => simp [MTy.has] at ht
        | agg q2 u2 ms2 =>
          have hsz := getMember_size n _ ms hm
          simp only [MTy.agg.sizeOf_spec] at hsz hk
          obtain ⟨l, t, t', q', m, e1, e2, e3, e4, e5, -⟩ := ih q2 (joinQ q0 q2) u2 ms2
            (by simp only [MTy.agg.sizeOf_spec]; omega) (by rw [MTy.has] at ht; exact ht)
          simp only [e1]
          refine ⟨_, t, t', q', m, rfl, ?_, ?_, e4, e5, ?_⟩
          · simp only [totalOfs, List.map_cons, List.sum_cons]
            exact .anon q0 q2 q' ms ms2 u2 ofs (totalOfs l) t hl e2
          · rw [List.getLast?_cons, e3]; rfl
          · intro h
            cases l with
            | nil => cases e3
            | cons _ _ => simp at h

/-- **C69.** If the structure or union has one member of the name (directly or through anonymous members),
the access goes to that member: to its offset from the start, and to its type. -/
theorem C69_denotes (n : List Nat) (q : Quals) (u : Bool) (ms : Mems) (o : Nat) (q' : Quals) (t : MTy) (h : MemPath n q ms o q' t)
    (huniq : ∀ o2 q2 t2, MemPath n q ms o2 q2 t2 → o2 = o ∧ q2 = q' ∧ t2 = t) :
    ∃ l t' m, structRef n (.agg q u ms) = some (l, t') ∧ totalOfs l = o ∧ l.getLast? = some m ∧ m.name = some n ∧ m.ty = t := by
  obtain ⟨l, t2, t', q2, m, h1, h2, h3, h4, h5, -⟩ := ref_path n _ q q u ms (Nat.lt_succ_self _) (has_path n h)
  obtain ⟨e1, -, e3⟩ := huniq _ _ _ h2
  exact ⟨l, t', m, h1, e1, h3, h4, h5.trans e3⟩

/-- Even if names repeat, what the access goes to is a member of the name. -/
theorem C69_sound (n : List Nat) (ty : MTy) (l : List Member) (t' : MTy) (h : structRef n ty = some (l, t')) :
    ∃ q u ms q' t m, ty = .agg q u ms ∧ MemPath n q ms (totalOfs l) q' t ∧ l.getLast? = some m ∧ m.name = some n ∧ m.ty = t := by
  cases ty with
  | other _ _ => rw [structRef] at h; cases h
  | agg q u ms =>
    by_cases hh : ms.has n = true
    · obtain ⟨l2, t, t2, q2, m, h1, h2, h3, h4, h5, -⟩ := ref_path n _ q q u ms (Nat.lt_succ_self _) hh
      rw [h] at h1
      cases h1
      exact ⟨q, u, ms, q2, t, m, rfl, h2, h3, h4, h5⟩
    · exfalso
      rw [structRef] at h
      split at h
      · cases h
      · next m hm => exact hh ((getMember_has n ms).mp ⟨m, hm⟩)

/-- **The access is refused exactly if there is no such member** (or no structure). -/
theorem C69_refused (n : List Nat) (ty : MTy) :
    structRef n ty = none ↔ ∀ q u ms, ty = .agg q u ms → ∀ o q' t, ¬ MemPath n q ms o q' t := by
  constructor
  · rintro h q u ms rfl o q' t hp
    obtain ⟨l, _, t', _, _, h1, -⟩ := ref_path n _ q q u ms (Nat.lt_succ_self _) (has_path n hp)
    rw [h] at h1
    cases h1
  · intro h
    cases hr : structRef n ty with
    | none => rfl
    | some r =>
      obtain ⟨q, u, ms, q', t, m, e, hp, -⟩ := C69_sound n ty r.1 r.2 hr
      exact absurd hp (h q u ms e _ _ _)

theorem cv_object (t : MTy) (q : Quals) (ha : t.quals.atomic = false) (hr : t.quals.restrict = false) : applyCV t q = withObject t q := by
  unfold applyCV withObject
  obtain ⟨a, c, v, r⟩ := q
  cases t with
  | other qq i =>
    obtain ⟨a', c', v', r'⟩ := qq
    simp only [MTy.quals] at ha hr
    subst ha hr
    cases c <;> cases v <;> cases c' <;> cases v' <;> simp [MTy.quals, MTy.withQuals]
  | agg qq uu mm =>
    obtain ⟨a', c', v', r'⟩ := qq
    simp only [MTy.quals] at ha hr
    subst ha hr
    cases c <;> cases v <;> cases c' <;> cases v' <;> simp [MTy.quals, MTy.withQuals]

/-- **The qualifiers of the object are added**, for a member that is not in an anonymous one and is
neither atomic nor `restrict` (see below). -/
theorem C69_qualifiers (n : List Nat) (q : Quals) (u : Bool) (ms : Mems) (o : Nat) (q' : Quals) (t : MTy) (h : MemPath n q ms o q' t)
    (huniq : ∀ o2 q2 t2, MemPath n q ms o2 q2 t2 → o2 = o ∧ q2 = q' ∧ t2 = t)
    (hanon : ∀ o2 qa ua msa, Listed ⟨none, o2, .agg qa ua msa⟩ ms → ∀ o3 q3 t3, ¬ MemPath n qa msa o3 q3 t3)
    (ha : t.quals.atomic = false) (hr : t.quals.restrict = false) :
    ∃ l, structRef n (.agg q u ms) = some (l, withObject t q) := by
  obtain ⟨l, t2, t', q2, m, h1, h2, h3, h4, h5, h6⟩ := ref_path n _ q q u ms (Nat.lt_succ_self _) (has_path n h)
  obtain ⟨e1, e2, e3⟩ := huniq _ _ _ h2
  subst e3
  refine ⟨l, ?_⟩
  have hlen : l.length = 1 := by
    rw [structRef] at h1
    split at h1
    · cases h1
    · next m' hm =>
      obtain ⟨hl, hn⟩ := getMember_listed n m' ms hm
      obtain ⟨nm, ofs, ty⟩ := m'
      rcases hn with hn | ⟨hn, ht⟩
      · simp only at hn
        subst hn
        simp only at h1
        cases h1
        rfl
      · simp only at hn ht
        subst hn
        cases ty with
        | other _ _ => simp [MTy.has] at ht
        | agg qa ua msa =>
          obtain ⟨_, _, _, _, _, -, hp, -⟩ := ref_path n _ qa qa ua msa (Nat.lt_succ_self _) (by rw [MTy.has] at ht; exact ht)
          exact absurd hp (hanon _ _ _ _ hl _ _ _)
  obtain ⟨-, e⟩ := h6 hlen
  rw [h1, e, cv_object t2 q ha hr]

/-! ### A concrete case

`const volatile struct { int a; union { struct { int b; }; long c; }; const int d; }` with `a` at 0, `b` and `c` at 8
and `d` at 16. -/

def exMemQ : Quals := { const := true, volatile := true }
def exMemInner : Mems := .cons (some [98]) 0 (.other {} 0) .nil
def exMemUnion : Mems := .cons none 0 (.agg {} false exMemInner) (.cons (some [99]) 0 (.other {} 1) .nil)
def exMemList : Mems := .cons (some [97]) 0 (.other {} 0) (.cons none 8 (.agg {} true exMemUnion) (.cons (some [100]) 16 (.other { const := true } 0) .nil))

theorem listed_cons {m : Member} {nm : Option (List Nat)} {o : Nat} {t : MTy} {rest : Mems} :
    Listed m (.cons nm o t rest) ↔ (m = ⟨nm, o, t⟩ ∨ Listed m rest) := by
  constructor
  · intro h
    cases h with
    | here _ => exact .inl rfl
    | there _ _ _ _ h => exact .inr h
  · rintro (rfl | h)
    · exact .here _ _
    · exact .there _ _ _ _ _ h

theorem listed_nil {m : Member} : ¬ Listed m .nil := by intro h; cases h

theorem exMemD_path : MemPath [100] exMemQ exMemList 16 exMemQ (.other { const := true } 0) :=
  .named _ _ _ _ (.there _ _ _ _ _ (.there _ _ _ _ _ (.here ⟨_, _, _⟩ _)))

theorem exMemB_path : MemPath [98] exMemQ exMemList (8 + (0 + 0)) exMemQ (.other {} 0) :=
  .anon exMemQ {} _ _ exMemUnion true 8 _ _ (.there _ _ _ _ _ (.here ⟨_, _, _⟩ _))
    (.anon exMemQ {} _ _ exMemInner false 0 0 _ (.here ⟨_, _, _⟩ _) (.named _ _ _ _ (.here ⟨_, _, _⟩ _)))

theorem exMemInner_paths {n : List Nat} {q q' : Quals} {o : Nat} {t : MTy} (h : MemPath n q exMemInner o q' t) : n = [98] ∧ o = 0 ∧ q' = q ∧ t = .other {} 0 := by
  cases h with
  | named _ _ _ _ h => simp [exMemInner, listed_cons, listed_nil] at h; simp [h]
  | anon _ _ _ _ _ _ _ _ _ h _ => simp [exMemInner, listed_cons, listed_nil] at h

theorem exMemUnion_paths {n : List Nat} {q q' : Quals} {o : Nat} {t : MTy} (hq : q = exMemQ ∨ q = {}) (h : MemPath n q exMemUnion o q' t) :
    (n = [98] ∧ o = 0 ∧ q' = q ∧ t = .other {} 0) ∨ (n = [99] ∧ o = 0 ∧ q' = q ∧ t = .other {} 1) := by
  cases h with
  | named _ _ _ _ h => simp [exMemUnion, listed_cons, listed_nil] at h; simp [h]
  | anon _ _ _ _ _ _ o1 o2 _ h hp =>
    simp only [exMemUnion, listed_cons, listed_nil, or_false, Member.mk.injEq, MTy.agg.injEq, reduceCtorEq, false_and, true_and] at h
    obtain ⟨rfl, rfl, -, rfl⟩ := h
    obtain ⟨h1, h2, h3, h4⟩ := exMemInner_paths hp
    left
    refine ⟨h1, by omega, ?_, h4⟩
    rw [h3]
    rcases hq with rfl | rfl <;> rfl

theorem exMemList_paths {n : List Nat} {q' : Quals} {o : Nat} {t : MTy} (h : MemPath n exMemQ exMemList o q' t) :
    (n = [97] ∧ o = 0 ∧ q' = exMemQ ∧ t = .other {} 0) ∨ (n = [98] ∧ o = 8 ∧ q' = exMemQ ∧ t = .other {} 0) ∨
    (n = [99] ∧ o = 8 ∧ q' = exMemQ ∧ t = .other {} 1) ∨ (n = [100] ∧ o = 16 ∧ q' = exMemQ ∧ t = .other { const := true } 0) := by
  cases h with
  | named _ _ _ _ h =>
    simp only [exMemList, listed_cons, listed_nil, or_false, Member.mk.injEq, Option.some.injEq, reduceCtorEq, false_and, false_or] at h
    rcases h with ⟨h1, h2, h3⟩ | ⟨h1, h2, h3⟩ <;> simp [h1, h2, h3]
  | anon _ _ _ _ _ _ o1 o2 _ h hp =>
    simp only [exMemList, listed_cons, listed_nil, or_false, Member.mk.injEq, MTy.agg.injEq, reduceCtorEq, false_and, true_and, false_or] at h
    obtain ⟨rfl, rfl, -, rfl⟩ := h
    rcases exMemUnion_paths (.inl rfl) hp with ⟨h1, h2, h3, h4⟩ | ⟨h1, h2, h3, h4⟩
    · right; left
      refine ⟨h1, by omega, h3, h4⟩
    · right; right; left
      refine ⟨h1, by omega, h3, h4⟩

/-- `x.b` is found through two anonymous members, 8 bytes into the object. -/
theorem exMemB_denotes : ∃ l t' m, structRef [98] (.agg exMemQ false exMemList) = some (l, t') ∧ totalOfs l = 8 ∧ l.getLast? = some m ∧
    m.name = some [98] ∧ m.ty = .other {} 0 :=
  C69_denotes [98] exMemQ false exMemList 8 exMemQ (.other {} 0) exMemB_path (by
    intro o2 q2 t2 h
    rcases exMemList_paths h with ⟨h1, h2, h3, h4⟩ | ⟨h1, h2, h3, h4⟩ | ⟨h1, h2, h3, h4⟩ | ⟨h1, h2, h3, h4⟩
    · simp at h1
    · exact ⟨h2, h3, h4⟩
    · simp at h1
    · simp at h1)

/-- `x.d` is a `const volatile int`. -/
theorem exMemD_type : ∃ l, structRef [100] (.agg exMemQ false exMemList) = some (l, .other exMemQ 0) :=
  C69_qualifiers [100] exMemQ false exMemList 16 exMemQ (.other { const := true } 0) exMemD_path (by
    intro o2 q2 t2 h
    rcases exMemList_paths h with ⟨h1, h2, h3, h4⟩ | ⟨h1, h2, h3, h4⟩ | ⟨h1, h2, h3, h4⟩ | ⟨h1, h2, h3, h4⟩
    · simp at h1
    · simp at h1
    · simp at h1
    · exact ⟨h2, h3, h4⟩)
    (by
      intro o2 qa ua msa h o3 q3 t3 hp
      simp only [exMemList, listed_cons, listed_nil, or_false, Member.mk.injEq, MTy.agg.injEq, reduceCtorEq, false_and, true_and, false_or] at h
      obtain ⟨-, rfl, -, rfl⟩ := h
      rcases exMemUnion_paths (.inr rfl) hp with ⟨h1, -⟩ | ⟨h1, -⟩ <;> simp at h1)
    rfl rfl

/-- There is no `x.e`. -/
theorem exMemE_refused : structRef [101] (.agg exMemQ false exMemList) = none := by
  rw [C69_refused]
  rintro q u ms e o q' t h
  cases e
  rcases exMemList_paths h with ⟨h1, -⟩ | ⟨h1, -⟩ | ⟨h1, -⟩ | ⟨h1, -⟩ <;> simp at h1

/-! ### Departures -/

/-- **A member of an anonymous member loses the object's qualifiers**: in
`const struct { struct { int b; }; } x`, `x.b` has type `int`, although its object is `const`. -/
theorem C69_anonymous_not_const :
    structRef [98] (.agg { const := true } false (.cons none 0 (.agg {} false exMemInner) .nil)) =
      some ([⟨none, 0, .agg {} false exMemInner⟩, ⟨some [98], 0, .other {} 0⟩], .other {} 0) ∧
    MemPath [98] { const := true } (.cons none 0 (.agg {} false exMemInner) .nil) (0 + 0) { const := true } (.other {} 0) := by
  constructor
  · simp [structRef, getMember, exMemInner, MTy.has, Mems.has, applyCV, MTy.quals]
  · exact .anon _ {} _ _ exMemInner false 0 0 _ (.here ⟨_, _, _⟩ _) (.named _ _ _ _ (.here ⟨_, _, _⟩ _))

/-- **An atomic member of a `volatile` object is not atomic**: in
`volatile struct { _Atomic int b; } x`, `x.b` has type `volatile int`, so that `x.b++` is not one step. -/
theorem C69_volatile_not_atomic :
    structRef [98] (.agg { volatile := true } false (.cons (some [98]) 0 (.other { atomic := true } 0) .nil)) =
      some ([⟨some [98], 0, .other { atomic := true } 0⟩], .other { volatile := true } 0) := by
  simp [structRef, getMember, MTy.has, applyCV, MTy.quals, MTy.withQuals]

end Slimcc.Props
