import Verif.Spec.DeclSpec
/-!
C40: declaration specifiers mean the same in any order.
-/
set_option autoImplicit false
namespace Slimcc.Props
open Slimcc Slimcc.Ty Slimcc.Spec

/-- Occurrences of each keyword (at most one of the sign keywords). -/
structure Cnt where
  void : Nat
  bool : Nat
  char : Nat
  short : Nat
  int : Nat
  long : Nat
  float : Nat
  double : Nat
  signed : Bool
  unsigned : Bool
  deriving DecidableEq

def Cnt.zero : Cnt := ⟨0, 0, 0, 0, 0, 0, 0, 0, false, false⟩

def Cnt.add (m : Cnt) : Kw → Cnt
  | .void => { m with void := m.void + 1 }
  | .bool => { m with bool := m.bool + 1 }
  | .char => { m with char := m.char + 1 }
  | .short => { m with short := m.short + 1 }
  | .int => { m with int := m.int + 1 }
  | .long => { m with long := m.long + 1 }
  | .float => { m with float := m.float + 1 }
  | .double => { m with double := m.double + 1 }
  | .signed => { m with signed := true }
  | .unsigned => { m with unsigned := true }

/-- One occurrence less. -/
def Cnt.sub (m : Cnt) : Kw → Cnt
  | .void => { m with void := m.void - 1 }
  | .bool => { m with bool := m.bool - 1 }
  | .char => { m with char := m.char - 1 }
  | .short => { m with short := m.short - 1 }
  | .int => { m with int := m.int - 1 }
  | .long => { m with long := m.long - 1 }
  | .float => { m with float := m.float - 1 }
  | .double => { m with double := m.double - 1 }
  | .signed => { m with signed := false }
  | .unsigned => { m with unsigned := false }

def Cnt.enc (m : Cnt) : Nat :=
  m.void * VOID + m.bool * BOOL + m.char * CHAR + m.short * SHORT + m.int * INT + m.long * LONG +
    m.float * FLOAT + m.double * DOUBLE + m.signed.toNat * SIGNED + m.unsigned.toNat * UNSIGNED

def cnt (ks : List Kw) : Cnt := ks.foldl Cnt.add .zero

def table : List (Cnt × BTy) := stdSpecifiers.map (fun e => (cnt e.1, e.2))

def look (m : Cnt) : Option BTy := (table.find? (fun e => e.1 == m)).map (·.2)

def states : List Cnt := Cnt.zero :: table.map (·.1)

def allKw : List Kw := [.void, .bool, .char, .short, .int, .long, .float, .double, .signed, .unsigned]

theorem mem_allKw (k : Kw) : k ∈ allKw := by cases k <;> decide

/-- On legal prefixes the counter tracks the multiset and the switch is the table. -/
theorem step_ok (m : Cnt) (hm : m ∈ states) (k : Kw) :
    bump m.enc k = (m.add k).enc ∧ switchTy (m.add k).enc = look (m.add k) := by
  have h1 : ∀ m ∈ states, ∀ k ∈ allKw, bump m.enc k = (m.add k).enc ∧ switchTy (m.add k).enc = look (m.add k) := by
    decide +kernel
  exact h1 m hm k (mem_allKw k)

/-- A part of a legal multiset is legal. -/
theorem back_ok (m : Cnt) (k : Kw) (h : m.add k ∈ states) : m ∈ states := by
  have h1 : ∀ m ∈ states, ∀ k ∈ allKw, m.sub k ∈ states := by decide +kernel
  have h2 : m = m.add k ∨ m = (m.add k).sub k := by
    obtain ⟨a, b, c, d, e, f, g, i, s, u⟩ := m
    cases k <;> simp [Cnt.add, Cnt.sub] <;> cases s <;> cases u <;> simp
  rcases h2 with h2 | h2
  · rwa [← h2] at h
  · rw [h2]; exact h1 _ h k (mem_allKw k)

theorem look_states (m : Cnt) (h : m ∉ states) : look m = none := by
  unfold look
  rw [Option.map_eq_none_iff, List.find?_eq_none]
  intro e he hem
  have : e.1 = m := by simpa using hem
  apply h
  rw [← this]
  exact List.mem_cons_of_mem _ (List.mem_map_of_mem he)

theorem look_mem (m : Cnt) (t : BTy) (h : look m = some t) : m ∈ states := by
  apply Classical.byContradiction
  intro hn
  rw [look_states m hn] at h
  cases h

theorem stuck (ks : List Kw) : ∀ (m : Cnt), m ∉ states → ks.foldl Cnt.add m ∉ states := by
  induction ks with
  | nil => exact fun m h => h
  | cons k ks ih => exact fun m h => ih _ (fun hb => h (back_ok m k hb))

theorem loop_ok (ks : List Kw) : ∀ (m : Cnt), m ∈ states → ks ≠ [] → ∀ ty,
    specLoop ks m.enc ty = look (ks.foldl Cnt.add m) := by
  induction ks with
  | nil => exact fun m _ h => absurd rfl h
  | cons k ks ih =>
    intro m hm _ ty
    obtain ⟨h1, h2⟩ := step_ok m hm k
    rw [specLoop, h1, h2, List.foldl_cons]
    cases hl : look (m.add k) with
    | none =>
      simp only []
      by_cases hs : m.add k ∈ states
      · -- a legal non-empty multiset is in the table
        have h3 : ∀ m ∈ states, ∀ k ∈ allKw, m.add k ∈ states → look (m.add k) ≠ none := by decide +kernel
        exact absurd hl (h3 m hm k (mem_allKw k) hs)
      · rw [look_states _ (stuck ks _ hs)]
    | some t =>
      simp only []
      cases ks with
      | nil => rw [specLoop, List.foldl_nil, hl]
      | cons k' ks' => exact ih (m.add k) (look_mem _ _ hl) (by simp) (some t)

/-! The count of a list in terms of `List.count`. -/

theorem cnt_foldl (ks : List Kw) : ∀ m : Cnt, ks.foldl Cnt.add m =
    ⟨m.void + ks.count .void, m.bool + ks.count .bool, m.char + ks.count .char, m.short + ks.count .short,
      m.int + ks.count .int, m.long + ks.count .long, m.float + ks.count .float, m.double + ks.count .double,
      m.signed || decide (.signed ∈ ks), m.unsigned || decide (.unsigned ∈ ks)⟩ := by
  induction ks with
  | nil => intro m; simp
  | cons k ks ih =>
    intro m
    rw [List.foldl_cons, ih]
    cases k <;> simp [Cnt.add, List.count_cons] <;> omega

theorem cnt_eq (ks : List Kw) : cnt ks =
    ⟨ks.count .void, ks.count .bool, ks.count .char, ks.count .short, ks.count .int, ks.count .long,
      ks.count .float, ks.count .double, decide (.signed ∈ ks), decide (.unsigned ∈ ks)⟩ := by
  unfold cnt; rw [cnt_foldl]; simp [Cnt.zero]

theorem dedup_count (ks : List Kw) (k : Kw) : (dedupSign ks).count k =
    if k = .signed ∨ k = .unsigned then (if k ∈ ks then 1 else 0) else ks.count k := by
  unfold dedupSign
  have hf : ∀ k', (ks.filter (fun k => k != .signed && k != .unsigned)).count k' =
      if k' = .signed ∨ k' = .unsigned then 0 else ks.count k' := by
    intro k'
    by_cases h : k' = .signed ∨ k' = .unsigned
    · rw [if_pos h, List.count_eq_zero]
      intro hm
      have := (List.mem_filter.1 hm).2
      simp at this
      rcases h with h | h <;> simp_all
    · rw [if_neg h, List.count_filter]
      simp; exact ⟨fun e => h (Or.inl e), fun e => h (Or.inr e)⟩
  rw [List.count_append, List.count_append, hf]
  cases k <;> by_cases h1 : Kw.signed ∈ ks <;> by_cases h2 : Kw.unsigned ∈ ks <;> simp [h1, h2]

/-- Lists with at most one of each sign keyword. -/
theorem cnt_perm (l ks : List Kw) (h1 : l.count .signed ≤ 1) (h2 : l.count .unsigned ≤ 1) :
    cnt l = cnt ks ↔ l.Perm (dedupSign ks) := by
  rw [List.perm_iff_count, cnt_eq, cnt_eq]
  have hs : ∀ k : Kw, l.count k ≤ 1 → (l.count k = if k ∈ ks then 1 else 0) = (decide (k ∈ l) = decide (k ∈ ks)) := by
    intro k hk
    by_cases ha : k ∈ l
    · have := List.count_pos_iff.2 ha
      have hc : l.count k = 1 := by omega
      by_cases hb : k ∈ ks <;> simp [ha, hb, hc]
    · have := List.count_eq_zero.2 ha
      by_cases hb : k ∈ ks <;> simp [ha, hb, this]
  constructor
  · intro h k
    rw [dedup_count]
    simp only [Cnt.mk.injEq] at h
    obtain ⟨a1, a2, a3, a4, a5, a6, a7, a8, a9, a10⟩ := h
    cases k <;> simp only [reduceCtorEq, or_self, or_false, false_or, if_true, if_false, true_or, or_true] <;> first | assumption | skip
    · rw [hs _ h1]; exact a9
    · rw [hs _ h2]; exact a10
  · intro h
    have g := fun k => (h k).trans (dedup_count ks k)
    simp only [Cnt.mk.injEq]
    refine ⟨by simpa using g .void, by simpa using g .bool, by simpa using g .char, by simpa using g .short,
      by simpa using g .int, by simpa using g .long, by simpa using g .float, by simpa using g .double, ?_, ?_⟩
    · rw [← hs _ h1]; simpa using g .signed
    · rw [← hs _ h2]; simpa using g .unsigned

/-- The result for any non-empty list of specifiers: the type the standard gives to that multiset
(repeated sign keywords counted once), and rejection of every other. -/
theorem C40_specifiers_iff (ks : List Kw) (hne : ks ≠ []) (ty : BTy) :
    declspec ks = some ty ↔ ∃ l, (l, ty) ∈ stdSpecifiers ∧ l.Perm (dedupSign ks) := by
  have hd : declspec ks = look (cnt ks) := by
    have hz : Cnt.zero.enc = 0 := by decide
    have := loop_ok ks .zero (by decide) hne none
    rw [hz] at this
    cases ks with
    | nil => exact absurd rfl hne
    | cons k ks => exact this
  have hsign : ∀ e ∈ stdSpecifiers, e.1.count .signed ≤ 1 ∧ e.1.count .unsigned ≤ 1 := by decide
  rw [hd]
  constructor
  · intro h
    unfold look at h
    rw [Option.map_eq_some_iff] at h
    obtain ⟨⟨m, t⟩, hf, ht⟩ := h
    have hm := List.mem_of_find?_eq_some hf
    have hk := List.find?_some hf
    unfold table at hm
    obtain ⟨⟨l, t'⟩, hl, he⟩ := List.mem_map.1 hm
    simp only [Prod.mk.injEq] at he
    simp only [beq_iff_eq] at hk
    simp only at ht
    refine ⟨l, by rw [← ht, ← he.2]; exact hl, ?_⟩
    exact (cnt_perm l ks (hsign _ hl).1 (hsign _ hl).2).1 (by rw [he.1, hk])
  · rintro ⟨l, hl, hp⟩
    have hc := (cnt_perm l ks (hsign _ hl).1 (hsign _ hl).2).2 hp
    rw [← hc]
    have key : ∀ e ∈ stdSpecifiers, look (cnt e.1) = some e.2 := by decide +kernel
    exact key _ hl

/-- The order of the specifiers does not matter. -/
theorem C40_order_irrelevant (ks ks' : List Kw) (h : ks.Perm ks') : declspec ks = declspec ks' := by
  by_cases hne : ks = []
  · subst hne; rw [List.nil_perm.1 h]
  · have hne' : ks' ≠ [] := by
      rintro rfl; exact hne (List.perm_nil.1 h)
    have hp : ∀ l : List Kw, l.Perm (dedupSign ks) ↔ l.Perm (dedupSign ks') := by
      intro l
      have hd : (dedupSign ks).Perm (dedupSign ks') := by
        rw [List.perm_iff_count]
        intro k
        rw [dedup_count, dedup_count, h.count_eq]
        simp only [h.mem_iff]
      exact ⟨fun x => x.trans hd, fun x => x.trans hd.symm⟩
    apply Option.ext
    intro t
    rw [C40_specifiers_iff ks hne, C40_specifiers_iff ks' hne']
    simp only [hp]

/-- Without repeated sign keywords the accepted lists are exactly those of the standard. -/
theorem C40_standard_lists (ks : List Kw) (hne : ks ≠ []) (h1 : ks.count .signed ≤ 1) (h2 : ks.count .unsigned ≤ 1) (ty : BTy) :
    declspec ks = some ty ↔ ∃ l, (l, ty) ∈ stdSpecifiers ∧ l.Perm ks := by
  have hp : (dedupSign ks).Perm ks := ((cnt_perm ks ks h1 h2).1 rfl).symm
  rw [C40_specifiers_iff ks hne]
  exact ⟨fun ⟨l, a, b⟩ => ⟨l, a, b.trans hp⟩, fun ⟨l, a, b⟩ => ⟨l, a, b.trans hp.symm⟩⟩

/-- A declaration without type specifiers, none of the standard's lists, declares an int. -/
theorem C40_implicit_int : declspec [] = some (.a (.i ty_int)) ∧ ∀ l ty, (l, ty) ∈ stdSpecifiers → l ≠ [] := by
  refine ⟨rfl, fun l ty h => ?_⟩
  have : ∀ e ∈ stdSpecifiers, e.1 ≠ [] := by decide +kernel
  exact this _ h

example : declspec [.long, .unsigned, .int, .long] = some (.a (.i ty_ullong)) ∧ declspec [.char, .int] = none := by decide

/-- Deviation: repeated `signed` or `unsigned` are accepted. -/
theorem C40_repeated_sign_accepted : declspec [.unsigned, .unsigned, .int] = some (.a (.i ty_uint)) := by decide

end Slimcc.Props
