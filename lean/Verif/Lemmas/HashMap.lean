import Verif.Model.HashMap
import Verif.Spec.HashMap
/-! Helper lemmas for C01. -/
set_option autoImplicit false
namespace Slimcc.HashMap
open Slimcc

theorem Nat.pow_right_injective' {a b : Nat} (h : 2 ^ a = 2 ^ b) : a = b :=
  (Nat.pow_right_inj (by decide)).1 h

theorem slot_eq (h : UInt64) {cap e : Nat} (hc : cap = 2 ^ e) (he : e ≤ 64) (i : Nat) :
    slot h cap i = (h.toNat + i) % cap := by
  subst hc
  unfold slot
  rw [Nat.and_two_pow_sub_one_eq_mod]
  exact Nat.mod_mod_of_dvd _ (Nat.pow_dvd_pow 2 he)

theorem slot_lt (h : UInt64) {cap e : Nat} (hc : cap = 2 ^ e) (he : e ≤ 64) (i : Nat) :
    slot h cap i < cap := by
  rw [slot_eq h hc he]
  exact Nat.mod_lt _ (by subst hc; exact Nat.two_pow_pos e)

/-- Every bucket is visited. -/
theorem slot_surj (h : UInt64) {cap e : Nat} (hc : cap = 2 ^ e) (he : e ≤ 64) {j : Nat}
    (hj : j < cap) : ∃ (i : Nat), i < cap ∧ slot h cap i = j := by
  have hpos : 0 < cap := by omega
  have hr : h.toNat % cap < cap := Nat.mod_lt _ hpos
  have key : ∀ (i : Nat), slot h cap i = (h.toNat % cap + i) % cap := by
    intro i
    rw [slot_eq h hc he, Nat.add_mod, Nat.add_mod (h.toNat % cap) i, Nat.mod_mod]
  by_cases hle : h.toNat % cap ≤ j
  · refine ⟨j - h.toNat % cap, by omega, ?_⟩
    rw [key]
    have : h.toNat % cap + (j - h.toNat % cap) = j := by omega
    rw [this, Nat.mod_eq_of_lt hj]
  · refine ⟨cap + j - h.toNat % cap, by omega, ?_⟩
    rw [key]
    have : h.toNat % cap + (cap + j - h.toNat % cap) = cap + j := by omega
    rw [this, Nat.add_mod_left, Nat.mod_eq_of_lt hj]

def isFull : Entry → Bool
  | .empty => false
  | _ => true

/-- The table invariant for an allocated table. -/
structure WF (hash : Key → UInt64) (m : Map) : Prop where
  pow : ∃ e, m.buckets.length = 2 ^ e ∧ 4 ≤ e ∧ e ≤ 31
  used_eq : m.used = m.buckets.countP isFull
  used_lt : m.used < m.buckets.length
  reach : ∀ (j : Nat) (k : Key) (v : Val), m.buckets[j]? = some (.live k v) →
    ∃ (i : Nat), i < m.buckets.length ∧ slot (hash k) m.buckets.length i = j ∧
      ∀ (i' : Nat), i' < i → m.buckets[slot (hash k) m.buckets.length i']? ≠ some .empty
  uniq : ∀ (j : Nat) (j' : Nat) (k : Key) (v : Val) (v' : Val), m.buckets[j]? = some (.live k v) → m.buckets[j']? = some (.live k v') → j = j'

theorem probe_found {bs : List Entry} {h : UInt64} {k : Key} {j : Nat} {v : Val} {e : Nat}
    (hc : bs.length = 2 ^ e) (he : e ≤ 64)
    (hj : bs[j]? = some (.live k v))
    (uniq : ∀ (j' : Nat) (v' : Val), bs[j']? = some (.live k v') → j' = j) :
    ∀ n i i0, i ≤ i0 → i0 < i + n → slot h bs.length i0 = j →
      (∀ (i' : Nat), i ≤ i' → i' < i0 → bs[slot h bs.length i']? ≠ some .empty) →
      probe bs h k n i = .ok (.found j) := by
  intro n
  induction n with
  | zero => intro i i0 h1 h2; omega
  | succ n ih =>
    intro i i0 h1 h2 h3 h4
    have hlt := slot_lt h hc he i
    unfold probe
    simp only
    rcases hb : bs[slot h bs.length i]? with _ | ent
    · rw [List.getElem?_eq_none_iff] at hb; omega
    · by_cases hi : i = i0
      · subst hi; rw [h3] at hb ⊢; rw [hj] at hb; cases hb; simp
      · have hlt' : i < i0 := by omega
        have next := ih (i + 1) i0 (by omega) (by omega) h3
          (fun i' a b => h4 i' (by omega) b)
        cases ent with
        | empty => exact absurd hb (h4 i (Nat.le_refl _) hlt')
        | tomb => exact next
        | live k' v' =>
          by_cases hk : k' = k
          · subst hk; simp [uniq _ _ hb]
          · simp [hk, next]

theorem probe_free {bs : List Entry} {h : UInt64} {k : Key} {e : Nat}
    (hc : bs.length = 2 ^ e) (he : e ≤ 64)
    (absent : ∀ (j' : Nat) (v' : Val), bs[j']? ≠ some (.live k v')) :
    ∀ n i i0, i ≤ i0 → i0 < i + n → bs[slot h bs.length i0]? = some .empty →
      ∃ i1, i ≤ i1 ∧ i1 ≤ i0 ∧ probe bs h k n i = .ok (.free (slot h bs.length i1)) ∧
        bs[slot h bs.length i1]? = some .empty ∧
        ∀ (i' : Nat), i ≤ i' → i' < i1 → bs[slot h bs.length i']? ≠ some .empty := by
  intro n
  induction n with
  | zero => intro i i0 h1 h2; omega
  | succ n ih =>
    intro i i0 h1 h2 h3
    have hlt := slot_lt h hc he i
    rcases hb : bs[slot h bs.length i]? with _ | ent
    · rw [List.getElem?_eq_none_iff] at hb; omega
    · cases ent with
      | empty =>
        refine ⟨i, Nat.le_refl _, h1, ?_, hb, ?_⟩
        · unfold probe; simp [hb]
        · intro i' a b; omega
      | tomb =>
        have hne : i ≠ i0 := by intro he'; subst he'; rw [hb] at h3; cases h3
        obtain ⟨i1, a, b, c, d, f⟩ := ih (i + 1) i0 (by omega) (by omega) h3
        refine ⟨i1, by omega, b, ?_, d, ?_⟩
        · unfold probe; simp [hb, c]
        · intro i' p q
          by_cases hi : i' = i
          · subst hi; rw [hb]; simp
          · exact f i' (by omega) q
      | live k' v' =>
        have hk : k' ≠ k := by intro hk; subst hk; exact absent _ _ hb
        have hne : i ≠ i0 := by intro he'; subst he'; rw [hb] at h3; cases h3
        obtain ⟨i1, a, b, c, d, f⟩ := ih (i + 1) i0 (by omega) (by omega) h3
        refine ⟨i1, by omega, b, ?_, d, ?_⟩
        · unfold probe; simp [hb, c, hk]
        · intro i' p q
          by_cases hi : i' = i
          · subst hi; rw [hb]; simp
          · exact f i' (by omega) q

/-- A table that is not full has an empty bucket. -/
theorem exists_empty : ∀ {bs : List Entry}, bs.countP isFull < bs.length →
    ∃ (j : Nat), j < bs.length ∧ bs[j]? = some .empty
  | [], h => by simp at h
  | .empty :: es, _ => ⟨0, by simp, by simp⟩
  | .tomb :: es, h => by
    have : es.countP isFull < es.length := by
      simp [List.countP_cons, isFull] at h; omega
    obtain ⟨j, a, b⟩ := exists_empty this
    exact ⟨j + 1, by simp; omega, by simpa using b⟩
  | .live _ _ :: es, h => by
    have : es.countP isFull < es.length := by
      simp [List.countP_cons, isFull] at h; omega
    obtain ⟨j, a, b⟩ := exists_empty this
    exact ⟨j + 1, by simp; omega, by simpa using b⟩

theorem WF.probe_live {hash : Key → UInt64} {m : Map} (w : WF hash m) {j : Nat} {k : Key} {v : Val}
    (hj : m.buckets[j]? = some (.live k v)) :
    probe m.buckets (hash k) k m.buckets.length 0 = .ok (.found j) := by
  obtain ⟨e, hc, _, he⟩ := w.pow
  obtain ⟨i, hi, hs, hn⟩ := w.reach j k v hj
  exact probe_found hc (by omega) hj (fun j' v' h => w.uniq _ _ _ _ _ h hj) _ 0 i (by omega) (by omega)
    hs (fun i' _ q => hn i' q)

theorem WF.probe_absent {hash : Key → UInt64} {m : Map} (w : WF hash m) {k : Key}
    (habs : ∀ (j : Nat) (v : Val), m.buckets[j]? ≠ some (.live k v)) :
    ∃ i1, i1 < m.buckets.length ∧
      probe m.buckets (hash k) k m.buckets.length 0 =
        .ok (.free (slot (hash k) m.buckets.length i1)) ∧
      m.buckets[slot (hash k) m.buckets.length i1]? = some .empty ∧
      ∀ (i' : Nat), i' < i1 → m.buckets[slot (hash k) m.buckets.length i']? ≠ some .empty := by
  obtain ⟨e, hc, _, he⟩ := w.pow
  obtain ⟨j, hj, hb⟩ := exists_empty (by rw [← w.used_eq]; exact w.used_lt)
  obtain ⟨i0, hi0, hs⟩ := slot_surj (hash k) hc (by omega) hj
  obtain ⟨i1, _, b, c, d, f⟩ := probe_free (h := hash k) (k := k) hc (by omega) habs m.buckets.length 0 i0
    (by omega) (by omega) (by rw [hs]; exact hb)
  exact ⟨i1, by omega, c, d, fun i' q => f i' (by omega) q⟩

/-- Replacing an occupied bucket by an occupied one keeps the occupied count. -/
theorem countP_set_full : ∀ {bs : List Entry} {j : Nat} {x y : Entry},
    bs[j]? = some x → isFull x = true → isFull y = true →
    (bs.set j y).countP isFull = bs.countP isFull
  | [], _, _, _, h, _, _ => by simp at h
  | b :: bs, 0, x, y, h, hx, hy => by
    simp at h; subst h; simp [List.countP_cons, hx, hy]
  | b :: bs, j + 1, x, y, h, hx, hy => by
    simp at h
    simp [List.countP_cons, countP_set_full h hx hy]

theorem countP_set_empty : ∀ {bs : List Entry} {j : Nat} {y : Entry},
    bs[j]? = some .empty → isFull y = true →
    (bs.set j y).countP isFull = bs.countP isFull + 1
  | [], _, _, h, _ => by simp at h
  | b :: bs, 0, y, h, hy => by
    simp at h; subst h; rw [List.set_cons_zero, List.countP_cons, List.countP_cons, if_pos hy]; simp [isFull]
  | b :: bs, j + 1, y, h, hy => by
    simp at h
    simp [List.countP_cons, countP_set_empty h hy]; omega

theorem getElem?_set_cases {bs : List Entry} {j j' : Nat} {y : Entry} (hj : j < bs.length) :
    (bs.set j y)[j']? = if j = j' then some y else bs[j']? := by
  rw [List.getElem?_set]
  by_cases h : j = j'
  · subst h; simp [hj]
  · simp [h]

/-- The represented map: `k` is bound to `v`. -/
def Binds (m : Map) (k : Key) (v : Val) : Prop := ∃ (j : Nat), m.buckets[j]? = some (.live k v)

theorem WF.binds_unique {hash : Key → UInt64} {m : Map} (w : WF hash m) {k : Key} {v : Val} {v' : Val} (h : Binds m k v) (h' : Binds m k v') :
    v = v' := by
  obtain ⟨j, hj⟩ := h
  obtain ⟨j', hj'⟩ := h'
  have := w.uniq _ _ _ _ _ hj hj'
  subst this
  rw [hj] at hj'; cases hj'; rfl

/-- Overwriting an occupied bucket with an entry for the same key, or a tombstone. -/
theorem WF.set_full {hash : Key → UInt64} {m : Map} (w : WF hash m) {j : Nat} {x : Entry} {y : Entry} (hj : m.buckets[j]? = some x)
    (hx : isFull x = true) (hy : isFull y = true)
    (hk : ∀ (k : Key) (v : Val), y = .live k v → ∃ (v' : Val), x = .live k v') :
    WF hash { m with buckets := m.buckets.set j y } := by
  have hjl : j < m.buckets.length := by
    rcases Nat.lt_or_ge j m.buckets.length with h | h
    · exact h
    · rw [List.getElem?_eq_none_iff.2 h] at hj; cases hj
  have old : ∀ (j' : Nat) (k : Key) (v : Val), (m.buckets.set j y)[j']? = some (.live k v) →
      ∃ (v' : Val), m.buckets[j']? = some (.live k v') := by
    intro j' k v h
    rw [getElem?_set_cases hjl] at h
    split at h
    · rename_i e; subst e
      cases h
      obtain ⟨v', e⟩ := hk k v rfl
      exact ⟨v', by rw [hj, e]⟩
    · exact ⟨v, h⟩
  have empt : ∀ (j' : Nat), (m.buckets.set j y)[j']? = some .empty → m.buckets[j']? = some .empty := by
    intro j' h
    rw [getElem?_set_cases hjl] at h
    split at h
    · cases h; simp [isFull] at hy
    · exact h
  refine ⟨?_, ?_, ?_, ?_, ?_⟩
  · simpa using w.pow
  · simp only; rw [countP_set_full hj hx hy]; exact w.used_eq
  · simpa using w.used_lt
  · intro j' k v h
    obtain ⟨v', h'⟩ := old j' k v h
    obtain ⟨i, a, b, c⟩ := w.reach j' k v' h'
    refine ⟨i, by simpa using a, by simpa using b, ?_⟩
    intro i' q he
    simp only [List.length_set] at he
    exact c i' q (empt _ he)
  · intro j1 j2 k v v' h1 h2
    obtain ⟨_, h1'⟩ := old _ _ _ h1
    obtain ⟨_, h2'⟩ := old _ _ _ h2
    exact w.uniq _ _ _ _ _ h1' h2'

/-- Filling the first empty bucket of the probe sequence of a new key. -/
theorem WF.set_empty {hash : Key → UInt64} {m : Map} (w : WF hash m) {k : Key} {v : Val} {i : Nat}
    (hi : i < m.buckets.length)
    (hj : m.buckets[slot (hash k) m.buckets.length i]? = some .empty)
    (hprev : ∀ (i' : Nat), i' < i → m.buckets[slot (hash k) m.buckets.length i']? ≠ some .empty)
    (habs : ∀ (j : Nat) (v : Val), m.buckets[j]? ≠ some (.live k v))
    (hroom : m.used + 1 < m.buckets.length) :
    WF hash { buckets := m.buckets.set (slot (hash k) m.buckets.length i) (.live k v),
              used := m.used + 1 } := by
  obtain ⟨e, hc, h4, he⟩ := w.pow
  have hjl := slot_lt (hash k) hc (by omega) i
  generalize hjd : slot (hash k) m.buckets.length i = j at hj hjl ⊢
  have old : ∀ (j' : Nat) (k' : Key) (v' : Val), (m.buckets.set j (.live k v))[j']? = some (.live k' v') →
      (j' = j ∧ k' = k) ∨ (j' ≠ j ∧ m.buckets[j']? = some (.live k' v')) := by
    intro j' k' v' h
    rw [getElem?_set_cases hjl] at h
    split at h
    · rename_i e'; cases h; exact Or.inl ⟨e'.symm, rfl⟩
    · rename_i e'; exact Or.inr ⟨fun x => e' x.symm, h⟩
  have empt : ∀ (j' : Nat), (m.buckets.set j (.live k v))[j']? = some .empty → m.buckets[j']? = some .empty := by
    intro j' h
    rw [getElem?_set_cases hjl] at h
    split at h
    · cases h
    · exact h
  refine ⟨?_, ?_, ?_, ?_, ?_⟩
  · simpa using w.pow
  · simp only; rw [countP_set_empty hj (by rfl), w.used_eq]
  · simpa using hroom
  · intro j' k' v' h
    rcases old _ _ _ h with ⟨h1, h2⟩ | ⟨h1, h2⟩
    · subst h1; subst h2
      refine ⟨i, by simpa using hi, by simpa using hjd, ?_⟩
      intro i' q hem
      simp only [List.length_set] at hem
      exact hprev i' q (empt _ hem)
    · obtain ⟨i', a, b, c⟩ := w.reach _ _ _ h2
      refine ⟨i', by simpa using a, by simpa using b, ?_⟩
      intro i'' q hem
      simp only [List.length_set] at hem
      exact c i'' q (empt _ hem)
  · intro j1 j2 k' v1 v2 h1 h2
    rcases old _ _ _ h1 with ⟨a, b⟩ | ⟨a, b⟩ <;> rcases old _ _ _ h2 with ⟨c, d⟩ | ⟨c, d⟩
    · omega
    · subst b; exact absurd d (habs _ _)
    · subst d; exact absurd b (habs _ _)
    · exact w.uniq _ _ _ _ _ b d

theorem WF.insertVal {hash : Key → UInt64} {m : Map} (w : WF hash m) (k : Key) (v : Val)
    (hroom : m.used + 1 < m.buckets.length) :
    ∃ m', insertVal hash m k v = .ok m' ∧ WF hash m' ∧ m.used ≤ m'.used ∧ m'.used ≤ m.used + 1 ∧
      m'.buckets.length = m.buckets.length ∧
      ((∀ (v : Val), ¬ Binds m k v) → m'.used = m.used + 1) ∧
      ∀ (k' : Key) (v' : Val), Binds m' k' v' ↔ if k' = k then v' = v else Binds m k' v' := by
  obtain ⟨e, hc, h4, he⟩ := w.pow
  by_cases hex : ∃ (j : Nat) (v0 : Val), m.buckets[j]? = some (.live k v0)
  · obtain ⟨j, v0, hj⟩ := hex
    have hjl : j < m.buckets.length := by
      rcases Nat.lt_or_ge j m.buckets.length with h | h
      · exact h
      · rw [List.getElem?_eq_none_iff.2 h] at hj; cases hj
    refine ⟨{ m with buckets := m.buckets.set j (.live k v) }, ?_, ?_, by simp, by simp, by simp, ?_, ?_⟩
    · unfold HashMap.insertVal; rw [w.probe_live hj]
    · exact w.set_full hj rfl rfl (by intro k' v' h; cases h; exact ⟨v0, rfl⟩)
    · intro hn; exact absurd ⟨j, hj⟩ (hn v0)
    · intro k' v'
      unfold Binds
      simp only [getElem?_set_cases hjl]
      constructor
      · rintro ⟨j', h⟩
        split at h
        · cases h; simp
        · rename_i hne
          by_cases hk : k' = k
          · subst hk; exact absurd (w.uniq _ _ _ _ _ hj h) hne
          · simp only [hk, if_false]; exact ⟨j', h⟩
      · intro h
        by_cases hk : k' = k
        · simp only [hk, if_true] at h; subst h; subst hk; exact ⟨j, by simp⟩
        · simp only [hk, if_false] at h
          obtain ⟨j', h'⟩ := h
          refine ⟨j', ?_⟩
          by_cases hjj : j = j'
          · subst hjj; rw [hj] at h'; cases h'; exact absurd rfl hk
          · simp [hjj, h']
  · have habs : ∀ (j : Nat) (v : Val), m.buckets[j]? ≠ some (.live k v) := by
      intro j v h; exact hex ⟨j, v, h⟩
    obtain ⟨i, hi, hp, hemp, hprev⟩ := w.probe_absent habs
    have hjl := slot_lt (hash k) hc (by omega) i
    refine ⟨_, ?_, w.set_empty (v := v) hi hemp hprev habs hroom, by simp, by simp, by simp, by simp, ?_⟩
    · unfold HashMap.insertVal; rw [hp]
    · intro k' v'
      unfold Binds
      simp only [getElem?_set_cases hjl]
      constructor
      · rintro ⟨j', h⟩
        split at h
        · cases h; simp
        · by_cases hk : k' = k
          · subst hk; exact absurd h (habs _ _)
          · simp only [hk, if_false]; exact ⟨j', h⟩
      · intro h
        by_cases hk : k' = k
        · simp only [hk, if_true] at h; subst h; subst hk; exact ⟨slot (hash k') m.buckets.length i, by simp⟩
        · simp only [hk, if_false] at h
          obtain ⟨j', h'⟩ := h
          refine ⟨j', ?_⟩
          by_cases hjj : slot (hash k) m.buckets.length i = j'
          · subst hjj; rw [hemp] at h'; cases h'
          · simp [hjj, h']

theorem countP_replicate_empty (n : Nat) : (List.replicate n Entry.empty).countP isFull = 0 := by
  induction n with
  | zero => rfl
  | succ n ih => simp [List.replicate_succ, List.countP_cons, ih, isFull]

theorem getElem?_replicate_empty {n j : Nat} {k : Key} {v : Val} :
    (List.replicate n Entry.empty)[j]? ≠ some (.live k v) := by
  rw [List.getElem?_replicate]; split <;> simp

theorem WF.fresh (hash : Key → UInt64) {n e : Nat} (hn : n = 2 ^ e) (h4 : 4 ≤ e) (h31 : e ≤ 31) :
    WF hash { buckets := List.replicate n .empty, used := 0 } := by
  refine ⟨⟨e, by simpa using hn, h4, h31⟩, ?_, ?_, ?_, ?_⟩
  · simp only; rw [countP_replicate_empty]
  · simp; subst hn; exact Nat.two_pow_pos e
  · intro j k v h; exact absurd h getElem?_replicate_empty
  · intro j j' k v v' h; exact absurd h getElem?_replicate_empty

theorem not_binds_fresh {n : Nat} {k : Key} {v : Val} {u : Nat} : ¬ Binds { buckets := List.replicate n .empty, used := u } k v := by
  rintro ⟨j, h⟩; exact getElem?_replicate_empty h

theorem growCap_spec (nkeys : Nat) (hn : nkeys * 100 ≤ INT_MAX) :
    ∀ (fuel cap e : Nat), 2 * nkeys + 1 - cap ≤ fuel → cap = 2 ^ e → e ≤ 30 →
      ∃ cap' e', growCap nkeys cap = .ok cap' ∧ cap' = 2 ^ e' ∧ e ≤ e' ∧ e' ≤ 30 ∧
        nkeys * 100 / cap' < 50 := by
  intro fuel
  induction fuel with
  | zero =>
    intro cap e hf hc he
    have hpos : 0 < cap := by subst hc; exact Nat.two_pow_pos e
    have hlt : nkeys * 100 / cap < 50 := by
      rw [Nat.div_lt_iff_lt_mul hpos]; omega
    refine ⟨cap, e, ?_, hc, Nat.le_refl _, he, hlt⟩
    unfold growCap
    rw [if_neg (by omega), dif_neg (by omega)]
  | succ fuel ih =>
    intro cap e hf hc he
    have hpos : 0 < cap := by subst hc; exact Nat.two_pow_pos e
    by_cases hlt : nkeys * 100 / cap < 50
    · refine ⟨cap, e, ?_, hc, Nat.le_refl _, he, hlt⟩
      unfold growCap
      rw [if_neg (by omega), dif_neg (by omega)]
    · have hge : 50 * cap ≤ nkeys * 100 := (Nat.le_div_iff_mul_le hpos).1 (by omega)
      have hcap : cap ≤ 42949672 := by unfold INT_MAX at hn; omega
      have hcap2 : ¬ cap * 2 > INT_MAX := by unfold INT_MAX; omega
      have he' : e + 1 ≤ 30 := by
        apply Nat.le_of_not_lt; intro hgt
        have he30 : e = 30 := by omega
        subst he30; rw [hc] at hcap; exact absurd hcap (by decide)
      obtain ⟨cap', e', a, b, c, d, f⟩ := ih (cap * 2) (e + 1) (by omega) (by rw [hc, Nat.pow_succ]) he'
      refine ⟨cap', e', ?_, b, by omega, d, f⟩
      rw [growCap, if_neg (by omega), dif_pos (by omega), if_neg hcap2]; exact a

/-- Re-insertion copies the live entries. -/
theorem reinsert_spec (hash : Key → UInt64) (N : Nat) :
    ∀ (es : List Entry) (m : Map), WF hash m →
      m.used + countLive es ≤ N → N * 100 / m.buckets.length < 50 → N * 100 ≤ INT_MAX →
      (∀ (k : Key) (v : Val), (.live k v) ∈ es → ∀ (v' : Val), ¬ Binds m k v') →
      (es.Pairwise fun a b => ∀ (k : Key) (v : Val) (v' : Val), a = .live k v → b ≠ .live k v') →
      ∃ m', reinsert hash es m = .ok m' ∧ WF hash m' ∧ m'.used = m.used + countLive es ∧
        m'.buckets.length = m.buckets.length ∧
        ∀ (k : Key) (v : Val), Binds m' k v ↔ Binds m k v ∨ (.live k v) ∈ es := by
  intro es
  induction es with
  | nil => intro m w _ _ _ _ _; exact ⟨m, rfl, w, by simp [countLive], rfl, by simp⟩
  | cons e es ih =>
    intro m w hN hcap hov hdis hpw
    rw [List.pairwise_cons] at hpw
    cases e with
    | empty =>
      obtain ⟨m', a, b, c, d, f⟩ := ih m w (by simpa [countLive, List.countP_cons] using hN) hcap hov
        (fun k v h => hdis k v (by simp [h])) hpw.2
      exact ⟨m', by simpa [reinsert] using a, b, by simpa [countLive, List.countP_cons] using c, d, by simpa using f⟩
    | tomb =>
      obtain ⟨m', a, b, c, d, f⟩ := ih m w (by simpa [countLive, List.countP_cons] using hN) hcap hov
        (fun k v h => hdis k v (by simp [h])) hpw.2
      exact ⟨m', by simpa [reinsert] using a, b, by simpa [countLive, List.countP_cons] using c, d, by simpa using f⟩
    | live k v =>
      have hcl : countLive (.live k v :: es) = countLive es + 1 := by
        simp [countLive, List.countP_cons]
      rw [hcl] at hN
      obtain ⟨ex, hpow, h4, h31⟩ := w.pow
      have hlen : 16 ≤ m.buckets.length := by
        rw [hpow]
        calc 16 = 2 ^ 4 := by decide
          _ ≤ 2 ^ ex := Nat.pow_le_pow_right (by decide) h4
      have hNl : N * 100 < 50 * m.buckets.length := (Nat.div_lt_iff_lt_mul (by omega)).1 hcap
      have hnotbind : ∀ (v' : Val), ¬ Binds m k v' := hdis k v (by simp)
      obtain ⟨m1, i1, i2, i3, i3', i4, i5, i6⟩ := w.insertVal k v (by omega)
      have hput : putWith hash (fun _ => .error) m k v = .ok m1 := by
        unfold putWith
        rw [if_neg (by intro hemp; rw [List.isEmpty_iff] at hemp; rw [hemp] at hlen; simp at hlen)]
        rw [if_neg (by omega), if_neg]
        · exact i1
        · have : m.used * 100 / m.buckets.length < 70 := by
            rw [Nat.div_lt_iff_lt_mul (by omega)]; omega
          omega
      have hu := i5 hnotbind
      obtain ⟨m', a, b, c, d, f⟩ := ih m1 i2 (by omega) (by rw [i4]; exact hcap) hov
        (by
          intro k' v' hmem v'' hb
          have hne : k' ≠ k := by
            intro hk; subst hk
            exact hpw.1 _ hmem k' v v' rfl rfl
          rw [i6, if_neg hne] at hb
          exact hdis k' v' (by simp [hmem]) v'' hb) hpw.2
      refine ⟨m', ?_, b, by omega, by rw [d, i4], ?_⟩
      · simp only [reinsert, hput]; exact a
      · intro k' v'
        rw [f, i6]
        by_cases hk : k' = k
        · subst hk
          simp only [if_true]
          constructor
          · rintro (h | h)
            · right; simp [h]
            · right; simp [h]
          · rintro (h | h)
            · exact absurd h (hnotbind v')
            · simp only [List.mem_cons] at h
              rcases h with h | h
              · cases h; left; rfl
              · right; exact h
        · simp only [hk, if_false, List.mem_cons, Entry.live.injEq, false_and, false_or]

theorem countLive_le (bs : List Entry) : countLive bs ≤ bs.countP isFull := by
  induction bs with
  | nil => simp [countLive]
  | cons e es ih =>
    unfold countLive at *
    cases e <;> simp [List.countP_cons, isFull] <;> omega

theorem pairwise_of_uniq {bs : List Entry}
    (h : ∀ (j : Nat) (j' : Nat) (k : Key) (v : Val) (v' : Val), bs[j]? = some (.live k v) → bs[j']? = some (.live k v') → j = j') :
    bs.Pairwise fun a b => ∀ (k : Key) (v : Val) (v' : Val), a = .live k v → b ≠ .live k v' := by
  rw [List.pairwise_iff_getElem]
  intro i j hi hj hij k v v' ha hb
  have := h i j k v v' (by rw [List.getElem?_eq_getElem hi, ha]) (by rw [List.getElem?_eq_getElem hj, hb])
  omega

theorem WF.rehash {hash : Key → UInt64} {m : Map} (w : WF hash m) (hov : m.used * 100 ≤ INT_MAX)
    (hle : ∃ e, m.buckets.length = 2 ^ e ∧ e ≤ 30) :
    ∃ m', rehash hash m = .ok m' ∧ WF hash m' ∧ m'.used ≤ m.used ∧
      m'.used * 100 / m'.buckets.length < 50 ∧ (∃ e, m'.buckets.length = 2 ^ e ∧ e ≤ 30) ∧
      ∀ (k : Key) (v : Val), Binds m' k v ↔ Binds m k v := by
  obtain ⟨e, hpow, he⟩ := hle
  obtain ⟨e0, hpow0, h4, _⟩ := w.pow
  have hee : e0 = e := Nat.pow_right_injective' (by omega)
  subst hee
  have hcl := countLive_le m.buckets
  rw [← w.used_eq] at hcl
  obtain ⟨cap, e', hg, hc, hle', h30, hlow⟩ := growCap_spec (countLive m.buckets) (by omega) _ _ e0
    (Nat.le_refl _) hpow he
  have hcpos : 0 < cap := by rw [hc]; exact Nat.two_pow_pos _
  obtain ⟨m', a, b, c, d, f⟩ := reinsert_spec hash (countLive m.buckets) m.buckets
    { buckets := List.replicate cap .empty, used := 0 } (WF.fresh hash hc (by omega) (by omega))
    (by simp) (by simpa using hlow) (by omega) (fun k v _ v' => not_binds_fresh)
    (pairwise_of_uniq w.uniq)
  simp only [Nat.zero_add] at c
  simp only [List.length_replicate] at d
  refine ⟨m', ?_, b, by omega, by rw [c, d]; exact hlow, ⟨e', by rw [d, hc], h30⟩, ?_⟩
  · unfold HashMap.rehash
    simp only [hg, a, c, if_true]
    rw [if_neg (by omega)]
  · intro k v
    rw [f]
    constructor
    · rintro (h | h)
      · exact absurd h not_binds_fresh
      · exact List.mem_iff_getElem?.1 h
    · intro h; right; exact List.mem_iff_getElem?.2 h

/-- Invariant of any reachable table after `n` puts. -/
def Inv (hash : Key → UInt64) (m : Map) (n : Nat) : Prop :=
  m.used ≤ n ∧
  (m = Map.init ∨ (WF hash m ∧ ∃ e, m.buckets.length = 2 ^ e ∧ e ≤ 30))

theorem inv_put {hash : Key → UInt64} {m : Map} {n : Nat} (h : Inv hash m n) (hn : (n + 1) * 100 ≤ INT_MAX) (k : Key) (v : Val) :
    ∃ m', put hash m k v = .ok m' ∧ Inv hash m' (n + 1) ∧
      ∀ (k' : Key) (v' : Val), Binds m' k' v' ↔ if k' = k then v' = v else Binds m k' v' := by
  obtain ⟨hu, rfl | ⟨w, e, hpow, he⟩⟩ := h
  · have w0 : WF hash { buckets := List.replicate 16 .empty, used := 0 } :=
      WF.fresh hash (e := 4) (by decide) (by decide) (by decide)
    obtain ⟨m', a, b, c, c', d, f, g⟩ := w0.insertVal k v (by simp)
    refine ⟨m', ?_, ⟨by simp at c'; omega, Or.inr ⟨b, 4, by rw [d]; simp, by decide⟩⟩, ?_⟩
    · simp only [put, putWith, Map.init, List.isEmpty_nil, if_true]; exact a
    · intro k' v'
      rw [g]
      split
      · rfl
      · constructor
        · intro h; exact absurd h not_binds_fresh
        · rintro ⟨j, h⟩; simp [Map.init] at h
  · obtain ⟨e0, hpow0, h4, _⟩ := w.pow
    have hlen : 16 ≤ m.buckets.length := by
      rw [hpow0]
      calc 16 = 2 ^ 4 := by decide
        _ ≤ 2 ^ e0 := Nat.pow_le_pow_right (by decide) h4
    have hne : m.buckets.isEmpty ≠ true := by
      intro hemp; rw [List.isEmpty_iff] at hemp; rw [hemp] at hlen; simp at hlen
    by_cases hfull : m.used * 100 / m.buckets.length ≥ 70
    · obtain ⟨m1, a, b, c, d, ⟨e1, hp1, he1⟩, f⟩ := w.rehash (by omega) ⟨e, hpow, he⟩
      obtain ⟨e2, hp2, h42, _⟩ := b.pow
      have hlen1 : 16 ≤ m1.buckets.length := by
        rw [hp2]
        calc 16 = 2 ^ 4 := by decide
          _ ≤ 2 ^ e2 := Nat.pow_le_pow_right (by decide) h42
      have hlow : m1.used * 100 < 50 * m1.buckets.length := (Nat.div_lt_iff_lt_mul (by omega)).1 d
      obtain ⟨m', a', b', c1, c', d', f', g'⟩ := b.insertVal k v (by omega)
      refine ⟨m', ?_, ⟨by omega, Or.inr ⟨b', e1, by rw [d', hp1], he1⟩⟩, ?_⟩
      · unfold put putWith
        rw [if_neg hne, if_neg (by omega), if_pos hfull]
        simp only [a]; exact a'
      · intro k' v'; rw [g', f]
    · have hlow : m.used * 100 < 70 * m.buckets.length :=
        (Nat.div_lt_iff_lt_mul (by omega)).1 (by omega)
      obtain ⟨m', a', b', c1, c', d', f', g'⟩ := w.insertVal k v (by omega)
      refine ⟨m', ?_, ⟨by omega, Or.inr ⟨b', e, by rw [d', hpow], he⟩⟩, g'⟩
      unfold put putWith
      rw [if_neg hne, if_neg (by omega), if_neg hfull]
      exact a'

theorem getEntry_spec {hash : Key → UInt64} {m : Map} {n : Nat} (h : Inv hash m n) (k : Key) :
    (∃ (j : Nat) (v : Val), getEntry hash m k = .ok (some j) ∧ m.buckets[j]? = some (.live k v)) ∨
    (getEntry hash m k = .ok none ∧ ∀ (v : Val), ¬ Binds m k v) := by
  obtain ⟨hu, rfl | ⟨w, e, hpow, he⟩⟩ := h
  · right; refine ⟨by simp [getEntry, Map.init], ?_⟩
    rintro v ⟨j, h⟩; simp [Map.init] at h
  · have hne : m.buckets.isEmpty ≠ true := by
      intro hemp; rw [List.isEmpty_iff] at hemp
      have := w.used_lt; rw [hemp] at this; simp at this
    unfold getEntry
    rw [if_neg hne]
    by_cases hex : ∃ (j : Nat) (v : Val), m.buckets[j]? = some (.live k v)
    · obtain ⟨j, v, hj⟩ := hex
      left; exact ⟨j, v, by rw [w.probe_live hj], hj⟩
    · right
      have habs : ∀ (j : Nat) (v : Val), m.buckets[j]? ≠ some (.live k v) := fun j v h => hex ⟨j, v, h⟩
      obtain ⟨i, _, hp, _, _⟩ := w.probe_absent habs
      refine ⟨by rw [hp], ?_⟩
      rintro v ⟨j, h⟩; exact habs _ _ h

theorem get_spec {hash : Key → UInt64} {m : Map} {n : Nat} (h : Inv hash m n) (k : Key) :
    (∃ (v : Val), get hash m k = .ok v ∧ Binds m k v) ∨ (get hash m k = .ok 0 ∧ ∀ (v : Val), ¬ Binds m k v) := by
  rcases getEntry_spec h k with ⟨j, v, a, b⟩ | ⟨a, b⟩
  · left; refine ⟨v, ?_, ⟨j, b⟩⟩
    unfold get; simp only [a, b]
  · right; refine ⟨?_, b⟩
    unfold get; simp only [a]

theorem inv_delete {hash : Key → UInt64} {m : Map} {n : Nat} (h : Inv hash m n) (k : Key) :
    ∃ m', delete hash m k = .ok m' ∧ Inv hash m' n ∧
      ∀ (k' : Key) (v' : Val), Binds m' k' v' ↔ k' ≠ k ∧ Binds m k' v' := by
  rcases getEntry_spec h k with ⟨j, v, a, b⟩ | ⟨a, b⟩
  · obtain ⟨hu, rfl | ⟨w, e, hpow, he⟩⟩ := h
    · simp [Map.init] at b
    have hjl : j < m.buckets.length := by
      rcases Nat.lt_or_ge j m.buckets.length with h | h
      · exact h
      · rw [List.getElem?_eq_none_iff.2 h] at b; cases b
    refine ⟨{ m with buckets := m.buckets.set j .tomb }, by unfold delete; simp only [a], ⟨hu, Or.inr ⟨?_, e, by simpa using hpow, he⟩⟩, ?_⟩
    · exact w.set_full b rfl rfl (by intro k v h; cases h)
    · intro k' v'
      unfold Binds
      simp only [getElem?_set_cases hjl]
      constructor
      · rintro ⟨j', h⟩
        split at h
        · cases h
        · rename_i hne
          refine ⟨?_, j', h⟩
          intro hk; subst hk; exact hne (w.uniq _ _ _ _ _ b h)
      · rintro ⟨hk, j', h⟩
        refine ⟨j', ?_⟩
        by_cases hjj : j = j'
        · subst hjj; rw [b] at h; cases h; exact absurd rfl hk
        · simp [hjj, h]
  · refine ⟨m, by unfold delete; simp only [a], h, ?_⟩
    intro k' v'
    constructor
    · intro hb; exact ⟨fun hk => by subst hk; exact b _ hb, hb⟩
    · exact fun h => h.2

/-- The table answers like the history says. -/
def Agrees (m : Map) (hist : List Op) : Prop :=
  ∀ (k : Key), (Binds m k (Spec.latest hist k)) ∨ (Spec.latest hist k = 0 ∧ ∀ (v : Val), ¬ Binds m k v)

theorem run_spec (hash : Key → UInt64) : ∀ (ops : List Op) (m : Map) (n : Nat) (hist : List Op),
    Inv hash m n → Agrees m hist → (n + Spec.putCount ops) * 100 ≤ INT_MAX →
    ∃ m', run hash m ops = .ok m' ∧ Inv hash m' (n + Spec.putCount ops) ∧
      Agrees m' (ops.reverse ++ hist) := by
  intro ops
  induction ops with
  | nil => intro m n hist hi ha _; exact ⟨m, rfl, by simpa [Spec.putCount] using hi, by simpa using ha⟩
  | cons o os ih =>
    intro m n hist hi ha hn
    cases o with
    | put k v =>
      have hc : Spec.putCount (.put k v :: os) = Spec.putCount os + 1 := by
        simp [Spec.putCount, List.countP_cons]
      rw [hc] at hn
      obtain ⟨m1, a, b, c⟩ := inv_put hi (by omega) k v
      obtain ⟨m', a', b', c'⟩ := ih m1 (n + 1) (.put k v :: hist) b (by
        intro k'
        by_cases hk : k = k'
        · subst hk; left; simp [Spec.latest, c]
        · have hk' : k' ≠ k := fun h => hk h.symm
          simp only [Spec.latest, hk, if_false, c, hk']
          exact ha k') (by omega)
      refine ⟨m', ?_, ?_, ?_⟩
      · simp only [run, step, a]; exact a'
      · rw [hc]; have : n + (Spec.putCount os + 1) = n + 1 + Spec.putCount os := by omega
        rw [this]; exact b'
      · simpa using c'
    | delete k =>
      have hc : Spec.putCount (.delete k :: os) = Spec.putCount os := by
        simp [Spec.putCount, List.countP_cons]
      rw [hc] at hn ⊢
      obtain ⟨m1, a, b, c⟩ := inv_delete hi k
      obtain ⟨m', a', b', c'⟩ := ih m1 n (.delete k :: hist) b (by
        intro k'
        by_cases hk : k = k'
        · subst hk; right; simp [Spec.latest, c]
        · have hk' : k' ≠ k := fun h => hk h.symm
          simp only [Spec.latest, hk, if_false, c, hk', ne_eq, not_false_eq_true, true_and]
          exact ha k') hn
      refine ⟨m', ?_, b', by simpa using c'⟩
      simp only [run, step, a]; exact a'
    | get k =>
      have hc : Spec.putCount (.get k :: os) = Spec.putCount os := by
        simp [Spec.putCount, List.countP_cons]
      rw [hc] at hn ⊢
      obtain ⟨m', a', b', c'⟩ := ih m n (.get k :: hist) hi (by
        intro k'; exact ha k') hn
      refine ⟨m', ?_, b', by simpa using c'⟩
      rcases get_spec hi k with ⟨v, a, _⟩ | ⟨a, _⟩ <;> simp only [run, step, a] <;> exact a'

end Slimcc.HashMap
