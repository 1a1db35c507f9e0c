import Verif.Model.StrArray
/-! # C03: growable string arrays keep every element in order -/
set_option autoImplicit false
namespace Slimcc.Props
open Slimcc Slimcc.StrArray

theorem nullFill_spec : ∀ (n : Nat) (pre mid : List Nat), mid.length = n →
    nullFill (pre ++ mid) pre.length n = .ok (pre ++ List.replicate n 0) := by
  intro n
  induction n with
  | zero => intro pre mid h; have : mid = [] := List.length_eq_zero_iff.1 h; subst this; simp [nullFill]
  | succ n ih =>
    intro pre mid h
    cases mid with
    | nil => simp at h
    | cons x mid =>
      unfold nullFill store
      rw [if_pos (by simp)]
      have hset : (pre ++ x :: mid).set pre.length 0 = (pre ++ [0]) ++ mid := by
        rw [List.set_append_right _ _ (Nat.le_refl _)]; simp
      simp only [hset]
      have := ih (pre ++ [0]) mid (by simpa using h)
      simp only [List.length_append, List.length_cons, List.length_nil, Nat.zero_add] at this
      rw [this]; simp [List.replicate_succ]

structure ArrInv (a : Arr) (xs : List Nat) : Prop where
  cap : a.data.length = a.capacity
  len : a.len = xs.length
  le : a.len ≤ a.capacity
  cont : a.data = xs ++ List.replicate (a.capacity - xs.length) 0
  bound : a.capacity ≤ 8 ∨ a.capacity ≤ 2 * xs.length
  pos : 0 < a.capacity

theorem push_inv (junk : Nat → Nat) (a : Arr) (xs : List Nat) (s : Nat)
    (h : (a = Arr.init ∧ xs = []) ∨ ArrInv a xs) (hlen : xs.length < 1000000000) :
    ∃ a', push junk a s = .ok a' ∧ ArrInv a' (xs ++ [s]) := by
  have store_case : ∀ b : Arr, b.len < b.capacity → ArrInv b xs →
      ∃ a', (match store b.data b.len s with
        | .ok d => .ok { b with data := d, len := b.len + 1 }
        | .error => .error
        | .ub => .ub) = Outcome.ok a' ∧ ArrInv a' (xs ++ [s]) := by
    intro b hlt inv
    have hl := inv.len
    have hc := inv.cap
    refine ⟨{ b with data := b.data.set b.len s, len := b.len + 1 }, ?_, ?_⟩
    · unfold store; rw [if_pos (by omega)]
    · refine ⟨by simpa using inv.cap, by simp [hl], by simp only; omega, ?_, ?_, inv.pos⟩
      · simp only [List.length_append, List.length_cons, List.length_nil]
        rw [inv.cont, hl, List.set_append_right _ _ (Nat.le_refl _), Nat.sub_self]
        have : b.capacity - xs.length = (b.capacity - (xs.length + (0 + 1))) + 1 := by omega
        rw [this, List.replicate_succ]; simp
      · have := inv.bound; simp; omega
  rcases h with ⟨rfl, rfl⟩ | inv
  · obtain ⟨a', h1, h2⟩ := store_case ⟨List.replicate 8 0, 8, 0⟩ (by decide)
      ⟨rfl, rfl, by decide, rfl, Or.inl (Nat.le_refl _), by decide⟩
    refine ⟨a', ?_, h2⟩
    unfold push
    simp only [Arr.init, List.isEmpty_nil, if_true]
    rw [if_neg (by decide), if_neg (by decide)]
    exact h1
  · have hne : a.data.isEmpty ≠ true := by
      intro he; rw [List.isEmpty_iff] at he
      have h1 := inv.cap; have h2 := inv.pos; rw [he] at h1; simp at h1; omega
    have hl := inv.len
    have hb := inv.bound
    unfold push
    rw [if_neg hne]
    simp only
    by_cases hfull : a.capacity = a.len
    · rw [if_neg (by unfold INT_MAX; omega), if_pos hfull]
      have hx : a.data = xs := by
        rw [inv.cont]; have : a.capacity - xs.length = 0 := by omega
        rw [this]; simp
      have hn := nullFill_spec a.capacity xs ((List.range a.capacity).map junk) (by simp)
      have h2 : a.capacity * 2 - a.len = a.capacity := by omega
      rw [h2, hx, hl, hn]
      simp only
      have := store_case ⟨xs ++ List.replicate a.capacity 0, a.capacity * 2, a.len⟩
        (by have := inv.pos; simp only; omega)
        ⟨by simp; omega, hl, by simp only; omega,
         by simp only; have : a.capacity * 2 - xs.length = a.capacity := by omega
            rw [this], by have := inv.pos; right; simp only; omega, by have := inv.pos; simp only; omega⟩
      simp only [hl] at this ⊢
      exact this
    · rw [if_neg (by omega), if_neg hfull]
      exact store_case a (by have := inv.le; omega) inv

theorem pushAll_inv (junk : Nat → Nat) : ∀ (ss : List Nat) (a : Arr) (xs : List Nat),
    ((a = Arr.init ∧ xs = []) ∨ ArrInv a xs) → xs.length + ss.length ≤ 1000000000 →
    ∃ a', pushAll junk a ss = .ok a' ∧
      ((a' = Arr.init ∧ xs ++ ss = []) ∨ ArrInv a' (xs ++ ss)) := by
  intro ss
  induction ss with
  | nil => intro a xs h _; exact ⟨a, rfl, by simpa using h⟩
  | cons s ss ih =>
    intro a xs h hn
    simp only [List.length_cons] at hn
    obtain ⟨a1, h1, h2⟩ := push_inv junk a xs s h (by omega)
    obtain ⟨a', h3, h4⟩ := ih a1 (xs ++ [s]) (Or.inr h2) (by simp; omega)
    refine ⟨a', by simp only [pushAll, h1]; exact h3, by simpa using h4⟩

/-- C03. Pushing any sequence of up to 10^9 strings on a fresh array succeeds without an
out-of-bounds store (whatever fresh heap memory contains), the first `len` slots are exactly the
pushed strings in order, and every allocated slot after them is `NULL`.
(The bound excludes `int` overflow of the capacity.) -/
theorem C03_push_is_append (junk : Nat → Nat) (ss : List Nat) (hn : ss.length ≤ 1000000000) :
    ∃ a, pushAll junk Arr.init ss = .ok a ∧ a.len = ss.length ∧
      (∀ i, i < ss.length → a.data[i]? = ss[i]?) ∧
      (∀ i, ss.length ≤ i → i < a.data.length → a.data[i]? = some 0) := by
  obtain ⟨a, h1, h2⟩ := pushAll_inv junk ss Arr.init [] (Or.inl ⟨rfl, rfl⟩) (by simpa using hn)
  refine ⟨a, h1, ?_⟩
  simp only [List.nil_append] at h2
  rcases h2 with ⟨rfl, rfl⟩ | inv
  · simp [Arr.init]
  · refine ⟨inv.len, ?_, ?_⟩
    · intro i hi; rw [inv.cont, List.getElem?_append_left hi]
    · intro i hi hlt
      rw [inv.cont, List.getElem?_append_right hi, List.getElem?_replicate, if_pos]
      have := inv.cap; omega

/-- When the array is not exactly full, the element after the last is a `NULL` terminator
(this is what makes it usable as an `argv`; a full array of 8, 16, 32, ... has no terminator:
the code pushes an explicit `NULL` before exec). -/
theorem C03_terminator_iff_room (junk : Nat → Nat) (ss : List Nat) (hn : ss.length ≤ 1000000000)
    (a : Arr) (h : pushAll junk Arr.init ss = .ok a) (hroom : a.len < a.capacity) :
    a.data[a.len]? = some 0 := by
  obtain ⟨a', h1, h2⟩ := pushAll_inv junk ss Arr.init [] (Or.inl ⟨rfl, rfl⟩) (by simpa using hn)
  rw [h] at h1; cases h1
  simp only [List.nil_append] at h2
  rcases h2 with ⟨rfl, rfl⟩ | inv
  · simp [Arr.init] at hroom
  · rw [inv.cont, List.getElem?_append_right (by rw [inv.len]; exact Nat.le_refl _), List.getElem?_replicate, if_pos]
    have := inv.len; omega

/-- Test of the growth step on nine elements. -/
example : pushAll (fun i => i + 77) Arr.init [1,2,3,4,5,6,7,8,9] =
    .ok ⟨[1,2,3,4,5,6,7,8,9,0,0,0,0,0,0,0], 16, 9⟩ := by decide

end Slimcc.Props
