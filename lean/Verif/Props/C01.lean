import Verif.Lemmas.HashMap
/-! # C01: name tables behave as finite maps -/
namespace Slimcc.Props
open Slimcc Slimcc.HashMap

/-- C01. For every hash function, every history of put/delete/get on a fresh table with at most
21 474 836 puts (the number from which the code's `int` product `used * 100` may overflow):
the history runs without `internal_error`, failed assert or undefined behaviour, and a lookup of
any key afterwards returns the value the history prescribes. -/
theorem C01_table_is_finite_map (hash : Key → UInt64) (ops : List Op) (k : Key)
    (hputs : Spec.putCount ops ≤ 21474836) :
    ∃ m, run hash Map.init ops = .ok m ∧ get hash m k = .ok (Spec.latest ops.reverse k) := by
  obtain ⟨m, a, b, c⟩ := run_spec hash ops Map.init 0 []
    ⟨Nat.le_refl _, Or.inl rfl⟩ (by intro k; right; simp [Spec.latest, Binds, Map.init])
    (by unfold INT_MAX; omega)
  refine ⟨m, a, ?_⟩
  simp only [List.append_nil] at c
  rcases get_spec b k with ⟨v, g, bd⟩ | ⟨g, nb⟩
  · rcases c k with h | ⟨_, h⟩
    · rw [g]
      obtain ⟨_, rfl | ⟨w, _⟩⟩ := b
      · obtain ⟨j, hj⟩ := h; simp [Map.init] at hj
      · rw [w.binds_unique bd h]
    · exact absurd bd (h v)
  · rcases c k with h | ⟨h, _⟩
    · exact absurd h (nb _)
    · rw [g, h]

/-- The instance the code uses. -/
theorem C01_table_is_finite_map_fnv (ops : List Op) (k : Key)
    (hputs : Spec.putCount ops ≤ 21474836) :
    ∃ m, run fnvHash Map.init ops = .ok m ∧ get fnvHash m k = .ok (Spec.latest ops.reverse k) :=
  C01_table_is_finite_map fnvHash ops k hputs

/-- The overflow bound is real: a table with this many used slots makes the next put undefined. -/
theorem C01_overflow_is_ub (hash : Key → UInt64) (m : Map) (k : Key) (v : Val)
    (hne : m.buckets ≠ []) (hu : m.used ≥ 21474837) : put hash m k v = .ub := by
  have h1 : m.buckets.isEmpty ≠ true := by simpa using hne
  have h2 : m.used * 100 > INT_MAX := by unfold INT_MAX; omega
  unfold put putWith
  rw [if_neg h1, if_pos h2]

/-- Non-vacuity: a history with overwriting, deletion and re-insertion of colliding keys. -/
example : ∃ m, run (fun _ => 7) Map.init
      [.put [1] 5, .put [2] 6, .delete [1], .put [2] 8, .put [3] 9, .put [1] 4, .get [2]] = .ok m ∧
    get (fun _ => 7) m [2] = .ok 8 :=
  C01_table_is_finite_map _ _ _ (by decide)

end Slimcc.Props
