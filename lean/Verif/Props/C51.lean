import Verif.Model.Driver
import Verif.Spec.Dirs
set_option autoImplicit false
/-!
C51 Header search takes the first directory that has the file.
-/
namespace Slimcc.Props
open Slimcc Slimcc.Driver Slimcc.Spec

theorem findIn_first (there : Str → Bool) (name : Str) : ∀ (dirs : List Str) (i : Nat), ∃ r, FirstIn there name dirs r ∧
    findIn there name i dirs = r.map (fun p => (p.1, p.2 + i))
  | [], i => ⟨none, .inr ⟨(fun _ h => by cases h), rfl⟩, rfl⟩
  | d :: ds, i => by
    rw [findIn]
    split
    · rename_i h
      exact ⟨some (_, 0), .inl ⟨[], d, ds, rfl, h, (fun _ h => by cases h), rfl⟩, by simp⟩
    · rename_i h
      have hd : there (d ++ [47] ++ name) = false := by simpa using h
      obtain ⟨r, hr, e⟩ := findIn_first there name ds (i + 1)
      rcases hr with ⟨a, x, b, h1, h2, h3, h4⟩ | ⟨h1, h2⟩
      · refine ⟨some (x ++ [47] ++ name, a.length + 1), .inl ⟨d :: a, x, b, by rw [h1]; rfl, h2, ?_, by simp⟩, ?_⟩
        · intro y hy
          rcases List.mem_cons.1 hy with rfl | hy
          · exact hd
          · exact h3 y hy
        · rw [e, h4]; simp; omega
      · refine ⟨none, .inr ⟨?_, rfl⟩, by rw [e, h2]; rfl⟩
        intro y hy
        rcases List.mem_cons.1 hy with rfl | hy
        · exact hd
        · exact h1 y hy

theorem firstIn_unique {there : Str → Bool} {name : Str} : ∀ {dirs : List Str} {r s : Option (Str × Nat)}, FirstIn there name dirs r → FirstIn there name dirs s → r = s := by
  have key : ∀ {dirs : List Str} {r : Option (Str × Nat)}, FirstIn there name dirs r → findIn there name 0 dirs = r := by
    intro dirs r h
    rcases h with ⟨a, d, b, rfl, h1, h2, rfl⟩ | ⟨h1, rfl⟩
    · have : ∀ (a : List Str) (i : Nat), (∀ x ∈ a, there (x ++ [47] ++ name) = false) → findIn there name i (a ++ d :: b) = some (d ++ [47] ++ name, a.length + i) := by
        intro a
        induction a with
        | nil => intro i _; rw [List.nil_append, findIn, if_pos h1]; simp
        | cons x a ih =>
          intro i h
          rw [List.cons_append, findIn, if_neg (by rw [h x (List.mem_cons_self ..)]; simp), ih (i + 1) (fun y hy => h y (List.mem_cons_of_mem _ hy))]
          simp; omega
      exact this a 0 h2
    · have : ∀ (l : List Str) (i : Nat), (∀ x ∈ l, there (x ++ [47] ++ name) = false) → findIn there name i l = none := by
        intro l
        induction l with
        | nil => intro i _; rfl
        | cons x l ih =>
          intro i h
          rw [findIn, if_neg (by rw [h x (List.mem_cons_self ..)]; simp)]
          exact ih (i + 1) (fun y hy => h y (List.mem_cons_of_mem _ hy))
      exact this _ 0 h1
  intro dirs r s h h'
  exact (key h).symm.trans (key h')

/-- The cache after a sequence of searches. -/
def afterSearches (there : Str → Bool) (dirs : List Str) (c : Cache) : List Str → Cache
  | [] => c
  | n :: ns => afterSearches there dirs (searchPaths there dirs c n).2.2 ns

def CacheOk (there : Str → Bool) (dirs : List Str) (c : Cache) : Prop := ∀ n p, c.get n = some p → ∃ i, findIn there n 0 dirs = some (p, i)

theorem search_cache {there : Str → Bool} {dirs : List Str} {c : Cache} (h : CacheOk there dirs c) (name : Str) : CacheOk there dirs (searchPaths there dirs c name).2.2 := by
  unfold searchPaths
  split
  · exact h
  · split
    · exact h
    · split
      · rename_i p i hf
        intro n q hq
        show ∃ i, _
        rw [show Cache.get ((name, p) :: c) n = if name = n then some p else c.get n from rfl] at hq
        split at hq
        · rename_i e
          cases hq
          exact ⟨i, e ▸ hf⟩
        · exact h n q hq
      · exact h

theorem after_cache {there : Str → Bool} {dirs : List Str} : ∀ (ns : List Str) {c : Cache}, CacheOk there dirs c → CacheOk there dirs (afterSearches there dirs c ns)
  | [], _, h => h
  | n :: ns, _, h => after_cache ns (search_cache h n)

/-- Whatever has been searched for before, the search for a name that is not an absolute path yields the file in the first
directory that has one. -/
theorem C51_first_directory (there : Str → Bool) (dirs : List Str) (earlier : List Str) (name : Str) (hn : name.head? ≠ some 47) :
    ∃ r, FirstIn there name dirs r ∧ (searchPaths there dirs (afterSearches there dirs [] earlier) name).1 = r.map Prod.fst := by
  have hc := after_cache (there := there) (dirs := dirs) earlier (c := []) (fun _ _ h => by cases h)
  obtain ⟨r, hr, e⟩ := findIn_first there name dirs 0
  refine ⟨r, hr, ?_⟩
  unfold searchPaths
  rw [if_neg (by rw [← List.head?_eq_getElem?]; exact hn)]
  cases hg : (afterSearches there dirs [] earlier).get name with
  | some p =>
    obtain ⟨i, hi⟩ := hc name p hg
    rw [hi] at e
    cases r with
    | none => cases e
    | some x => cases e; rfl
  | none =>
    dsimp only
    cases hf : findIn there name 0 dirs with
    | none => rw [hf] at e; cases r with
      | none => rfl
      | some x => cases e
    | some p =>
      rw [hf] at e
      cases r with
      | none => cases e
      | some x => cases e; rfl

/-- An absolute path is taken as it is. -/
theorem C51_absolute (there : Str → Bool) (dirs : List Str) (c : Cache) (name : Str) : (searchPaths there dirs c (47 :: name)).1 = some (47 :: name) := rfl

/-- If the name is searched for the first time, the number of the directory is recorded with the file. -/
theorem C51_directory_recorded (there : Str → Bool) (dirs : List Str) (c : Cache) (name : Str) (hn : name.head? ≠ some 47) (h : c.get name = none) (p : Str) (i : Nat)
    (hf : FirstIn there name dirs (some (p, i))) : (searchPaths there dirs c name).2.1 = i := by
  obtain ⟨r, hr, e⟩ := findIn_first there name dirs 0
  rw [← firstIn_unique hf hr] at e
  unfold searchPaths
  rw [if_neg (by rw [← List.head?_eq_getElem?]; exact hn), h]
  dsimp only
  rw [e]
  rfl

/-- `#include_next` takes the first file, other than the current one, in the directories after the one that is recorded. -/
theorem C51_next (there : Str → Bool) (dirs : List Str) (i : Nat) (cur name : Str) :
    ∃ r, FirstIn (fun p => there p && p != cur) name (dirs.drop (i + 1)) r ∧ includeNext there dirs i cur name = r.map Prod.fst := by
  obtain ⟨r, hr, e⟩ := findIn_first (fun p => there p && p != cur) name (dirs.drop (i + 1)) 0
  refine ⟨r, hr, ?_⟩
  have key : ∀ (l : List Str) (j : Nat), searchNext there cur name l = (findIn (fun p => there p && p != cur) name j l).map Prod.fst := by
    intro l
    induction l with
    | nil => intro j; rfl
    | cons d l ih =>
      intro j
      rw [searchNext, findIn]
      by_cases h : there (d ++ [47] ++ name) = true ∧ d ++ [47] ++ name ≠ cur
      · rw [if_pos h, if_pos (by rw [Bool.and_eq_true, bne_iff_ne]; exact h)]; rfl
      · rw [if_neg h, if_neg (by rw [Bool.and_eq_true, bne_iff_ne]; exact h), ih]
  unfold includeNext
  rw [show ((i : Int) + 1).toNat = i + 1 by omega, key _ 0, e]
  cases r <;> rfl

/-! ### Example and departure -/

/-- Directories `p`, `a`, `b`; the files `a/x`, `p/y`, `b/y`. -/
def sampleThere (s : Str) : Bool := s == [97, 47, 120] || s == [112, 47, 121] || s == [98, 47, 121]

example : (searchPaths sampleThere [[112], [97], [98]] [] [120]).1 = some [97, 47, 120] := rfl

/-- The second time a file is found by `#include`, the number of its directory is lost: an `#include_next <y>` in `a/x` finds `b/y` when `x`
is included for the first time, and `p/y`, in a directory before that of `a/x`, when it is included again. -/
theorem C51_next_after_cached : ∃ c n1 n2 c',
    searchPaths sampleThere [[112], [97], [98]] [] [120] = (some [97, 47, 120], n1, c) ∧ includeNext sampleThere [[112], [97], [98]] n1 [97, 47, 120] [121] = some [98, 47, 121] ∧
    searchPaths sampleThere [[112], [97], [98]] c [120] = (some [97, 47, 120], n2, c') ∧ includeNext sampleThere [[112], [97], [98]] n2 [97, 47, 120] [121] = some [112, 47, 121] :=
  ⟨_, _, _, _, rfl, rfl, rfl, rfl⟩

end Slimcc.Props
