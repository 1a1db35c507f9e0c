import Verif.Lemmas.TmpStack
/-!
C31: temporaries survive the evaluation of other operands.

`Item` is a properly nested sequence of saves and restores with calls in between; `Safe` executes
the resulting output with arbitrary saved values, arbitrary effects of calls on registers and
variables, and demands at each restore the value saved (Spec/TmpStack).
-/
set_option autoImplicit false
namespace Slimcc.Props
open Slimcc.Tmp

/-- Any nesting, either way of using the frame: the sequence compiles, leaves no reservation and no slot
behind, and every value comes back intact, whatever is in the registers and the frame at the start. -/
theorem C31_survive (c : Cfg) (items : List Item) (pk : Nat) (hp : c.lvar ≤ pk) (σ : Store) :
    ∃ pk' out, run c (opsOf items) ⟨[], pk, []⟩ = some ⟨[], pk', out⟩ ∧ Safe c.lvar out σ [] := by
  obtain ⟨pk', seg, h⟩ := items_whole c items pk [] hp
  exact ⟨pk', seg, h.runs, by have := h.ok [] [] σ (fun _ _ => trivial); rwa [List.append_nil] at this⟩

/-- Every place used exists: a register for temporaries, or bytes of the frame below the variables and not
below the final peak, from which the size of the frame is computed. -/
theorem C31_fits (c : Cfg) (items : List Item) (pk pk' : Nat) (hp : c.lvar ≤ pk) (out : List Line)
    (h : run c (opsOf items) ⟨[], pk, []⟩ = some ⟨[], pk', out⟩) (l : Loc) (hl : .load l ∈ out ∨ .save l ∈ out) :
    l.Fits c.lvar pk' := by
  obtain ⟨q, seg, hw⟩ := items_whole c items pk [] hp
  rw [hw.runs, List.nil_append] at h
  injection h with h; injection h with _ h1 h2
  subst h1 h2
  exact hw.fits l hl

/-- Every value is loaded from where it was saved. -/
theorem C31_paired (c : Cfg) (items : List Item) (pk pk' : Nat) (hp : c.lvar ≤ pk) (out : List Line)
    (h : run c (opsOf items) ⟨[], pk, []⟩ = some ⟨[], pk', out⟩) : Paired out [] := by
  obtain ⟨q, seg, hw⟩ := items_whole c items pk [] hp
  rw [hw.runs, List.nil_append] at h
  injection h with h; injection h with _ h1 h2
  subst h1 h2
  have := hw.paired [] [] rfl
  rwa [List.append_nil] at this

/-- Two values live at the same time never share a register or a byte: `m` is any place saved to between
the save to `l` and the load that takes that value back. -/
theorem C31_disjoint (c : Cfg) (items : List Item) (pk pk' : Nat) (hp : c.lvar ≤ pk) (A B R : List Line) (l l' m : Loc)
    (h : run c (opsOf items) ⟨[], pk, []⟩ = some ⟨[], pk', A ++ .save l :: (B ++ .load l' :: R)⟩) (hB : Balanced B 0) (hm : .save m ∈ B)
    (x : Cell) : ¬(l.Has x ∧ m.Has x) := by
  classical
  rintro ⟨h1, h2⟩
  obtain ⟨g, hpair⟩ := paired_suffix A _ _ (C31_paired c items pk pk' hp _ h)
  have hll : l' = l := (paired_balanced B _ [] (l :: g) hpair hB).1
  obtain ⟨q, out, h3, h4⟩ := C31_survive c items pk hp fun _ => 0
  rw [h] at h3
  injection h3 with h3; injection h3 with _ _ h3
  rw [← h3] at h4
  obtain ⟨σ, g, hs⟩ := safe_suffix _ A _ _ _ h4
  have := hs (fun _ => 0) (fun c => if l.Has c then 0 else σ c) (fun c hc => by simp [hc]) (fun c hc => by simp [hc])
  obtain ⟨σ', e, hl⟩ := ones _ B _ x _ [] _ this hB (Or.inr ⟨m, hm, h2⟩)
  have := hl.1 x (by rw [hll]; exact h1)
  rw [e] at this
  cases this

/-! Cases: a value saved across a nested one with a call in it goes to the frame, the inner one, restored
before the call, to a register; seven nested values exhaust the registers. -/

example : run ⟨true, 16⟩ (opsOf [.tmp .gp 1 [.tmp .gp 1 [], .call]]) ⟨[], 16, []⟩ =
    some ⟨[], 24, [.save (.mem 24 1), .save (.gp 0), .load (.gp 0), .call, .load (.mem 24 1)]⟩ := by decide

example : run ⟨true, 16⟩ (opsOf [.tmp .gp 1 [.tmp .fp 1 [.tmp .gp 1 [.tmp .st 2 []], .callPtr 4 [.tmp .gp 1 []]]]]) ⟨[], 16, []⟩ =
    some ⟨[], 48, [.save (.mem 48 1), .save (.mem 40 1), .save (.gp 0), .save (.mem 32 2), .load (.mem 32 2), .load (.gp 0),
      .save (.gp 4), .save (.gp 0), .load (.gp 0), .args 4, .load (.gp 4), .call, .load (.mem 40 1), .load (.mem 48 1)]⟩ := by decide

def nest : Nat → List Item
  | 0 => []
  | n + 1 => [.tmp .gp 1 (nest n)]

example : (run ⟨false, 0⟩ (opsOf (nest 7)) ⟨[], 0, []⟩).map (fun s => (s.peak, s.out.head?)) = some (8, some (.save (.mem 8 1))) := by decide

end Slimcc.Props
