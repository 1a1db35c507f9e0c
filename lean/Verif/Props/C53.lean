import Verif.Lemmas.CallVa
import Verif.Props.C37
set_option autoImplicit false
/-!
C53 `va_arg` finds each variadic argument where the caller put it.

A function with named parameters of types `named` is called with further
arguments of types `vars`.  `params named retSize` gives the counters from which
the function's `va_start` works; its prologue stores register `r` at offset
`saved … r` of the register save area.
-/
namespace Slimcc.Props
open Slimcc.CC Slimcc.SysV Slimcc.CCL

theorem C53_va_arg (named vars : List CTy) (retSize sp : Nat) (hv : ∀ t ∈ vars, ArgTy t)
    (hp : ∀ t ∈ named ++ vars, ∃ k, t.align = 2 ^ k) (hsz : ∀ t ∈ vars, 0 < t.size) (hsp : 16 ∣ sp)
    (hroom : 16 ≤ callSp sp (callArgs (named ++ vars) retSize).2) :
    (vaArgs vars (vaStart (params named retSize).2
      (calleeRbp (callSp sp (callArgs (named ++ vars) retSize).2)))).length = vars.length ∧
    ∀ (i : Nat) (l : Loc), (callArgs (named ++ vars) retSize).1[named.length + i]? = some l →
      match l with
      | .regs rs => ∃ ofs, (vaArgs vars (vaStart (params named retSize).2
          (calleeRbp (callSp sp (callArgs (named ++ vars) retSize).2))))[i]? = some (.save ofs) ∧
          rs.map (saved (params named retSize).2 (callArgs (named ++ vars) retSize).2.fpCount) =
            ofs.map some
      | .stack o => (vaArgs vars (vaStart (params named retSize).2
          (calleeRbp (callSp sp (callArgs (named ++ vars) retSize).2))))[i]? =
            some (.mem (callSp sp (callArgs (named ++ vars) retSize).2 + o)) := by
  rw [callArgs_walk] at hroom ⊢
  rw [params_walk]
  simp only at hroom ⊢
  generalize hc : ({ gp := b2n (decide (retSize > 16)), fp := 0 } : Cnt) = c₀ at *
  have hc16 : c₀.maxAlign = 16 := by rw [← hc]
  obtain ⟨m1, m2, m3⟩ := after_maxAlign (named ++ vars) c₀ ⟨4, hc16⟩ hp
  obtain ⟨d1, d2⟩ := callSp_dvd m1 (by omega) hsp
  generalize hS : callSp sp (after (named ++ vars) c₀) = s at *
  -- where the variadic arguments are in the walk
  have hidx : ∀ i, (walk (named ++ vars) c₀)[named.length + i]? = (walk vars (after named c₀))[i]? := by
    intro i
    rw [walk_append, List.getElem?_append_right (by rw [walk_length]; omega), walk_length,
      Nat.add_sub_cancel_left]
  have hrel : VRel s (after named c₀) (vaStart (after named c₀) (calleeRbp s)) := by
    refine ⟨rfl, rfl, ?_⟩
    simp only [vaStart, calleeRbp]
    omega
  obtain ⟨k1, k2⟩ := va_all vars hrel hv (by
    intro i o t hw ht hh
    have hw' := hw
    rw [← hidx] at hw
    have ht' : (named ++ vars)[named.length + i]? = some t := by
      rw [List.getElem?_append_right (by omega), Nat.add_sub_cancel_left]; exact ht
    have hle := m3 _ o t hw ht' hh
    have hdm := pow_dvd_of_le (hp t (List.mem_of_getElem? ht')) m1 hle
    refine Nat.dvd_trans hdm (d2 ?_)
    have hin := (walk_stack _ _ _ o t hw ht').2.1
    have := hsz t (List.mem_of_getElem? ht)
    omega)
  refine ⟨k1, ?_⟩
  intro i l hl
  rw [hidx] at hl
  obtain ⟨src, e, hf⟩ := k2 i l hl
  cases l with
  | stack o => rw [e, show src = _ from hf]
  | regs rs =>
    refine ⟨rs.map saveOfs, by rw [e, show src = _ from hf], ?_⟩
    rw [List.map_map]
    refine List.map_congr_left (fun r hr => ?_)
    have span := walk_span vars (after named c₀)
    have hmem : r ∈ (walk vars (after named c₀)).flatMap regsOf :=
      List.mem_flatMap.mpr ⟨_, List.mem_of_getElem? hl, hr⟩
    rw [after_append]
    cases r with
    | gp n =>
      obtain ⟨a, b⟩ := (span.gp n).mp hmem
      exact if_pos ⟨a, by omega⟩
    | fp n =>
      obtain ⟨a, b⟩ := (span.fp n).mp hmem
      have hal : (after vars (after named c₀)).fpCount ≠ 0 := by
        simp only [Cnt.fpCount, fpMax]; omega
      exact if_pos ⟨a, by omega, hal⟩

/-- The registers are saved apart from one another and inside the 176 bytes
reserved for them. -/
theorem C53_save_area (c : Cnt) (al : Nat) {r r' : Reg} {o o' : Nat} (h : saved c al r = some o)
    (h' : saved c al r' = some o') (hne : r ≠ r') :
    (o + 8 ≤ o' ∨ o' + 8 ≤ o) ∧ o + 8 ≤ 176 := by
  cases r with
  | gp n =>
    simp only [saved] at h
    split at h
    · rename_i hn
      cases h
      cases r' with
      | gp n' =>
        simp only [saved] at h'
        split at h'
        · cases h'
          have : n ≠ n' := fun e => hne (by rw [e])
          omega
        · cases h'
      | fp n' =>
        simp only [saved] at h'
        split at h'
        · cases h'
          omega
        · cases h'
    · cases h
  | fp n =>
    simp only [saved] at h
    split at h
    · rename_i hn
      cases h
      cases r' with
      | gp n' =>
        simp only [saved] at h'
        split at h'
        · cases h'
          omega
        · cases h'
      | fp n' =>
        simp only [saved] at h'
        split at h'
        · cases h'
          have : n ≠ n' := fun e => hne (by rw [e])
          omega
        · cases h'
    · cases h

/-! ### Example: `f(int, ...)` called with a mixture that exhausts both kinds of
registers and includes an over-aligned structure. -/

def vaVars : List CTy :=
  [ccMix, ccDbl, ccLong, ccMix, ccVec, ccVec, ccDbl, ccLong, ccLong, ccMix, ccOver, ccLong, ccDbl]

example : (callArgs ([ccInt] ++ vaVars) 0).1 =
    [.regs [.gp 0], .regs [.fp 0, .gp 1], .regs [.fp 1], .regs [.gp 2], .regs [.fp 2, .gp 3],
     .regs [.fp 3, .fp 4], .regs [.fp 5, .fp 6], .regs [.fp 7], .regs [.gp 4], .regs [.gp 5],
     .stack 0, .stack 64, .stack 128, .stack 136] := by decide

example : callSp 4096 (callArgs ([ccInt] ++ vaVars) 0).2 = 3904 := by decide

example : vaArgs vaVars (vaStart (params [ccInt] 0).2 (calleeRbp 3904)) =
    [.save [48, 8], .save [64], .save [16], .save [80, 24], .save [96, 112], .save [128, 144],
     .save [160], .save [32], .save [40], .mem 3904, .mem 3968, .mem 4032, .mem 4040] := by decide

end Slimcc.Props
