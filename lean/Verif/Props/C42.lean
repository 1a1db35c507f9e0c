import Verif.Lemmas.Live
/-!
C42: the functions whose code is written are the defined ones that are needed.
-/
set_option autoImplicit false
namespace Slimcc.Props
open Slimcc.Spec Slimcc.Live Slimcc.LiveL

/-- `names` and `decls` describe the functions of the file; the file scope knows every function by
its name; the uses are of functions of the file. -/
structure LiveSetup (find : List Nat → Option Nat) (names : List (List Nat)) (decls : List FnDecl) (uses : List FnUse) : Prop where
  len : names.length = decls.length
  find : ∀ (i : Nat) (n : List Nat), names[i]? = some n → find n = some i
  uses : ∀ u ∈ uses, u.to < names.length

/-- The marking ends, and the code of a function is written if and only if the function is defined
and needed: it must be there itself, or a chain of uses of any length, with cycles or not, leads to
it from one that must be there. -/
theorem C42_written_iff_needed (find : List Nat → Option Nat) (names : List (List Nat)) (decls : List FnDecl) (uses : List FnUse)
    (h : LiveSetup find names decls uses) :
    ∃ fns, liveFns find names decls uses = some fns ∧ fns.length = names.length ∧
      ∀ (i : Nat) (f : Fn), fns[i]? = some f → (isWritten f = true ↔ (∃ d, decls[i]? = some d ∧ d.defined = true) ∧ Needed decls uses i) := by
  have hdl : (declared names decls).length = names.length := by simp [declared, h.len]
  obtain ⟨hnl, hnote⟩ := noteUses_ok uses (declared names decls)
  have hfacts : ∀ (i : Nat) (hi : i < names.length), ∃ g d, (noteUses uses (declared names decls))[i]? = some g ∧ decls[i]? = some d ∧
      g.isDef = d.defined ∧ g.isStatic = d.static ∧ g.isInline = d.inline ∧ g.live = false ∧
      (g.refd = true ↔ ⟨none, i⟩ ∈ uses) ∧ ∀ j, (∃ n ∈ g.refs, find n = some j) ↔ ⟨some i, j⟩ ∈ uses := by
    intro i hi
    have hid : i < decls.length := by rw [← h.len]; exact hi
    have hdecl : (declared names decls)[i]? = some ⟨names[i], decls[i].defined, decls[i].static, decls[i].inline, false, [], false⟩ := by
      simp [declared, List.getElem?_zipWith, List.getElem?_eq_getElem hi, List.getElem?_eq_getElem hid]
    obtain ⟨g, hg, hN⟩ := hnote i _ hdecl
    refine ⟨g, decls[i], hg, List.getElem?_eq_getElem hid, hN.isDef, hN.isStatic, hN.isInline, hN.live, by rw [hN.refd]; simp, fun j => ?_⟩
    constructor
    · rintro ⟨n, hn, hf⟩
      rw [hN.refs n] at hn
      rcases hn with hn | ⟨j', t, hu, ht, htn⟩
      · cases hn
      · have hj' : j' < names.length := by rw [← hdl]; exact (List.getElem?_eq_some_iff.1 ht).1
        have hjd : j' < decls.length := by rw [← h.len]; exact hj'
        simp [declared, List.getElem?_zipWith, List.getElem?_eq_getElem hj', List.getElem?_eq_getElem hjd] at ht
        have : names[j'] = n := by rw [← htn, ← ht]
        rw [← this, h.find j' _ (List.getElem?_eq_getElem hj')] at hf
        cases hf; exact hu
    · intro hu
      have hj : j < names.length := h.uses _ hu
      have hjd : j < decls.length := by rw [← h.len]; exact hj
      refine ⟨names[j], (hN.refs _).2 (Or.inr ⟨j, ⟨names[j], decls[j].defined, decls[j].static, decls[j].inline, false, [], false⟩, hu, ?_, rfl⟩),
        h.find j _ (List.getElem?_eq_getElem hj)⟩
      simp [declared, List.getElem?_zipWith, List.getElem?_eq_getElem hj, List.getElem?_eq_getElem hjd]
  have hbl : (noteUses uses (declared names decls)).length = names.length := hnl.trans hdl
  have hedge : ∀ i j, Edge find (noteUses uses (declared names decls)) i j ↔ i < names.length ∧ ⟨some i, j⟩ ∈ uses := by
    intro i j
    constructor
    · rintro ⟨f, n, hf, hn, hfn⟩
      have hi : i < names.length := by rw [← hbl]; exact (List.getElem?_eq_some_iff.1 hf).1
      obtain ⟨g, _, hg, _, _, _, _, _, _, hr⟩ := hfacts i hi
      rw [hf] at hg; cases hg
      exact ⟨hi, (hr j).1 ⟨n, hn, hfn⟩⟩
    · rintro ⟨hi, hu⟩
      obtain ⟨g, _, hg, _, _, _, _, _, _, hr⟩ := hfacts i hi
      obtain ⟨n, hn, hfn⟩ := (hr j).2 hu
      exact ⟨g, n, hg, hn, hfn⟩
  have hroot : ∀ (i : Nat) (g : Fn), (noteUses uses (declared names decls))[i]? = some g → (isRoot g = true ↔ MustEmit decls uses i) := by
    intro i g hg
    have hi : i < names.length := by rw [← hbl]; exact (List.getElem?_eq_some_iff.1 hg).1
    obtain ⟨g', d, hg', hd, h1, h2, h3, _, h4, _⟩ := hfacts i hi
    rw [hg] at hg'; cases hg'
    simp only [MustEmit, hd, Option.some.injEq, exists_eq_left', isRoot, h1, h2, h3, Bool.and_eq_true, Bool.or_eq_true, h4,
      Bool.not_eq_true', Bool.and_eq_false_imp]
    constructor
    · rintro ⟨a, b | b⟩
      · exact ⟨a, Or.inr b⟩
      · exact ⟨a, Or.inl (fun hc => by rw [b hc.1] at hc; cases hc.2)⟩
    · rintro ⟨a, b | b⟩
      · exact ⟨a, Or.inr (fun hs => by cases hd' : d.inline with | true => exact absurd ⟨hs, hd'⟩ b | false => rfl)⟩
      · exact ⟨a, Or.inl b⟩
  have hstart : Sofar find (noteUses uses (declared names decls)) (noteUses uses (declared names decls)) 0 := by
    have hnone : ∀ j, ¬ isLive (noteUses uses (declared names decls)) j := by
      rintro j ⟨f, hf, hl⟩
      obtain ⟨g, _, hg, _, _, _, _, h0, _, _⟩ := hfacts j (by rw [← hbl]; exact (List.getElem?_eq_some_iff.1 hf).1)
      rw [hf] at hg; cases hg; rw [h0] at hl; cases hl
    exact ⟨Up.refl _, fun j hj => absurd hj (hnone j), fun j k hj => absurd hj (hnone j), fun r f hr => absurd hr (Nat.not_lt_zero _)⟩
  obtain ⟨out, hout, hS⟩ := markAll_ok (k := names.length + 1) (by omega) names.length 0 _ (by omega) hstart
  refine ⟨out, hout, by rw [← hS.up.1]; exact hbl, fun i f hf => ?_⟩
  obtain ⟨b, hb, hbe⟩ := hS.up.back hf
  have hi : i < names.length := by rw [← hbl]; exact (List.getElem?_eq_some_iff.1 hb).1
  obtain ⟨g, d, hg, hd, h1, hrest⟩ := hfacts i hi
  clear hrest
  rw [hb] at hg; cases hg
  have hdef : f.isDef = d.defined := by rw [hbe]; exact h1
  have hlive : f.live = true ↔ Needed decls uses i := by
    constructor
    · intro hl
      obtain ⟨r, fr, hr, hrr, hreach⟩ := hS.from_ i ⟨f, hf, hl⟩
      have hN0 : Needed decls uses r := .root ((hroot r fr hr).1 hrr)
      clear hf hbe hb hi hd h1 hdef hl
      induction hreach with
      | refl => exact hN0
      | step _ e ih => exact .step ih ((hedge _ _).1 e).2
    · intro hN
      have : isLive out i := by
        clear hf hbe hb hd h1 hdef
        induction hN with
        | @root i hm =>
          obtain ⟨g, _, hg, _⟩ := hfacts i hi
          exact hS.roots i g (by rw [hbl]; exact hi) hg ((hroot i g hg).2 hm)
        | @step i j hN hu ih =>
          have hi' : i < names.length := by
            cases hN with
            | root hm =>
              obtain ⟨d, hd, _⟩ := hm
              rw [h.len]; exact (List.getElem?_eq_some_iff.1 hd).1
            | step _ hu' => exact h.uses _ hu'
          exact hS.closed i j (ih hi') ((hedge i j).2 ⟨hi', hu⟩) (by rw [hbl]; exact hi)
      obtain ⟨f', hf', hl⟩ := this
      rw [hf] at hf'; cases hf'; exact hl
  simp only [isWritten, Bool.and_eq_true, hdef, hlive, hd, Option.some.injEq, exists_eq_left']

/-! ### The hypotheses are met -/

/-- `main` uses the inline `f`, `f` and `g` use each other, `h` uses itself only. -/
def liveNames : List (List Nat) := [[109], [102], [103], [104]]
def liveDecls : List FnDecl := [⟨true, false, false⟩, ⟨true, true, true⟩, ⟨true, true, true⟩, ⟨true, true, true⟩]
def liveUses : List FnUse := [⟨some 0, 1⟩, ⟨some 1, 2⟩, ⟨some 2, 1⟩, ⟨some 3, 3⟩]
def liveFind : List Nat → Option Nat
  | [109] => some 0
  | [102] => some 1
  | [103] => some 2
  | [104] => some 3
  | _ => none

example : LiveSetup liveFind liveNames liveDecls liveUses := by
  refine ⟨rfl, fun i n h => ?_, fun u hu => ?_⟩
  · match i, h with
    | 0, h => cases h; rfl
    | 1, h => cases h; rfl
    | 2, h => cases h; rfl
    | 3, h => cases h; rfl
    | i + 4, h => simp [liveNames] at h
  · simp only [liveUses, List.mem_cons, List.not_mem_nil, or_false] at hu
    rcases hu with rfl | rfl | rfl | rfl <;> decide

example : (liveFns liveFind liveNames liveDecls liveUses).map (List.map isWritten) = some [true, true, true, false] := by decide

example : Needed liveDecls liveUses 2 :=
  .step (i := 1) (.step (i := 0) (.root ⟨_, rfl, rfl, Or.inl (by simp)⟩) (by simp [liveUses])) (by simp [liveUses])

end Slimcc.Props
