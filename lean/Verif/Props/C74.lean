import Verif.Spec.LineNo
import Verif.Props.C12
set_option autoImplicit false

/-! C74: `__LINE__`, `__FILE__` and the debugging information name the presumed line and file of C. -/

namespace Slimcc.Props

open Slimcc.LineNo

/-! ### The number of a marker -/

theorem sepDigits_self : ∀ (ds : List Nat), ds ≠ [] → (∀ d ∈ ds, Spec.IsDigit d) →
    Spec.SepDigits Spec.IsDigit ds ds
  | [], h, _ => absurd rfl h
  | [d], _, h => .one d (h d (by simp))
  | d :: e :: ds, _, h => .cons d _ _ (h d (by simp)) (sepDigits_self (e :: ds) (by simp) (fun x hx => h x (by simp [hx])))

theorem markerNum_plain {num : List Nat} {n : Nat} (h : Plain num n) : markerNum num = some (n : Int) := by
  obtain ⟨h0, hd, hz, hl, hv, hn⟩ := h
  have := C12_value_and_type 10 num num [] [] false 0 .int (.dec num num (sepDigits_self num h0 hd) hz) .none
    (by simp; omega)
    (by rw [hv]; simp [Spec.literalType, Spec.literalTypes, Spec.IntTy.fits, Spec.IntTy.max, hn])
  rw [List.append_nil, hv] at this
  unfold markerNum
  rw [this]

/-! ### The walk -/

theorem run_append : ∀ (a b : List Event) (st : Reg), run st (a ++ b) = (do
    let (o1, st1) ← run st a
    let (o2, st2) ← run st1 b
    some (o1 ++ o2, st2))
  | [], b, st => by
    simp only [List.nil_append, run, Option.bind_eq_bind, Option.bind_some]
    cases run st b <;> rfl
  | .enter p :: a, b, st => by
    simp only [List.cons_append, run]
    cases addInputFile st p true p with
    | none => rfl
    | some f =>
      simp only
      by_cases h : f.loaded = true
      · rw [if_pos h, if_pos h, run_append a b]
      · rw [if_neg h, if_neg h]; rfl
  | .marker p l n x :: a, b, st => by
    simp only [List.cons_append, run, Option.bind_eq_bind]
    cases readLineMarker st p l n x with
    | none => rfl
    | some st1 => simp only [Option.bind_some]; rw [run_append a b]; rfl
  | .place p l :: a, b, st => by
    simp only [List.cons_append, run, Option.bind_eq_bind]
    cases st p with
    | none => rfl
    | some f =>
      simp only [Option.bind_some]
      rw [run_append a b]
      cases run st a with
      | none => rfl
      | some r =>
        obtain ⟨o1, st1⟩ := r
        simp only [Option.bind_eq_bind, Option.bind_some]
        cases run st1 b <;> rfl

/-- Running one list after another. -/
theorem run_both {a b : List Event} {st st1 st2 : Reg} {o1 o2 : List (Int × String)}
    (h1 : run st a = some (o1, st1)) (h2 : run st1 b = some (o2, st2)) :
    run st (a ++ b) = some (o1 ++ o2, st2) := by
  rw [run_append, h1]
  simp [h2]

theorem run_places (st : Reg) (p : String) (f : File) (l : Nat) (hf : st p = some f) :
    ∀ ts : List Nat, run st (ts.map fun k => .place p (l + k))
      = some (ts.map (fun k => placeOf f (l + k)), st)
  | [] => rfl
  | k :: ts => by
    simp only [List.map_cons, run, hf, run_places st p f l hf ts, Option.bind_eq_bind, Option.bind_some]

/-- The files known are read in, and without markers in them they keep their own lines and name. -/
def Known (En Mk : String → Prop) (st : Reg) : Prop :=
  ∀ q f, En q → st q = some f → f.loaded = true ∧ (¬ Mk q → f.delta = 0 ∧ f.display = q)

/-- One state follows another by way of these inclusions, in a file. -/
def After (En : String → Prop) (p : String) (inc : List String) (st st' : Reg) : Prop :=
  (∀ q, st q ≠ none → st' q ≠ none) ∧ ∀ q, En q → q ≠ p → q ∉ inc → st' q = st q

theorem addInputFile_other {st : Reg} {p q : String} {c : Bool} (h : q ≠ p) : addInputFile st p c q = st q := by
  unfold addInputFile
  cases st p with
  | none => simp [h]
  | some f => rfl

theorem addInputFile_new {st : Reg} {p : String} {c : Bool} (h : st p = none) :
    addInputFile st p c p = some ⟨c, 0, p⟩ := by
  unfold addInputFile
  simp [h]

theorem addInputFile_old {st : Reg} {p : String} {c : Bool} {f : File} (h : st p = some f) :
    addInputFile st p c = st := by
  unfold addInputFile
  simp [h]

theorem count_pos_of_mem {q : String} {l : List String} (h : q ∈ l) : 0 < l.count q :=
  List.count_pos_iff.2 h

theorem walk (En Mk : String → Prop) : ∀ (s : Src) (p : String) (l : Nat) (cur : Int) (nm : String) (st : Reg)
    (out : List (Int × String)),
    Presumed cur nm s out →
    (∀ q, Mk q → (included s).count q ≤ 1) →
    (∀ q, Mk q → q ∈ included s → st q = none) →
    (∀ q ∈ included s, En q) →
    (∀ q h x, (q, h, x) ∈ marks p s → Mk q ∧ h = 1 ∧ ∀ y, x = some y → y = q ∨ ¬ En y) →
    Known En Mk st → En p → st p = some ⟨true, cur - l, nm⟩ →
    ∃ st', run st (events p l s) = some (out, st') ∧ Known En Mk st' ∧ After En p (included s) st st'
  | .nil, p, l, cur, nm, st, out, hp, _, _, _, _, hk, _, _ => by
    cases hp
    exact ⟨st, rfl, hk, fun _ h => h, fun _ _ _ _ => rfl⟩
  | .text ts h s, p, l, cur, nm, st, out, hp, h1, h2, h3, h4, hk, he, hf => by
    cases hp with
    | text _ _ _ _ _ o hp =>
      obtain ⟨st', hr, hk', ha⟩ := walk En Mk s p (l + h) (cur + h) nm st o hp h1 h2 h3 h4 hk he
        (by rw [hf]; congr 2; omega)
      refine ⟨st', ?_, hk', ha⟩
      rw [events]
      have e : (ts.map fun (k : Nat) => (cur + k, nm)) = ts.map (fun k => placeOf ⟨true, cur - l, nm⟩ (l + k)) := by
        apply List.map_congr_left
        intro k _
        unfold placeOf
        congr 1
        simp only
        omega
      rw [e]
      exact run_both (run_places st p _ l hf ts) hr
  | .mark h num x s, p, l, cur, nm, st, out, hp, h1, h2, h3, h4, hk, he, hf => by
    cases hp with
    | mark _ _ _ _ n _ _ _ hn hp =>
      obtain ⟨hm, rfl, hx⟩ := h4 p h x (by simp [marks])
      have h4' : ∀ q h x, (q, h, x) ∈ marks p s → Mk q ∧ h = 1 ∧ ∀ y, x = some y → y = q ∨ ¬ En y :=
        fun q h x hq => h4 q h x (by simp [marks, hq])
      -- the state after the marker
      have key : ∃ st1, readLineMarker st p l num x = some st1 ∧
          st1 p = some ⟨true, (n : Int) - l - 1, x.getD nm⟩ ∧ (∀ q, st q ≠ none → st1 q ≠ none) ∧
          ∀ q, En q → q ≠ p → st1 q = st q := by
        unfold readLineMarker
        rw [markerNum_plain hn]
        simp only [Option.bind_eq_bind, Option.bind_some, hf]
        cases x with
        | none =>
          refine ⟨_, rfl, by simp, ?_, ?_⟩
          · intro q hq
            by_cases e : q = p
            · simp [e]
            · simpa [e] using hq
          · intro q _ e; simp [e]
        | some y =>
          refine ⟨_, rfl, by simp, ?_, ?_⟩
          · intro q hq
            by_cases e : q = p
            · simp [e]
            · simp only [e, if_false]
              by_cases ey : q = y
              · subst ey
                unfold addInputFile
                simp only [e, if_false]
                cases hs : st q with
                | none => simp
                | some f => simp [hs, e]
              · rw [addInputFile_other ey]; simpa [e] using hq
          · intro q hq e
            simp only [e, if_false]
            have ey : q ≠ y := by
              intro hqy
              rcases hx y rfl with hy | hy
              · exact e (hqy.trans hy)
              · exact hy (hqy ▸ hq)
            rw [addInputFile_other ey]; simp [e]
      obtain ⟨st1, hr1, hp1, hmono, hother⟩ := key
      have hk1 : Known En Mk st1 := by
        intro q f hq hqf
        by_cases e : q = p
        · subst e
          rw [hp1] at hqf
          injection hqf with hqf
          subst hqf
          exact ⟨rfl, fun h => absurd hm h⟩
        · rw [hother q hq e] at hqf; exact hk q f hq hqf
      have h2' : ∀ q, Mk q → q ∈ included s → st1 q = none := by
        intro q hq hi
        have hn := h2 q hq hi
        have e : q ≠ p := by intro e; rw [e, hf] at hn; simp at hn
        rw [hother q (h3 q hi) e, hn]
      obtain ⟨st', hr, hk', ha1, ha2⟩ := walk En Mk s p (l + 1) n (x.getD nm) st1 out hp h1 h2' h3 h4' hk1 he
        (by rw [hp1]; congr 2; omega)
      refine ⟨st', ?_, hk', ?_, ?_⟩
      · simp only [events, run, hr1, Option.bind_eq_bind, Option.bind_some]; exact hr
      · exact fun q hq => ha1 q (hmono q hq)
      · intro q hq e hi; rw [ha2 q hq e hi, hother q hq e]
  | .incl h path b s, p, l, cur, nm, st, out, hp, h1, h2, h3, h4, hk, he, hf => by
    cases hp with
    | incl _ _ _ _ _ _ o1 o2 hp1 hp2 =>
      have hep : En path := h3 path (by simp [included])
      have cnt : ∀ q, Mk q → (if path = q then 1 else 0) + (included b).count q + (included s).count q ≤ 1 := by
        intro q hq
        have := h1 q hq
        simp only [included, List.count_cons, List.count_append] at this
        by_cases e : path = q <;> simp_all <;> omega
      -- the included file is entered
      have key : addInputFile st path true path = some ⟨true, 0, path⟩ := by
        cases hs : st path with
        | none => exact addInputFile_new hs
        | some f =>
          rw [addInputFile_old hs, hs]
          obtain ⟨a1, a2⟩ := hk path f hep hs
          have hnm : ¬ Mk path := by
            intro hm
            rw [h2 path hm (by simp [included])] at hs
            simp at hs
          obtain ⟨d1, d2⟩ := a2 hnm
          cases f
          simp_all
      have hmono0 : ∀ q, st q ≠ none → addInputFile st path true q ≠ none := by
        intro q hq
        by_cases e : q = path
        · subst e; rw [key]; simp
        · rw [addInputFile_other e]; exact hq
      have hk0 : Known En Mk (addInputFile st path true) := by
        intro q f hq hqf
        by_cases e : q = path
        · subst e
          rw [key] at hqf
          injection hqf with hqf
          subst hqf
          exact ⟨rfl, fun _ => ⟨rfl, rfl⟩⟩
        · rw [addInputFile_other e] at hqf; exact hk q f hq hqf
      have h2b : ∀ q, Mk q → q ∈ included b → addInputFile st path true q = none := by
        intro q hq hi
        have e : q ≠ path := by
          intro e
          have := cnt q hq
          rw [if_pos e.symm] at this
          have := count_pos_of_mem hi
          omega
        rw [addInputFile_other e]
        exact h2 q hq (by simp [included, hi])
      obtain ⟨st1, hr1, hk1, ha1, hb1⟩ := walk En Mk b path 1 1 path (addInputFile st path true) o1 hp1
        (fun q hq => by have := cnt q hq; omega) h2b (fun q hq => h3 q (by simp [included, hq]))
        (fun q h x hq => h4 q h x (by simp [marks, hq])) hk0 hep (by rw [key]; rfl)
      have h2s : ∀ q, Mk q → q ∈ included s → st1 q = none := by
        intro q hq hi
        have hc := cnt q hq
        have hpos := count_pos_of_mem hi
        have e : q ≠ path := by
          intro e
          rw [if_pos e.symm] at hc
          omega
        have hnb : q ∉ included b := by
          intro hb
          have := count_pos_of_mem hb
          omega
        rw [hb1 q (h3 q (by simp [included, hi])) e hnb, addInputFile_other e]
        exact h2 q hq (by simp [included, hi])
      -- the including file is where it was
      have hfp : st1 p = some ⟨true, cur - l, nm⟩ := by
        by_cases hm : Mk p
        · have hni : p ∉ included (.incl h path b s) := by
            intro hi
            rw [h2 p hm hi] at hf
            simp at hf
          simp only [included, List.mem_cons, List.mem_append, not_or] at hni
          rw [hb1 p he hni.1 hni.2.1, addInputFile_other hni.1, hf]
        · obtain ⟨-, a⟩ := hk p _ he hf
          obtain ⟨d1, d2⟩ := a hm
          cases hs : st1 p with
          | none => exact absurd hs (ha1 p (hmono0 p (by rw [hf]; simp)))
          | some f =>
            obtain ⟨b1, b2⟩ := hk1 p f he hs
            obtain ⟨c1, c2⟩ := b2 hm
            cases f
            simp_all
      obtain ⟨st2, hr2, hk2, ha2, hb2⟩ := walk En Mk s p (l + h) (cur + h) nm st1 o2 hp2
        (fun q hq => by have := cnt q hq; omega) h2s (fun q hq => h3 q (by simp [included, hq]))
        (fun q h x hq => h4 q h x (by simp [marks, hq])) hk1 he (by rw [hfp]; congr 2; omega)
      refine ⟨st2, ?_, hk2, ?_, ?_⟩
      · simp only [events, run, key, if_true]
        exact run_both hr1 hr2
      · exact fun q hq => ha2 q (ha1 q (hmono0 q hq))
      · intro q hq e hi
        simp only [included, List.mem_cons, List.mem_append, not_or] at hi
        rw [hb2 q hq e hi.2.2, hb1 q hq hi.1 hi.2.1, addInputFile_other hi.1]

/-- **C74.** For a source file with everything it includes, to any depth: if every `#line` stands on a single
line with a number that begins with no zero, no file with a `#line` in it is read twice, and the names these
directives give are not those of other files which are read, then the line and the file the preprocessor
finds for every token are the presumed ones of C. -/
theorem C74_presumed (main : String) (s : Src) (out : List (Int × String))
    (hp : Presumed 1 main s out)
    (h1 : ∀ q h x, (q, h, x) ∈ marks main s → h = 1)
    (h2 : ∀ q h x, (q, h, x) ∈ marks main s → (main :: included s).count q = 1)
    (h3 : ∀ q h y, (q, h, some y) ∈ marks main s → y = q ∨ y ∉ main :: included s) :
    (run (fun _ => none) (.enter main :: events main 1 s)).map Prod.fst = some out := by
  obtain ⟨Mk, hMk⟩ : ∃ Mk : String → Prop, Mk = fun q => ∃ h x, (q, h, x) ∈ marks main s := ⟨_, rfl⟩
  have hc : ∀ q, Mk q → (main :: included s).count q = 1 := by
    intro q hq
    rw [hMk] at hq
    obtain ⟨h, x, hq⟩ := hq
    exact h2 q h x hq
  have e0 : addInputFile (fun _ => none) main true main = some ⟨true, 0, main⟩ := addInputFile_new rfl
  obtain ⟨st', hr, -⟩ := walk (fun q => q ∈ main :: included s) Mk s main 1 1 main
    (addInputFile (fun _ => none) main true) out hp
    (fun q hq => by
      have := hc q hq
      rw [List.count_cons] at this
      omega)
    (fun q hq hi => by
      have := hc q hq
      rw [List.count_cons] at this
      have hpos := count_pos_of_mem hi
      have e : q ≠ main := by
        intro e
        rw [if_pos (by simp [e])] at this
        omega
      rw [addInputFile_other e])
    (fun q hq => by simp [hq])
    (fun q h x hq => ⟨by rw [hMk]; exact ⟨h, x, hq⟩, h1 q h x hq, fun y hy => h3 q h y (hy ▸ hq)⟩)
    (by
      intro q f _ hqf
      by_cases e : q = main
      · subst e
        rw [e0] at hqf
        injection hqf with hqf
        subst hqf
        exact ⟨rfl, fun _ => ⟨rfl, rfl⟩⟩
      · rw [addInputFile_other e] at hqf; simp at hqf)
    (by simp) (by rw [e0]; rfl)
  simp only [run, e0, if_true, hr, Option.map_some]

/-! ### Departures -/

/-- A `#line` that goes on over two lines (a spliced line, or a comment): the line after it is counted from
the first of them, so its number is one too large. -/
theorem C74_two_line_marker :
    Presumed 1 "a.c" (.mark 2 [49, 48, 48] none (.text [0] 1 .nil)) [(100, "a.c")] ∧
    (run (fun _ => none) (.enter "a.c" :: events "a.c" 1 (.mark 2 [49, 48, 48] none (.text [0] 1 .nil)))).map
      Prod.fst = some [(101, "a.c")] :=
  ⟨.mark _ _ _ _ 100 _ _ _ ⟨by simp, by simp [Spec.IsDigit], by decide, by decide, by decide, by decide⟩
    (.text _ _ _ _ _ [] (.nil _ _)), by decide +kernel⟩

/-- `#line 010` means line 10; the number is read as an octal constant. -/
theorem C74_leading_zero : markerNum [48, 49, 48] = some 8 ∧ Spec.digitsValue 10 [48, 49, 48] = 10 := by
  decide +kernel

/-- A file with a `#line` in it that is read a second time begins with the offset the first left behind. -/
theorem C74_included_twice :
    let h : Src := .text [0] 1 (.mark 1 [49, 48, 48] none (.text [0] 1 .nil))
    Presumed 1 "a.c" (.incl 1 "h.h" h (.incl 1 "h.h" h .nil))
      [(1, "h.h"), (100, "h.h"), (1, "h.h"), (100, "h.h")] ∧
    (run (fun _ => none) (.enter "a.c" :: events "a.c" 1 (.incl 1 "h.h" h (.incl 1 "h.h" h .nil)))).map
      Prod.fst = some [(1, "h.h"), (100, "h.h"), (98, "h.h"), (100, "h.h")] := by
  have hh : Presumed 1 "h.h" (.text [0] 1 (.mark 1 [49, 48, 48] none (.text [0] 1 .nil)))
      [(1, "h.h"), (100, "h.h")] :=
    .text _ _ _ _ _ [(100, "h.h")]
      (.mark _ _ _ _ 100 _ _ _ ⟨by simp, by simp [Spec.IsDigit], by decide, by decide, by decide, by decide⟩
        (.text _ _ _ _ _ [] (.nil _ _)))
  exact ⟨.incl _ _ _ _ _ _ _ _ hh (.incl _ _ _ _ _ _ _ [] hh (.nil _ _)), by decide +kernel⟩

/-- A file whose path was given as a name by a `#line` cannot be included afterwards: the compiler reads
through a null pointer. -/
theorem C74_name_then_include :
    run (fun _ => none) (.enter "a.c" :: events "a.c" 1
      (.mark 1 [49] (some "./b.h") (.incl 1 "./b.h" (.text [0] 1 .nil) .nil))) = none := by
  rfl

/-! ### Example -/

/-- A generated source: its first lines, a header read twice, a `#line` naming the grammar it was made from,
text with a comment of two lines, a header, and a `#line` back to the file itself. -/
def lineEx : Src :=
  .text [0, 0] 1 (.incl 1 "h.h" (.text [1] 3 .nil) (.mark 1 [50, 51] (some "g.y") (.text [0, 2] 3
    (.incl 1 "h.h" (.text [1] 3 .nil) (.text [0] 1 (.mark 1 [56] (some "g.c") (.text [0] 1 .nil)))))))

theorem lineEx_presumed : Presumed 1 "g.c" lineEx
    [(1, "g.c"), (1, "g.c"), (2, "h.h"), (23, "g.y"), (25, "g.y"), (2, "h.h"), (27, "g.y"), (8, "g.c")] :=
  have h : Presumed 1 "h.h" (.text [1] 3 .nil) [(2, "h.h")] := .text _ _ _ _ _ [] (.nil _ _)
  .text _ _ _ _ _ [(2, "h.h"), (23, "g.y"), (25, "g.y"), (2, "h.h"), (27, "g.y"), (8, "g.c")]
    (.incl _ _ _ _ _ _ [(2, "h.h")] _ h
      (.mark _ _ _ _ 23 _ _ _ ⟨by simp, by simp [Spec.IsDigit], by decide, by decide, by decide, by decide⟩
        (.text _ _ _ _ _ [(2, "h.h"), (27, "g.y"), (8, "g.c")]
          (.incl _ _ _ _ _ _ [(2, "h.h")] _ h
            (.text _ _ _ _ _ [(8, "g.c")]
              (.mark _ _ _ _ 8 _ _ _ ⟨by simp, by simp [Spec.IsDigit], by decide, by decide, by decide, by decide⟩
                (.text _ _ _ _ _ [] (.nil _ _))))))))

example : (run (fun _ => none) (.enter "g.c" :: events "g.c" 1 lineEx)).map Prod.fst
    = some [(1, "g.c"), (1, "g.c"), (2, "h.h"), (23, "g.y"), (25, "g.y"), (2, "h.h"), (27, "g.y"), (8, "g.c")] :=
  C74_presumed "g.c" lineEx _ lineEx_presumed
    (by
      intro q h x hq
      simp only [lineEx, marks, List.nil_append, List.mem_cons, Prod.mk.injEq, List.not_mem_nil, or_false] at hq
      rcases hq with ⟨-, h, -⟩ | ⟨-, h, -⟩ <;> exact h)
    (by
      intro q h x hq
      simp only [lineEx, marks, List.nil_append, List.mem_cons, Prod.mk.injEq, List.not_mem_nil, or_false] at hq
      rcases hq with ⟨rfl, -, -⟩ | ⟨rfl, -, -⟩ <;> decide)
    (by
      intro q h x hq
      simp only [lineEx, marks, List.nil_append, List.mem_cons, Prod.mk.injEq, List.not_mem_nil, or_false,
        Option.some.injEq] at hq
      rcases hq with ⟨rfl, -, rfl⟩ | ⟨rfl, -, rfl⟩
      · exact .inr (by simp [lineEx, included])
      · exact .inl rfl)

end Slimcc.Props
