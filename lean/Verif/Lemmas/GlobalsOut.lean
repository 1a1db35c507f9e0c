import Verif.Lemmas.GlobalsInv
/-! File scope declarations: what is written for a name. -/
set_option autoImplicit false
namespace Slimcc.Globals
open Slimcc.Spec.Link

theorem filter_none {α : Type} {l : List α} {p : α → Bool} (h : ∀ (j : Nat) (g : α), l[j]? = some g → p g = false) : l.filter p = [] := by
  rw [List.filter_eq_nil_iff]
  intro g hg hp
  obtain ⟨j, hj⟩ := List.getElem?_of_mem hg
  rw [h j g hj] at hp; cases hp

theorem filter_one {α : Type} {p : α → Bool} {g : α} : ∀ (l : List α) (i : Nat), l[i]? = some g → p g = true →
    (∀ (j : Nat) (g' : α), l[j]? = some g' → p g' = true → j = i) → l.filter p = [g] := by
  intro l
  induction l with
  | nil => intro i h; cases h
  | cons c l ih =>
    intro i h hp hu
    cases i with
    | zero =>
      injection h with h; subst h
      rw [List.filter_cons, if_pos hp, filter_none]
      intro j g' hj
      cases hc : p g' with
      | false => rfl
      | true => have := hu (j + 1) g' hj hc; omega
    | succ i =>
      rw [List.filter_cons]
      have hc : ¬ p c = true := by
        intro hc
        have := hu 0 c rfl hc
        omega
      rw [if_neg hc]
      refine ih i h hp fun j g' hj hc => ?_
      have := hu (j + 1) g' hj hc
      omega

theorem filter_data {s : St} {x : Nat} (q : GObj → Bool) : ∀ l : List GObj, ((l.filter q).filterMap (datum s)).filter (fun D => D.name == x) =
    (l.filter fun g => q g && g.name == x).filterMap (datum s) := by
  intro l
  induction l with
  | nil => rfl
  | cons g l ih =>
    rw [List.filter_cons, List.filter_cons]
    cases hq : q g with
    | false => exact ih
    | true =>
      simp only [if_true, Bool.true_and]
      rw [List.filterMap_cons]
      cases hd : datum s g with
      | none =>
        dsimp only
        rw [ih]
        split
        · rw [List.filterMap_cons, hd]
        · rfl
      | some D =>
        have hn : D.name = g.name := by
          unfold datum at hd
          cases hs : sizeEnd s g with
          | none => rw [hs] at hd; cases hd
          | some n => rw [hs] at hd; injection hd with hd; rw [← hd]
        dsimp only
        rw [List.filter_cons, hn, ih]
        split
        · rw [List.filterMap_cons, hd]
        · rfl

theorem filter_fns {x : Nat} (q : GObj → Bool) : ∀ l : List GObj, ((l.filter q).map fun g => (g.name, g.isStatic)).filter (fun D => D.1 == x) =
    (l.filter fun g => q g && g.name == x).map fun g => (g.name, g.isStatic) := by
  intro l
  induction l with
  | nil => rfl
  | cons g l ih =>
    rw [List.filter_cons, List.filter_cons]
    cases hq : q g with
    | false => exact ih
    | true =>
      simp only [if_true, Bool.true_and]
      rw [List.map_cons, List.filter_cons, ih]
      split <;> simp_all

/-- The objects defined with a name. -/
theorem defs_one {u : List Event} {s : St} (h : Inv u s) {x i : Nat} {g : GObj} (f : Bool) (hl : look s.file x = some (.obj i))
    (hg : s.objs[i]? = some g) (hd : g.isDef = true) (hf : g.fn = f) :
    (s.objs.reverse.filter fun g => (g.isDef && (g.fn == f)) && g.name == x) = [g] := by
  obtain ⟨i', g2, e1, e2, e3⟩ := h.idx _ _ hl
  injection e1 with e1; subst e1
  rw [hg] at e2; injection e2 with e2; subst e2
  rw [List.filter_reverse, filter_one s.objs i hg]
  · rfl
  · rw [hd, hf, e3]; simp
  · intro j g' hj hp
    simp only [Bool.and_eq_true, beq_iff_eq] at hp
    have := h.only j g' hj hp.1.1
    rw [hp.2, hl] at this
    injection this with this; injection this with this; exact this.symm

theorem defs_none {u : List Event} {s : St} (h : Inv u s) {x : Nat} (f : Bool)
    (hn : ∀ i g, look s.file x = some (.obj i) → s.objs[i]? = some g → g.fn = f → g.isDef = false) :
    (s.objs.reverse.filter fun g => (g.isDef && (g.fn == f)) && g.name == x) = [] := by
  rw [List.filter_reverse, filter_none]
  · rfl
  · intro j g hj
    cases hc : ((g.isDef && (g.fn == f)) && g.name == x) with
    | false => rfl
    | true =>
      exfalso
      simp only [Bool.and_eq_true, beq_iff_eq] at hc
      have hl := h.only j g hj hc.1.1
      rw [hc.2] at hl
      have := hn j g hl hj hc.1.2
      rw [hc.1.1] at this; cases this

theorem data_eq (s : St) (x : Nat) : (data s).filter (fun D => D.name == x) =
    (s.objs.reverse.filter fun g => (g.isDef && (g.fn == false)) && g.name == x).filterMap (datum s) := by
  unfold data
  rw [filter_data]
  congr 2
  funext g
  cases g.fn <;> rfl

theorem functions_eq (s : St) (x : Nat) : (functions s).filter (fun D => D.1 == x) =
    (s.objs.reverse.filter fun g => (g.isDef && (g.fn == true)) && g.name == x).map fun g => (g.name, g.isStatic) := by
  unfold functions
  rw [filter_fns]
  congr 2
  funext g
  cases g.fn <;> rfl

/-- A type that is complete at the end has the size it has in C. -/
theorem sizeEnd_eq {u : List Event} {s : St} (h : Inv u s) (g : GObj) (n : Nat) (hb : g.ty.bytes u = some n)
    (ht : g.ty.sized = false → g.isTent = true) : sizeEnd s g = some n := by
  unfold sizeEnd
  cases hty : g.ty with
  | plain a b => rw [hty] at hb; exact hb
  | arr a b c => rw [hty] at hb; exact hb
  | unsized a b =>
    rw [hty] at hb ht
    dsimp only
    rw [if_pos (ht rfl)]; exact hb
  | tag t =>
    rw [hty] at hb
    dsimp only
    rw [h.tags]; exact hb

theorem type_align (u : List Event) (d : ObjDecl) : d.type.align u = d.ty.align u := by
  unfold ObjDecl.type
  split
  · rename_i h1 h2; rw [h1]; rfl
  · rfl

theorem compat_align (u : List Event) {t t' : STy} (h : t.compat t') : t.align u = t'.align u := by
  unfold STy.compat at h
  split at h
  · unfold STy.align; rw [h.2]
  · unfold STy.align; rw [h.2]
  · rw [h]

theorem type_sized {d : ObjDecl} (h : d.init ≠ none) : d.type.sized = true := by
  unfold ObjDecl.type
  split
  · rfl
  · rename_i t o h1
    cases ht : d.ty with
    | unsized a b =>
      cases hi : d.init with
      | none => exact absurd hi h
      | some i => exact absurd hi (h1 _ _ _ ht)
    | _ => rfl

theorem type_none {d : ObjDecl} (h : d.init = none) : d.type = d.ty := by
  unfold ObjDecl.type
  rw [h]
  cases d.ty <;> rfl

theorem find_split {ds : List ObjDecl} {d : ObjDecl} (p : ObjDecl → Bool) (h : ds.reverse.find? p = some d) :
    p d = true ∧ ∃ a b, ds = a ++ d :: b ∧ ∀ d' ∈ b, p d' = false := by
  rw [List.find?_eq_some_iff_append] at h
  obtain ⟨hp, a, b, e, hn⟩ := h
  refine ⟨hp, b.reverse, a.reverse, ?_, ?_⟩
  · have := congrArg List.reverse e
    rw [List.reverse_reverse] at this
    rw [this]; simp
  · intro d' hd'
    have := hn d' (List.mem_reverse.1 hd')
    simpa using this

end Slimcc.Globals
