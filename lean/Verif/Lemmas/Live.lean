import Verif.Model.Live
/-!
Marking is reachability.
-/
set_option autoImplicit false
namespace Slimcc.LiveL
open Slimcc.Spec Slimcc.Live

def isLive (fns : List Fn) (i : Nat) : Prop := ∃ f, fns[i]? = some f ∧ f.live = true

/-- The function `i` refers to `j`. -/
def Edge (find : List Nat → Option Nat) (fns : List Fn) (i j : Nat) : Prop :=
  ∃ f n, fns[i]? = some f ∧ n ∈ f.refs ∧ find n = some j

inductive Reach (find : List Nat → Option Nat) (fns : List Fn) (i : Nat) : Nat → Prop
  | refl : Reach find fns i i
  | step {j k : Nat} : Reach find fns i j → Edge find fns j k → Reach find fns i k

theorem Reach.trans {find : List Nat → Option Nat} {fns : List Fn} {a b c : Nat} (h1 : Reach find fns a b) (h2 : Reach find fns b c) : Reach find fns a c := by
  induction h2 with
  | refl => exact h1
  | step _ e ih => exact .step ih e

/-- Only marks have been added. -/
def Up (a b : List Fn) : Prop :=
  a.length = b.length ∧ ∀ (i : Nat) (f : Fn), a[i]? = some f → ∃ l, b[i]? = some { f with live := l } ∧ (f.live = true → l = true)

theorem Up.refl (a : List Fn) : Up a a := ⟨rfl, fun i f h => ⟨f.live, h, id⟩⟩

theorem Up.trans {a b c : List Fn} (h1 : Up a b) (h2 : Up b c) : Up a c := by
  refine ⟨h1.1.trans h2.1, fun i f h => ?_⟩
  obtain ⟨l, hb, hl⟩ := h1.2 i f h
  obtain ⟨l2, hc, hl2⟩ := h2.2 i _ hb
  exact ⟨l2, hc, fun h => hl2 (hl h)⟩

theorem Up.live {a b : List Fn} (h : Up a b) {i : Nat} (hi : isLive a i) : isLive b i := by
  obtain ⟨f, hf, hl⟩ := hi
  obtain ⟨l, hb, h'⟩ := h.2 i f hf
  exact ⟨_, hb, h' hl⟩

theorem Up.back {a b : List Fn} (h : Up a b) {i : Nat} {g : Fn} (hg : b[i]? = some g) : ∃ f, a[i]? = some f ∧ g = { f with live := g.live } := by
  have hlt : i < a.length := by
    have := (List.getElem?_eq_some_iff.1 hg).1
    rw [h.1]; exact this
  obtain ⟨l, hb, _⟩ := h.2 i a[i] (List.getElem?_eq_getElem hlt)
  rw [hg] at hb
  exact ⟨a[i], List.getElem?_eq_getElem hlt, by cases hb; rfl⟩

theorem Up.edge {find : List Nat → Option Nat} {a b : List Fn} (h : Up a b) {i j : Nat} : Edge find b i j ↔ Edge find a i j := by
  constructor
  · rintro ⟨g, n, hg, hn, hf⟩
    obtain ⟨f, hfa, he⟩ := h.back hg
    exact ⟨f, n, hfa, by rw [he] at hn; exact hn, hf⟩
  · rintro ⟨f, n, hfa, hn, hf⟩
    obtain ⟨l, hb, _⟩ := h.2 i f hfa
    exact ⟨_, n, hb, hn, hf⟩

theorem Up.reach {find : List Nat → Option Nat} {a b : List Fn} (h : Up a b) {i j : Nat} (hr : Reach find b i j) : Reach find a i j := by
  induction hr with
  | refl => exact .refl
  | step _ e ih => exact .step ih (h.edge.1 e)

theorem setLive_up (i : Nat) (fns : List Fn) : Up fns (setLive i fns) := by
  refine ⟨by simp [setLive], fun j f h => ?_⟩
  simp only [setLive, List.getElem?_modify, h, Option.map_some]
  by_cases hij : i = j
  · exact ⟨true, by simp [hij], fun _ => rfl⟩
  · exact ⟨f.live, by simp [hij], id⟩

theorem setLive_live {i : Nat} {fns : List Fn} {j : Nat} (h : isLive (setLive i fns) j) : j = i ∨ isLive fns j := by
  obtain ⟨f, hf, hl⟩ := h
  simp only [setLive, List.getElem?_modify] at hf
  by_cases hij : i = j
  · exact Or.inl hij.symm
  · right
    cases hj : fns[j]? with
    | none => rw [hj] at hf; cases hf
    | some g => rw [hj] at hf; simp [hij] at hf; exact ⟨g, hj, by rw [hf]; exact hl⟩

/-- How many functions are not marked. -/
def unmarked (fns : List Fn) : Nat := fns.countP (fun f => !f.live)

theorem Up.unmarked {a b : List Fn} (h : Up a b) : unmarked b ≤ unmarked a := by
  obtain ⟨hl, h⟩ := h
  induction a generalizing b with
  | nil => cases b with
    | nil => exact Nat.le_refl _
    | cons _ _ => cases hl
  | cons x a ih =>
    cases b with
    | nil => cases hl
    | cons y b =>
      have h0 := h 0 x rfl
      have := ih (b := b) (by simpa using hl) (fun i f hf => h (i + 1) f (by simpa using hf))
      obtain ⟨l, hb, hl'⟩ := h0
      simp at hb
      simp only [LiveL.unmarked, List.countP_cons] at this ⊢
      rw [hb]
      cases hx : x.live with
      | true => simp [hl' hx]; exact this
      | false => cases l <;> simp <;> omega

theorem setLive_unmarked {i : Nat} {fns : List Fn} {f : Fn} (h : fns[i]? = some f) (hf : f.live = false) : unmarked (setLive i fns) + 1 = unmarked fns := by
  induction fns generalizing i with
  | nil => cases h
  | cons x fns ih =>
    cases i with
    | zero =>
      simp at h; subst h
      simp [setLive, unmarked, List.countP_cons, hf]
    | succ i =>
      have := ih (i := i) (by simpa using h)
      simp only [setLive, List.modify_succ_cons, unmarked, List.countP_cons] at this ⊢
      omega

/-- What a call of the marking function has to achieve. -/
structure Marked (find : List Nat → Option Nat) (i : Nat) (a b : List Fn) : Prop where
  up : Up a b
  here : i < a.length → isLive b i
  from_ : ∀ j, isLive b j → isLive a j ∨ Reach find a i j
  closed : ∀ j k, isLive b j → ¬isLive a j → Edge find a j k → k < a.length → isLive b k

/-- The same for the references of a function. -/
structure MarkedRefs (find : List Nat → Option Nat) (ns : List (List Nat)) (a b : List Fn) : Prop where
  up : Up a b
  here : ∀ n ∈ ns, ∀ j, find n = some j → j < a.length → isLive b j
  from_ : ∀ j, isLive b j → isLive a j ∨ ∃ n ∈ ns, ∃ i, find n = some i ∧ Reach find a i j
  closed : ∀ j k, isLive b j → ¬isLive a j → Edge find a j k → k < a.length → isLive b k

theorem markRefs_ok {find : List Nat → Option Nat} {mark : Nat → List Fn → Option (List Fn)} {m : Nat}
    (hm : ∀ i a, unmarked a ≤ m → ∃ b, mark i a = some b ∧ Marked find i a b) :
    ∀ (ns : List (List Nat)) (a : List Fn), unmarked a ≤ m → ∃ b, markRefs find mark ns a = some b ∧ MarkedRefs find ns a b
  | [], a, _ => ⟨a, rfl, Up.refl a, (fun n hn => by cases hn), fun j h => Or.inl h, fun j k h hn => absurd h hn⟩
  | n :: ns, a, ha => by
    simp only [markRefs]
    cases hf : find n with
    | none =>
      obtain ⟨b, hb, hu, hh, hfr, hc⟩ := markRefs_ok hm ns a ha
      refine ⟨b, hb, hu, fun x hx j hj => ?_, fun j hj => ?_, hc⟩
      · cases hx with
        | head => rw [hf] at hj; cases hj
        | tail _ hx => exact hh x hx j hj
      · rcases hfr j hj with h | ⟨x, hx, i, hi, hr⟩
        · exact Or.inl h
        · exact Or.inr ⟨x, List.mem_cons_of_mem _ hx, i, hi, hr⟩
    | some i =>
      obtain ⟨b, hb, hM⟩ := hm i a ha
      simp only [hb]
      obtain ⟨c, hc, hR⟩ := markRefs_ok hm ns b (Nat.le_trans hM.up.unmarked ha)
      refine ⟨c, hc, hM.up.trans hR.up, fun x hx j hj hlt => ?_, fun j hj => ?_, fun j k hj hnj he hk => ?_⟩
      · cases hx with
        | head =>
          rw [hf] at hj; cases hj
          exact hR.up.live (hM.here hlt)
        | tail _ hx => exact hR.here x hx j hj (by rw [← hM.up.1]; exact hlt)
      · rcases hR.from_ j hj with h | ⟨x, hx, i', hi', hr⟩
        · rcases hM.from_ j h with h | h
          · exact Or.inl h
          · exact Or.inr ⟨n, List.mem_cons_self .., i, hf, h⟩
        · exact Or.inr ⟨x, List.mem_cons_of_mem _ hx, i', hi', hM.up.reach hr⟩
      · by_cases hbj : isLive b j
        · exact hR.up.live (hM.closed j k hbj hnj he hk)
        · exact hR.closed j k hj hbj (hM.up.edge.2 he) (by rw [← hM.up.1]; exact hk)

theorem markFnLive_ok (find : List Nat → Option Nat) : ∀ (k i : Nat) (a : List Fn), unmarked a < k →
    ∃ b, markFnLive find k i a = some b ∧ Marked find i a b
  | 0, _, _, h => absurd h (Nat.not_lt_zero _)
  | k + 1, i, a, h => by
    simp only [markFnLive]
    cases hi : a[i]? with
    | none =>
      have hlt : ¬ i < a.length := by rw [List.getElem?_eq_none_iff] at hi; omega
      exact ⟨a, rfl, Up.refl a, fun h => absurd h hlt, fun j h => Or.inl h, fun j k h hn => absurd h hn⟩
    | some f =>
      dsimp only
      cases hf : f.live with
      | true => exact ⟨a, by simp, Up.refl a, fun _ => ⟨f, hi, hf⟩, fun j h => Or.inl h, fun j k h hn => absurd h hn⟩
      | false =>
        have hu := setLive_unmarked hi hf
        obtain ⟨b, hb, hR⟩ := markRefs_ok (m := k - 1) (find := find) (mark := markFnLive find k)
          (fun j c hc => by
            rcases Nat.eq_zero_or_pos k with h0 | h0
            · omega
            · exact markFnLive_ok find k j c (by omega)) f.refs (setLive i a) (by omega)
        refine ⟨b, by simpa using hb, (setLive_up i a).trans hR.up, fun hlt => ?_, fun j hj => ?_, fun j k hj hnj he hk => ?_⟩
        · exact hR.up.live ⟨_, by simp only [setLive, List.getElem?_modify, hi]; rfl, by simp⟩
        · rcases hR.from_ j hj with h | ⟨n, hn, i', hi', hr⟩
          · rcases setLive_live h with rfl | h
            · exact Or.inr .refl
            · exact Or.inl h
          · exact Or.inr ((Reach.step .refl ⟨f, n, hi, hn, hi'⟩).trans ((setLive_up i a).reach hr))
        · by_cases hjl : isLive (setLive i a) j
          · rcases setLive_live hjl with rfl | h
            · obtain ⟨f', n, hf', hn, hfn⟩ := he
              rw [hi] at hf'; cases hf'
              exact hR.here n hn k hfn (by rw [← (setLive_up j a).1]; exact hk)
            · exact absurd h hnj
          · exact hR.closed j k hj hjl ((setLive_up i a).edge.2 he) (by rw [← (setLive_up i a).1]; exact hk)

/-- The functions marked so far: reachable from the ones to start from, closed, and with the first
`i` of those among them. -/
structure Sofar (find : List Nat → Option Nat) (base cur : List Fn) (i : Nat) : Prop where
  up : Up base cur
  from_ : ∀ j, isLive cur j → ∃ r f, base[r]? = some f ∧ isRoot f = true ∧ Reach find base r j
  closed : ∀ j k, isLive cur j → Edge find base j k → k < base.length → isLive cur k
  roots : ∀ r f, r < i → base[r]? = some f → isRoot f = true → isLive cur r

theorem isRoot_live (f : Fn) (l : Bool) : isRoot { f with live := l } = isRoot f := rfl

theorem markAll_ok {find : List Nat → Option Nat} {base : List Fn} {k : Nat} (hk : base.length < k) :
    ∀ (n i : Nat) (cur : List Fn), i + n = base.length → Sofar find base cur i → ∃ out, markAll find k n i cur = some out ∧ Sofar find base out base.length
  | 0, i, cur, hn, hs => ⟨cur, rfl, by rw [← hn]; exact hs⟩
  | n + 1, i, cur, hn, hs => by
    have hib : i < base.length := by omega
    have hic : i < cur.length := by rw [← hs.up.1]; exact hib
    simp only [markAll]
    rw [List.getElem?_eq_getElem hic]
    dsimp only
    obtain ⟨f, hf, he⟩ := hs.up.back (List.getElem?_eq_getElem hic)
    have hroot : isRoot cur[i] = isRoot f := by rw [he]; rfl
    rw [hroot]
    by_cases hr : isRoot f = true
    · rw [if_pos hr]
      have hu : unmarked cur < k := by
        have h1 := hs.up.1
        have h2 : unmarked cur ≤ cur.length := List.countP_le_length
        omega
      obtain ⟨b, hb, hM⟩ := markFnLive_ok find k i cur hu
      simp only [hb]
      refine markAll_ok hk n (i + 1) b (by omega) ⟨hs.up.trans hM.up, fun j hj => ?_, fun j k hj he' hk' => ?_, fun r g hlt hg hgr => ?_⟩
      · rcases hM.from_ j hj with h | h
        · exact hs.from_ j h
        · exact ⟨i, f, hf, hr, hs.up.reach h⟩
      · by_cases hcj : isLive cur j
        · exact hM.up.live (hs.closed j k hcj he' hk')
        · exact hM.closed j k hj hcj (hs.up.edge.2 he') (by rw [← hs.up.1]; exact hk')
      · rcases Nat.lt_or_ge r i with h | h
        · exact hM.up.live (hs.roots r g h hg hgr)
        · have : r = i := by omega
          subst this
          exact hM.here hic
    · rw [if_neg hr]
      refine markAll_ok hk n (i + 1) cur (by omega) ⟨hs.up, hs.from_, hs.closed, fun r g hlt hg hgr => ?_⟩
      rcases Nat.lt_or_ge r i with h | h
      · exact hs.roots r g h hg hgr
      · have : r = i := by omega
        subst this
        rw [hf] at hg; cases hg
        exact absurd hgr hr

/-- What the parser has noted of a function `f`. -/
structure Noted (us : List FnUse) (fns : List Fn) (i : Nat) (f g : Fn) : Prop where
  name : g.name = f.name
  isDef : g.isDef = f.isDef
  isStatic : g.isStatic = f.isStatic
  isInline : g.isInline = f.isInline
  live : g.live = f.live
  refs : ∀ n, n ∈ g.refs ↔ n ∈ f.refs ∨ ∃ j t, ⟨some i, j⟩ ∈ us ∧ fns[j]? = some t ∧ t.name = n
  refd : g.refd = true ↔ f.refd = true ∨ ⟨none, i⟩ ∈ us

theorem noteUse_length (u : FnUse) (fns : List Fn) : (noteUse u fns).length = fns.length := by
  unfold noteUse
  split
  · rfl
  · split <;> simp

theorem noteUse_ok (u : FnUse) (fns : List Fn) (i : Nat) (f : Fn) (hf : fns[i]? = some f) :
    ∃ g, (noteUse u fns)[i]? = some g ∧ Noted [u] fns i f g := by
  obtain ⟨b, to⟩ := u
  unfold noteUse
  dsimp only
  cases ht : fns[to]? with
  | none =>
    dsimp only
    refine ⟨f, hf, rfl, rfl, rfl, rfl, rfl, fun n => ⟨Or.inl, ?_⟩, ⟨Or.inl, ?_⟩⟩
    · rintro (h | ⟨j, t, hj, hjt, _⟩)
      · exact h
      · simp at hj; rw [hj.2, ht] at hjt; cases hjt
    · rintro (h | h)
      · exact h
      · simp at h; rw [h.2, ht] at hf; cases hf
  | some t =>
    dsimp only
    cases b with
    | some b =>
      dsimp only
      by_cases hb : b = i
      · subst hb
        refine ⟨{ f with refs := f.refs ++ [t.name] }, by simp [List.getElem?_modify, hf], rfl, rfl, rfl, rfl, rfl, fun n => ?_, by simp⟩
        simp only [List.mem_append, List.mem_singleton, FnUse.mk.injEq]
        constructor
        · rintro (h | h)
          · exact Or.inl h
          · exact Or.inr ⟨to, t, by simp, ht, h.symm⟩
        · rintro (h | ⟨j, t', ⟨_, rfl⟩, ht', hn⟩)
          · exact Or.inl h
          · rw [ht] at ht'; cases ht'; exact Or.inr hn.symm
      · refine ⟨f, by simp [List.getElem?_modify, hf, hb], rfl, rfl, rfl, rfl, rfl, fun n => ⟨Or.inl, ?_⟩, by simp⟩
        rintro (h | ⟨j, t', hj, _, _⟩)
        · exact h
        · simp at hj; exact absurd hj.1.symm hb
    | none =>
      dsimp only
      by_cases hb : to = i
      · subst hb
        exact ⟨{ f with refd := true }, by simp [List.getElem?_modify, hf], rfl, rfl, rfl, rfl, rfl, fun n => by simp, by simp⟩
      · exact ⟨f, by simp [List.getElem?_modify, hf, hb], rfl, rfl, rfl, rfl, rfl, fun n => by simp, by simp; intro h; exact absurd h.symm hb⟩

theorem noteUses_ok (us : List FnUse) : ∀ (fns : List Fn), (noteUses us fns).length = fns.length ∧
    ∀ (i : Nat) (f : Fn), fns[i]? = some f → ∃ g, (noteUses us fns)[i]? = some g ∧ Noted us fns i f g := by
  induction us with
  | nil => intro fns; exact ⟨rfl, fun i f hf => ⟨f, hf, rfl, rfl, rfl, rfl, rfl, fun n => by simp, by simp⟩⟩
  | cons u us ih =>
    intro fns
    obtain ⟨hl, ih⟩ := ih (noteUse u fns)
    refine ⟨hl.trans (noteUse_length u fns), fun i f hf => ?_⟩
    obtain ⟨g, hg, hN⟩ := noteUse_ok u fns i f hf
    obtain ⟨g', hg', hN'⟩ := ih i g hg
    refine ⟨g', hg', hN'.name.trans hN.name, hN'.isDef.trans hN.isDef, hN'.isStatic.trans hN.isStatic, hN'.isInline.trans hN.isInline,
      hN'.live.trans hN.live, fun n => ?_, ?_⟩
    · rw [hN'.refs n, hN.refs n]
      constructor
      · rintro ((h | ⟨j, t, hj, ht, hn⟩) | ⟨j, t, hj, ht, hn⟩)
        · exact Or.inl h
        · exact Or.inr ⟨j, t, by simp at hj; rw [hj]; exact List.mem_cons_self .., ht, hn⟩
        · have hlt : j < fns.length := by rw [← noteUse_length u fns]; exact (List.getElem?_eq_some_iff.1 ht).1
          obtain ⟨t', ht', hNt⟩ := noteUse_ok u fns j fns[j] (List.getElem?_eq_getElem hlt)
          rw [ht] at ht'; cases ht'
          exact Or.inr ⟨j, fns[j], List.mem_cons_of_mem _ hj, List.getElem?_eq_getElem hlt, by rw [← hNt.name]; exact hn⟩
      · rintro (h | ⟨j, t, hj, ht, hn⟩)
        · exact Or.inl (Or.inl h)
        · rcases List.mem_cons.1 hj with h | h
          · exact Or.inl (Or.inr ⟨j, t, by rw [h]; exact List.mem_singleton.2 rfl, ht, hn⟩)
          · obtain ⟨t', ht', hNt⟩ := noteUse_ok u fns j t ht
            exact Or.inr ⟨j, t', h, ht', by rw [hNt.name]; exact hn⟩
    · rw [hN'.refd, hN.refd]
      simp only [List.mem_cons, List.mem_singleton, List.not_mem_nil, or_false, or_assoc]

end Slimcc.LiveL
