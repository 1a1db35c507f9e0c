import Verif.Model.Align
/-!
C81: variables have the strictest alignment that their declarations ask for.

`Asks`, `Strictest` and `Free` (Spec/Align) say what a declaration asks for with `_Alignas` and `aligned`.
`declareAll` (Model/Align) gives the alignments of what the declarators of a declaration declare: local and
static variables, typedef names, and variables at file scope declared for the first time. `globalDecls` goes
through all declarations of a variable at file scope.
-/
set_option autoImplicit false
namespace Slimcc.Props
open Slimcc.Align Slimcc.Spec.Align

/-- `b` is the maximum of `a` and what `p` holds of. -/
private def Joins (p : Nat → Prop) (a b : Nat) : Prop := (b = a ∨ p b) ∧ a ≤ b ∧ ∀ n, p n → n ≤ b

private theorem joins_none {p : Nat → Prop} (a : Nat) (h : ∀ n, ¬ p n) : Joins p a a := ⟨.inl rfl, Nat.le_refl _, fun n hn => (h n hn).elim⟩
private theorem joins_one {p : Nat → Prop} (a n : Nat) (h : ∀ m, p m ↔ m = n) : Joins p a (max a n) := by
  refine ⟨?_, Nat.le_max_left _ _, fun m hm => by rw [(h m).1 hm]; exact Nat.le_max_right _ _⟩
  rw [h]; omega
private theorem joins_trans {p q r : Nat → Prop} {a b c : Nat} (h : Joins p a b) (h' : Joins q b c) (hr : ∀ n, r n ↔ p n ∨ q n) : Joins r a c := by
  refine ⟨?_, Nat.le_trans h.2.1 h'.2.1, fun n hn => ?_⟩
  · rcases h'.1 with e | e
    · rcases h.1 with e' | e'
      · exact .inl (e.trans e')
      · exact .inr ((hr c).2 (.inl (e ▸ e')))
    · exact .inr ((hr c).2 (.inr e))
  · rcases (hr n).1 hn with hn | hn
    · exact Nat.le_trans (h.2.2 n hn) h'.2.1
    · exact h'.2.2 n hn
private theorem joins_congr {p q : Nat → Prop} {a b : Nat} (h : Joins p a b) (hq : ∀ n, q n ↔ p n) : Joins q a b :=
  ⟨h.1.imp id (hq b).2, h.2.1, fun n hn => h.2.2 n ((hq n).1 hn)⟩

private theorem attr_joins (std : Bool) : ∀ (ms : List Marked) (a : Nat), Joins (In std ms) a (attrAligned std ms a)
  | [], a => joins_none a (fun n ⟨m, hm, _⟩ => by cases hm)
  | m :: ms, a => by
    have hcons : ∀ n, In std (m :: ms) n ↔ m.Is std n ∨ In std ms n := fun n => by simp [In]
    unfold attrAligned
    by_cases hs : m.std = std
    · rw [if_pos hs]
      cases hm : m.aligned with
      | none => exact joins_trans (joins_none a (p := m.Is std) (fun n hn => by simp [Marked.Is, hm] at hn)) (attr_joins std ms a) hcons
      | some o =>
        cases o with
        | none => exact joins_trans (joins_one a 16 (p := m.Is std) (fun n => by simp [Marked.Is, hm, hs])) (attr_joins std ms _) hcons
        | some k => exact joins_trans (joins_one a k (p := m.Is std) (fun n => by simp [Marked.Is, hm, hs, eq_comm])) (attr_joins std ms _) hcons
    · rw [if_neg hs]
      exact joins_trans (joins_none a (p := m.Is std) (fun n hn => hs hn.1)) (attr_joins std ms a) hcons

private theorem loop_joins : ∀ (ts : List (List Marked × Spec)) (last : List Marked) (a : Nat),
    Joins (fun n => (∃ ms, (ms, Spec.alignas n) ∈ ts) ∨ (∃ p ∈ ts, In false p.1 n) ∨ In false last n) a (specLoop ts last a)
  | [], last, a => joins_congr (attr_joins false last a) (fun n => by simp)
  | (ms, .alignas k) :: r, last, a => by
    refine joins_trans (joins_trans (attr_joins false ms a) (joins_one _ k (p := fun n => n = k) (fun _ => Iff.rfl)) (fun n => Iff.rfl)) (loop_joins r last _) (fun n => ?_)
    simp only [List.mem_cons, Prod.mk.injEq, Spec.alignas.injEq, exists_eq_or_imp]
    constructor
    · rintro (⟨ms', ⟨rfl, rfl⟩ | h⟩ | (h | h) | h)
      · exact .inl (.inr rfl)
      · exact .inr (.inl ⟨_, h⟩)
      · exact .inl (.inl h)
      · exact .inr (.inr (.inl h))
      · exact .inr (.inr (.inr h))
    · rintro ((h | rfl) | ⟨ms', h⟩ | h | h)
      · exact .inr (.inl (.inl h))
      · exact .inl ⟨ms, .inl ⟨rfl, rfl⟩⟩
      · exact .inl ⟨ms', .inr h⟩
      · exact .inr (.inl (.inr h))
      · exact .inr (.inr h)
  | (ms, .other) :: r, last, a => by
    refine joins_trans (attr_joins false ms a) (loop_joins r last _) (fun n => ?_)
    simp only [List.mem_cons, Prod.mk.injEq, reduceCtorEq, and_false, false_or, exists_eq_or_imp]
    constructor
    · rintro (h | (h | h) | h)
      · exact .inr (.inl h)
      · exact .inl h
      · exact .inr (.inr (.inl h))
      · exact .inr (.inr (.inr h))
    · rintro (h | h | h | h)
      · exact .inr (.inl (.inl h))
      · exact .inl h
      · exact .inr (.inl (.inr h))
      · exact .inr (.inr h)

private theorem alt_joins (s : Specs) (k : Decltor) : Joins (Asks s k) 0 (declarator2 k (declspec s)) := by
  have h1 := joins_trans (attr_joins true s.first 0) (loop_joins s.toks s.last _) (fun n => Iff.rfl)
  have h2 := joins_trans (joins_trans (joins_trans h1 (attr_joins false k.name _) (fun n => Iff.rfl)) (attr_joins true k.after _) (fun n => Iff.rfl)) (attr_joins false k.fin _) (fun n => Iff.rfl)
  refine joins_congr h2 (fun n => ?_)
  unfold Asks
  constructor
  · rintro (h | h | h | h | h | h | h)
    · exact .inl (.inl (.inl (.inr (.inl h))))
    · exact .inl (.inl (.inl (.inl h)))
    · exact .inl (.inl (.inl (.inr (.inr (.inl h)))))
    · exact .inl (.inl (.inl (.inr (.inr (.inr h)))))
    · exact .inl (.inl (.inr h))
    · exact .inl (.inr h)
    · exact .inr h
  · rintro ((((h | h | h | h) | h) | h) | h)
    · exact .inr (.inl h)
    · exact .inl h
    · exact .inr (.inr (.inl h))
    · exact .inr (.inr (.inr (.inl h)))
    · exact .inr (.inr (.inr (.inr (.inl h))))
    · exact .inr (.inr (.inr (.inr (.inr (.inl h)))))
    · exact .inr (.inr (.inr (.inr (.inr (.inr h)))))

private theorem alt_strict {s : Specs} {k : Decltor} {n : Nat} (h : Strictest s k n) : declarator2 k (declspec s) = n := by
  have hj := alt_joins s k
  have h1 := hj.2.2 n h.2.1
  rcases hj.1 with e | e
  · have := h.1; omega
  · exact Nat.le_antisymm (h.2.2 _ e) h1
private theorem alt_free {s : Specs} {k : Decltor} (h : Free s k) : declarator2 k (declspec s) = 0 := by
  rcases (alt_joins s k).1 with e | e
  · exact e
  · exact h _ e

/-- What a declarator declares has the strictest alignment that the specifiers and the declarator ask for, that of
its type if they ask for none. The other declarators of the declaration play no part. -/
theorem C81_declared (s : Specs) (ks : List Decltor) (i : Nat) (k : Decltor) (hk : ks[i]? = some k) :
    ∃ a, (declareAll s ks)[i]? = some a ∧ (∀ n, Strictest s k n → a = n) ∧ (Free s k → a = k.tyAlign) ∧
      ((∃ n, Strictest s k n) ∨ Free s k) := by
  refine ⟨newAlign (declarator2 k (declspec s)) k.tyAlign, by simp [declareAll, hk], fun n hn => ?_, fun hf => ?_, ?_⟩
  · rw [newAlign, alt_strict hn, if_pos (by have := hn.1; omega)]
  · rw [newAlign, alt_free hf, if_neg (by simp)]
  · have hj := alt_joins s k
    rcases Nat.eq_zero_or_pos (declarator2 k (declspec s)) with e | e
    · exact .inr fun n hn => by have := hj.2.2 n hn; omega
    · refine .inl ⟨_, e, ?_, hj.2.2⟩
      rcases hj.1 with e' | e'
      · omega
      · exact e'

private theorem fin_def : ∀ (fs : List FDecl) (v0 : Option Var) (P : Prop), (∀ v, v0 = some v → v.isDef = true → v.isTent = false → P) →
    (∀ f ∈ fs, f.hasInit = true → P) → ∀ v, fs.foldl globalDecl v0 = some v → v.isDef = true → v.isTent = false → P
  | [], v0, P, h, _, v, hv, h1, h2 => h v hv h1 h2
  | f :: fs, v0, P, h, hf, v, hv, h1, h2 => by
    refine fin_def fs (globalDecl v0 f) P (fun w hw w1 w2 => ?_) (fun g hg => hf g (List.mem_cons_of_mem _ hg)) v hv h1 h2
    cases hi : f.hasInit with
    | true => exact hf f (List.mem_cons_self ..) hi
    | false =>
      cases v0 with
      | none =>
        simp only [globalDecl, hi, Option.some.injEq] at hw
        subst hw
        simp only [Bool.or_false] at w1 w2
        rw [w1] at w2
        exact absurd w2 (by decide)
      | some u =>
        simp only [globalDecl, hi] at hw
        split at hw
        · cases hw; exact h _ rfl w1 w2
        · split at hw
          · cases hw; exact h _ rfl w1 w2
          · cases hw; simp at w2

private theorem keeps (n : Nat) : ∀ (fs : List FDecl) (v : Var), v.align = n → v.isDef = true →
    (∀ f ∈ fs, Strictest f.specs f.decltor n ∨ Free f.specs f.decltor) → ∃ w, fs.foldl globalDecl (some v) = some w ∧ w.align = n ∧ w.isDef = true
  | [], v, h, hd, _ => ⟨v, rfl, h, hd⟩
  | f :: fs, v, h, hd, hf => by
    have hr := fun g hg => hf g (List.mem_cons_of_mem _ hg)
    rw [List.foldl_cons]
    cases hdef : (!f.isExtern || f.hasInit) with
    | false =>
      have : globalDecl (some v) f = some v := by simp only [globalDecl, hdef]; rfl
      rw [this]; exact keeps n fs v h hd hr
    | true =>
      cases hb : (v.isDef && !v.isTent) with
      | true =>
        have : globalDecl (some v) f = some v := by simp only [globalDecl, hdef, hb]; rfl
        rw [this]; exact keeps n fs v h hd hr
      | false =>
        have : globalDecl (some v) f = some ⟨newAlign (declarator2 f.decltor (declspec f.specs)) v.align, true, !f.hasInit⟩ := by
          simp only [globalDecl, hdef, hb]; rfl
        rw [this]
        refine keeps n fs _ ?_ rfl hr
        rcases hf f (List.mem_cons_self ..) with e | e
        · show newAlign _ _ = n
          rw [newAlign, alt_strict e, if_pos (by have := e.1; omega)]
        · show newAlign _ _ = n
          rw [newAlign, alt_free e, if_neg (by simp)]; exact h

/-- A variable at file scope, however often declared, has the alignment its definition asks for, if no other
declaration asks for another one (C23 6.7.6). The definition is the declaration with the initializer, if there
is one, else any of the tentative definitions. -/
theorem C81_file_scope (fs : List FDecl) (n : Nat) (hone : fs.Pairwise fun f g => ¬ (f.hasInit = true ∧ g.hasInit = true))
    (hsame : ∀ f ∈ fs, Strictest f.specs f.decltor n ∨ Free f.specs f.decltor)
    (hdef : ∃ f ∈ fs, f.Defines ∧ Strictest f.specs f.decltor n ∧ (f.hasInit = true ∨ ∀ g ∈ fs, g.hasInit = false)) :
    ∃ v, globalDecls fs = some v ∧ v.isDef = true ∧ v.align = n := by
  obtain ⟨f, hm, hd, hs, hi⟩ := hdef
  obtain ⟨pre, post, rfl⟩ := List.append_of_mem hm
  have hno : ∀ g ∈ pre, g.hasInit = true → False := by
    intro g hg h1
    rcases hi with hi | hi
    · exact (List.pairwise_append.1 hone).2.2 g hg f (List.mem_cons_self ..) ⟨h1, hi⟩
    · rw [hi g (List.mem_append_left _ hg)] at h1; cases h1
  have hdef : (!f.isExtern || f.hasInit) = true := by
    rcases hd with h | h <;> simp [h]
  have hpos : n ≠ 0 := by have := hs.1; omega
  unfold globalDecls
  rw [List.foldl_append, List.foldl_cons]
  obtain ⟨v, hv, ha, hvd⟩ : ∃ v, globalDecl (pre.foldl globalDecl none) f = some v ∧ v.align = n ∧ v.isDef = true := by
    have hf := fin_def pre none False (fun v hv => by cases hv) hno
    cases hp : pre.foldl globalDecl none with
    | none => exact ⟨_, rfl, by show newAlign _ _ = n; rw [newAlign, alt_strict hs, if_pos hpos], hdef⟩
    | some u =>
      have hb : (u.isDef && !u.isTent) = false := by
        cases h1 : u.isDef with
        | false => rfl
        | true =>
          cases h2 : u.isTent with
          | true => rfl
          | false => exact (hf u hp h1 h2).elim
      refine ⟨⟨newAlign (declarator2 f.decltor (declspec f.specs)) u.align, true, !f.hasInit⟩, ?_, ?_, rfl⟩
      · simp only [globalDecl, hdef, hb]; rfl
      · show newAlign _ _ = n
        rw [newAlign, alt_strict hs, if_pos hpos]
  rw [hv]
  obtain ⟨w, h1, h2, h3⟩ := keeps n post v ha hvd (fun g hg => hsame g (List.mem_append_right _ (List.mem_cons_of_mem _ hg)))
  exact ⟨w, h1, h3, h2⟩

/-- If no declaration asks for an alignment, it is that of the type, which must be complete at the first
declaration (see `C61_misaligned`). -/
theorem C81_plain (fs : List FDecl) (t : Nat) (hne : fs ≠ []) (hfree : ∀ f ∈ fs, Free f.specs f.decltor) (ht : ∀ f ∈ fs, f.decltor.tyAlign = t) :
    ∃ v, globalDecls fs = some v ∧ v.align = t := by
  have keep : ∀ (fs : List FDecl) (v : Var), v.align = t → (∀ f ∈ fs, Free f.specs f.decltor) → ∃ w, fs.foldl globalDecl (some v) = some w ∧ w.align = t := by
    intro fs
    induction fs with
    | nil => exact fun v h _ => ⟨v, rfl, h⟩
    | cons f fs ih =>
      intro v h hf
      obtain ⟨u, hu, hut⟩ : ∃ u, globalDecl (some v) f = some u ∧ u.align = t := by
        simp only [globalDecl]
        split
        · exact ⟨v, rfl, h⟩
        · split
          · exact ⟨v, rfl, h⟩
          · refine ⟨_, rfl, ?_⟩
            show newAlign _ _ = t
            rw [newAlign, alt_free (hf f (List.mem_cons_self ..)), if_neg (by simp)]; exact h
      rw [List.foldl_cons, hu]
      exact ih u hut (fun g hg => hf g (List.mem_cons_of_mem _ hg))
  cases fs with
  | nil => exact (hne rfl).elim
  | cons f fs =>
    refine keep fs _ ?_ (fun g hg => hfree g (List.mem_cons_of_mem _ hg))
    show newAlign _ _ = t
    rw [newAlign, alt_free (hfree f (List.mem_cons_self ..)), if_neg (by simp)]; exact ht f (List.mem_cons_self ..)

/-! Cases meeting the hypotheses. -/

/-- `_Alignas(8) _Alignas(0) int x __attribute__((aligned(32))), y;` -/
def alSpecs : Specs := ⟨[([], .alignas 8), ([], .alignas 0), ([], .other)], []⟩
def alX : Decltor := ⟨[], [], [⟨false, some (some 32)⟩], 4⟩
def alY : Decltor := ⟨[], [], [], 4⟩

example : declareAll alSpecs [alX, alY] = [32, 8] := by decide
theorem alX_strict : Strictest alSpecs alX 32 := by
  refine ⟨by decide, by simp [Asks, In, Marked.Is, alX, alSpecs, Specs.first], fun m hm => ?_⟩
  simp [Asks, In, Marked.Is, alX, alSpecs, Specs.first] at hm
  omega
theorem alPlain_free (t : Nat) : Free ⟨[([], .other)], []⟩ ⟨[], [], [], t⟩ := by
  intro n hn
  simp [Asks, In, Specs.first] at hn

/-- `extern int x; _Alignas(8) _Alignas(0) int x __attribute__((aligned(32))); int x;` -/
def alHist : List FDecl := [⟨⟨[([], .other)], []⟩, ⟨[], [], [], 4⟩, true, false⟩, ⟨alSpecs, alX, false, false⟩, ⟨⟨[([], .other)], []⟩, ⟨[], [], [], 4⟩, false, false⟩]
example : ∃ v, globalDecls alHist = some v ∧ v.isDef = true ∧ v.align = 32 :=
  C81_file_scope alHist 32 (by decide)
    (by
      intro f hf
      simp only [alHist, List.mem_cons, List.not_mem_nil, or_false] at hf
      rcases hf with rfl | rfl | rfl
      · exact .inr (alPlain_free 4)
      · exact .inl alX_strict
      · exact .inr (alPlain_free 4))
    ⟨⟨alSpecs, alX, false, false⟩, by simp [alHist], .inl rfl, alX_strict, .inr (by decide)⟩

/-! ### Where the compiler departs from GCC -/

/-- `_Alignas(8) int x __attribute__((aligned(32))); _Alignas(8) int x;`: with GCC the strictest of all
declarations counts, here the last one does. -/
theorem C81_last_attribute_departs : ∃ fs : List FDecl, (∀ f ∈ fs, f.Defines) ∧ (∃ f ∈ fs, Strictest f.specs f.decltor 32) ∧
    ∃ v, globalDecls fs = some v ∧ v.align = 8 := by
  refine ⟨[⟨alSpecs, alX, false, false⟩, ⟨alSpecs, alY, false, false⟩], ?_, ⟨_, List.mem_cons_self .., alX_strict⟩, ⟨8, true, true⟩, by decide, rfl⟩
  intro f hf
  simp only [List.mem_cons, List.not_mem_nil, or_false] at hf
  rcases hf with rfl | rfl <;> exact .inl rfl

/-- `extern int x; extern _Alignas(8) int x __attribute__((aligned(32))); int x;`: the attribute of a declaration that is
neither the first nor a definition is lost. -/
theorem C81_extern_attribute_departs : ∃ fs : List FDecl, (∃ f ∈ fs, Strictest f.specs f.decltor 32) ∧
    (∀ f ∈ fs, Strictest f.specs f.decltor 32 ∨ Free f.specs f.decltor) ∧ ∃ v, globalDecls fs = some v ∧ v.isDef = true ∧ v.align = 4 := by
  refine ⟨[⟨⟨[([], .other)], []⟩, ⟨[], [], [], 4⟩, true, false⟩, ⟨alSpecs, alX, true, false⟩, ⟨⟨[([], .other)], []⟩, ⟨[], [], [], 4⟩, false, false⟩],
    ⟨_, List.mem_cons_of_mem _ (List.mem_cons_self ..), alX_strict⟩, ?_, ⟨4, true, true⟩, by decide, rfl, rfl⟩
  intro f hf
  simp only [List.mem_cons, List.not_mem_nil, or_false] at hf
  rcases hf with rfl | rfl | rfl
  · exact .inr (alPlain_free 4)
  · exact .inl alX_strict
  · exact .inr (alPlain_free 4)

end Slimcc.Props
