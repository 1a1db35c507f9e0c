import Verif.Lemmas.DeferSim
/-!
No label is defined twice if there are no loops, `switch`es and labels in deferred statements.
-/
set_option autoImplicit false
namespace Slimcc.DfrL
open Slimcc.Spec Slimcc.Dfr

theorem defined_append (x y : List I) : defined (x ++ y) = defined x ++ defined y := by
  induction x with
  | nil => rfl
  | cons i x ih => cases i <;> simp [defined, ih]

/-- The unique names that a node defines, without those of deferred statements. -/
def names : N → List Nat
  | .seq a b => names a ++ names b
  | .block n _ _ => names n
  | .ite _ a b => names a ++ names b
  | .for_ _ _ n brk cont _ _ => brk :: cont :: names n
  | .do_ n _ brk cont => brk :: cont :: names n
  | .label u => [u]
  | .sw n brk => brk :: names n
  | _ => []

mutual
/-- The deferred statements of a node define no names. -/
def CleanN : N → Prop
  | .seq a b => CleanN a ∧ CleanN b
  | .block n ds _ => CleanN n ∧ Clean ds
  | .ite _ a b => CleanN a ∧ CleanN b
  | .for_ _ _ n _ _ ds _ => CleanN n ∧ Clean ds
  | .do_ n _ _ _ => CleanN n
  | .goto _ ds _ => Clean ds
  | .ugoto _ ds => Clean ds
  | .sw n _ => CleanN n
  | .ret ds => Clean ds
  | _ => True
def Clean : Chain → Prop
  | .nil => True
  | .cons _ n next => names n = [] ∧ CleanN n ∧ Clean next
end

/-- The label is one of the names, or one with a number in the range. -/
def LabIn (ns : List Nat) (c c' : Nat) (l : L) : Prop :=
  (∃ u, u ∈ ns ∧ l = .name u) ∨ ∃ k, c ≤ k ∧ k < c' ∧ (l = .begin k ∨ l = .els k ∨ l = .fin k)

structure Labs (is : List I) (ns : List Nat) (c c' : Nat) : Prop where
  le : c ≤ c'
  nodup : (defined is).Nodup
  all : ∀ l, l ∈ defined is → LabIn ns c c' l

theorem LabIn.mono {ns ms : List Nat} {a a' b b' : Nat} {l : L} (h : LabIn ns a b l) (hn : ∀ u, u ∈ ns → u ∈ ms) (h1 : a' ≤ a) (h2 : b ≤ b') :
    LabIn ms a' b' l := by
  rcases h with ⟨u, hu, rfl⟩ | ⟨k, hk1, hk2, hl⟩
  · exact Or.inl ⟨u, hn u hu, rfl⟩
  · exact Or.inr ⟨k, by omega, by omega, hl⟩

theorem LabIn.apart {ns ms : List Nat} {a b b' : Nat} {l : L} (h : LabIn ns a b l) (h' : LabIn ms b b' l) (hd : ∀ u, u ∈ ns → u ∉ ms) : False := by
  rcases h with ⟨u, hu, rfl⟩ | ⟨k, hk1, hk2, hl⟩
  · rcases h' with ⟨v, hv, h⟩ | ⟨k, _, _, h⟩
    · cases h; exact hd u hu hv
    · rcases h with h | h | h <;> cases h
  · rcases h' with ⟨v, hv, h⟩ | ⟨k', hk1', _, h⟩
    · subst h; rcases hl with h | h | h <;> cases h
    · have hne : k ≠ k' := by omega
      rcases hl with rfl | rfl | rfl <;> rcases h with h | h | h <;> cases h <;> exact hne rfl

theorem Labs.append {x y : List I} {ns ms : List Nat} {a b c : Nat} (h1 : Labs x ns a b) (h2 : Labs y ms b c) (hd : ∀ u, u ∈ ns → u ∉ ms) :
    Labs (x ++ y) (ns ++ ms) a c := by
  have := h1.le
  have := h2.le
  refine ⟨by omega, ?_, ?_⟩
  · rw [defined_append, List.nodup_append]
    refine ⟨h1.nodup, h2.nodup, ?_⟩
    intro l hl m hm he
    subst he
    exact LabIn.apart (h1.all l hl) (h2.all l hm) hd
  · intro l hl
    rw [defined_append, List.mem_append] at hl
    rcases hl with hl | hl
    · exact (h1.all l hl).mono (fun u hu => List.mem_append_left _ hu) (Nat.le_refl _) (by omega)
    · exact (h2.all l hl).mono (fun u hu => List.mem_append_right _ hu) (by omega) (Nat.le_refl _)

/-- Another label in front. -/
theorem Labs.lbl {x : List I} {ns : List Nat} {a b c : Nat} {l : L} (h : Labs x ns a b) (hl : l ∉ defined x) {ms : List Nat}
    (hin : LabIn ms c b l) (hn : ∀ u, u ∈ ns → u ∈ ms) (hc : c ≤ a) : Labs (.lbl l :: x) ms c b := by
  have := h.le
  refine ⟨by omega, List.nodup_cons.mpr ⟨hl, h.nodup⟩, ?_⟩
  intro m hm
  rcases List.mem_cons.mp hm with rfl | hm
  · exact hin
  · exact (h.all m hm).mono hn hc (Nat.le_refl _)

theorem Labs.other {x : List I} {ns : List Nat} {a b : Nat} {i : I} (h : Labs x ns a b) (hi : ∀ l, i ≠ .lbl l) : Labs (i :: x) ns a b := by
  have he : defined (i :: x) = defined x := by cases i with
    | lbl l => exact absurd rfl (hi l)
    | _ => rfl
  exact ⟨h.le, by rw [he]; exact h.nodup, by rw [he]; exact h.all⟩

theorem Labs.nil {ns : List Nat} {a : Nat} : Labs [] ns a a := ⟨Nat.le_refl _, List.nodup_nil, fun _ h => by cases h⟩

theorem Labs.mono {x : List I} {ns ms : List Nat} {a a' b : Nat} (h : Labs x ns a b) (hn : ∀ u, u ∈ ns → u ∈ ms) (ha : a' ≤ a) : Labs x ms a' b :=
  ⟨Nat.le_trans ha h.le, h.nodup, fun l hl => (h.all l hl).mono hn ha (Nat.le_refl _)⟩

/-- Another label at the end. -/
theorem Labs.snoc {x : List I} {ns : List Nat} {a b : Nat} {l : L} (h : Labs x ns a b) (hl : l ∉ defined x) {ms : List Nat}
    (hin : LabIn ms a b l) (hn : ∀ u, u ∈ ns → u ∈ ms) : Labs (x ++ [.lbl l]) ms a b := by
  refine ⟨h.le, ?_, ?_⟩
  · rw [defined_append, List.nodup_append]
    refine ⟨h.nodup, by simp [defined], ?_⟩
    intro m hm k hk he
    simp [defined] at hk
    subst hk; subst he; exact hl hm
  · intro m hm
    rw [defined_append, List.mem_append] at hm
    rcases hm with hm | hm
    · exact (h.all m hm).mono hn (Nat.le_refl _) (Nat.le_refl _)
    · simp [defined] at hm; subst hm; exact hin

theorem LabIn.not_low {ns : List Nat} {a b k : Nat} (hk : k < a) {l : L} (hl : l = .begin k ∨ l = .els k ∨ l = .fin k) : ¬ LabIn ns a b l := by
  rintro (⟨u, _, h⟩ | ⟨m, hm, _, h⟩)
  · subst h; rcases hl with h | h | h <;> cases h
  · have hne : m ≠ k := by omega
    rcases hl with rfl | rfl | rfl <;> rcases h with h | h | h <;> cases h <;> exact hne rfl

theorem LabIn.not_name {ns : List Nat} {a b u : Nat} (hu : u ∉ ns) : ¬ LabIn ns a b (.name u) := by
  rintro (⟨v, hv, h⟩ | ⟨m, _, _, h⟩)
  · cases h; exact hu hv
  · rcases h with h | h | h <;> cases h

mutual
theorem gen_labs (ls : List (Nat × Nat × Chain)) : ∀ (n : N) (c : Nat), CleanN n → (names n).Nodup → Labs (gen ls n c).1 (names n) c (gen ls n c).2
  | .absent, c, _, _ => Labs.nil
  | .null, c, _, _ => Labs.nil
  | .act n, c, _, _ => Labs.nil.other (fun l h => by cases h)
  | .seq a b, c, hc, hn => by
    rw [names, List.nodup_append] at hn
    exact (gen_labs ls a c hc.1 hn.1).append (gen_labs ls b _ hc.2 hn.2.1) (fun u hu hu' => hn.2.2 u hu u hu' rfl)
  | .block n ds de, c, hc, hn => by
    have := (gen_labs ls n c hc.1 hn).append (genDefr_labs ls ds de.head (gen ls n c).2 hc.2) (by simp)
    simpa [gen, names] using this
  | .ite k a b, c, hc, hn => by
    rw [names, List.nodup_append] at hn
    have ha := gen_labs ls a (c + 1) hc.1 hn.1
    have hb := gen_labs ls b (gen ls a (c + 1)).2 hc.2 hn.2.1
    have hac := ha.le
    have hbc := hb.le
    simp only [gen]
    refine Labs.other (ns := names (.ite k a b)) ?_ (fun l h => by cases h)
    have hb1 : Labs (.lbl (.els c) :: ((gen ls b (gen ls a (c + 1)).2).1 ++ [.lbl (.fin c)])) (names b) c (gen ls b (gen ls a (c + 1)).2).2 := by
      have hs := (hb.mono (a' := c) (fun u hu => hu) (by omega)).snoc (l := .fin c) (fun h => LabIn.not_low (by omega) (Or.inr (Or.inr rfl)) (hb.all _ h))
        (Or.inr ⟨c, Nat.le_refl _, by omega, Or.inr (Or.inr rfl)⟩) (fun u hu => hu)
      refine hs.lbl ?_ (Or.inr ⟨c, Nat.le_refl _, by omega, Or.inr (Or.inl rfl)⟩) (fun u hu => hu) (Nat.le_refl _)
      intro h
      rw [defined_append, List.mem_append] at h
      rcases h with h | h
      · exact LabIn.not_low (by omega) (Or.inr (Or.inl rfl)) (hb.all _ h)
      · simp [defined] at h
    refine ⟨by omega, ?_, ?_⟩
    · rw [defined_append, List.nodup_append]
      refine ⟨ha.nodup, hb1.nodup, ?_⟩
      intro l hl m hm he
      subst he
      have h1 := ha.all l hl
      have hm' : l = .els c ∨ l ∈ defined (gen ls b (gen ls a (c + 1)).2).1 ∨ l = .fin c := by
        simpa [defined, defined_append] using hm
      rcases hm' with rfl | hm' | rfl
      · exact LabIn.not_low (by omega) (Or.inr (Or.inl rfl)) h1
      · exact LabIn.apart h1 (hb.all l hm') (fun u hu hu' => hn.2.2 u hu u hu' rfl)
      · exact LabIn.not_low (by omega) (Or.inr (Or.inr rfl)) h1
    · intro l hl
      rw [defined_append, List.mem_append] at hl
      rcases hl with hl | hl
      · exact (ha.all l hl).mono (fun u hu => List.mem_append_left _ hu) (by omega) (by omega)
      · exact (hb1.all l hl).mono (fun u hu => List.mem_append_right _ hu) (Nat.le_refl _) (Nat.le_refl _)
  | .for_ k inc n brk cont ds de, c, hc, hn => by
    simp only [names, List.nodup_cons, List.mem_cons, not_or] at hn
    obtain ⟨⟨hbc, hbn⟩, hcn, hnn⟩ := hn
    have ha := gen_labs ls n (c + 1) hc.1 hnn
    have hd := genDefr_labs ls ds de.head (gen ls n (c + 1)).2 hc.2
    have h1 := ha.le
    have h2 := hd.le
    have hd1 : Labs ((genDefr ls ds de.head (gen ls n (c + 1)).2).1 ++ [.jmp (.begin c), .lbl (.name brk)]) [brk] (gen ls n (c + 1)).2
        (genDefr ls ds de.head (gen ls n (c + 1)).2).2 := by
      have := hd.append (y := [.jmp (.begin c), .lbl (.name brk)]) (ms := [brk]) (c := (genDefr ls ds de.head (gen ls n (c + 1)).2).2)
        ((Labs.nil.lbl (l := .name brk) (by simp [defined]) (Or.inl ⟨brk, by simp, rfl⟩) (fun u hu => hu) (Nat.le_refl _)).other (fun l h => by cases h)) (by simp)
      simpa using this
    have hd2 : Labs (.lbl (.name cont) :: .act inc :: ((genDefr ls ds de.head (gen ls n (c + 1)).2).1 ++ [.jmp (.begin c), .lbl (.name brk)])) [brk, cont]
        (gen ls n (c + 1)).2 (genDefr ls ds de.head (gen ls n (c + 1)).2).2 := by
      refine (hd1.other (fun l h => by cases h)).lbl ?_ (Or.inl ⟨cont, by simp, rfl⟩) (by simp) (Nat.le_refl _)
      intro h
      have := hd1.all _ h
      exact LabIn.not_name (by simp; exact fun h => hbc h.symm) this
    have hd3 := ha.append hd2 (by
      intro u hu hu'
      simp only [List.mem_cons, List.not_mem_nil, or_false] at hu'
      rcases hu' with rfl | rfl
      · exact hbn hu
      · exact hcn hu)
    simp only [gen, names]
    refine (hd3.other (fun l h => by cases h)).lbl ?_ (Or.inr ⟨c, Nat.le_refl _, by omega, Or.inl rfl⟩) (by
      intro u hu
      simp only [List.mem_append, List.mem_cons, List.not_mem_nil, or_false] at hu ⊢
      rcases hu with h | h | h <;> simp [h]) (by omega)
    intro h
    exact LabIn.not_low (by omega) (Or.inl rfl) (hd3.all _ h)
  | .do_ n k brk cont, c, hc, hn => by
    simp only [names, List.nodup_cons, List.mem_cons, not_or] at hn
    obtain ⟨⟨hbc, hbn⟩, hcn, hnn⟩ := hn
    have ha := gen_labs ls n (c + 1) hc hnn
    have h1 := ha.le
    have hd2 : Labs [.lbl (.name cont), .br k true (.begin c), .lbl (.name brk)] [brk, cont] (gen ls n (c + 1)).2 (gen ls n (c + 1)).2 := by
      refine Labs.lbl (ns := [brk]) (((Labs.nil (ns := [])).lbl (l := .name brk) (by simp [defined]) (Or.inl ⟨brk, by simp, rfl⟩) (fun u hu => by cases hu) (Nat.le_refl _)).other (fun l h => by cases h)) ?_
        (Or.inl ⟨cont, by simp, rfl⟩) (by simp) (Nat.le_refl _)
      simp [defined]; exact fun h => hbc h.symm
    have hd3 := ha.append hd2 (by
      intro u hu hu'
      simp only [List.mem_cons, List.not_mem_nil, or_false] at hu'
      rcases hu' with rfl | rfl
      · exact hbn hu
      · exact hcn hu)
    simp only [gen, names]
    refine hd3.lbl ?_ (Or.inr ⟨c, Nat.le_refl _, by omega, Or.inl rfl⟩) (by
      intro u hu
      simp only [List.mem_append, List.mem_cons, List.not_mem_nil, or_false] at hu ⊢
      rcases hu with h | h | h <;> simp [h]) (by omega)
    intro h
    exact LabIn.not_low (by omega) (Or.inl rfl) (hd3.all _ h)
  | .goto l ds de, c, hc, _ => by
    have := (genDefr_labs ls ds de.head c hc).append (Labs.nil.other (i := .jmp (.name l)) (ns := []) (fun l h => by cases h)) (by simp)
    simpa [gen, names] using this
  | .ugoto l ds, c, hc, _ => by
    simp only [gen]
    split
    · exact Labs.nil
    · rename_i u de _
      have := (genDefr_labs ls ds de.head c hc).append (Labs.nil.other (i := .jmp (.name u)) (ns := []) (fun l h => by cases h)) (by simp)
      simpa [gen, names] using this
  | .label u, c, _, _ => Labs.nil.lbl (ns := []) (by simp [defined]) (Or.inl ⟨u, by simp [names], rfl⟩) (fun u hu => by cases hu) (Nat.le_refl _)
  | .sw n brk, c, hc, hn => by
    simp only [names, List.nodup_cons] at hn
    have ha := gen_labs ls n c hc hn.2
    exact ha.snoc (fun h => LabIn.not_name hn.1 (ha.all _ h)) (Or.inl ⟨brk, by simp [names], rfl⟩) (fun u hu => by simp [names, hu])
  | .ret ds, c, hc, _ => by
    have := (genDefr_labs ls ds none c hc).append (Labs.nil.other (i := .jmp .rtn) (ns := []) (fun l h => by cases h)) (by simp)
    simpa [gen, names] using this
theorem genDefr_labs (ls : List (Nat × Nat × Chain)) : ∀ (E : Chain) (e : Option Nat) (c : Nat), Clean E → Labs (genDefr ls E e c).1 [] c (genDefr ls E e c).2
  | .nil, _, c, _ => Labs.nil
  | .cons id n next, e, c, hc => by
    simp only [genDefr]
    split
    · exact Labs.nil
    · have hn := gen_labs ls n c hc.2.1 (by rw [hc.1]; exact List.nodup_nil)
      rw [hc.1] at hn
      exact hn.append (genDefr_labs ls next e _ hc.2.2) (by simp)
end

/-- What the parser makes of a statement without such names in deferred statements. -/
structure Parsed (s : DStmt) (p : PSt) (n : N) (q : PSt) : Prop where
  clean : CleanN n
  chain : Clean q.defr
  nodup : (names n).Nodup
  range : ∀ u, u ∈ names n → p.nlab ≤ u ∧ u < q.nlab
  le : p.nlab ≤ q.nlab
  none : noNames s = true → names n = []

theorem newDefrs_clean (l : List Nat) : ∀ {p : PSt}, Clean p.defr → Clean (newDefrs l p).defr ∧ (newDefrs l p).nlab = p.nlab := by
  induction l with
  | nil => intro p h; exact ⟨h, rfl⟩
  | cons n l ih =>
    intro p h
    have := ih (p := newDefr (.act n) p) ⟨rfl, trivial, h⟩
    exact ⟨this.1, this.2⟩

/-- Leaving a block makes a node with the same names. -/
theorem leave_parsed {d : Chain} {n m : N} {q r : PSt} (h : leaveBlockScope d n q = (m, r)) (hd : Clean d) (hq : Clean q.defr) (hc : CleanN n) :
    CleanN m ∧ Clean r.defr ∧ names m = names n ∧ r.nlab = q.nlab := by
  unfold leaveBlockScope at h
  split at h
  · split at h <;> cases h
    · exact ⟨⟨hc, hd⟩, hd, rfl, rfl⟩
    · exact ⟨hc, hd, rfl, rfl⟩
  · split at h <;> cases h
    · exact ⟨hc, hq, rfl, rfl⟩
    · exact ⟨⟨hc, hq⟩, hd, rfl, rfl⟩

theorem secondary_parsed {s : DStmt} {ctx : List JCtx} (ih : ∀ {p : PSt} {n : N} {q : PSt}, stmt s ctx p = some (n, q) → Clean p.defr → Parsed s p n q)
    {p : PSt} {n : N} {q : PSt} (h : secondary (stmt s ctx) (isBlock s) p = some (n, q)) (hc : Clean p.defr) : Parsed s p n q := by
  unfold secondary at h
  split at h
  · exact ih h hc
  · split at h
    · cases h
    · rename_i n' q' hs
      rw [Option.some.injEq] at h
      have hp := ih hs hc
      obtain ⟨h1, h2, h3, h4⟩ := leave_parsed h hc hp.chain hp.clean
      exact ⟨h1, h2, by rw [h3]; exact hp.nodup, by rw [h3, h4]; exact hp.range, by rw [h4]; exact hp.le, by rw [h3]; exact hp.none⟩

theorem nodup_two {a b : List Nat} {x y z : Nat} (ha : a.Nodup) (hb : b.Nodup) (h1 : ∀ u, u ∈ a → x ≤ u ∧ u < y) (h2 : ∀ u, u ∈ b → y ≤ u ∧ u < z) :
    (a ++ b).Nodup := by
  rw [List.nodup_append]
  refine ⟨ha, hb, ?_⟩
  intro u hu v hv he
  have := h1 u hu
  have := h2 v hv
  omega

theorem range_two {a b : List Nat} {x y z : Nat} (h1 : ∀ u, u ∈ a → x ≤ u ∧ u < y) (h2 : ∀ u, u ∈ b → y ≤ u ∧ u < z) (hx : x ≤ y) (hz : y ≤ z) :
    ∀ u, u ∈ a ++ b → x ≤ u ∧ u < z := by
  intro u hu
  rcases List.mem_append.mp hu with hu | hu
  · have := h1 u hu; omega
  · have := h2 u hu; omega

theorem loop_names {ns : List Nat} {k z : Nat} (hn : ns.Nodup) (h : ∀ u, u ∈ ns → k + 2 ≤ u ∧ u < z) (hz : k + 2 ≤ z) :
    (k :: (k + 1) :: ns).Nodup ∧ ∀ u, u ∈ k :: (k + 1) :: ns → k ≤ u ∧ u < z := by
  constructor
  · simp only [List.nodup_cons, List.mem_cons, not_or]
    refine ⟨⟨by omega, fun hk => ?_⟩, fun hk => ?_, hn⟩
    · have := h k hk; omega
    · have := h _ hk; omega
  · intro u hu
    simp only [List.mem_cons] at hu
    rcases hu with rfl | rfl | hu
    · omega
    · omega
    · have := h u hu; omega

theorem stmt_parsed (s : DStmt) : plainDefers s = true → ∀ (ctx : List JCtx) {p : PSt} {n : N} {q : PSt}, stmt s ctx p = some (n, q) → Clean p.defr → Parsed s p n q := by
  induction s with
  | skip => intro _ ctx p n q h hc; cases h; exact ⟨trivial, hc, List.nodup_nil, (fun _ h => by cases h), Nat.le_refl _, fun _ => rfl⟩
  | act m => intro _ ctx p n q h hc; cases h; exact ⟨trivial, hc, List.nodup_nil, (fun _ h => by cases h), Nat.le_refl _, fun _ => rfl⟩
  | cleanup m => intro _ ctx p n q h hc; cases h; exact ⟨trivial, ⟨rfl, trivial, hc⟩, List.nodup_nil, (fun _ h => by cases h), Nat.le_refl _, fun _ => rfl⟩
  | ret => intro _ ctx p n q h hc; cases h; exact ⟨hc, hc, List.nodup_nil, (fun _ h => by cases h), Nat.le_refl _, fun _ => rfl⟩
  | goto l => intro _ ctx p n q h hc; cases h; exact ⟨hc, hc, List.nodup_nil, (fun _ h => by cases h), Nat.le_refl _, fun _ => rfl⟩
  | label l =>
    intro _ ctx p n q h hc; cases h
    exact ⟨trivial, hc, by simp [names], fun u h => by simp [names] at h; subst h; exact ⟨Nat.le_refl _, Nat.lt_succ_self _⟩, Nat.le_succ _, fun h => by cases h⟩
  | case =>
    intro _ ctx p n q h hc
    simp only [stmt] at h
    split at h <;> cases h
    exact ⟨trivial, hc, List.nodup_nil, (fun _ h => by cases h), Nat.le_refl _, fun _ => rfl⟩
  | brk k =>
    intro _ ctx p n q h hc
    obtain ⟨j, hj, rfl⟩ := jumpTo_brk h
    obtain rfl : p = q := by simp [stmt, jumpTo, hj] at h; exact h
    exact ⟨hc, hc, List.nodup_nil, (fun _ h => by cases h), Nat.le_refl _, fun _ => rfl⟩
  | cont k =>
    intro _ ctx p n q h hc
    obtain ⟨j, hj, rfl⟩ := jumpTo_cont h
    obtain rfl : p = q := by simp [stmt, jumpTo, hj] at h; exact h.2
    exact ⟨hc, hc, List.nodup_nil, (fun _ h => by cases h), Nat.le_refl _, fun _ => rfl⟩
  | seq a b iha ihb =>
    intro hpl ctx p n q h hc
    simp only [plainDefers, Bool.and_eq_true] at hpl
    simp only [stmt] at h
    split at h
    · cases h
    · rename_i na p1 hsa
      split at h
      · cases h
      · rename_i nb p2 hsb
        cases h
        have ha := iha hpl.1 ctx hsa hc
        have hb := ihb hpl.2 ctx hsb ha.chain
        refine ⟨⟨ha.clean, hb.clean⟩, hb.chain, nodup_two ha.nodup hb.nodup ha.range hb.range, range_two ha.range hb.range ha.le hb.le, Nat.le_trans ha.le hb.le, fun hn => ?_⟩
        simp only [noNames, Bool.and_eq_true] at hn
        simp [names, ha.none hn.1, hb.none hn.2]
  | defer b ih =>
    intro hpl ctx p n q h hc
    simp only [plainDefers, Bool.and_eq_true] at hpl
    simp only [stmt] at h
    split at h
    · cases h
    · rename_i nb p1 hsb
      cases h
      have hb := secondary_parsed (ih hpl.2 ctx) hsb hc
      exact ⟨trivial, ⟨hb.none hpl.1, hb.clean, hb.chain⟩, List.nodup_nil, (fun _ h => by cases h), hb.le, fun _ => rfl⟩
  | block b ih =>
    intro hpl ctx p n q h hc
    simp only [stmt] at h
    split at h
    · cases h
    · rename_i nb p1 hsb
      have hb := ih hpl ctx hsb hc
      rw [Option.some.injEq] at h
      unfold leaveCompound at h
      split at h <;> cases h
      · exact ⟨⟨hb.clean, hc⟩, hc, hb.nodup, hb.range, hb.le, hb.none⟩
      · exact ⟨⟨hb.clean, hb.chain⟩, hc, hb.nodup, hb.range, hb.le, hb.none⟩
  | ite pre c a b iha ihb =>
    intro hpl ctx p n q h hc
    simp only [plainDefers, Bool.and_eq_true] at hpl
    simp only [stmt] at h
    split at h
    · cases h
    · rename_i na p1 hsa
      split at h
      · cases h
      · rename_i nb p2 hsb
        obtain ⟨hc1, hl1⟩ := newDefrs_clean pre hc
        have ha := secondary_parsed (iha hpl.1 ctx) hsa hc1
        have hb := secondary_parsed (ihb hpl.2 ctx) hsb ha.chain
        rw [Option.some.injEq] at h
        obtain ⟨h1, h2, h3, h4⟩ := leave_parsed h hc hb.chain ⟨ha.clean, hb.clean⟩

        refine ⟨h1, h2, by rw [h3]; exact nodup_two ha.nodup hb.nodup ha.range hb.range, by rw [h3, h4, ← hl1]; exact range_two ha.range hb.range ha.le hb.le, by rw [h4, ← hl1]; exact Nat.le_trans ha.le hb.le, fun hn => ?_⟩
        simp only [noNames, Bool.and_eq_true] at hn
        rw [h3]; simp [names, ha.none hn.1, hb.none hn.2]
  | loop init pre c inc body ih =>
    intro hpl ctx p n q h hc
    simp only [stmt] at h
    split at h
    · cases h
    · rename_i nb p1 hsb
      obtain ⟨hc1, hl1⟩ := newDefrs_clean init hc
      obtain ⟨hc2, hl2⟩ := newDefrs_clean pre hc1
      have hb := secondary_parsed (ih hpl _) hsb hc2
      rw [Option.some.injEq] at h
      obtain ⟨h1, h2, h3, h4⟩ := leave_parsed h hc hb.chain ⟨hb.clean, hc2⟩
      have := loop_names hb.nodup hb.range hb.le
      refine ⟨h1, h2, by rw [h3]; exact this.1, by rw [h3, h4, ← hl1, ← hl2]; exact this.2, ?_, fun hn => by cases hn⟩
      have := hb.le
      rw [h4, ← hl1, ← hl2]
      exact Nat.le_trans (Nat.le_add_right _ 2) this
  | doWhile body c ih =>
    intro hpl ctx p n q h hc
    simp only [stmt] at h
    split at h
    · cases h
    · rename_i nb p1 hsb
      cases h
      have hb := secondary_parsed (ih hpl _) hsb hc
      have := loop_names hb.nodup hb.range hb.le
      exact ⟨hb.clean, hb.chain, this.1, this.2, Nat.le_trans (Nat.le_add_right _ 2) hb.le, fun hn => by cases hn⟩
  | sw body ih =>
    intro hpl ctx p n q h hc
    simp only [stmt] at h
    split at h
    · cases h
    · rename_i nb p1 hsb
      cases h
      have hb := secondary_parsed (ih hpl _) hsb hc
      have hr := hb.range
      have hl := hb.le
      simp only at hr hl
      refine ⟨hb.clean, hb.chain, ?_, ?_, Nat.le_trans (Nat.le_add_right _ 1) hl, fun hn => by cases hn⟩
      · simp only [names, List.nodup_cons]
        exact ⟨fun h => by have := hr _ h; omega, hb.nodup⟩
      · intro u hu
        simp only [names, List.mem_cons] at hu
        rcases hu with rfl | hu
        · omega
        · have := hr u hu; omega

theorem function_assembles {body : DStmt} {P : List I} (hp : plainDefers body = true) (h : function body = some P) : (defined P).Nodup := by
  unfold function at h
  split at h
  · cases h
  · rename_i n p hs
    split at h
    · cases h
      have hpa := stmt_parsed (.block body) hp [] hs trivial
      have hg := gen_labs p.labels n 0 hpa.clean hpa.nodup
      rw [defined_append, List.nodup_append]
      refine ⟨hg.nodup, by simp [defined], ?_⟩
      intro l hl m hm he
      simp [defined] at hm
      subst he; subst hm
      rcases hg.all _ hl with ⟨u, _, h⟩ | ⟨k, _, _, h⟩
      · cases h
      · rcases h with h | h | h <;> cases h
    · cases h

end Slimcc.DfrL
