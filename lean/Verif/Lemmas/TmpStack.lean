import Verif.Spec.TmpStack
/-!
Lemmas for C31: where a sequence of operations puts temporaries.
-/
set_option autoImplicit false
namespace Slimcc.Tmp

/-- What a piece of output may change, in terms of the slot on top of the stack when it ends, of whether there is
a call in it, and of the peak before and after. -/
def Touch (c : Cfg) (s : Slot) (all : Bool) (pk pk' : Nat) : Cell → Prop
  | .gp i => all = true ∨ i < s.gp
  | .fp i => all = true ∨ i < s.fp
  | .byte a => -(c.lvar : Int) ≤ a ∨
      (if c.reuse then -((c.lvar + 8 * s.st : Nat) : Int) ≤ a else -(pk' : Int) ≤ a ∧ a < -(pk : Int))

/-- The output `seg` changes nothing outside `T` and its loads are right. -/
def SegOk (lvar : Nat) (seg : List Line) (T : Cell → Prop) : Prop :=
  ∀ (R : List Line) (g : List Store) (σ : Store), (∀ σ', (∀ c, ¬T c → σ' c = σ c) → Safe lvar R σ' g) → Safe lvar (seg ++ R) σ g

def PairOk (seg : List Line) : Prop := ∀ R g, Paired R g → Paired (seg ++ R) g
theorem PairOk.nil : PairOk [] := fun _ _ h => h
theorem PairOk.call : PairOk [.call] := fun _ _ h => h
theorem PairOk.args (n : Nat) : PairOk [.args n] := fun _ _ h => h
theorem PairOk.append {a b : List Line} (ha : PairOk a) (hb : PairOk b) : PairOk (a ++ b) := fun R g h => by
  rw [List.append_assoc]; exact ha _ _ (hb _ _ h)
theorem PairOk.tmp {a : List Line} (l : Loc) (ha : PairOk a) : PairOk (.save l :: (a ++ [.load l])) := fun R g h => by
  show Paired ((a ++ [.load l]) ++ R) (l :: g)
  rw [List.append_assoc]; exact ha _ _ ⟨rfl, h⟩

theorem SegOk.nil (lvar : Nat) (T : Cell → Prop) : SegOk lvar [] T := fun _ _ σ h => h σ fun _ _ => rfl

theorem SegOk.append {lvar : Nat} {a b : List Line} {T U : Cell → Prop} (ha : SegOk lvar a T) (hb : SegOk lvar b U)
    {V : Cell → Prop} (h1 : ∀ c, T c → V c) (h2 : ∀ c, U c → V c) : SegOk lvar (a ++ b) V := by
  intro R g σ h
  rw [List.append_assoc]
  refine ha _ _ _ fun σ1 e1 => hb _ _ _ fun σ2 e2 => h σ2 fun c hc => ?_
  rw [e2 c (fun hu => hc (h2 c hu)), e1 c (fun hu => hc (h1 c hu))]

theorem SegOk.mono {lvar : Nat} {a : List Line} {T V : Cell → Prop} (ha : SegOk lvar a T) (h : ∀ c, T c → V c) : SegOk lvar a V := by
  have := ha.append (SegOk.nil lvar T) h h
  rwa [List.append_nil] at this

theorem SegOk.call (c : Cfg) (s : Slot) (pk pk' : Nat) : SegOk c.lvar [.call] (Touch c s true pk pk') := by
  intro R g σ hR σ' hk
  refine hR σ' fun x hx => ?_
  cases x with
  | gp i => exact absurd (Or.inl rfl) hx
  | fp i => exact absurd (Or.inl rfl) hx
  | byte a => exact hk a (by simp only [Touch, not_or] at hx; omega)

/-- A value saved around output that does not touch its place. -/
theorem SegOk.tmp {lvar : Nat} {a : List Line} {T V : Cell → Prop} (l : Loc) (ha : SegOk lvar a T) (hl : ∀ c, l.Has c → ¬T c)
    (h1 : ∀ c, T c → V c) (h2 : ∀ c, l.Has c → V c) : SegOk lvar (.save l :: (a ++ [.load l])) V := by
  intro R g σ h
  show ∀ v σ' : Store, _
  intro v σ1 w1 w2
  have : Safe lvar (a ++ (.load l :: R)) σ1 (v :: g) := by
    refine ha _ _ _ fun σ2 e2 => ⟨fun c hc => ?_, h σ2 fun c hc => ?_⟩
    · rw [e2 c (hl c hc), w1 c hc]
    · rw [e2 c (fun hu => hc (h1 c hu)), w2 c (fun hu => hc (h2 c hu))]
  simpa using this

/-- `b` is `a` after something happened above it: only registers may have become memory. -/
def Below (a b : Slot) : Prop := b = a ∨ b = { a with kind := .st }

theorem Below.refl (a : Slot) : Below a a := Or.inl rfl
theorem Below.trans {a b d : Slot} (h : Below a b) (h' : Below b d) : Below a d := by
  rcases h with rfl | rfl
  · exact h'
  · rcases h' with rfl | rfl <;> exact Or.inr rfl

/-- What is known of the top slot after a piece of output: its depths have grown. -/
structure Grown (a b : Slot) : Prop where
  gp : a.gp ≤ b.gp
  fp : a.fp ≤ b.fp
  st : a.st ≤ b.st
  kind : b.kind = a.kind ∨ b.kind = .st
  loc : b.loc = a.loc

theorem Grown.refl (a : Slot) : Grown a a := ⟨Nat.le_refl _, Nat.le_refl _, Nat.le_refl _, Or.inl rfl, rfl⟩
theorem Grown.trans {a b d : Slot} (h : Grown a b) (h' : Grown b d) : Grown a d :=
  ⟨Nat.le_trans h.gp h'.gp, Nat.le_trans h.fp h'.fp, Nat.le_trans h.st h'.st,
   by rcases h'.kind with e | e
      · rw [e]; exact h.kind
      · exact Or.inr e, h'.loc.trans h.loc⟩

theorem touch_mono {c : Cfg} {a b : Slot} {x y : Bool} {p q p' q' : Nat} (h : Grown a b) (hxy : x = true → y = true) (hp : p' ≤ p) (hq : q ≤ q')
    (d : Cell) (hx : Touch c a x p q d) : Touch c b y p' q' d := by
  have := h.gp; have := h.fp; have := h.st
  cases d with
  | gp i => exact hx.imp hxy fun _ => by omega
  | fp i => exact hx.imp hxy fun _ => by omega
  | byte a =>
    refine hx.imp id fun hx => ?_
    by_cases hr : c.reuse = true
    · rw [if_pos hr] at hx ⊢; omega
    · rw [if_neg hr] at hx ⊢; omega

/-- The slots below the top. -/
def BelowAll : List Slot → List Slot → Prop
  | [], [] => True
  | a :: r, b :: r' => Below a b ∧ BelowAll r r'
  | _, _ => False

theorem BelowAll.refl : ∀ l, BelowAll l l
  | [] => trivial
  | a :: r => ⟨Below.refl a, BelowAll.refl r⟩
theorem BelowAll.trans : ∀ {a b d : List Slot}, BelowAll a b → BelowAll b d → BelowAll a d
  | [], [], [], _, _ => trivial
  | _ :: _, _ :: _, _ :: _, h, h' => ⟨h.1.trans h'.1, BelowAll.trans h.2 h'.2⟩
theorem BelowAll.clobber : ∀ l, BelowAll l (clobberAll l)
  | [] => trivial
  | _ :: r => ⟨Or.inr rfl, BelowAll.clobber r⟩

/-- The effect of a piece of the sequence on a non-empty stack: new output `seg`, complete and safe, touching only
what the top slot knows of; after a call (`all`) every slot is in memory. -/
structure Piece (c : Cfg) (ops : List Op) (top : Slot) (rest : List Slot) (pk : Nat) (out : List Line) (top' : Slot) (rest' : List Slot)
    (pk' : Nat) (seg : List Line) (all : Bool) : Prop where
  runs : run c ops ⟨top :: rest, pk, out⟩ = some ⟨top' :: rest', pk', out ++ seg⟩
  grown : Grown top top'
  below : BelowAll rest rest'
  mem : all = true → ∀ s ∈ top' :: rest', s.kind = .st
  peak : pk ≤ pk'
  ok : SegOk c.lvar seg (Touch c top' all pk pk')
  fits : ∀ l, .load l ∈ seg ∨ .save l ∈ seg → l.Fits c.lvar pk'
  paired : PairOk seg

theorem Loc.Fits.mono {lvar p q : Nat} {l : Loc} (h : l.Fits lvar p) (hpq : p ≤ q) : l.Fits lvar q := by
  cases l <;> simp only [Loc.Fits] at * <;> omega

theorem run_append (c : Cfg) (a b : List Op) (σ : State) : run c (a ++ b) σ = (run c a σ).bind (run c b) := by
  induction a generalizing σ with
  | nil => rfl
  | cons o r ih =>
    show (step c σ o).bind (run c (r ++ b)) = ((step c σ o).bind (run c r)).bind (run c b)
    cases step c σ o with
    | none => rfl
    | some σ' => exact ih σ'

theorem BelowAll.mem : ∀ {a b : List Slot}, BelowAll a b → (∀ s ∈ a, s.kind = .st) → ∀ s ∈ b, s.kind = .st
  | [], [], _, _, s, hs => by cases hs
  | a :: r, b :: r', h, h', s, hs => by
    rcases List.mem_cons.1 hs with rfl | hs
    · rcases h.1 with e | e
      · rw [e]; exact h' a (List.mem_cons_self ..)
      · rw [e]
    · exact BelowAll.mem h.2 (fun x hx => h' x (List.mem_cons_of_mem _ hx)) s hs

theorem Piece.append {c : Cfg} {o o' : List Op} {t t' t'' : Slot} {r r' r'' : List Slot} {p p' p'' : Nat} {out s s' : List Line} {a a' : Bool}
    (h : Piece c o t r p out t' r' p' s a) (h' : Piece c o' t' r' p' (out ++ s) t'' r'' p'' s' a') :
    Piece c (o ++ o') t r p out t'' r'' p'' (s ++ s') (a || a') where
  runs := by rw [run_append, h.runs]; show run c o' _ = _; rw [h'.runs, List.append_assoc]
  grown := h.grown.trans h'.grown
  below := h.below.trans h'.below
  mem := by
    intro e
    cases a' with
    | true => exact h'.mem rfl
    | false =>
      have := h.mem (by simpa using e)
      intro s hs
      rcases List.mem_cons.1 hs with rfl | hs
      · rcases h'.grown.kind with e | e
        · rw [e]; exact this _ (List.mem_cons_self ..)
        · exact e
      · exact h'.below.mem (fun x hx => this x (List.mem_cons_of_mem _ hx)) s hs
  peak := Nat.le_trans h.peak h'.peak
  ok := h.ok.append h'.ok (fun x => touch_mono h'.grown (fun e => by simp [e]) (Nat.le_refl _) h'.peak x)
    (fun x => touch_mono (Grown.refl _) (fun e => by simp [e]) h.peak (Nat.le_refl _) x)
  fits := by
    intro l hl
    simp only [List.mem_append] at hl
    rcases hl with (hl | hl) | (hl | hl)
    · exact (h.fits l (Or.inl hl)).mono h'.peak
    · exact h'.fits l (Or.inl hl)
    · exact (h.fits l (Or.inr hl)).mono h'.peak
    · exact h'.fits l (Or.inr hl)
  paired := h.paired.append h'.paired

/-- The place found for a slot is not touched by what happened while it was live, exists, and is touched
in terms of the slot below. -/
theorem place_ok (c : Cfg) (s : Slot) (all : Bool) (sz pk pk' : Nat) (hp : c.lvar ≤ pk) (hpk : pk ≤ pk') (hall : all = true → s.kind = .st) :
    let l := (place c pk' s.settle sz).1
    let q := (place c pk' s.settle sz).2
    (∀ x, l.Has x → ¬Touch c s all pk pk' x) ∧ l.Fits c.lvar q ∧ pk' ≤ q ∧
    ∀ d : Slot, d.gp ≥ s.settle.gp + (if s.settle.kind = .gp then 1 else 0) → d.fp ≥ s.settle.fp + (if s.settle.kind = .fp then 1 else 0) →
      d.st ≥ s.settle.st + (if s.settle.kind = .st then 1 else 0) * sz →
      (∀ x, Touch c s all pk pk' x → Touch c d all pk q x) ∧ ∀ x, l.Has x → Touch c d all pk q x := by
  have hs : s.settle.gp = s.gp ∧ s.settle.fp = s.fp ∧ s.settle.st = s.st := by unfold Slot.settle; split <;> exact ⟨rfl, rfl, rfl⟩
  have hk : (s.settle.kind = .gp → s.kind = .gp ∧ s.gp < 6) ∧ (s.settle.kind = .fp → s.kind = .fp ∧ s.fp < 6) := by
    unfold Slot.settle gpSlots fpSlots; split
    · exact ⟨fun e => (by cases e), fun e => (by cases e)⟩
    · rename_i h
      rw [not_or, Decidable.not_and_iff_or_not, Decidable.not_and_iff_or_not] at h
      refine ⟨fun e => ⟨e, ?_⟩, fun e => ⟨e, ?_⟩⟩
      · rcases h.1 with h | h
        · exact absurd e h
        · omega
      · rcases h.2 with h | h
        · exact absurd e h
        · omega
  obtain ⟨e1, e2, e3⟩ := hs
  generalize s.settle = u at *
  dsimp only
  unfold place
  cases hu : u.kind with
  | gp =>
    obtain ⟨k1, k2⟩ := hk.1 hu
    have hna : ¬all = true := fun e => by rw [hall e] at k1; cases k1
    simp only [reduceCtorEq, if_true, if_false]
    refine ⟨?_, by show u.gp < 6; omega, Nat.le_refl _, fun d h1 h2 h3 => ⟨?_, ?_⟩⟩
    · rintro (i | i | i) hx <;> simp only [Loc.Has, Touch] at hx ⊢
      rintro (h | h)
      · exact hna h
      · omega
    · rintro (i | i | i) hx <;> simp only [Touch] at hx ⊢
      · exact hx.imp id fun _ => by omega
      · exact hx.imp id fun _ => by omega
      · refine hx.imp id fun hx => ?_
        split at hx
        · rename_i h; rw [if_pos h]; omega
        · rename_i h; rw [if_neg h]; omega
    · rintro (i | i | i) hx <;> simp only [Loc.Has, Touch] at hx ⊢
      right; omega
  | fp =>
    obtain ⟨k1, k2⟩ := hk.2 hu
    have hna : ¬all = true := fun e => by rw [hall e] at k1; cases k1
    simp only [reduceCtorEq, if_true, if_false]
    refine ⟨?_, by show u.fp < 6; omega, Nat.le_refl _, fun d h1 h2 h3 => ⟨?_, ?_⟩⟩
    · rintro (i | i | i) hx <;> simp only [Loc.Has, Touch] at hx ⊢
      rintro (h | h)
      · exact hna h
      · omega
    · rintro (i | i | i) hx <;> simp only [Touch] at hx ⊢
      · exact hx.imp id fun _ => by omega
      · exact hx.imp id fun _ => by omega
      · refine hx.imp id fun hx => ?_
        split at hx
        · rename_i h; rw [if_pos h]; omega
        · rename_i h; rw [if_neg h]; omega
    · rintro (i | i | i) hx <;> simp only [Loc.Has, Touch] at hx ⊢
      right; omega
  | st =>
    cases hr : c.reuse with
    | true =>
      simp only [Bool.not_true, Bool.false_eq_true, reduceCtorEq, if_true, if_false]
      refine ⟨?_, ⟨by omega, by omega⟩, by omega, fun d h1 h2 h3 => ⟨?_, ?_⟩⟩
      · rintro (i | i | i) hx <;> simp only [Loc.Has, Touch, hr, if_true] at hx ⊢
        omega
      · rintro (i | i | i) hx <;> simp only [Touch, hr, if_true] at hx ⊢
        · exact hx.imp id fun _ => by omega
        · exact hx.imp id fun _ => by omega
        · omega
      · rintro (i | i | i) hx <;> simp only [Loc.Has, Touch, hr, if_true] at hx ⊢
        omega
    | false =>
      simp only [Bool.not_false, Bool.false_eq_true, reduceCtorEq, if_true, if_false]
      refine ⟨?_, ⟨by omega, by omega⟩, by omega, fun d h1 h2 h3 => ⟨?_, ?_⟩⟩
      · rintro (i | i | i) hx <;> simp only [Loc.Has, Touch, hr, Bool.false_eq_true, if_false] at hx ⊢
        omega
      · rintro (i | i | i) hx <;> simp only [Touch, hr, Bool.false_eq_true, if_false] at hx ⊢
        · exact hx.imp id fun _ => by omega
        · exact hx.imp id fun _ => by omega
        · omega
      · rintro (i | i | i) hx <;> simp only [Loc.Has, Touch, hr, Bool.false_eq_true, if_false] at hx ⊢
        omega


theorem settle_loc (s : Slot) : s.settle.loc = s.loc := by unfold Slot.settle; split <;> rfl

theorem set_reserved (out seg : List Line) (l : Line) : (out ++ [Line.reserved] ++ seg).set out.length l = out ++ l :: seg := by
  rw [List.append_assoc, List.set_append_right _ _ (Nat.le_refl _), Nat.sub_self]; rfl

/-- What the slot below knows after a pop. -/
theorem bump_grown (s : Slot) (sz : Nat) (t : Slot) (r : List Slot) :
    ∃ d, bump s sz (t :: r) = d :: r ∧ Grown t d ∧ d.kind = t.kind ∧ d.gp ≥ s.gp + (if s.kind = .gp then 1 else 0) ∧
      d.fp ≥ s.fp + (if s.kind = .fp then 1 else 0) ∧ d.st ≥ s.st + (if s.kind = .st then 1 else 0) * sz :=
  ⟨_, rfl, ⟨Nat.le_max_left .., Nat.le_max_left .., Nat.le_max_left .., Or.inl rfl, rfl⟩, rfl, Nat.le_max_right .., Nat.le_max_right .., Nat.le_max_right ..⟩

theorem Below.grown {a b : Slot} (h : Below a b) : Grown a b := by
  rcases h with rfl | rfl
  · exact Grown.refl _
  · exact ⟨Nat.le_refl _, Nat.le_refl _, Nat.le_refl _, Or.inr rfl, rfl⟩

theorem BelowAll.cons_inv {t : Slot} {r l : List Slot} (h : BelowAll (t :: r) l) : ∃ t' r', l = t' :: r' ∧ Below t t' ∧ BelowAll r r' := by
  cases l with
  | nil => exact absurd h id
  | cons t' r' => exact ⟨t', r', rfl, h.1, h.2⟩

/-- Saving, a piece, restoring. -/
theorem tmp_run {c : Cfg} {o : List Op} {k : Kind} {S S' : List Slot} {pk pk' : Nat} {out seg : List Line} {t' : Slot} {all : Bool} (sz : Nat)
    (h : Piece c o ⟨k, 0, 0, 0, out.length⟩ S pk (out ++ [.reserved]) t' S' pk' seg all) :
    run c (.push k :: (o ++ [.pop sz])) ⟨S, pk, out⟩ =
      some ⟨bump t'.settle sz S', (place c pk' t'.settle sz).2, out ++ .save (place c pk' t'.settle sz).1 :: (seg ++ [.load (place c pk' t'.settle sz).1])⟩ := by
  show (some _).bind _ = _
  rw [Option.bind_some, run_append, h.runs, Option.bind_some]
  show (step c _ (.pop sz)).bind _ = _
  simp only [step, Option.bind_some, run, settle_loc, h.grown.loc]
  rw [set_reserved, List.append_assoc]
  rfl

theorem Piece.fitsTmp {lvar q : Nat} {seg : List Line} {l : Loc} (hl : l.Fits lvar q) (h : ∀ l, .load l ∈ seg ∨ .save l ∈ seg → l.Fits lvar q) :
    ∀ l', .load l' ∈ (.save l :: (seg ++ [.load l])) ∨ .save l' ∈ (.save l :: (seg ++ [.load l])) → l'.Fits lvar q := by
  intro l' hl'
  simp only [List.mem_cons, List.mem_append, reduceCtorEq, List.mem_nil_iff, or_false, false_or, Line.load.injEq, Line.save.injEq] at hl'
  rcases hl' with (h' | rfl) | (rfl | h')
  · exact h _ (Or.inl h')
  · exact hl
  · exact hl
  · exact h _ (Or.inr h')

theorem Piece.tmp {c : Cfg} {o : List Op} {k : Kind} {t : Slot} {S S' : List Slot} {pk pk' : Nat} {out seg : List Line} {t' : Slot} {all : Bool} (sz : Nat)
    (hp : c.lvar ≤ pk) (h : Piece c o ⟨k, 0, 0, 0, out.length⟩ (t :: S) pk (out ++ [.reserved]) t' S' pk' seg all) :
    ∃ d r q s, Piece c (.push k :: (o ++ [.pop sz])) t S pk out d r q s all := by
  obtain ⟨t1, r1, rfl, b1, b2⟩ := h.below.cons_inv
  obtain ⟨d, e, g, gk, g1, g2, g3⟩ := bump_grown t'.settle sz t1 r1
  obtain ⟨p1, p2, p3, p4⟩ := place_ok c t' all sz pk pk' hp h.peak (fun e => h.mem e t' (List.mem_cons_self ..))
  obtain ⟨p4, p5⟩ := p4 d g1 g2 g3
  have hr := tmp_run sz h
  rw [e] at hr
  refine ⟨d, r1, _, _, hr, b1.grown.trans g, b2, ?_, Nat.le_trans h.peak p3, SegOk.tmp _ h.ok p1 p4 p5, Piece.fitsTmp p2 (fun l hl => (h.fits l hl).mono p3), h.paired.tmp _⟩
  intro ea s hs
  have := h.mem ea
  rcases List.mem_cons.1 hs with rfl | hs
  · rw [gk]; exact this _ (List.mem_cons_of_mem _ (List.mem_cons_self ..))
  · exact this _ (List.mem_cons_of_mem _ (List.mem_cons_of_mem _ hs))

theorem Piece.call (c : Cfg) (t : Slot) (S : List Slot) (pk : Nat) (out : List Line) :
    Piece c [.call] t S pk out { t with kind := .st } (clobberAll S) pk [.call] true where
  runs := rfl
  grown := ⟨Nat.le_refl _, Nat.le_refl _, Nat.le_refl _, Or.inr rfl, rfl⟩
  below := BelowAll.clobber S
  mem := by
    intro _ s hs
    rcases List.mem_cons.1 hs with rfl | hs
    · rfl
    · obtain ⟨x, _, rfl⟩ := List.mem_map.1 hs; rfl
  peak := Nat.le_refl _
  ok := SegOk.call c _ pk pk
  fits := by simp
  paired := PairOk.call

/-- Saving the address of a function, evaluating arguments, filling argument registers and taking it back. -/
theorem ptr_run {c : Cfg} {o : List Op} {S S' : List Slot} {pk pk' : Nat} {out seg : List Line} {t' : Slot} {all : Bool} (n : Nat) (hp : c.lvar ≤ pk)
    (h : Piece c o ⟨.gp, 0, 0, 0, out.length⟩ S pk (out ++ [.reserved]) t' S' pk' seg all) :
    ∃ (u : Slot) (l : Loc) (q : Nat), run c (.push .gp :: (o ++ [.args n, .pop 1])) ⟨S, pk, out⟩ =
      some ⟨bump u 1 S', q, out ++ .save l :: ((seg ++ [.args n]) ++ [.load l])⟩ ∧ l.Fits c.lvar q ∧ pk' ≤ q ∧
      ∀ d : Slot, d.gp ≥ u.gp + (if u.kind = .gp then 1 else 0) → d.fp ≥ u.fp + (if u.kind = .fp then 1 else 0) →
        d.st ≥ u.st + (if u.kind = .st then 1 else 0) * 1 →
        SegOk c.lvar (.save l :: ((seg ++ [.args n]) ++ [.load l])) (Touch c d true pk q) := by
  let s : Slot := { t' with gp := max t'.gp n }
  obtain ⟨p1, p2, p3, p4⟩ := place_ok c s all 1 pk pk' hp h.peak (fun e => h.mem e t' (List.mem_cons_self ..))
  refine ⟨s.settle, (place c pk' s.settle 1).1, (place c pk' s.settle 1).2, ?_, p2, p3, ?_⟩
  · show (some _).bind _ = _
    rw [Option.bind_some, run_append, h.runs, Option.bind_some]
    show (some _).bind _ = _
    rw [Option.bind_some]
    show (step c _ (.pop 1)).bind _ = _
    simp only [step, clobberGp, Option.bind_some, run]
    rw [show ({ t' with gp := max t'.gp n } : Slot) = s from rfl, settle_loc, show s.loc = out.length from h.grown.loc, List.append_assoc, set_reserved,
      List.append_assoc]
    rfl
  · intro d h1 h2 h3
    obtain ⟨p4, p5⟩ := p4 d h1 h2 h3
    have hk : s.kind ≠ .fp := by
      intro e
      rcases h.grown.kind with e' | e' <;> rw [show s.kind = t'.kind from rfl, e'] at e <;> cases e
    have gts : Grown t' s := ⟨Nat.le_max_left .., Nat.le_refl _, Nat.le_refl _, Or.inl rfl, rfl⟩
    refine SegOk.tmp (T := fun x => Touch c s all pk pk' x ∨ ∃ i, x = .fp i) _ ?_ ?_ ?_ ?_
    · refine h.ok.append (U := fun x => Touch c s all pk pk' x ∨ ∃ i, x = .fp i) ?_ (fun x hx => Or.inl (touch_mono gts id (Nat.le_refl _) (Nat.le_refl _) x hx)) (fun _ => id)
      intro R g σ hR σ' hk
      refine hR σ' fun x hx => ?_
      rw [not_or] at hx
      cases x with
      | gp i => exact hk.2 i (by have := hx.1; simp only [Touch, not_or, s] at this; omega)
      | fp i => exact absurd ⟨i, rfl⟩ hx.2
      | byte a => exact hk.1 a (by have := hx.1; simp only [Touch, not_or] at this; omega)
    · intro x hl hx
      rcases hx with hx | ⟨i, rfl⟩
      · exact p1 x hl hx
      · revert hl
        have hs : s.settle.kind ≠ .fp := by
          unfold Slot.settle; split
          · intro e; cases e
          · exact hk
        unfold place
        cases hu : s.settle.kind with
        | gp => exact id
        | fp => exact absurd hu hs
        | st => dsimp only; split <;> exact id
    · intro x hx
      rcases hx with hx | ⟨i, rfl⟩
      · exact touch_mono (Grown.refl _) (fun _ => rfl) (Nat.le_refl _) (Nat.le_refl _) x (p4 x hx)
      · exact Or.inl rfl
    · exact fun x hx => touch_mono (Grown.refl _) (fun _ => rfl) (Nat.le_refl _) (Nat.le_refl _) x (p5 x hx)

theorem Piece.callPtr {c : Cfg} {o : List Op} {t : Slot} {S S' : List Slot} {pk pk' : Nat} {out seg : List Line} {t' : Slot} {all : Bool} (n : Nat)
    (hp : c.lvar ≤ pk) (h : Piece c o ⟨.gp, 0, 0, 0, out.length⟩ (t :: S) pk (out ++ [.reserved]) t' S' pk' seg all) :
    ∃ d r q s, Piece c (.push .gp :: (o ++ [.args n, .pop 1, .call])) t S pk out d r q s true := by
  obtain ⟨t1, r1, rfl, b1, b2⟩ := h.below.cons_inv
  obtain ⟨u, l, q, hr, hf, hq, hs⟩ := ptr_run n hp h
  obtain ⟨d, e, g, gk, g1, g2, g3⟩ := bump_grown u 1 t1 r1
  rw [e] at hr
  have hs := hs d g1 g2 g3
  have pc := Piece.call c d r1 q (out ++ .save l :: ((seg ++ [.args n]) ++ [.load l]))
  refine ⟨_, _, _, .save l :: ((seg ++ [.args n]) ++ [.load l]) ++ [.call], ?_, (b1.grown.trans g).trans pc.grown, b2.trans pc.below, fun _ => pc.mem rfl,
    Nat.le_trans h.peak hq, hs.append pc.ok (fun x => touch_mono pc.grown id (Nat.le_refl _) (Nat.le_refl _) x)
      (fun x => touch_mono (Grown.refl _) id (Nat.le_trans h.peak hq) (Nat.le_refl _) x), ?_, ((h.paired.append (PairOk.args n)).tmp l).append PairOk.call⟩
  · rw [show (.push .gp :: (o ++ [.args n, .pop 1, .call]) : List Op) = (.push .gp :: (o ++ [.args n, .pop 1])) ++ [.call] from by simp, run_append, hr,
      Option.bind_some, pc.runs, List.append_assoc]
  · intro l' hl'
    refine Piece.fitsTmp (seg := seg ++ [.args n]) hf (fun l hl => (h.fits l (by simpa using hl)).mono hq) l' ?_
    simpa [List.append_assoc] using hl'

mutual
theorem item_piece (c : Cfg) : ∀ (i : Item) (t : Slot) (S : List Slot) (pk : Nat) (out : List Line), c.lvar ≤ pk →
    ∃ t' S' pk' seg all, Piece c i.ops t S pk out t' S' pk' seg all
  | .tmp k sz body, t, S, pk, out, hp => by
    obtain ⟨t', S', pk', seg, all, h⟩ := items_piece c body ⟨k, 0, 0, 0, out.length⟩ (t :: S) pk (out ++ [.reserved]) hp
    obtain ⟨d, r, q, s, h⟩ := Piece.tmp sz hp h
    exact ⟨d, r, q, s, all, h⟩
  | .call, t, S, pk, out, _ => ⟨_, _, _, _, _, Piece.call c t S pk out⟩
  | .callPtr n body, t, S, pk, out, hp => by
    obtain ⟨t', S', pk', seg, all, h⟩ := items_piece c body ⟨.gp, 0, 0, 0, out.length⟩ (t :: S) pk (out ++ [.reserved]) hp
    obtain ⟨d, r, q, s, h⟩ := Piece.callPtr n hp h
    exact ⟨d, r, q, s, true, h⟩
theorem items_piece (c : Cfg) : ∀ (l : List Item) (t : Slot) (S : List Slot) (pk : Nat) (out : List Line), c.lvar ≤ pk →
    ∃ t' S' pk' seg all, Piece c (opsOf l) t S pk out t' S' pk' seg all
  | [], t, S, pk, out, _ => ⟨t, S, pk, [], false, by simp [opsOf, run], Grown.refl _, BelowAll.refl _, (fun h => nomatch h), Nat.le_refl _, SegOk.nil _ _, by simp, PairOk.nil⟩
  | i :: r, t, S, pk, out, hp => by
    obtain ⟨t1, S1, p1, s1, a1, h1⟩ := item_piece c i t S pk out hp
    obtain ⟨t2, S2, p2, s2, a2, h2⟩ := items_piece c r t1 S1 p1 (out ++ s1) (Nat.le_trans hp h1.peak)
    exact ⟨t2, S2, p2, _, _, h1.append h2⟩
end

/-- At the bottom of the stack. -/
structure Whole (c : Cfg) (ops : List Op) (pk : Nat) (out : List Line) (pk' : Nat) (seg : List Line) : Prop where
  runs : run c ops ⟨[], pk, out⟩ = some ⟨[], pk', out ++ seg⟩
  peak : pk ≤ pk'
  ok : SegOk c.lvar seg fun _ => True
  fits : ∀ l, .load l ∈ seg ∨ .save l ∈ seg → l.Fits c.lvar pk'
  paired : PairOk seg

theorem BelowAll.nil_inv {l : List Slot} (h : BelowAll [] l) : l = [] := by
  cases l with
  | nil => rfl
  | cons t' r' => exact absurd h id

theorem item_whole (c : Cfg) (i : Item) (pk : Nat) (out : List Line) (hp : c.lvar ≤ pk) : ∃ pk' seg, Whole c i.ops pk out pk' seg := by
  cases i with
  | call => exact ⟨pk, [.call], rfl, Nat.le_refl _, (SegOk.call c ⟨.st, 0, 0, 0, 0⟩ pk pk).mono fun _ _ => trivial, by simp, PairOk.call⟩
  | tmp k sz body =>
    obtain ⟨t', S', pk', seg, all, h⟩ := items_piece c body ⟨k, 0, 0, 0, out.length⟩ [] pk (out ++ [.reserved]) hp
    obtain rfl := h.below.nil_inv
    obtain ⟨p1, p2, p3, _⟩ := place_ok c t' all sz pk pk' hp h.peak (fun e => h.mem e t' (List.mem_cons_self ..))
    exact ⟨_, _, tmp_run sz h, Nat.le_trans h.peak p3, SegOk.tmp _ h.ok p1 (fun _ _ => trivial) (fun _ _ => trivial),
      Piece.fitsTmp p2 (fun l hl => (h.fits l hl).mono p3), h.paired.tmp _⟩
  | callPtr n body =>
    obtain ⟨t', S', pk', seg, all, h⟩ := items_piece c body ⟨.gp, 0, 0, 0, out.length⟩ [] pk (out ++ [.reserved]) hp
    obtain rfl := h.below.nil_inv
    obtain ⟨u, l, q, hr, hf, hq, hs⟩ := ptr_run n hp h
    refine ⟨q, .save l :: ((seg ++ [.args n]) ++ [.load l]) ++ [.call], ?_, Nat.le_trans h.peak hq, ?_, ?_, ((h.paired.append (PairOk.args n)).tmp l).append PairOk.call⟩
    · rw [show Item.ops (.callPtr n body) = (.push .gp :: (opsOf body ++ [.args n, .pop 1])) ++ [.call] from by simp [Item.ops], run_append, hr,
        Option.bind_some]
      show (some _).bind _ = _
      simp [run, bump, clobberAll]
    · exact (hs ⟨.st, u.gp + 1, u.fp + 1, u.st + 1, 0⟩ (by dsimp only; split <;> omega) (by dsimp only; split <;> omega) (by dsimp only; split <;> omega)).append
        (SegOk.call c ⟨.st, 0, 0, 0, 0⟩ pk pk) (fun _ _ => trivial) (fun _ _ => trivial)
    · intro l' hl'
      refine Piece.fitsTmp (seg := seg ++ [.args n]) hf (fun l hl => (h.fits l (by simpa using hl)).mono hq) l' ?_
      simpa [List.append_assoc] using hl'

theorem items_whole (c : Cfg) : ∀ (l : List Item) (pk : Nat) (out : List Line), c.lvar ≤ pk → ∃ pk' seg, Whole c (opsOf l) pk out pk' seg
  | [], pk, out, _ => ⟨pk, [], by simp [opsOf, run], Nat.le_refl _, SegOk.nil _ _, by simp, PairOk.nil⟩
  | i :: r, pk, out, hp => by
    obtain ⟨p1, s1, h1⟩ := item_whole c i pk out hp
    obtain ⟨p2, s2, h2⟩ := items_whole c r p1 (out ++ s1) (Nat.le_trans hp h1.peak)
    refine ⟨p2, s1 ++ s2, ?_, Nat.le_trans h1.peak h2.peak, h1.ok.append h2.ok (fun _ _ => trivial) (fun _ _ => trivial), ?_, h1.paired.append h2.paired⟩
    · rw [opsOf, run_append, h1.runs, Option.bind_some, h2.runs, List.append_assoc]
    · intro l hl
      simp only [List.mem_append] at hl
      rcases hl with (hl | hl) | (hl | hl)
      · exact (h1.fits l (Or.inl hl)).mono h2.peak
      · exact h2.fits l (Or.inl hl)
      · exact (h1.fits l (Or.inr hl)).mono h2.peak
      · exact h2.fits l (Or.inr hl)

theorem safe_suffix (lvar : Nat) (A R : List Line) (σ : Store) (g : List Store) (h : Safe lvar (A ++ R) σ g) : ∃ σ' g', Safe lvar R σ' g' := by
  classical
  induction A generalizing σ g with
  | nil => exact ⟨σ, g, h⟩
  | cons a A ih =>
    cases a with
    | reserved => exact absurd h id
    | save l => exact ih _ _ (h (fun _ => 0) (fun c => if l.Has c then 0 else σ c) (fun c hc => by simp [hc]) (fun c hc => by simp [hc]))
    | load l =>
      cases g with
      | nil => exact absurd h id
      | cons v g => exact ih _ _ h.2
    | call => exact ih _ _ (h σ fun _ _ => rfl)
    | args n => exact ih _ _ (h σ ⟨fun _ _ => rfl, fun _ _ => rfl⟩)

theorem paired_suffix (A R : List Line) (g : List Loc) (h : Paired (A ++ R) g) : ∃ g', Paired R g' := by
  induction A generalizing g with
  | nil => exact ⟨g, h⟩
  | cons a A ih =>
    cases a with
    | reserved => exact absurd h id
    | save l => exact ih _ h
    | load l =>
      cases g with
      | nil => exact absurd h id
      | cons v g => exact ih _ h.2
    | call => exact ih _ h
    | args n => exact ih _ h

theorem paired_balanced (B R : List Line) (gs g : List Loc) (h : Paired (B ++ R) (gs ++ g)) (hb : Balanced B gs.length) : Paired R g := by
  induction B generalizing gs with
  | nil =>
    rw [List.eq_nil_of_length_eq_zero hb] at h; exact h
  | cons a B ih =>
    cases a with
    | reserved => exact absurd h id
    | save l => exact ih (l :: gs) h hb
    | load l =>
      cases gs with
      | nil => exact absurd hb id
      | cons v gs => exact ih gs h.2 hb
    | call => exact ih gs h hb
    | args n => exact ih gs h hb

/-- Save ones everywhere: a cell saved to holds a one from then on. -/
theorem ones (lvar : Nat) (B R : List Line) (c : Cell) (σ : Store) (gs g : List Store) (h : Safe lvar (B ++ R) σ (gs ++ g)) (hb : Balanced B gs.length)
    (hc : σ c = 1 ∨ ∃ m, .save m ∈ B ∧ m.Has c) : ∃ σ', σ' c = 1 ∧ Safe lvar R σ' g := by
  classical
  induction B generalizing σ gs with
  | nil =>
    rw [List.eq_nil_of_length_eq_zero hb] at h
    exact ⟨σ, hc.elim id fun ⟨_, h, _⟩ => (by cases h), h⟩
  | cons a B ih =>
    cases a with
    | reserved => exact absurd h id
    | save l =>
      refine ih _ ((fun _ => 1) :: gs) (h (fun _ => 1) (fun c => if l.Has c then 1 else σ c) (fun c hc => by simp [hc]) (fun c hc => by simp [hc])) hb ?_
      by_cases hl : l.Has c
      · left; simp [hl]
      · simp only [hl, if_false]
        refine hc.imp id fun ⟨m, hm, h'⟩ => ⟨m, ?_, h'⟩
        rcases List.mem_cons.1 hm with e | hm
        · injection e with e; subst e; exact absurd h' hl
        · exact hm
    | load l =>
      cases gs with
      | nil => exact absurd hb id
      | cons v gs => exact ih _ gs h.2 hb (hc.imp id fun ⟨m, hm, h'⟩ => ⟨m, (by simpa using hm), h'⟩)
    | call => exact ih _ gs (h σ fun _ _ => rfl) hb (hc.imp id fun ⟨m, hm, h'⟩ => ⟨m, (by simpa using hm), h'⟩)
    | args n => exact ih _ gs (h σ ⟨fun _ _ => rfl, fun _ _ => rfl⟩) hb (hc.imp id fun ⟨m, hm, h'⟩ => ⟨m, (by simpa using hm), h'⟩)

end Slimcc.Tmp
