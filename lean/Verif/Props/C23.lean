import Verif.Lemmas.SwitchCode
import Verif.Lemmas.Labels
/-!
C23: `switch` dispatches like C.

`addCase` (Model/Stmt) enters a `case` label of a `switch` (with optimisation, merging ranges that
touch); `switchCode` is the chain of comparisons. A label is a triple of the unique name and the
two bounds. `fits` (Spec/CStmt) says when a case range, converted to the promoted type, contains a
value. C50 has the `switch` statement as a whole; these theorems are about any list of labels.
-/
set_option autoImplicit false
namespace Slimcc.Props
open Slimcc Slimcc.Spec Slimcc.Spec.CTy Slimcc.Ty Slimcc.X86 Slimcc.Gen

/-- The labels entered one after the other; `none` if one is rejected. -/
def enterAll (opt : Bool) (T : CTy) (ls : List (Nat × Int × Int)) : Option (List CaseRange) :=
  ls.foldlM (fun cs x => addCase opt (ity T) x.1 x.2.1 x.2.2 cs) []

/-- In the promoted type the range is not empty. -/
def InOrder (T : CTy) (x : Nat × Int × Int) : Prop := conv T.promote x.2.1 ≤ conv T.promote x.2.2

instance (T : CTy) (x : Nat × Int × Int) : Decidable (InOrder T x) := inferInstanceAs (Decidable (_ ≤ _))

/-- The converted range contains `v`. -/
def In (T : CTy) (v : Int) (x : Nat × Int × Int) : Prop := conv T.promote x.2.1 ≤ v ∧ v ≤ conv T.promote x.2.2

theorem enter_ok (opt : Bool) (t : ITy) : ∀ (ls : List (Nat × Int × Int)) (cs0 cs : List CaseRange), CaseInv t cs0 →
    ls.foldlM (fun cs x => addCase opt t x.1 x.2.1 x.2.2 cs) cs0 = some cs →
    CaseInv t cs ∧ (∀ u v, Cov t cs u v ↔ Cov t cs0 u v ∨ ∃ x ∈ ls, x.1 = u ∧ cb t x.2.1 ≤ v ∧ v ≤ cb t x.2.2) ∧ (∀ x ∈ ls, cb t x.2.1 ≤ cb t x.2.2) ∧
    ls.Pairwise (fun x y => ∀ v, ¬ ((cb t x.2.1 ≤ v ∧ v ≤ cb t x.2.2) ∧ (cb t y.2.1 ≤ v ∧ v ≤ cb t y.2.2))) ∧
    (∀ x ∈ ls, ∀ u v, Cov t cs0 u v → ¬ (cb t x.2.1 ≤ v ∧ v ≤ cb t x.2.2))
  | [], cs0, cs, hI, h => by
    injection h with h; subst h
    exact ⟨hI, fun u v => by simp, fun x h => (nomatch h), List.Pairwise.nil, fun x h => (nomatch h)⟩
  | x :: ls, cs0, cs, hI, h => by
    simp only [List.foldlM_cons, Option.bind_eq_bind] at h
    obtain ⟨cs1, h1, h2⟩ := Option.bind_eq_some_iff.1 h
    obtain ⟨a1, a2, a3, a4⟩ := addCase_ok opt t x.1 x.2.1 x.2.2 cs0 cs1 hI h1
    obtain ⟨b1, b2, b3, b4, b5⟩ := enter_ok opt t ls cs1 cs a2 h2
    refine ⟨b1, fun u v => ?_, fun y hy => ?_, List.pairwise_cons.2 ⟨fun y hy v hv => ?_, b4⟩, fun y hy u v hc => ?_⟩
    · rw [b2, a3]
      constructor
      · rintro ((h | h) | ⟨y, h1, h2⟩)
        · exact Or.inl h
        · exact Or.inr ⟨x, List.mem_cons_self .., h.1.symm, h.2⟩
        · exact Or.inr ⟨y, List.mem_cons_of_mem _ h1, h2⟩
      · rintro (h | ⟨y, h1, h2⟩)
        · exact Or.inl (Or.inl h)
        · rcases List.mem_cons.1 h1 with rfl | h1
          · exact Or.inl (Or.inr ⟨h2.1.symm, h2.2⟩)
          · exact Or.inr ⟨y, h1, h2⟩
    · rcases List.mem_cons.1 hy with rfl | hy
      · exact a1
      · exact b3 y hy
    · exact b5 y hy x.1 v ((a3 x.1 v).2 (Or.inr ⟨rfl, hv.1⟩)) hv.2
    · rcases List.mem_cons.1 hy with rfl | hy
      · exact a4 u v hc
      · exact b5 y hy u v ((a3 u v).2 (Or.inl hc))

theorem enter_some (opt : Bool) (t : ITy) : ∀ (ls : List (Nat × Int × Int)) (cs0 : List CaseRange), CaseInv t cs0 → (∀ x ∈ ls, cb t x.2.1 ≤ cb t x.2.2) →
    ls.Pairwise (fun x y => ∀ v, ¬ ((cb t x.2.1 ≤ v ∧ v ≤ cb t x.2.2) ∧ (cb t y.2.1 ≤ v ∧ v ≤ cb t y.2.2))) →
    (∀ x ∈ ls, ∀ u v, Cov t cs0 u v → ¬ (cb t x.2.1 ≤ v ∧ v ≤ cb t x.2.2)) → ∃ cs, ls.foldlM (fun cs x => addCase opt t x.1 x.2.1 x.2.2 cs) cs0 = some cs
  | [], cs0, _, _, _, _ => ⟨cs0, rfl⟩
  | x :: ls, cs0, hI, ho, hp, hd => by
    obtain ⟨cs1, h1⟩ := addCase_some opt t x.1 x.2.1 x.2.2 cs0 hI (ho x (List.mem_cons_self ..)) (hd x (List.mem_cons_self ..))
    obtain ⟨a1, a2, a3, a4⟩ := addCase_ok opt t x.1 x.2.1 x.2.2 cs0 cs1 hI h1
    obtain ⟨hp1, hp2⟩ := List.pairwise_cons.1 hp
    obtain ⟨cs, hcs⟩ := enter_some opt t ls cs1 a2 (fun y hy => ho y (List.mem_cons_of_mem _ hy)) hp2 (fun y hy u v hc hv => by
      rcases (a3 u v).1 hc with hc | hc
      · exact hd y (List.mem_cons_of_mem _ hy) u v hc hv
      · exact hp1 y hy v ⟨hc.2, hv⟩)
    refine ⟨cs, ?_⟩
    simp only [List.foldlM_cons, Option.bind_eq_bind, h1, Option.bind_some]
    exact hcs

theorem in_iff (T : CTy) (v : Int) (x : Nat × Int × Int) (hv : InRange T v) (ho : InOrder T x) (hc : cb (ity T) x.2.1 ≤ cb (ity T) x.2.2) :
    In T v x ↔ cb (ity T) x.2.1 ≤ v ∧ v ≤ cb (ity T) x.2.2 := by
  rw [← fits_iff T v x.2.1 x.2.2 hv ho hc]
  simp [In, fits]

section
variable {sym : Nat → Word} {P : List Line}

/-- The chain of comparisons of any accepted list of labels, with any value of any type in %rax:
control goes to the label whose range contains the value; if there is none, to the default label;
without default, past the `switch`. Memory, %rax and the frame register are unchanged. -/
theorem C23_dispatch (opt : Bool) (T : CTy) (ls : List (Nat × Int × Int)) (cs : List CaseRange) (d : Option Nat) (brk pc : Nat) (s : St) (v : Int)
    (ha : enterAll opt T ls = some cs) (ho : ∀ x ∈ ls, InOrder T x) (hv : InRange T v) (hx : InReg T v (s.r .ax))
    (hP : UniqueLabels P) (hc : CodeAt P pc (switchCode (if T.bytes = 8 then 8 else 4) cs d brk)) :
    (∀ x ∈ ls, ∀ tgt, In T v x → P[tgt]? = some (.lab (.name x.1)) →
      ∃ s', Runs sym P (pc, s) (tgt, s') ∧ s'.m = s.m ∧ s'.r .ax = s.r .ax ∧ s'.r .bp = s.r .bp) ∧
    (∀ u tgt, (∀ x ∈ ls, ¬ In T v x) → d = some u → P[tgt]? = some (.lab (.name u)) →
      ∃ s', Runs sym P (pc, s) (tgt, s') ∧ s'.m = s.m ∧ s'.r .ax = s.r .ax ∧ s'.r .bp = s.r .bp) ∧
    (∀ tgt, (∀ x ∈ ls, ¬ In T v x) → d = none → P[tgt]? = some (.lab (.name brk)) →
      ∃ s', Runs sym P (pc, s) (tgt, s') ∧ s'.m = s.m ∧ s'.r .ax = s.r .ax ∧ s'.r .bp = s.r .bp) := by
  obtain ⟨b1, b2, b3, _, _⟩ := enter_ok opt (ity T) ls [] cs (caseInv_nil _) ha
  have hsz : (if T.bytes = 8 then 8 else 4) = swSize (ity T) := by cases T <;> rfl
  rw [hsz] at hc
  have hl : SameLow (swSize (ity T)) (s.r .ax) (BitVec.ofInt 64 v) := by
    have h1 := hx.1
    rw [← hsz]
    unfold SameLow
    cases T <;> simp only [bytes, if_true, if_false, Nat.reduceEqDiff] at h1 ⊢ <;> exact h1.trans (sw_ofInt _ _ (by decide)).symm
  obtain ⟨j1, j2, j3⟩ := switch_run (sym := sym) cs d brk pc s b1 (bnd_inRange _ _ hv) hl hc
  have hno : (∀ x ∈ ls, ¬ In T v x) → ∀ u, ¬ Cov (ity T) cs u v := by
    intro h u hc
    rcases (b2 u v).1 hc with ⟨i, cr, h0, _⟩ | ⟨x, h1, _, h2⟩
    · simp at h0
    · exact h x h1 ((in_iff T v x hv (ho x h1) (b3 x h1)).2 h2)
  refine ⟨fun x hxm tgt hin ht => ?_, fun u tgt hn hd ht => ?_, fun tgt hn hd ht => ?_⟩
  · have hcov := (b2 x.1 v).2 (Or.inr ⟨x, hxm, rfl, (in_iff T v x hv (ho x hxm) (b3 x hxm)).1 hin⟩)
    obtain ⟨s', r, k⟩ := j1 x.1 tgt hcov (find_of_at _ hP _ _ ht)
    exact ⟨s', r, k.1, k.2.2.1, k.2.1⟩
  · obtain ⟨s', r, k⟩ := j2 u tgt (hno hn) hd (find_of_at _ hP _ _ ht)
    exact ⟨s', r, k.1, k.2.2.1, k.2.1⟩
  · obtain ⟨s', r, k⟩ := j3 tgt (hno hn) hd (find_of_at _ hP _ _ ht)
    exact ⟨s', r, k.1, k.2.2.1, k.2.1⟩

end

/-- The bounds as the parser keeps them, for types narrower than `int` in terms of the promoted
type: unsigned ones are read as `unsigned`. -/
theorem cb_promote (T : CTy) (x : Int) : cb (ity T) x = if T.promote = .int ∧ ¬ T.isSigned ∧ conv .int x < 0 then conv .int x + 2 ^ 32 else conv T.promote x := by
  rw [cb_eq]
  have p : T.promote = if T.rank < 3 then .int else T := by cases T <;> decide
  rw [p]
  cases T <;> simp [CTy.bytes, isSigned, conv, width, rank] <;> omega

theorem wrap_range (a b v : Int) (ha : -2 ^ 31 ≤ a ∧ a < 2 ^ 31) (hb : -2 ^ 31 ≤ b ∧ b < 2 ^ 31) (hw : (if a < 0 then a + 2 ^ 32 else a) ≤ (if b < 0 then b + 2 ^ 32 else b)) (hv : a ≤ v ∧ v ≤ b) :
    (if a < 0 then a + 2 ^ 32 else a) ≤ (if v < 0 then v + 2 ^ 32 else v) ∧ (if v < 0 then v + 2 ^ 32 else v) ≤ (if b < 0 then b + 2 ^ 32 else b) := by
  split at hw <;> split at hw <;> split <;> (first | omega | split <;> omega)

/-- Labels that overlap are rejected, whatever their position and with or without merging. -/
theorem C23_overlap_rejected (opt : Bool) (T : CTy) (ls : List (Nat × Int × Int)) (ho : ∀ x ∈ ls, InOrder T x) (i j : Nat) (x y : Nat × Int × Int) (v : Int)
    (hij : i < j) (hi : ls[i]? = some x) (hj : ls[j]? = some y) (hx : In T v x) (hy : In T v y) : enterAll opt T ls = none := by
  cases h : enterAll opt T ls with
  | none => rfl
  | some cs =>
    exfalso
    obtain ⟨_, _, b3, b4, _⟩ := enter_ok opt (ity T) ls [] cs (caseInv_nil _) h
    have hp : ∀ (i j : Nat) (hi : i < ls.length) (hj : j < ls.length), i < j → _ := List.pairwise_iff_getElem.1 b4
    obtain ⟨li, ei⟩ := List.getElem?_eq_some_iff.1 hi
    obtain ⟨lj, ej⟩ := List.getElem?_eq_some_iff.1 hj
    have hp := hp i j li lj hij
    rw [ei, ej] at hp
    have mx : x ∈ ls := ei ▸ List.getElem_mem li
    have my : y ∈ ls := ej ▸ List.getElem_mem lj
    have c1 := b3 x mx
    have c2 := b3 y my
    have o1 := ho x mx
    have o2 := ho y my
    unfold InOrder at o1 o2
    unfold In at hx hy
    have p : T.promote = if T.rank < 3 then .int else T := by cases T <;> decide
    refine hp (if T.promote = .int ∧ ¬ T.isSigned ∧ v < 0 then v + 2 ^ 32 else v) ?_
    rw [cb_promote, cb_promote] at c1 c2
    rw [cb_promote, cb_promote, cb_promote, cb_promote]
    by_cases hn : T.promote = .int ∧ ¬ T.isSigned = true
    · rw [hn.1] at o1 o2 hx hy
      simp only [hn.1, hn.2, Bool.false_eq_true, not_false_eq_true, true_and] at c1 c2 ⊢
      have r1 : ∀ z : Int, -2 ^ 31 ≤ conv .int z ∧ conv .int z < 2 ^ 31 := by intro z; simp [conv, isSigned, width]; omega
      exact ⟨wrap_range _ _ v (r1 _) (r1 _) c1 hx, wrap_range _ _ v (r1 _) (r1 _) c2 hy⟩
    · have e : ∀ z : Int, ¬ (T.promote = .int ∧ ¬ T.isSigned = true ∧ z < 0) := fun z h => hn ⟨h.1, h.2.1⟩
      simp only [e, if_false] at *
      exact ⟨hx, hy⟩

/-- Labels that do not overlap are accepted. For unsigned types narrower than `int` this needs that
no range goes from a negative to a non-negative value. -/
theorem C23_disjoint_accepted (opt : Bool) (T : CTy) (ls : List (Nat × Int × Int)) (ho : ∀ x ∈ ls, InOrder T x)
    (hs : T = .bool ∨ T = .uchar ∨ T = .ushort → ∀ x ∈ ls, conv .int x.2.1 < 0 → conv .int x.2.2 < 0)
    (hd : ls.Pairwise fun x y => ∀ v, ¬ (In T v x ∧ In T v y)) : ∃ cs, enterAll opt T ls = some cs := by
  have p : T.promote = if T.rank < 3 then .int else T := by cases T <;> decide
  have r1 : ∀ z : Int, -2 ^ 31 ≤ conv .int z ∧ conv .int z < 2 ^ 31 := by intro z; simp [conv, isSigned, width]; omega
  by_cases hn : T.promote = .int ∧ ¬ T.isSigned = true
  · have hT : T = .bool ∨ T = .uchar ∨ T = .ushort := by
      obtain ⟨h1, h2⟩ := hn
      cases T <;> simp [isSigned] at h2 <;> first | exact Or.inl rfl | exact Or.inr (Or.inl rfl) | exact Or.inr (Or.inr rfl) | cases h1
    have hb : ∀ x ∈ ls, cb (ity T) x.2.1 ≤ cb (ity T) x.2.2 := by
      intro x hx
      have h1 := ho x hx
      have h2 := hs hT x hx
      unfold InOrder at h1
      rw [cb_promote, cb_promote]
      rw [hn.1] at h1
      simp only [hn.1, hn.2, Bool.false_eq_true, not_false_eq_true, true_and]
      have := r1 x.2.1; have := r1 x.2.2
      split <;> split <;> first | omega | simp_all
    refine enter_some opt (ity T) ls [] (caseInv_nil _) hb ?_ ?_
    · refine (List.Pairwise.and_mem.1 hd).imp fun {x y} h v hv => ?_
      obtain ⟨hx, hy, h⟩ := h
      have h1 := ho x hx
      have h2 := hs hT x hx
      have h3 := ho y hy
      have h4 := hs hT y hy
      unfold InOrder at h1 h3
      unfold In at h
      rw [cb_promote, cb_promote, cb_promote, cb_promote] at hv
      rw [hn.1] at h1 h3 h
      simp only [hn.1, hn.2, Bool.false_eq_true, not_false_eq_true, true_and] at hv
      have := r1 x.2.1; have := r1 x.2.2; have := r1 y.2.1; have := r1 y.2.2
      obtain ⟨⟨v1, v2⟩, v3, v4⟩ := hv
      by_cases hbig : v < 2 ^ 31
      · exact h v (by split at v1 <;> split at v2 <;> split at v3 <;> split at v4 <;> omega)
      · exact h (v - 2 ^ 32) (by split at v1 <;> split at v2 <;> split at v3 <;> split at v4 <;> omega)
    · intro x _ u v hc
      obtain ⟨i, cr, h0, _⟩ := hc
      simp at h0
  · have e : ∀ z : Int, cb (ity T) z = conv T.promote z := fun z => by rw [cb_promote, if_neg (fun h => hn ⟨h.1, h.2.1⟩)]
    refine enter_some opt (ity T) ls [] (caseInv_nil _) (fun x hx => ?_) ?_ ?_
    · rw [e, e]; exact ho x hx
    · refine hd.imp fun {x y} h v hv => ?_
      rw [e, e, e, e] at hv
      exact h v hv
    · intro x _ u v hc
      obtain ⟨i, cr, h0, _⟩ := hc
      simp at h0

/-! Cases meeting the hypotheses: `switch` on a `long` with `case -5 ... -1: a; case 0: a;
case 1 ... 3: a; case 10: b`; merging leaves two entries. -/

def exLs : List (Nat × Int × Int) := [(1, -5, -1), (1, 0, 0), (1, 1, 3), (2, 10, 10)]

example : ∃ cs, enterAll true .long exLs = some cs :=
  C23_disjoint_accepted true .long exLs (by decide) (by simp) (by
    simp only [exLs, List.pairwise_cons, List.mem_cons, List.not_mem_nil, or_false, forall_eq_or_imp, forall_eq, List.Pairwise.nil, and_true, false_imp_iff, implies_true, In]
    simp only [show (CTy.long).promote = .long from rfl, show ∀ z : Int, -100 ≤ z → z ≤ 100 → conv .long z = z from by intro z h1 h2; simp [conv, isSigned, width]; omega]
    refine ⟨⟨fun v h => ?_, fun v h => ?_, fun v h => ?_⟩, ⟨fun v h => ?_, fun v h => ?_⟩, fun v h => ?_⟩ <;> revert h <;> simp [conv, isSigned, width] <;> omega)

example : enterAll true .long [(1, -5, -1), (1, 0, 0), (1, 1, 3)] = some [⟨some 1, -5, 3⟩] := by decide
example : enterAll false .long [(1, -5, -1), (1, 0, 0)] = some [⟨some 1, 0, 0⟩, ⟨some 1, -5, -1⟩] := by decide
example : enterAll true .int [(1, 1, 5), (2, 7, 9), (3, 5, 6)] = none := by decide

def exCs : List CaseRange := [⟨some 2, 10, 10⟩, ⟨some 1, -5, 3⟩]
def exP : List Line := switchCode 8 exCs (some 9) 5 ++ [.lab (.name 1), .lab (.name 2), .lab (.name 9), .lab (.name 5)]

/-- With -4 in %rax the code goes to the first label, with 4 to the default label. -/
example (s : St) : (InReg .long (-4) (s.r .ax) → ∃ s', Runs (fun _ => 0) exP (0, s) (8, s')) ∧ (InReg .long 4 (s.r .ax) → ∃ s', Runs (fun _ => 0) exP (0, s) (10, s')) := by
  have hu : UniqueLabels exP := unique_of_nodup _ (by decide)
  have hls : enterAll true .long [(1, -5, -1), (1, 0, 0), (1, 1, 3), (2, 10, 10)] = some exCs := by decide
  have ho : ∀ x ∈ [(1, -5, -1), (1, 0, 0), (1, 1, 3), (2, 10, 10)], InOrder .long x := by decide
  have hc : CodeAt exP 0 (switchCode 8 exCs (some 9) 5) := fun i hi => by rw [Nat.zero_add]; exact List.getElem?_append_left hi
  refine ⟨fun h => ?_, fun h => ?_⟩
  · obtain ⟨s', r, _⟩ := (C23_dispatch (sym := fun _ => 0) true .long _ exCs (some 9) 5 0 s (-4) hls ho (by decide) h hu hc).1 (1, -5, -1) (by decide) 8 ⟨by decide, by decide⟩ (by decide)
    exact ⟨s', r⟩
  · obtain ⟨s', r, _⟩ := (C23_dispatch (sym := fun _ => 0) true .long _ exCs (some 9) 5 0 s 4 hls ho (by decide) h hu hc).2.1 9 10 (by
      intro x hx h
      have : ∀ x ∈ ([(1, -5, -1), (1, 0, 0), (1, 1, 3), (2, 10, 10)] : List (Nat × Int × Int)), ¬ (conv .long x.2.1 ≤ 4 ∧ 4 ≤ conv .long x.2.2) := by decide
      exact this x hx h) rfl (by decide)
    exact ⟨s', r⟩

/-! Where slimcc deviates. In a `switch` on an `unsigned char`, whose promoted type is `int`, the
bounds are read as `unsigned`: the range `-1 ... 5` is rejected as empty although it contains 0 to 5,
and the empty range `5 ... -1` is accepted and taken for 5 and everything above. -/

theorem C23_negative_lower_bound : InOrder .uchar (0, -1, 5) ∧ enterAll true .uchar [(0, -1, 5)] = none := by
  refine ⟨by decide, by decide⟩

theorem C23_empty_range_taken : ¬ InOrder .uchar (0, 5, -1) ∧ (∀ v, ¬ In .uchar v (0, 5, -1)) ∧
    enterAll true .uchar [(0, 5, -1)] = some [⟨some 0, 5, 0xffffffff⟩] := by
  refine ⟨by decide, fun v h => ?_, by decide⟩
  have h1 : (5 : Int) ≤ v := h.1
  have h2 : v ≤ -1 := h.2
  omega

end Slimcc.Props
