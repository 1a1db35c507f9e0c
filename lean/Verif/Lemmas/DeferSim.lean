import Verif.Lemmas.Defer
/-!
The code of statements with deferred ones runs as the specification says.
-/
set_option autoImplicit false
namespace Slimcc.DfrL
open Slimcc.Spec Slimcc.Dfr

/-! ### Code -/

/-- The instructions `seg` stand at `pc`. -/
def At (P : List I) (pc : Nat) (seg : List I) : Prop := ∃ a b, P = a ++ seg ++ b ∧ a.length = pc

theorem at_append {P : List I} {pc : Nat} {x y : List I} (h : At P pc (x ++ y)) : At P pc x ∧ At P (pc + x.length) y := by
  obtain ⟨a, b, rfl, rfl⟩ := h
  exact ⟨⟨a, y ++ b, by simp, rfl⟩, ⟨a ++ x, b, by simp, by simp⟩⟩

theorem at_cons {P : List I} {pc : Nat} {i : I} {y : List I} (h : At P pc (i :: y)) : P[pc]? = some i ∧ At P (pc + 1) y := by
  obtain ⟨a, b, rfl, rfl⟩ := h
  exact ⟨by simp, ⟨a ++ [i], b, by simp, by simp⟩⟩

theorem posOf_here : ∀ {P : List I} {pc : Nat} {l : L}, (defined P).Nodup → P[pc]? = some (.lbl l) → posOf l P = some pc
  | [], _, _, _, h => by cases h
  | i :: P, 0, l, _, h => by
    simp at h; subst h
    simp [posOf]
  | i :: P, pc + 1, l, hn, h => by
    have h' : P[pc]? = some (.lbl l) := by simpa using h
    have hmem : l ∈ defined P := by
      clear hn h
      induction P generalizing pc with
      | nil => cases h'
      | cons j P ih =>
        cases pc with
        | zero => simp at h'; subst h'; simp [defined]
        | succ pc =>
          have := ih (pc := pc) (by simpa using h')
          cases j <;> simp [defined, this]
    have hi : i ≠ .lbl l := by
      intro hi; subst hi
      simp only [defined, List.nodup_cons] at hn
      exact hn.1 hmem
    have hn' : (defined P).Nodup := by
      cases i with
      | lbl m => simp only [defined, List.nodup_cons] at hn; exact hn.2
      | _ => exact hn
    simp [posOf, hi, posOf_here hn' h']

section
variable {P : List I} {ls : List (Nat × Nat × Chain)}

theorem _root_.Slimcc.Dfr.Steps.trans {a b c : Nat} {t t' : List DEv} (h1 : Steps P a t b) (h2 : Steps P b t' c) : Steps P a (t ++ t') c := by
  induction h1 with
  | refl => exact h2
  | step s _ ih => rw [List.append_assoc]; exact .step s (ih h2)

theorem _root_.Slimcc.Dfr.Steps.one {a b : Nat} {t : List DEv} (h : Step P a t b) : Steps P a t b := by
  have := Steps.step h (Steps.refl (is := P))
  simpa using this

/-- The code of nodes one after the other. -/
def genNodes (ls : List (Nat × Nat × Chain)) : List N → Nat → List I × Nat
  | [], c => ([], c)
  | n :: ns, c => ((gen ls n c).1 ++ (genNodes ls ns (gen ls n c).2).1, (genNodes ls ns (gen ls n c).2).2)

/-- The nodes of deferred statements. -/
inductive Bodies : List DStmt → List N → Prop
  | nil : Bodies [] []
  | cons {d : DStmt} {n : N} {D : List DStmt} {ns : List N} : Body d n → Bodies D ns → Bodies (d :: D) (n :: ns)

theorem Bodies.split {D F : List DStmt} : ∀ {ns : List N}, Bodies (D ++ F) ns → ∃ a b, ns = a ++ b ∧ Bodies D a ∧ Bodies F b := by
  induction D with
  | nil => intro ns h; exact ⟨[], ns, rfl, .nil, h⟩
  | cons d D ih =>
    intro ns h
    cases h with
    | cons hb h =>
      obtain ⟨a, b, rfl, h1, h2⟩ := ih h
      exact ⟨_ :: a, b, rfl, .cons hb h1, h2⟩

theorem genNodes_append (a b : List N) (c : Nat) :
    genNodes ls (a ++ b) c = ((genNodes ls a c).1 ++ (genNodes ls b (genNodes ls a c).2).1, (genNodes ls b (genNodes ls a c).2).2) := by
  induction a generalizing c with
  | nil => rfl
  | cons n a ih => simp [genNodes, ih, List.append_assoc]

theorem genDefr_self (E : Chain) (c : Nat) : genDefr ls E E.head c = ([], c) := by
  cases E with
  | nil => rfl
  | cons id n next => simp [genDefr, Chain.head]

theorem over_gen {E E' : Chain} {D : List DStmt} (h : Over E D E') : ∃ ns, Bodies D ns ∧ ∀ c, genDefr ls E E'.head c = genNodes ls ns c := by
  induction h with
  | nil => exact ⟨[], .nil, fun c => genDefr_self _ c⟩
  | cons hb hne _ ih =>
    obtain ⟨ns, h1, h2⟩ := ih
    exact ⟨_ :: ns, .cons hb h1, fun c => by simp [genDefr, hne, genNodes, h2]⟩

/-- Wherever the code of the deferred statements stands, it runs with the trace `t`. -/
def Good (P : List I) (ls : List (Nat × Nat × Chain)) (D : List DStmt) (t : List DEv) : Prop :=
  ∀ ns pc c, Bodies D ns → At P pc (genNodes ls ns c).1 → Steps P pc t (pc + (genNodes ls ns c).1.length)

theorem Good.append {D F : List DStmt} {t u : List DEv} (h1 : Good P ls D t) (h2 : Good P ls F u) : Good P ls (D ++ F) (t ++ u) := by
  intro ns pc c hb ha
  obtain ⟨a, b, rfl, ha1, hb1⟩ := hb.split
  rw [genNodes_append] at ha ⊢
  obtain ⟨hA, hB⟩ := at_append ha
  have := (h1 a pc c ha1 hA).trans (h2 b _ _ hb1 hB)
  simpa [Nat.add_assoc] using this

theorem Good.nil : Good P ls [] [] := by
  intro ns pc c hb _
  cases hb
  exact .refl

/-- Running part of a chain. -/
theorem Good.run {D : List DStmt} {t : List DEv} (h : Good P ls D t) {E E' : Chain} (hO : Over E D E') {pc c : Nat}
    (ha : At P pc (genDefr ls E E'.head c).1) : Steps P pc t (pc + (genDefr ls E E'.head c).1.length) := by
  obtain ⟨ns, hb, he⟩ := over_gen (ls := ls) hO
  rw [he] at ha ⊢
  exact h ns pc c hb ha

/-- Where a jump goes, and down to which chain it runs the deferred statements. -/
inductive Target (ctx : List JCtx) : DExit → L → Chain → Prop
  | brk {k : Nat} {j : JCtx} : ctx[k]? = some j → Target ctx (.brk k) (.name j.brk) j.dend
  | cont {k : Nat} {j : JCtx} : ctx[k]? = some j → Target ctx (.cont k) (.name j.cont) j.dend
  | ret : Target ctx .ret .rtn .nil

/-- What the code for a statement does: it falls through, or it jumps after running `D'` and all of
`F`, which is pending around it. -/
structure Does (P : List I) (ls : List (Nat × Nat × Chain)) (ctx : List JCtx) (E : Chain) (D D' : List DStmt) (x : DExit) (t : List DEv) (pc pc' : Nat) : Prop where
  normal : x = .normal → Steps P pc t pc'
  jump : ∀ l E' F u q, Target ctx x l E' → Over E (D ++ F) E' → Good P ls (D' ++ F) u → posOf l P = some q → Steps P pc (t ++ u) q

/-- What the parser makes of a statement with a scope of its own. -/
def Opens (s : DStmt) (ctx : List JCtx) (p : PSt) (n : N) (q : PSt) : Prop :=
  secondary (stmt s ctx) (isBlock s) p = some (n, q) ∨ stmt (.block s) ctx p = some (n, q)

/-- The node of a loop. -/
def forNode (pre : List Nat) (k inc : Nat) (n : N) (p : PSt) : N :=
  .for_ k inc n (newDefrs pre p).nlab ((newDefrs pre p).nlab + 1) (newDefrs pre p).defr p.defr

/-- What has to be shown of a run. -/
def Claim (P : List I) (ls : List (Nat × Nat × Chain)) : Task → List DEv → DExit → List DStmt → Prop
  | .st s D, t, x, D' => ∀ (ctx : List JCtx) (p : PSt) (n : N) (q : PSt) (c pc : Nat), stmt s ctx p = some (n, q) → Fresh p.defr p.nid →
      At P pc (gen ls n c).1 → Does P ls ctx p.defr D D' x t pc (pc + (gen ls n c).1.length)
  | .scope s, t, x, _ => ∀ (ctx : List JCtx) (p : PSt) (n : N) (q : PSt) (c pc : Nat), Opens s ctx p n q → Fresh p.defr p.nid →
      At P pc (gen ls n c).1 → Does P ls ctx p.defr [] [] x t pc (pc + (gen ls n c).1.length)
  | .defers D, t, _, _ => Good P ls D t
  | .iter pre k inc body, t, x, _ => ∀ (ctx : List JCtx) (p : PSt) (n : N) (q : PSt) (c pc : Nat), Fresh p.defr p.nid →
      Opens body (⟨(newDefrs pre p).nlab, (newDefrs pre p).nlab + 1, (newDefrs pre p).defr, false⟩ :: ctx)
        { newDefrs pre p with nlab := (newDefrs pre p).nlab + 2 } n q →
      At P pc (gen ls (forNode pre k inc n p) c).1 →
      (x = .normal → ∃ t0 u, t = t0 ++ u ∧ Good P ls (headerDefers pre) u ∧ Steps P pc t0 (pc + (gen ls (forNode pre k inc n p) c).1.length)) ∧
      (∀ l E' F u q, Target ctx x l E' → Over p.defr F E' → Good P ls F u → posOf l P = some q → Steps P pc (t ++ u) q)
  | .doIter body k, t, x, _ => ∀ (ctx : List JCtx) (p : PSt) (n : N) (q : PSt) (c pc : Nat), Fresh p.defr p.nid →
      Opens body (⟨p.nlab, p.nlab + 1, p.defr, false⟩ :: ctx) { p with nlab := p.nlab + 2 } n q →
      At P pc (gen ls (.do_ n k p.nlab (p.nlab + 1)) c).1 →
      Does P ls ctx p.defr [] [] x t pc (pc + (gen ls (.do_ n k p.nlab (p.nlab + 1)) c).1.length)

theorem target_normal {ctx : List JCtx} {l : L} {E : Chain} (h : Target ctx .normal l E) : False := by cases h

/-- A statement that falls through. -/
theorem does_normal {ctx : List JCtx} {E : Chain} {D D' : List DStmt} {t : List DEv} {pc pc' : Nat} (h : Steps P pc t pc') :
    Does P ls ctx E D D' .normal t pc pc' := ⟨fun _ => h, fun l E' F u q ht => (target_normal ht).elim⟩

/-- A jump statement: the deferred statements and then the jump. -/
theorem does_jump {ctx : List JCtx} {E : Chain} {D : List DStmt} {x : DExit} {pc pc' c : Nat} {l : L} {E' : Chain}
    (hx : x ≠ .normal) (hT : ∀ l' E'', Target ctx x l' E'' → l' = l ∧ E'' = E') (ha : At P pc ((genDefr ls E E'.head c).1 ++ [.jmp l])) :
    Does P ls ctx E D D x [] pc pc' := by
  refine ⟨fun h => absurd h hx, fun l' E'' F u q ht hO hG hq => ?_⟩
  obtain ⟨rfl, rfl⟩ := hT l' E'' ht
  obtain ⟨h1, h2⟩ := at_append ha
  have hs := hG.run hO h1
  have hj := Steps.one (.jmp (at_cons h2).1 hq)
  have := hs.trans hj
  simpa using this

/-- The end of a scope. -/
theorem scope_end {ctx : List JCtx} {E E1 : Chain} {D : List DStmt} {x : DExit} {t t' : List DEv} {n : N} {c pc : Nat}
    (hd : Does P ls ctx E [] D x t pc (pc + (gen ls n c).1.length)) (hG : Good P ls D t') (hO : x = .normal → Over E1 D E)
    (ha : At P pc (gen ls (.block n E1 E) c).1) :
    Does P ls ctx E [] [] x (t ++ t') pc (pc + (gen ls (.block n E1 E) c).1.length) := by
  simp only [gen] at ha ⊢
  obtain ⟨_, h2⟩ := at_append ha
  refine ⟨fun hx => ?_, fun l E' F u q ht hO' hF hq => ?_⟩
  · have := (hd.normal hx).trans (hG.run (hO hx) h2)
    simpa [Nat.add_assoc] using this
  · have := hd.jump l E' F (t' ++ u) q ht hO' (hG.append hF) hq
    simpa [List.append_assoc] using this

/-- The end of a scope without a node of its own. -/
theorem scope_none {ctx : List JCtx} {E : Chain} {D : List DStmt} {x : DExit} {t t' : List DEv} {pc pc' : Nat}
    (hd : Does P ls ctx E [] D x t pc pc') (hG : Good P ls D t') (hD : x = .normal → t' = []) :
    Does P ls ctx E [] [] x (t ++ t') pc pc' := by
  refine ⟨fun hx => ?_, fun l E' F u q ht hO' hF hq => ?_⟩
  · rw [hD hx, List.append_nil]; exact hd.normal hx
  · have := hd.jump l E' F (t' ++ u) q ht hO' (hG.append hF) hq
    simpa [List.append_assoc] using this

theorem defers_nil {t : List DEv} {x : DExit} {D' : List DStmt} (h : DRuns (.defers []) t x D') : t = [] := by cases h; rfl

theorem scope_ok {s : DStmt} {D : List DStmt} {t t' : List DEv} {x : DExit} (hs : DRuns (.st s []) t x D) (hdr : DRuns (.defers D) t' .normal [])
    (ih : Claim P ls (.st s []) t x D) (hG : Good P ls D t') : Claim P ls (.scope s) (t ++ t') x [] := by
  intro ctx p n q c pc ho hf ha
  have hpend : x = .normal → D = pendingAfter s [] := fun hx => normal_pending hs s [] rfl hx
  rcases ho with ho | ho
  · simp only [secondary] at ho
    cases hb : isBlock s with
    | true =>
      rw [if_pos hb] at ho
      have hD : D = [] := by
        cases s with
        | block b => cases hs; rfl
        | _ => cases hb
      subst hD
      rw [defers_nil hdr, List.append_nil]
      exact ih ctx p n q c pc ho hf ha
    | false =>
      rw [if_neg (by simp [hb])] at ho
      split at ho
      · cases ho
      · rename_i n' q' hst
        have hstat := stmt_static s ctx hst hf
        have hjmp := last_jump hs s [] rfl ctx p n' q' hst
        rw [Option.some.injEq] at ho
        unfold leaveBlockScope at ho
        split at ho
        · rename_i hj
          have hx : x ≠ .normal := hjmp (Or.inr hj)
          split at ho
          · cases ho
            have ha' : At P pc (gen ls n' c).1 := by simp only [gen] at ha; exact (at_append ha).1
            exact scope_end (ih ctx p n' q' c pc hst hf ha') hG (fun h => absurd h hx) ha
          · cases ho
            exact scope_none (ih ctx p n q' c pc hst hf ha) hG (fun h => absurd h hx)
        · split at ho
          · rename_i hc
            simp only [Bool.and_eq_true, decide_eq_true_eq] at hc
            cases ho
            refine scope_none (ih ctx p n q c pc hst hf ha) hG (fun hx => ?_)
            have h0 := (hstat.over [] _ .nil).head_eq hc.1
            rw [hpend hx, h0.1] at hdr
            exact defers_nil hdr
          · cases ho
            have ha' : At P pc (gen ls n' c).1 := by simp only [gen] at ha; exact (at_append ha).1
            exact scope_end (ih ctx p n' q' c pc hst hf ha') hG (fun hx => by rw [hpend hx]; exact hstat.over [] _ .nil) ha
  · simp only [stmt] at ho
    split at ho
    · cases ho
    · rename_i n' q' hst
      have hstat := stmt_static s ctx hst hf
      have hjmp := last_jump hs s [] rfl ctx p n' q' hst
      rw [Option.some.injEq] at ho
      unfold leaveCompound at ho
      split at ho
      · rename_i hj
        have hx : x ≠ .normal := hjmp (Or.inl hj)
        cases ho
        have ha' : At P pc (gen ls n' c).1 := by simp only [gen] at ha; exact (at_append ha).1
        exact scope_end (ih ctx p n' q' c pc hst hf ha') hG (fun h => absurd h hx) ha
      · cases ho
        have ha' : At P pc (gen ls n' c).1 := by simp only [gen] at ha; exact (at_append ha).1
        exact scope_end (ih ctx p n' q' c pc hst hf ha') hG (fun hx => by rw [hpend hx]; exact hstat.over [] _ .nil) ha

theorem defers_ok {b : DStmt} {D : List DStmt} {t t' : List DEv} (ihb : Claim P ls (.scope b) t .normal []) (ih : Good P ls D t') :
    Good P ls (b :: D) (t ++ t') := by
  intro ns pc c hB ha
  cases hB with
  | @cons _ n _ ns hb hB =>
    obtain ⟨ctx, p, q, hf, hs⟩ := hb
    simp only [genNodes] at ha ⊢
    obtain ⟨h1, h2⟩ := at_append ha
    have hd := ihb ctx p n q c pc (Or.inl hs) hf h1
    have := (hd.normal rfl).trans (ih ns _ _ hB h2)
    simpa [Nat.add_assoc] using this

theorem loopEnd_target {x x' : DExit} {j : JCtx} {ctx : List JCtx} {l : L} {E : Chain} (h : loopEnd x = some x') (ht : Target ctx x' l E) :
    Target (j :: ctx) x l E := by
  cases ht with
  | @brk k j' hj =>
    cases x with
    | brk m => cases m with
      | zero => cases h
      | succ m => cases h; exact .brk (by simpa using hj)
    | cont m => cases m with
      | zero => cases h
      | succ m => cases h
    | _ => cases h
  | @cont k j' hj =>
    cases x with
    | cont m => cases m with
      | zero => cases h
      | succ m => cases h; exact .cont (by simpa using hj)
    | brk m => cases m with
      | zero => cases h
      | succ m => cases h
    | _ => cases h
  | ret =>
    cases x with
    | ret => exact .ret
    | brk m => cases m <;> cases h
    | cont m => cases m <;> cases h
    | normal => cases h

theorem loopEnd_none {x : DExit} (h : loopEnd x = none) : x = .normal ∨ x = .cont 0 := by
  cases x with
  | normal => exact Or.inl rfl
  | cont m => cases m with
    | zero => exact Or.inr rfl
    | succ m => cases h
  | brk m => cases m <;> cases h
  | ret => cases h

theorem loopEnd_normal {x : DExit} (h : loopEnd x = some .normal) : x = .brk 0 := by
  cases x with
  | normal => cases h
  | cont m => cases m <;> cases h
  | brk m => cases m with
    | zero => rfl
    | succ m => cases h
  | ret => cases h

theorem Good.at_nil {D : List DStmt} {u : List DEv} (h : Good P ls D u) : Good P ls (D ++ []) (u ++ []) := by simpa using h

/-- Where the parts of the code of a loop are. -/
structure ForAt (P : List I) (ls : List (Nat × Nat × Chain)) (pre : List Nat) (k inc : Nat) (n : N) (p : PSt) (c pc b g : Nat) : Prop where
  begin : P[pc]? = some (.lbl (.begin c))
  cond : P[pc + 1]? = some (.br k false (.name (newDefrs pre p).nlab))
  body : At P (pc + 2) (gen ls n (c + 1)).1
  bodyLen : (gen ls n (c + 1)).1.length = b
  contl : P[pc + 2 + b]? = some (.lbl (.name ((newDefrs pre p).nlab + 1)))
  incr : P[pc + 2 + b + 1]? = some (.act inc)
  defr : At P (pc + 2 + b + 2) (genDefr ls (newDefrs pre p).defr p.defr.head (gen ls n (c + 1)).2).1
  defrLen : (genDefr ls (newDefrs pre p).defr p.defr.head (gen ls n (c + 1)).2).1.length = g
  back : P[pc + 2 + b + 2 + g]? = some (.jmp (.begin c))
  brkl : P[pc + 2 + b + 2 + g + 1]? = some (.lbl (.name (newDefrs pre p).nlab))
  len : (gen ls (forNode pre k inc n p) c).1.length = 2 + b + 2 + g + 2

theorem for_at {pre : List Nat} {k inc : Nat} {n : N} {p : PSt} {c pc : Nat} (h : At P pc (gen ls (forNode pre k inc n p) c).1) :
    ∃ b g, ForAt P ls pre k inc n p c pc b g := by
  simp only [forNode, gen] at h
  obtain ⟨h1, h⟩ := at_cons h
  obtain ⟨h2, h⟩ := at_cons h
  obtain ⟨h3, h⟩ := at_append h
  obtain ⟨h4, h⟩ := at_cons h
  obtain ⟨h5, h⟩ := at_cons h
  obtain ⟨h6, h⟩ := at_append h
  obtain ⟨h7, h⟩ := at_cons h
  obtain ⟨h8, h⟩ := at_cons h
  refine ⟨_, _, h1, h2, h3, rfl, h4, h5, h6, rfl, h7, h8, ?_⟩
  simp only [forNode, gen, List.length_cons, List.length_append, List.length_nil]
  omega

/-- From the condition to the end of the body, if the loop goes on. -/
theorem for_body (hP : (defined P).Nodup) {pre : List Nat} {k inc : Nat} {n : N} {p : PSt} {c pc b g : Nat} (hF : ForAt P ls pre k inc n p c pc b g)
    {ctx : List JCtx} {x : DExit} {t : List DEv}
    (hd : Does P ls (⟨(newDefrs pre p).nlab, (newDefrs pre p).nlab + 1, (newDefrs pre p).defr, false⟩ :: ctx) (newDefrs pre p).defr [] [] x t (pc + 2) (pc + 2 + b))
    (hx : loopEnd x = none) : Steps P pc (.cond k true :: t) (pc + 2 + b) := by
  have h0 : Steps P pc [.cond k true] (pc + 2) := by
    have := (Steps.one (.lbl hF.begin)).trans (Steps.one (.not hF.cond))
    simpa using this
  have h1 : Steps P (pc + 2) t (pc + 2 + b) := by
    rcases loopEnd_none hx with rfl | rfl
    · exact hd.normal rfl
    · have := hd.jump _ _ [] [] (pc + 2 + b) (.cont (k := 0) rfl) .nil Good.nil (posOf_here hP hF.contl)
      simpa using this
  exact h0.trans h1

theorem iter_end (hP : (defined P).Nodup) {pre : List Nat} {k inc : Nat} {body : DStmt} {t : List DEv}
    (ihP : Good P ls (headerDefers pre) t) : Claim P ls (.iter pre k inc body) (.cond k false :: t) .normal [] := by
  intro ctx p n q c pc hf ho ha
  obtain ⟨b, g, hF⟩ := for_at ha
  refine ⟨fun _ => ⟨[.cond k false], t, rfl, ihP, ?_⟩, fun l E' F u q ht => (target_normal ht).elim⟩
  have h1 := Steps.one (.lbl hF.begin)
  have h2 := Steps.one (.taken hF.cond (posOf_here hP hF.brkl))
  have h3 := Steps.one (.lbl hF.brkl)
  have := h1.trans (h2.trans h3)
  rw [hF.len]
  simpa [Nat.add_assoc] using this

theorem iter_next (hP : (defined P).Nodup) {pre : List Nat} {k inc : Nat} {body : DStmt} {t t' t'' : List DEv} {x x' : DExit}
    (ihb : Claim P ls (.scope body) t x []) (hx : loopEnd x = none) (ihP : Good P ls (headerDefers pre) t')
    (ih : Claim P ls (.iter pre k inc body) t'' x' []) :
    Claim P ls (.iter pre k inc body) (.cond k true :: (t ++ .act inc :: (t' ++ t''))) x' [] := by
  intro ctx p n q c pc hf ho ha
  obtain ⟨b, g, hF⟩ := for_at ha
  obtain ⟨hf1, _⟩ := newDefrs_fresh pre hf
  have hd := ihb _ _ n q (c + 1) (pc + 2) ho hf1 hF.body
  rw [hF.bodyLen] at hd
  have h1 := for_body hP hF hd hx
  have h2 := Steps.one (.lbl hF.contl)
  have h3 := Steps.one (.act hF.incr)
  have hO : Over (newDefrs pre p).defr (headerDefers pre) p.defr := by
    have := newDefrs_over pre (Over.nil (E := p.defr)) hf
    simpa using this
  have h4 := ihP.run hO hF.defr
  rw [hF.defrLen] at h4
  have h5 := Steps.one (.jmp hF.back (posOf_here hP hF.begin))
  have hall : Steps P pc (.cond k true :: (t ++ .act inc :: t')) pc := by
    have := h1.trans (h2.trans (h3.trans (h4.trans h5)))
    simpa using this
  obtain ⟨hn, hj⟩ := ih ctx p n q c pc hf ho ha
  refine ⟨fun hx' => ?_, fun l E' F u q' ht hO' hG hq => ?_⟩
  · obtain ⟨t0, u, rfl, hu, hs⟩ := hn hx'
    exact ⟨.cond k true :: (t ++ .act inc :: (t' ++ t0)), u, by simp, hu, by have := hall.trans hs; simpa using this⟩
  · have := hall.trans (hj l E' F u q' ht hO' hG hq)
    simpa using this

theorem iter_out (hP : (defined P).Nodup) {pre : List Nat} {k inc : Nat} {body : DStmt} {t t' : List DEv} {x x' : DExit}
    (ihb : Claim P ls (.scope body) t x []) (hx : loopEnd x = some x') (ihP : Good P ls (headerDefers pre) t') :
    Claim P ls (.iter pre k inc body) (.cond k true :: (t ++ t')) x' [] := by
  intro ctx p n q c pc hf ho ha
  obtain ⟨b, g, hF⟩ := for_at ha
  obtain ⟨hf1, _⟩ := newDefrs_fresh pre hf
  have hd := ihb _ _ n q (c + 1) (pc + 2) ho hf1 hF.body
  have h0 : Steps P pc [.cond k true] (pc + 2) := by
    have := (Steps.one (.lbl hF.begin)).trans (Steps.one (.not hF.cond))
    simpa using this
  refine ⟨fun hx' => ⟨.cond k true :: t, t', rfl, ihP, ?_⟩, fun l E' F u q' ht hO' hG hq => ?_⟩
  · subst hx'
    have hb := loopEnd_normal hx
    subst hb
    have h1 := hd.jump _ _ [] [] _ (.brk (k := 0) rfl) .nil Good.nil (posOf_here hP hF.brkl)
    have h2 := Steps.one (.lbl hF.brkl)
    have := h0.trans (h1.trans h2)
    rw [hF.len]
    simpa [Nat.add_assoc] using this
  · have h1 := hd.jump l E' (headerDefers pre ++ F) (t' ++ u) q' (loopEnd_target hx ht) (newDefrs_over pre hO' hf) (ihP.append hG) hq
    have := h0.trans h1
    simpa using this

/-- Where the parts of the code of a `do` loop are. -/
structure DoAt (P : List I) (ls : List (Nat × Nat × Chain)) (k : Nat) (n : N) (brk cont c pc b : Nat) : Prop where
  begin : P[pc]? = some (.lbl (.begin c))
  body : At P (pc + 1) (gen ls n (c + 1)).1
  bodyLen : (gen ls n (c + 1)).1.length = b
  contl : P[pc + 1 + b]? = some (.lbl (.name cont))
  cond : P[pc + 1 + b + 1]? = some (.br k true (.begin c))
  brkl : P[pc + 1 + b + 2]? = some (.lbl (.name brk))
  len : (gen ls (.do_ n k brk cont) c).1.length = 1 + b + 3

theorem do_at {k : Nat} {n : N} {brk cont c pc : Nat} (h : At P pc (gen ls (.do_ n k brk cont) c).1) : ∃ b, DoAt P ls k n brk cont c pc b := by
  simp only [gen] at h
  obtain ⟨h1, h⟩ := at_cons h
  obtain ⟨h2, h⟩ := at_append h
  obtain ⟨h3, h⟩ := at_cons h
  obtain ⟨h4, h⟩ := at_cons h
  obtain ⟨h5, h⟩ := at_cons h
  refine ⟨_, h1, h2, rfl, h3, h4, h5, ?_⟩
  simp only [gen, List.length_cons, List.length_append, List.length_nil]
  omega

/-- The body of a `do` loop, if the loop goes on to its condition. -/
theorem do_body (hP : (defined P).Nodup) {k : Nat} {n : N} {p : PSt} {c pc b : Nat} (hF : DoAt P ls k n p.nlab (p.nlab + 1) c pc b)
    {ctx : List JCtx} {x : DExit} {t : List DEv}
    (hd : Does P ls (⟨p.nlab, p.nlab + 1, p.defr, false⟩ :: ctx) p.defr [] [] x t (pc + 1) (pc + 1 + b))
    (hx : loopEnd x = none) : Steps P pc t (pc + 1 + b + 1) := by
  have h0 := Steps.one (.lbl hF.begin)
  have h2 := Steps.one (.lbl hF.contl)
  have h1 : Steps P (pc + 1) t (pc + 1 + b) := by
    rcases loopEnd_none hx with rfl | rfl
    · exact hd.normal rfl
    · have := hd.jump _ _ [] [] (pc + 1 + b) (.cont (k := 0) rfl) .nil Good.nil (posOf_here hP hF.contl)
      simpa using this
  have := h0.trans (h1.trans h2)
  simpa using this

theorem do_end (hP : (defined P).Nodup) {k : Nat} {body : DStmt} {t : List DEv} {x : DExit}
    (ihb : Claim P ls (.scope body) t x []) (hx : loopEnd x = none) : Claim P ls (.doIter body k) (t ++ [.cond k false]) .normal [] := by
  intro ctx p n q c pc hf ho ha
  obtain ⟨b, hF⟩ := do_at ha
  have hd := ihb _ _ n q (c + 1) (pc + 1) ho hf hF.body
  rw [hF.bodyLen] at hd
  have h1 := do_body hP hF hd hx
  have h2 := Steps.one (.not hF.cond)
  have h3 := Steps.one (.lbl hF.brkl)
  refine does_normal ?_
  have := h1.trans (h2.trans h3)
  rw [hF.len]
  simpa [Nat.add_assoc] using this

theorem do_next (hP : (defined P).Nodup) {k : Nat} {body : DStmt} {t t' : List DEv} {x x' : DExit}
    (ihb : Claim P ls (.scope body) t x []) (hx : loopEnd x = none) (ih : Claim P ls (.doIter body k) t' x' []) :
    Claim P ls (.doIter body k) (t ++ .cond k true :: t') x' [] := by
  intro ctx p n q c pc hf ho ha
  obtain ⟨b, hF⟩ := do_at ha
  have hd := ihb _ _ n q (c + 1) (pc + 1) ho hf hF.body
  rw [hF.bodyLen] at hd
  have h1 := do_body hP hF hd hx
  have h2 := Steps.one (.taken hF.cond (posOf_here hP hF.begin))
  have h12 := h1.trans h2
  have hI := ih ctx p n q c pc hf ho ha
  refine ⟨fun hx' => ?_, fun l E' F u q' ht hO' hG hq => ?_⟩
  · have := h12.trans (hI.normal hx'); simpa using this
  · have := h12.trans (hI.jump l E' F u q' ht hO' hG hq); simpa using this

theorem do_out (hP : (defined P).Nodup) {k : Nat} {body : DStmt} {t : List DEv} {x x' : DExit}
    (ihb : Claim P ls (.scope body) t x []) (hx : loopEnd x = some x') : Claim P ls (.doIter body k) t x' [] := by
  intro ctx p n q c pc hf ho ha
  obtain ⟨b, hF⟩ := do_at ha
  have hd := ihb _ _ n q (c + 1) (pc + 1) ho hf hF.body
  have h0 := Steps.one (.lbl hF.begin)
  refine ⟨fun hx' => ?_, fun l E' F u q' ht hO' hG hq => ?_⟩
  · subst hx'
    have hb := loopEnd_normal hx
    subst hb
    have h1 := hd.jump _ _ [] [] _ (.brk (k := 0) rfl) .nil Good.nil (posOf_here hP hF.brkl)
    have h2 := Steps.one (.lbl hF.brkl)
    have := h0.trans (h1.trans h2)
    rw [hF.len]
    simpa [Nat.add_assoc] using this
  · have h1 := hd.jump l E' F u q' (loopEnd_target hx ht) hO' hG hq
    have := h0.trans h1
    simpa using this

theorem Does.widen {ctx : List JCtx} {E : Chain} {D : List DStmt} {x : DExit} {t : List DEv} {pc pc' : Nat} (h : Does P ls ctx E [] [] x t pc pc') :
    Does P ls ctx E D D x t pc pc' :=
  ⟨h.normal, fun l E' F u q ht hO hG hq => h.jump l E' (D ++ F) u q ht hO hG hq⟩

theorem seq_ok {a b : DStmt} {D D1 D2 : List DStmt} {t1 t2 : List DEv} {x : DExit} (ha : DRuns (.st a D) t1 .normal D1)
    (iha : Claim P ls (.st a D) t1 .normal D1) (ihb : Claim P ls (.st b D1) t2 x D2) : Claim P ls (.st (.seq a b) D) (t1 ++ t2) x D2 := by
  intro ctx p n q c pc hs hf hat
  simp only [stmt] at hs
  split at hs
  · cases hs
  · rename_i na p1 hsa
    split at hs
    · cases hs
    · rename_i nb p2 hsb
      cases hs
      simp only [gen] at hat ⊢
      obtain ⟨h1, h2⟩ := at_append hat
      have hst := stmt_static a ctx hsa hf
      have hda := iha ctx p na p1 c pc hsa hf h1
      have hdb := ihb ctx p1 nb q _ _ hsb hst.fresh h2
      have hs1 := hda.normal rfl
      refine ⟨fun hx => ?_, fun l E' F u q' ht hO hG hq => ?_⟩
      · have := hs1.trans (hdb.normal hx)
        simpa [Nat.add_assoc] using this
      · have hO1 : Over p1.defr (D1 ++ F) E' := by
          have := hst.over _ _ hO
          rwa [pendingAfter_append, ← normal_pending ha a D rfl rfl] at this
        have := hs1.trans (hdb.jump l E' F u q' ht hO1 hG hq)
        simpa using this

theorem seqOut_ok {a b : DStmt} {D D1 : List DStmt} {t : List DEv} {x : DExit} (hx : x ≠ .normal)
    (iha : Claim P ls (.st a D) t x D1) : Claim P ls (.st (.seq a b) D) t x D1 := by
  intro ctx p n q c pc hs hf hat
  simp only [stmt] at hs
  split at hs
  · cases hs
  · rename_i na p1 hsa
    split at hs
    · cases hs
    · rename_i nb p2 hsb
      cases hs
      simp only [gen] at hat ⊢
      obtain ⟨h1, _⟩ := at_append hat
      have hda := iha ctx p na p1 c pc hsa hf h1
      exact ⟨fun h => absurd h hx, hda.jump⟩

theorem jumpTo_brk {ctx : List JCtx} {k : Nat} {p q : PSt} {n : N} (h : jumpTo ctx k false p = some (n, q)) :
    ∃ j, ctx[k]? = some j ∧ n = .goto j.brk p.defr j.dend := by
  unfold jumpTo at h
  split at h
  · cases h
  · rename_i j hj
    simp at h
    exact ⟨j, hj, h.1.symm⟩

theorem jumpTo_cont {ctx : List JCtx} {k : Nat} {p q : PSt} {n : N} (h : jumpTo ctx k true p = some (n, q)) :
    ∃ j, ctx[k]? = some j ∧ n = .goto j.cont p.defr j.dend := by
  unfold jumpTo at h
  split at h
  · cases h
  · rename_i j hj
    simp at h
    exact ⟨j, hj, h.2.1.symm⟩

theorem brk_ok {k : Nat} {D : List DStmt} : Claim P ls (.st (.brk k) D) [] (.brk k) D := by
  intro ctx p n q c pc hs hf hat
  obtain ⟨j, hj, rfl⟩ := jumpTo_brk hs
  refine does_jump (by simp) (fun l' E'' ht => ?_) (by simpa only [gen] using hat)
  cases ht with
  | brk h => rw [hj] at h; cases h; exact ⟨rfl, rfl⟩

theorem cont_ok {k : Nat} {D : List DStmt} : Claim P ls (.st (.cont k) D) [] (.cont k) D := by
  intro ctx p n q c pc hs hf hat
  obtain ⟨j, hj, rfl⟩ := jumpTo_cont hs
  refine does_jump (by simp) (fun l' E'' ht => ?_) (by simpa only [gen] using hat)
  cases ht with
  | cont h => rw [hj] at h; cases h; exact ⟨rfl, rfl⟩

theorem ret_ok {D : List DStmt} : Claim P ls (.st .ret D) [] .ret D := by
  intro ctx p n q c pc hs hf hat
  cases hs
  refine does_jump (l := .rtn) (E' := .nil) (c := c) (by simp) (fun l' E'' ht => ?_) (by simpa only [gen, Chain.head] using hat)
  cases ht; exact ⟨rfl, rfl⟩

theorem block_ok {b : DStmt} {D : List DStmt} {t : List DEv} {x : DExit} (ih : Claim P ls (.scope b) t x []) : Claim P ls (.st (.block b) D) t x D := by
  intro ctx p n q c pc hs hf hat
  exact (ih ctx p n q c pc (Or.inr hs) hf hat).widen

/-- A statement with a header around it. -/
theorem header_ok {H : List DStmt} {m : N} {p q : PSt} {ctx : List JCtx} {x : DExit} {t t' : List DEv} {c pc : Nat}
    (hm : isJump? (firstNode m) = false) (hn : hasNext m = false) (hO : Over q.defr H p.defr)
    (hG : Good P ls H t')
    (hat : At P pc (gen ls (leaveBlockScope p.defr m q).1 c).1)
    (hbody : At P pc (gen ls m c).1 → (x = .normal → Steps P pc t (pc + (gen ls m c).1.length)) ∧
      (∀ l E' F u r, Target ctx x l E' → Over p.defr F E' → Good P ls F u → posOf l P = some r → Steps P pc (t ++ (t' ++ u)) r)) :
    Does P ls ctx p.defr [] [] x (t ++ t') pc (pc + (gen ls (leaveBlockScope p.defr m q).1 c).1.length) := by
  unfold leaveBlockScope at hat ⊢
  simp only [hm, hn, Bool.not_false, Bool.and_true, decide_eq_true_eq, Bool.false_eq_true, if_false] at hat ⊢
  split at hat
  · rename_i hc
    rw [if_pos hc]
    obtain ⟨h1, h2⟩ := hbody hat
    refine ⟨fun hx => ?_, fun l E' F u r ht hO' hF hr => ?_⟩
    · obtain ⟨rfl, _⟩ := hO.head_eq hc
      have hend : At P (pc + (gen ls m c).1.length) [] := (at_append (x := (gen ls m c).1) (y := []) (by simpa using hat)).2
      have := (h1 hx).trans (hG [] _ c .nil hend)
      simpa [genNodes] using this
    · have := h2 l E' F u r ht hO' hF hr
      simpa using this
  · rename_i hc
    rw [if_neg hc]
    simp only [gen] at hat ⊢
    obtain ⟨ha1, ha2⟩ := at_append hat
    obtain ⟨h1, h2⟩ := hbody ha1
    refine ⟨fun hx => ?_, fun l E' F u r ht hO' hF hr => ?_⟩
    · have := (h1 hx).trans (hG.run hO ha2)
      simpa [Nat.add_assoc] using this
    · have := h2 l E' F u r ht hO' hF hr
      simpa using this

theorem ite_ok (hP : (defined P).Nodup) {pre : List Nat} {k : Nat} {a b : DStmt} {D : List DStmt} {v : Bool} {t t' : List DEv} {x : DExit}
    (ih : Claim P ls (.scope (if v then a else b)) t x [])
    (hG : Good P ls (headerDefers pre) t') : Claim P ls (.st (.ite pre k a b) D) (.cond k v :: (t ++ t')) x D := by
  intro ctx p n q c pc hs hf hat
  simp only [stmt] at hs
  split at hs
  · cases hs
  · rename_i na q1 hsa
    split at hs
    · cases hs
    · rename_i nb q2 hsb
      rw [Option.some.injEq] at hs
      obtain rfl : n = (leaveBlockScope p.defr (.ite k na nb) q2).1 := by rw [hs]
      obtain ⟨hf1, _⟩ := newDefrs_fresh pre hf
      have hk1 := secondary_keeps hsa hf1
      have hf2 : Fresh q1.defr q1.nid := by rw [hk1.1]; exact hf1.mono hk1.2
      have hk2 := secondary_keeps hsb hf2
      have hO0 : Over q2.defr (headerDefers pre) p.defr := by
        rw [hk2.1, hk1.1]
        have := newDefrs_over pre (Over.nil (E := p.defr)) hf
        simpa using this
      rw [← List.cons_append]
      refine Does.widen (header_ok rfl rfl hO0 hG hat fun hat => ?_)
      · simp only [gen] at hat ⊢
        obtain ⟨h1, hat⟩ := at_cons hat
        obtain ⟨h2, hat⟩ := at_append hat
        obtain ⟨h3, hat⟩ := at_cons hat
        obtain ⟨h4, hat⟩ := at_cons hat
        obtain ⟨h5, hat⟩ := at_append hat
        obtain ⟨h6, _⟩ := at_cons hat
        cases v with
        | true =>
          have hd := ih ctx (newDefrs pre p) na q1 (c + 1) (pc + 1) (Or.inl hsa) hf1 h2
          have s1 := Steps.one (.not h1)
          refine ⟨fun hx => ?_, fun l E' F u r ht hO' hF hr => ?_⟩
          · have := s1.trans ((hd.normal hx).trans ((Steps.one (.jmp h3 (posOf_here hP h6))).trans (Steps.one (.lbl h6))))
            simpa [Nat.add_assoc, Nat.add_comm, Nat.add_left_comm] using this
          · have := s1.trans (hd.jump l E' (headerDefers pre ++ F) (t' ++ u) r ht (newDefrs_over pre hO' hf) (hG.append hF) hr)
            simpa using this
        | false =>
          have hd := ih ctx q1 nb q2 _ _ (Or.inl hsb) hf2 h5
          have s1 := (Steps.one (.taken h1 (posOf_here hP h4))).trans (Steps.one (.lbl h4))
          refine ⟨fun hx => ?_, fun l E' F u r ht hO' hF hr => ?_⟩
          · have := s1.trans ((hd.normal hx).trans (Steps.one (.lbl h6)))
            simpa [Nat.add_assoc, Nat.add_comm, Nat.add_left_comm] using this
          · have := s1.trans (hd.jump l E' (headerDefers pre ++ F) (t' ++ u) r ht (by rw [hk1.1]; exact newDefrs_over pre hO' hf) (hG.append hF) hr)
            simpa using this

theorem loop_ok {init pre : List Nat} {k inc : Nat} {body : DStmt} {D : List DStmt} {t t' : List DEv} {x : DExit}
    (ih : Claim P ls (.iter pre k inc body) t x []) (hG : Good P ls (headerDefers init) t') :
    Claim P ls (.st (.loop init pre k inc body) D) (t ++ t') x D := by
  intro ctx p n q c pc hs hf hat
  simp only [stmt] at hs
  split at hs
  · cases hs
  · rename_i nb q1 hsb
    rw [Option.some.injEq] at hs
    obtain rfl : n = (leaveBlockScope p.defr (forNode pre k inc nb (newDefrs init p)) q1).1 := by unfold forNode; rw [hs]
    obtain ⟨hf1, _⟩ := newDefrs_fresh init hf
    obtain ⟨hf2, _⟩ := newDefrs_fresh pre hf1
    have hk1 := secondary_keeps hsb hf2
    have hO0 : Over q1.defr (headerDefers pre ++ headerDefers init) p.defr := by
      rw [hk1.1]
      have := newDefrs_over pre (newDefrs_over init (Over.nil (E := p.defr)) hf) hf1
      simpa using this
    apply Does.widen
    by_cases hx : x = .normal
    · subst hx
      have hat' : At P pc (gen ls (forNode pre k inc nb (newDefrs init p)) c).1 := by
        rcases leaveBlockScope_node p.defr (forNode pre k inc nb (newDefrs init p)) q1 with h | ⟨ds, h⟩
        · rw [h] at hat; exact hat
        · rw [h] at hat; simp only [gen] at hat ⊢; exact (at_append hat).1
      obtain ⟨t0, u, rfl, hu, hs0⟩ := (ih ctx _ nb q1 c pc hf1 (Or.inl hsb) hat').1 rfl
      rw [List.append_assoc]
      exact header_ok rfl rfl hO0 (hu.append hG) hat fun _ => ⟨fun _ => hs0, fun l E' F u r ht => (target_normal ht).elim⟩
    · refine ⟨fun h => absurd h hx, fun l E' F u r ht hO' hF hr => ?_⟩
      have hat' : At P pc (gen ls (forNode pre k inc nb (newDefrs init p)) c).1 := by
        rcases leaveBlockScope_node p.defr (forNode pre k inc nb (newDefrs init p)) q1 with h | ⟨ds, h⟩
        · rw [h] at hat; exact hat
        · rw [h] at hat; simp only [gen] at hat ⊢; exact (at_append hat).1
      have := (ih ctx _ nb q1 c pc hf1 (Or.inl hsb) hat').2 l E' (headerDefers init ++ F) (t' ++ u) r ht (newDefrs_over init hO' hf) (hG.append hF) hr
      simpa using this

theorem do_ok {k : Nat} {body : DStmt} {D : List DStmt} {t : List DEv} {x : DExit}
    (ih : Claim P ls (.doIter body k) t x []) : Claim P ls (.st (.doWhile body k) D) t x D := by
  intro ctx p n q c pc hs hf hat
  simp only [stmt] at hs
  split at hs
  · cases hs
  · rename_i nb q1 hsb
    cases hs
    exact (ih ctx p nb q c pc hf (Or.inl hsb) hat).widen

/-- Every run of the specification is a run of the code. -/
theorem sim (hP : (defined P).Nodup) {T : Task} {t : List DEv} {x : DExit} {D' : List DStmt} (h : DRuns T t x D') : Claim P ls T t x D' := by
  induction h with
  | skip => intro ctx p n q c pc hs hf hat; cases hs; exact does_normal .refl
  | act => intro ctx p n q c pc hs hf hat; cases hs; exact does_normal (Steps.one (.act (at_cons hat).1))
  | label => intro ctx p n q c pc hs hf hat; cases hs; exact does_normal (Steps.one (.lbl (at_cons hat).1))
  | seq ha _ iha ihb => exact seq_ok ha iha ihb
  | seqOut _ hx iha => exact seqOut_ok hx iha
  | defer =>
    intro ctx p n q c pc hs hf hat
    simp only [stmt] at hs
    split at hs
    · cases hs
    · cases hs; exact does_normal .refl
  | cleanup => intro ctx p n q c pc hs hf hat; cases hs; exact does_normal .refl
  | brk => exact brk_ok
  | cont => exact cont_ok
  | ret => exact ret_ok
  | block _ ih => exact block_ok ih
  | ite _ _ ih ihd => exact ite_ok hP ih ihd
  | loop _ _ ih ihd => exact loop_ok ih ihd
  | doWhile _ ih => exact do_ok ih
  | scope hs hd ih ihd => exact scope_ok hs hd ih ihd
  | noDefers => exact Good.nil
  | defers _ _ ihb ih => exact defers_ok ihb ih
  | iterEnd _ ih => exact iter_end hP ih
  | iterNext _ hx _ _ ihb ihd ih => exact iter_next hP ihb hx ihd ih
  | iterOut _ hx _ ihb ihd => exact iter_out hP ihb hx ihd
  | doEnd _ hx ihb => exact do_end hP ihb hx
  | doNext _ hx _ ihb ih => exact do_next hP ihb hx ih
  | doOut _ hx ihb => exact do_out hP ihb hx

end
end Slimcc.DfrL
