import Verif.Lemmas.CallRun
/-! The loops over the arguments of a call. -/
set_option autoImplicit false
namespace Slimcc
open Slimcc.Spec Slimcc.Spec.CTy Slimcc.Ty Slimcc.X86 Slimcc.Gen Slimcc.AGen

theorem blk_ofs {a b : Word} {o n N : Nat} (h : InBlk (a + BitVec.ofNat 64 o) n b) (hN : o + n ≤ N) (h64 : N ≤ 2 ^ 64) :
    o ≤ (b - a).toNat ∧ (b - a).toNat < o + n := by
  have h1 : (b - (a + BitVec.ofNat 64 o)).toNat < n := h
  have e : b - a = (b - (a + BitVec.ofNat 64 o)) + BitVec.ofNat 64 o := by
    apply BitVec.eq_of_toNat_eq
    simp only [BitVec.toNat_sub, BitVec.toNat_add, BitVec.toNat_ofNat]
    omega
  rw [e, BitVec.toNat_add, BitVec.toNat_ofNat, Nat.mod_eq_of_lt (show o < 2 ^ 64 by omega), Nat.mod_eq_of_lt (by omega)]
  omega

section
variable {E : Env} {P : List Line} {opt : Bool} {hs : HostShift} {as : List Actual} {h : Nat} {σ : Store} {vs : List Int} {temp : Nat → Int} {sp : Word} {K st : Nat}

/-- The address an argument is assigned to. -/
def place (E : Env) (temp : Nat → Int) (sp : Word) (h i : Nat) : Word :=
  if h + i < 6 then E.bp + BitVec.ofInt 64 (temp i) else sp + BitVec.ofNat 64 (8 * (h + i - 6))

/-- The arguments that are assigned. -/
def Early (hs : HostShift) (opt : Bool) (E : Env) (as : List Actual) (h i : Nat) : Prop := ¬ h + i < 6 ∨ Spilled hs opt E as h i

structure Calls (E : Env) (P : List Line) (opt : Bool) (hs : HostShift) (as : List Actual) (h : Nat) (σ : Store) (vs : List Int) (temp : Nat → Int) (sp : Word) (K st : Nat) : Prop where
  ok : E.Ok
  lab : UniqueLabels P
  sok : StoreOk E.Γ σ
  ind : Independent as
  wf : ∀ a ∈ as, a.e.Wf
  vars : ∀ a ∈ as, ∀ x ∈ a.e.vars, E.dom x
  seq : opt = true → ∀ a ∈ as, a.e.Sequenced
  len : vs.length = as.length
  val : ∀ (i : Nat) (a : Actual) (v : Int), as[i]? = some a → vs[i]? = some v → ∃ w σ1, ceval E.Γ a.e σ = .ok (w, σ1) ∧ v = CTy.conv (a.ty E.Γ) w
  room : Room E as h (Spilled hs opt E as h) temp sp
  stK : st ≤ E.K
  regs : ∀ k, k < h + as.length → ∀ j, argReg k = .tmp j → j < K

variable (C : Calls E P opt hs as h σ vs temp sp K st)
include C

theorem Calls.inStack {i : Nat} {a : Actual} (ha : as[i]? = some a) (hi : ¬ h + i < 6) {b : Word} (hb : InBlk (place E temp sp h i) (a.ty E.Γ).bytes b) :
    8 * (h + i - 6) ≤ (b - sp).toNat ∧ (b - sp).toNat < 8 * (h + i - 6) + (a.ty E.Γ).bytes ∧ InBlk sp (argBytes h as.length) b := by
  have hlt := (List.getElem?_eq_some_iff.1 ha).1
  have h8 := bytes_le (a.ty E.Γ)
  unfold place at hb
  rw [if_neg hi] at hb
  have hN : 8 * (h + i - 6) + (a.ty E.Γ).bytes ≤ argBytes h as.length := by unfold argBytes; omega
  have := blk_ofs hb hN C.room.size
  exact ⟨this.1, this.2, by show (b - sp).toNat < _; omega⟩

theorem Calls.inTemp {i : Nat} {a : Actual} (ha : as[i]? = some a) (hi : Spilled hs opt E as h i) {b : Word} (hb : InBlk (place E temp sp h i) (a.ty E.Γ).bytes b) :
    InBlk (E.bp + BitVec.ofInt 64 (temp i)) (argSize E.Γ as i) b := by
  unfold place at hb
  rw [if_pos hi.1] at hb
  unfold argSize
  rw [ha]
  exact hb

theorem Calls.apart {i : Nat} {a : Actual} (ha : as[i]? = some a) (he : Early hs opt E as h i) : E.Apart (place E temp sp h i) (a.ty E.Γ).bytes := by
  intro b hb
  rcases he with hi | hi
  · have := (C.inStack ha hi hb).2.2
    exact ⟨fun x hx hbx => C.room.stackVars x hx b ⟨this, hbx⟩, fun k hk hbk => C.room.stackSlots k hk b ⟨this, hbk⟩⟩
  · have := C.inTemp ha hi hb
    exact ⟨fun x hx hbx => C.room.tempVars i x hi hx b ⟨this, hbx⟩, fun k hk hbk => C.room.tempSlots i k hi hk b ⟨this, hbk⟩⟩

theorem Calls.uses {i : Nat} {a : Actual} (ha : as[i]? = some a) (he : Early hs opt E as h i) {b : Word} (hb : InBlk (place E temp sp h i) (a.ty E.Γ).bytes b) :
    CallMem E as h (Spilled hs opt E as h) temp sp b := by
  rcases he with hi | hi
  · exact Or.inl (C.inStack ha hi hb).2.2
  · exact Or.inr ⟨i, hi, C.inTemp ha hi hb⟩

theorem Calls.disj {i j : Nat} {a a' : Actual} (ha : as[i]? = some a) (ha' : as[j]? = some a') (he : Early hs opt E as h i) (he' : Early hs opt E as h j) (hij : i ≠ j) {b : Word}
    (hb : InBlk (place E temp sp h i) (a.ty E.Γ).bytes b) (hb' : InBlk (place E temp sp h j) (a'.ty E.Γ).bytes b) : False := by
  have h8 := bytes_le (a.ty E.Γ)
  have h8' := bytes_le (a'.ty E.Γ)
  rcases he with hi | hi <;> rcases he' with hj | hj
  · have := C.inStack ha hi hb
    have := C.inStack ha' hj hb'
    omega
  · exact C.room.tempStack j hj b ⟨C.inTemp ha' hj hb', (C.inStack ha hi hb).2.2⟩
  · exact C.room.tempStack i hi b ⟨C.inTemp ha hi hb, (C.inStack ha' hj hb').2.2⟩
  · exact C.room.temps i j hi hj hij b ⟨C.inTemp ha hi hb, C.inTemp ha' hj hb'⟩

theorem Calls.value {i : Nat} {a : Actual} {v : Int} (ha : as[i]? = some a) (hv : vs[i]? = some v) : ∃ σ1, ceval E.Γ (argExpr E.Γ a) σ = .ok (v, σ1) := by
  obtain ⟨w, σ1, h1, rfl⟩ := C.val i a v ha hv
  exact ⟨σ1, argExpr_val hs a (C.wf a (List.mem_of_getElem? ha)) C.sok h1⟩

theorem Calls.range {i : Nat} {a : Actual} {v : Int} (ha : as[i]? = some a) (hv : vs[i]? = some v) : InRange (a.ty E.Γ) v := by
  obtain ⟨w, σ1, h1, rfl⟩ := C.val i a v ha hv
  exact conv_range _ _

theorem Calls.indep : ∀ (i j : Nat) (a b : Expr), (as.map (argExpr E.Γ))[i]? = some a → (as.map (argExpr E.Γ))[j]? = some b → i ≠ j → ∀ x ∈ a.assigned, x ∉ b.vars := by
  intro i j a b ha hb hij
  rw [List.getElem?_map] at ha hb
  cases hi : as[i]? with
  | none => rw [hi] at ha; cases ha
  | some a' =>
    cases hj : as[j]? with
    | none => rw [hj] at hb; cases hb
    | some b' =>
      rw [hi] at ha; rw [hj] at hb
      injection ha with ha; injection hb with hb
      subst ha hb
      rw [argExpr_assigned, argExpr_vars]
      exact C.ind i j a' b' hi hj hij

omit C in
/-- What holds between the arguments. -/
structure Inv (E : Env) (hs : HostShift) (opt : Bool) (as : List Actual) (h : Nat) (σ : Store) (vs : List Int) (temp : Nat → Int) (sp : Word) (D : Nat → Prop) (s : St) : Prop where
  bp : s.r .bp = E.bp
  spr : s.r .sp = sp
  mid : ∃ τ, Mid E.Γ (as.map (argExpr E.Γ)) D σ τ ∧ Rel E τ s.m
  stored : ∀ (i : Nat) (a : Actual) (v : Int), as[i]? = some a → vs[i]? = some v → D i → Early hs opt E as h i → Stored (a.ty E.Γ) v (place E temp sp h i) s.m

omit C in
theorem Inv.congr {D D' : Nat → Prop} {s : St} (hI : Inv E hs opt as h σ vs temp sp D s) (hD : ∀ i, i < as.length → (D i ↔ D' i)) : Inv E hs opt as h σ vs temp sp D' s := by
  obtain ⟨τ, h1, h2⟩ := hI.mid
  refine ⟨hI.bp, hI.spr, ⟨τ, h1.congr (by rw [List.length_map]; exact hD), h2⟩, fun i a v ha hv hd => ?_⟩
  exact hI.stored i a v ha hv ((hD i (List.getElem?_eq_some_iff.1 ha).1).2 hd)

/-- One argument is evaluated: the value is that of the specification. -/
theorem Calls.eval {D : Nat → Prop} {s : St} (hI : Inv E hs opt as h σ vs temp sp D s) {i : Nat} {a : Actual} {v : Int} (ha : as[i]? = some a) (hv : vs[i]? = some v) (hD : ¬ D i) :
    ∃ τ τ1, Ready E opt (argExpr E.Γ a) τ s ∧ ceval E.Γ (argExpr E.Γ a) τ = .ok (v, τ1) ∧ Mid E.Γ (as.map (argExpr E.Γ)) (fun j => D j ∨ j = i) σ τ1 := by
  have hm := List.mem_of_getElem? ha
  obtain ⟨σ1, h1⟩ := C.value ha hv
  obtain ⟨τ, h2, h3⟩ := hI.mid
  have hw := argExpr_wf (Γ := E.Γ) a (C.wf a hm)
  obtain ⟨τ1, h4, h5⟩ := h2.step hs opt C.indep (by rw [List.getElem?_map, ha]; rfl) hD hw h1
  exact ⟨τ, τ1, ⟨hw, by rw [argExpr_vars]; exact C.vars a hm, fun ho => argExpr_seq a (C.seq ho a hm), h2.sok, hI.bp, h3⟩, h4, h5⟩

/-- One argument is assigned. -/
theorem Calls.store {D : Nat → Prop} {s : St} (hI : Inv E hs opt as h σ vs temp sp D s) {i : Nat} {a : Actual} {v : Int} (ha : as[i]? = some a) (hv : vs[i]? = some v) (hD : ¬ D i)
    (he : Early hs opt E as h i) (dst : MemOp) (hd : ∀ s1 : St, s1.r .bp = s.r .bp → s1.r .sp = s.r .sp → ea E.sym s1 dst = place E temp sp h i) (c : Nat)
    (hg : (assignTo hs opt E.loc E.stk dst (argTree hs opt E.Γ a) c).1.gp ≤ K) (ht : (assignTo hs opt E.loc E.stk dst (argTree hs opt E.Γ a) c).1.st ≤ st) :
    DoesC E P (CallMem E as h (Spilled hs opt E as h) temp sp) K st (assignTo hs opt E.loc E.stk dst (argTree hs opt E.Γ a) c).1 s
      (Inv E hs opt as h σ vs temp sp (fun j => D j ∨ j = i)) := by
  obtain ⟨τ, τ1, h1, h2, h3⟩ := C.eval hI ha hv hD
  have hap := C.apart ha he
  rw [argTree_build hs opt a (C.wf a (List.mem_of_getElem? ha))] at hg ht ⊢
  have hdo := assignTo_ok C.ok C.lab hs (argExpr E.Γ a) τ τ1 s v c dst _ h1 h2 hd (by rw [argExpr_ty]; exact hap) (Nat.le_trans ht C.stK)
  rw [argExpr_ty] at hdo
  have hW : ∀ b, InBlk (place E temp sp h i) (a.ty E.Γ).bytes b → CallMem E as h (Spilled hs opt E as h) temp sp b := fun b hb => C.uses ha he hb
  have hdc := Does.objC (W := CallMem E as h (Spilled hs opt E as h) temp sp) (K := K) (st := st) hdo hg ht hW
  refine hdc.imp fun s' e q => ?_
  refine ⟨e.bp.trans hI.bp, q.1.trans hI.spr, ⟨τ1, h3, q.2.2.1⟩, fun j a' v' ha' hv' hd' he' => ?_⟩
  by_cases hji : j = i
  · subst hji
    rw [ha] at ha'; rw [hv] at hv'
    injection ha' with ha'; injection hv' with hv'
    subst ha' hv'
    exact q.2.2.2
  · have hdj : D j := hd'.resolve_right hji
    have := hI.stored j a' v' ha' hv' hdj he'
    unfold Stored at this ⊢
    rw [← this]
    refine rd_congr _ _ _ _ (bytes_le _) fun b hb => q.2.1 b ?_ fun hbi => C.disj ha' ha he' he hji hb hbi
    have := C.apart ha' he' b hb
    exact ⟨this.1, fun k hk => this.2 k (Nat.lt_of_lt_of_le hk C.stK)⟩

omit C in
theorem seq_gp_le {a b : G} {c k : Nat} (h : ((a ;; b) c).1.gp ≤ k) : (a c).1.gp ≤ k ∧ (b (a c).2).1.gp ≤ k := by
  have : max (a c).1.gp (b (a c).2).1.gp ≤ k := h
  omega

omit C in
theorem drop_step {α : Type} {l r : List α} {x : α} {i : Nat} (h : l.drop i = x :: r) : l[i]? = some x ∧ l.drop (i + 1) = r := by
  constructor
  · have := congrArg List.head? h
    rwa [List.head?_drop] at this
  · rw [← List.drop_drop, h]; rfl

theorem Calls.stores : ∀ (bs : List Actual) (i k : Nat) (s : St) (c : Nat), as.drop i = bs → (h + i < 6 → k = i) →
    Inv E hs opt as h σ vs temp sp (fun j => j < i ∧ Early hs opt E as h j) s →
    (argStores hs opt E.loc E.stk temp (bs.map (argTree hs opt E.Γ)) ((List.range' i bs.length).map (slotOf h)) i k c).1.gp ≤ K →
    (argStores hs opt E.loc E.stk temp (bs.map (argTree hs opt E.Γ)) ((List.range' i bs.length).map (slotOf h)) i k c).1.st ≤ st →
    DoesC E P (CallMem E as h (Spilled hs opt E as h) temp sp) K st
      (argStores hs opt E.loc E.stk temp (bs.map (argTree hs opt E.Γ)) ((List.range' i bs.length).map (slotOf h)) i k c).1 s
      (Inv E hs opt as h σ vs temp sp (fun j => j < i + bs.length ∧ Early hs opt E as h j))
  | [], i, k, s, c, _, _, hI, _, _ => doesC_nil c s _ hI
  | a :: bs, i, k, s, c, hdr, hk, hI, hg, ht => by
    obtain ⟨ha, hdr'⟩ := drop_step hdr
    have hlt := (List.getElem?_eq_some_iff.1 ha).1
    obtain ⟨v, hv⟩ : ∃ v, vs[i]? = some v := ⟨_, List.getElem?_eq_getElem (by rw [C.len]; exact hlt)⟩
    have hlen : i + (a :: bs).length = i + 1 + bs.length := by rw [List.length_cons]; omega
    rw [hlen]
    simp only [List.map_cons, List.length_cons, List.range'_succ] at hg ht ⊢
    have hD : ¬ (i < i ∧ Early hs opt E as h i) := fun h => by omega
    have next : Early hs opt E as h i → ∀ s', Inv E hs opt as h σ vs temp sp (fun j => (j < i ∧ Early hs opt E as h j) ∨ j = i) s' →
        Inv E hs opt as h σ vs temp sp (fun j => j < i + 1 ∧ Early hs opt E as h j) s' := by
      intro he s' hI'
      refine hI'.congr fun j _ => ⟨?_, fun hj => ?_⟩
      · rintro (hj | rfl)
        · exact ⟨by omega, hj.2⟩
        · exact ⟨by omega, he⟩
      · by_cases e : j = i
        · exact Or.inr e
        · exact Or.inl ⟨by omega, hj.2⟩
    by_cases h6 : h + i < 6
    · have hsl : slotOf h i = .inRegs := if_pos h6
      obtain rfl := hk h6
      rw [hsl] at hg ht ⊢
      simp only [argStores] at hg ht ⊢
      have hg' := seq_gp_le hg
      have ht' := seq_st_le ht
      refine doesC_seq _ _ c s (Inv E hs opt as h σ vs temp sp (fun j => j < k + 1 ∧ Early hs opt E as h j)) _ ?_
        fun s1 _ q1 => Calls.stores bs (k + 1) (k + 1) s1 _ hdr' (fun _ => rfl) q1 hg'.2 ht'.2
      by_cases hspl : spills hs opt E.loc k (argTree hs opt E.Γ a) = true
      · rw [if_pos hspl] at hg' ht' ⊢
        have he : Early hs opt E as h k := Or.inr ⟨h6, a, ha, hspl⟩
        refine (C.store hI ha hv hD he (.frame (temp k)) (fun s1 hb _ => ?_) c hg'.1 ht'.1).imp fun s' _ q => next he s' q
        unfold place
        rw [if_pos h6]
        show s1.r .bp + _ = _
        rw [hb, hI.bp]
      · rw [if_neg hspl]
        refine doesC_nil c s _ (hI.congr fun j _ => ⟨fun hj => ⟨by omega, hj.2⟩, fun hj => ⟨?_, hj.2⟩⟩)
        have hne : j ≠ k := by
          rintro rfl
          rcases hj.2 with h' | ⟨_, a', ha', h'⟩
          · exact h' h6
          · rw [ha] at ha'; injection ha' with ha'; subst ha'
            exact hspl h'
        have := hj.1
        omega
    · have hsl : slotOf h i = .onStack (8 * (h + i - 6)) := if_neg h6
      rw [hsl] at hg ht ⊢
      simp only [argStores] at hg ht ⊢
      have hg' := seq_gp_le hg
      have ht' := seq_st_le ht
      have he : Early hs opt E as h i := Or.inl h6
      refine doesC_seq _ _ c s _ _ (C.store hI ha hv hD he (.off .sp (8 * (h + i - 6) : Nat)) (fun s1 _ hb => ?_) c hg'.1 ht'.1)
        fun s1 _ q1 => Calls.stores bs (i + 1) k s1 _ hdr' (fun h' => by omega) (next he s1 q1) hg'.2 ht'.2
      unfold place
      rw [if_neg h6]
      show s1.r .sp + _ = _
      rw [hb, hI.spr]
      congr 1

omit C in
theorem argReg_inj {i j : Nat} (hi : i < 6) (hj : j < 6) (h : i ≠ j) : argReg i ≠ argReg j := by
  revert h; revert hj; revert j; revert hi; revert i
  have : ∀ i, i < 6 → ∀ j, j < 6 → i ≠ j → argReg i ≠ argReg j := by decide
  exact fun {i} hi {j} hj h => this i hi j hj h

/-- The registers that are loaded. -/
def Loaded (E : Env) (as : List Actual) (h : Nat) (vs : List Int) (i : Nat) (s : St) : Prop :=
  ∀ (j : Nat) (a : Actual) (v : Int), as[j]? = some a → vs[j]? = some v → j < i → h + j < 6 → Reps (ity (a.ty E.Γ)) v (s.r (argReg (h + j)))

theorem Calls.loads : ∀ (bs : List Actual) (i k gp : Nat) (s : St) (c : Nat), as.drop i = bs → (h + i < 6 → k = i ∧ gp = h + i) →
    Inv E hs opt as h σ vs temp sp (fun j => Early hs opt E as h j ∨ j < i) s → Loaded E as h vs i s →
    (argLoads hs opt E.loc E.stk temp (bs.map (argTree hs opt E.Γ)) ((List.range' i bs.length).map (slotOf h)) i k gp c).1.gp ≤ K →
    (argLoads hs opt E.loc E.stk temp (bs.map (argTree hs opt E.Γ)) ((List.range' i bs.length).map (slotOf h)) i k gp c).1.st ≤ st →
    DoesC E P (CallMem E as h (Spilled hs opt E as h) temp sp) K st
      (argLoads hs opt E.loc E.stk temp (bs.map (argTree hs opt E.Γ)) ((List.range' i bs.length).map (slotOf h)) i k gp c).1 s
      (fun s' => Inv E hs opt as h σ vs temp sp (fun j => Early hs opt E as h j ∨ j < i + bs.length) s' ∧ Loaded E as h vs (i + bs.length) s')
  | [], i, k, gp, s, c, _, _, hI, hL, _, _ => doesC_nil c s _ ⟨hI, hL⟩
  | a :: bs, i, k, gp, s, c, hdr, hk, hI, hL, hg, ht => by
    obtain ⟨ha, hdr'⟩ := drop_step hdr
    have hlt := (List.getElem?_eq_some_iff.1 ha).1
    obtain ⟨v, hv⟩ : ∃ v, vs[i]? = some v := ⟨_, List.getElem?_eq_getElem (by rw [C.len]; exact hlt)⟩
    have hlen : i + (a :: bs).length = i + 1 + bs.length := by rw [List.length_cons]; omega
    rw [hlen]
    simp only [List.map_cons, List.length_cons, List.range'_succ] at hg ht ⊢
    have same : Early hs opt E as h i → ∀ s', Inv E hs opt as h σ vs temp sp (fun j => Early hs opt E as h j ∨ j < i) s' →
        Inv E hs opt as h σ vs temp sp (fun j => Early hs opt E as h j ∨ j < i + 1) s' := by
      intro he s' hI'
      refine hI'.congr fun j _ => ⟨fun hj => hj.imp id fun _ => by omega, ?_⟩
      rintro (hj | hj)
      · exact Or.inl hj
      · by_cases e : j = i
        · exact Or.inl (e ▸ he)
        · exact Or.inr (by omega)
    by_cases h6 : h + i < 6
    · have hsl : slotOf h i = .inRegs := if_pos h6
      obtain ⟨rfl, rfl⟩ := hk h6
      rw [hsl] at hg ht ⊢
      simp only [argLoads] at hg ht ⊢
      have hg' := seq_gp_le hg
      have ht' := seq_st_le ht
      have hK : ∀ j, argReg (h + k) = .tmp j → j < K := C.regs (h + k) (by omega)
      refine doesC_seq _ _ c s (fun s' => Inv E hs opt as h σ vs temp sp (fun j => Early hs opt E as h j ∨ j < k + 1) s' ∧ Loaded E as h vs (k + 1) s') _ ?_
        fun s1 _ q1 => Calls.loads bs (k + 1) (k + 1) (h + k + 1) s1 _ hdr' (fun _ => ⟨rfl, rfl⟩) q1.1 q1.2 hg'.2 ht'.2
      have load : ∀ s' : St, Reps (ity (a.ty E.Γ)) v (s'.r (argReg (h + k))) → (k ≠ 0 → ∀ q, q ≠ argReg (h + k) → s'.r q = s.r q) → Loaded E as h vs (k + 1) s' := by
        intro s' hr ho j a' v' ha' hv' hj hj6
        by_cases e : j = k
        · subst e
          rw [ha] at ha'; rw [hv] at hv'
          injection ha' with ha'; injection hv' with hv'
          subst ha' hv'
          exact hr
        · rw [ho (by omega) _ (argReg_inj hj6 h6 (by omega))]
          exact hL j a' v' ha' hv' (by omega) hj6
      by_cases hspl : spills hs opt E.loc k (argTree hs opt E.Γ a) = true
      · have he : Early hs opt E as h k := Or.inr ⟨h6, a, ha, hspl⟩
        have hty : (argTree hs opt E.Γ a).ty = ity (a.ty E.Γ) := by
          have hw := C.wf a (List.mem_of_getElem? ha)
          rw [argTree_build hs opt a hw, ← argExpr_ty a]
          exact (build_impl (nt := ty_int) (acc := 0) hs opt (by decide) _ (argExpr_wf a hw)).ty
        refine (placeArg_temp C.ok hs (a.ty E.Γ) _ s v c (temp k) k (h + k) (place E temp sp h k) hty (C.range ha hv) (C.apart ha he) ?_ (hI.stored k a _ ha hv (Or.inl he) he) hspl hK).imp fun s' e q => ⟨?_, ?_⟩
        · unfold place
          rw [if_pos h6]
          show s.r .bp + _ = _
          rw [hI.bp]
        · refine same he s' ⟨e.bp.trans hI.bp, q.2.1.trans hI.spr, ?_, ?_⟩
          · rw [q.1]; exact hI.mid
          · rw [q.1]; exact hI.stored
        · exact load s' q.2.2.1 fun _ => q.2.2.2
      · have hne : ¬ Early hs opt E as h k := by
          rintro (h' | ⟨_, a', ha', h'⟩)
          · exact h' h6
          · rw [ha] at ha'; injection ha' with ha'; subst ha'
            exact hspl h'
        have hD : ¬ (Early hs opt E as h k ∨ k < k) := fun h' => h'.elim hne (by omega)
        obtain ⟨τ, τ1, h1, h2, h3⟩ := C.eval hI ha hv hD
        have hspl : spills hs opt E.loc k (argTree hs opt E.Γ a) = false := by simpa using hspl
        rw [argTree_build hs opt a (C.wf a (List.mem_of_getElem? ha))] at hg' ht' hspl ⊢
        refine (placeArg_eval C.ok C.lab hs (argExpr E.Γ a) τ τ1 s v c (temp k) k (h + k) h1 h2 hspl hK C.stK hg'.1 ht'.1).imp fun s' e q => ⟨?_, ?_⟩
        · refine Inv.congr (D := fun j => (Early hs opt E as h j ∨ j < k) ∨ j = k) ⟨e.bp.trans hI.bp, q.1.trans hI.spr, ⟨τ1, h3, q.2.1⟩, fun j a' v' ha' hv' hd' he' => ?_⟩ fun j _ => ?_
          · have hdj : Early hs opt E as h j ∨ j < k := Or.inl he'
            have := hI.stored j a' v' ha' hv' hdj he'
            unfold Stored at this ⊢
            rw [← this]
            refine rd_congr _ _ _ _ (bytes_le _) fun b hb => q.2.2.1 b ?_
            have := C.apart ha' he' b hb
            exact ⟨this.1, fun k hk => this.2 k (Nat.lt_of_lt_of_le hk C.stK)⟩
          · constructor
            · rintro ((hj | hj) | rfl)
              · exact Or.inl hj
              · exact Or.inr (by omega)
              · exact Or.inr (by omega)
            · rintro (hj | hj)
              · exact Or.inl (Or.inl hj)
              · by_cases e : j = k
                · exact Or.inr e
                · exact Or.inl (Or.inr (by omega))
        · have hr := q.2.2.2.1
          rw [argExpr_ty] at hr
          exact load s' hr q.2.2.2.2
    · have hsl : slotOf h i = .onStack (8 * (h + i - 6)) := if_neg h6
      rw [hsl] at hg ht ⊢
      simp only [argLoads] at hg ht ⊢
      refine Calls.loads bs (i + 1) k gp s c hdr' (fun h' => by omega) (same (Or.inl h6) s hI) (fun j a' v' ha' hv' hj hj6 => ?_) hg ht
      exact hL j a' v' ha' hv' (by omega) hj6

end
end Slimcc
