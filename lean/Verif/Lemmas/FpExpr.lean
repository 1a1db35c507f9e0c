import Verif.Lemmas.FpArith
import Verif.Model.FpExpr
import Verif.Props.C62
/-! Running the code of floating expressions: sequences, what is left untouched, the two operands of an operator. -/
set_option autoImplicit false
namespace Slimcc.FP
open Slimcc.Spec Slimcc.Spec.CTy Slimcc.Spec.FP Slimcc.X86 Slimcc.Ty Slimcc.Gen

section
variable {sym : Nat → Word}

theorem frun_append (a b : List FLine) (k : Option Nat) (s s1 : FS) (h : frun sym a k s = some s1) : frun sym (a ++ b) k s = frun sym b none s1 := by
  induction a generalizing k s with
  | nil =>
    cases k with
    | none => rw [frun, Option.some.injEq] at h; rw [h]; rfl
    | some n => exact absurd h (by simp [frun])
  | cons x a ih =>
    cases k with
    | some n =>
      cases x with
      | lab k =>
        rw [List.cons_append]
        rw [frun] at h ⊢
        by_cases hk : k = n
        · rw [if_pos hk] at h ⊢; exact ih _ _ h
        · rw [if_neg hk] at h ⊢; exact ih _ _ h
      | i i => exact ih (some n) s h
      | jmp m => exact ih (some n) s h
      | jcc c m => exact ih (some n) s h
    | none =>
      cases x with
      | lab k => exact ih none s h
      | jmp m => exact ih (some m) s h
      | i i =>
        rw [List.cons_append]
        rw [frun] at h ⊢
        cases e : fexec sym i s with
        | none => rw [e] at h; exact absurd h (by simp)
        | some s2 => rw [e] at h; exact ih none s2 h
      | jcc c m =>
        rw [List.cons_append]
        rw [frun] at h ⊢
        cases e : s.g.f with
        | none => rw [e] at h; exact absurd h (by simp)
        | some f =>
          rw [e] at h
          dsimp only at h ⊢
          by_cases hc : c.holds f = true
          · rw [if_pos hc] at h ⊢; exact ih _ _ h
          · rw [if_neg hc] at h ⊢; exact ih _ _ h

theorem runs_append {a b : List FLine} {s : FS} {P Q : FS → Prop} (ha : Runs sym a none s P) (hb : ∀ s1, P s1 → Runs sym b none s1 Q) :
    Runs sym (a ++ b) none s Q := by
  obtain ⟨s1, h1, h2⟩ := ha
  obtain ⟨s2, h3, h4⟩ := hb s1 h2
  exact ⟨s2, by rw [frun_append a b none s s1 h1]; exact h3, h4⟩

theorem runs_imp {a : List FLine} {s : FS} {P Q : FS → Prop} (ha : Runs sym a none s P) (h : ∀ s', P s' → Q s') : Runs sym a none s Q := by
  obtain ⟨s1, h1, h2⟩ := ha
  exact ⟨s1, h1, h s1 h2⟩

/-- Instructions on general registers. -/
theorem runs_gps (l : List Ins) (s : FS) (g : St) (h : execs sym l s.g = some g) :
    Runs sym (gps l) none s fun s' => s'.g = g ∧ s'.xmm = s.xmm ∧ s'.st = s.st ∧ s'.cw = s.cw := by
  induction l generalizing s with
  | nil => rw [execs, Option.some.injEq] at h; exact runs_nil ⟨h, rfl, rfl, rfl⟩
  | cons i l ih =>
    rw [execs] at h
    cases e : exec sym i s.g with
    | none => rw [e] at h; exact absurd h (by simp)
    | some g1 =>
      rw [e] at h
      exact runs_gp e (ih _ h)

end

/-! Data of the 80-bit format in memory. -/

theorem f80_fin {n : Bool} {m : Nat} {e : Int} : f80.has (.fin n m e) ↔ m < 2 ^ 64 ∧ -16445 ≤ e ∧ e ≤ 16320 ∧ (2 ^ 63 ≤ m ∨ e = -16445) := Iff.rfl

theorem decode_encode80 {x : Fl} (h : f80.has x) : (encode80 x).1 < 2 ^ 64 ∧ (encode80 x).2 < 2 ^ 16 ∧ decode80 (encode80 x).1 (encode80 x).2 = x := by
  cases x with
  | nan => decide
  | inf n => cases n <;> decide
  | fin n m e =>
    rw [f80_fin] at h
    obtain ⟨h1, h2, h3, h4⟩ := h
    have hem : f80.emin = -16445 := rfl
    unfold encode80
    dsimp only
    rw [hem]
    by_cases hm : 2 ^ 63 ≤ m
    · rw [if_pos hm]
      obtain ⟨k, hk⟩ : ∃ k : Nat, (e - -16445 + 1).toNat = k ∧ (k : ℤ) = e + 16446 := ⟨_, rfl, by omega⟩
      rw [hk.1]
      have hd : decide (((if n then 2 ^ 15 else 0) + k) / 2 ^ 15 % 2 = 1) = n := by
        cases n
        · rw [if_neg (by decide)]; exact decide_eq_false (by omega)
        · rw [if_pos rfl]; exact decide_eq_true (by omega)
      have he : ((if n then 2 ^ 15 else 0) + k) % 2 ^ 15 = k := by
        cases n
        · rw [if_neg (by decide)]; omega
        · rw [if_pos rfl]; omega
      refine ⟨h1, ?_, ?_⟩
      · cases n
        · rw [if_neg (by decide)]; omega
        · rw [if_pos rfl]; omega
      · unfold decode80
        dsimp only
        rw [hd, he, if_neg (by omega), if_neg (by omega), if_neg (by omega), hem]
        congr 1
        omega
    · rw [if_neg hm]
      have hd : decide (((if n then 2 ^ 15 else 0) + 0) / 2 ^ 15 % 2 = 1) = n := by cases n <;> decide
      have he : ((if n then 2 ^ 15 else 0) + 0) % 2 ^ 15 = 0 := by cases n <;> decide
      refine ⟨h1, by cases n <;> decide, ?_⟩
      unfold decode80
      dsimp only
      rw [hd, he, if_neg (by decide), if_pos rfl, hem, h4.resolve_left hm]

/-- What `fstpt` writes `fldt` reads. -/
theorem decode_words {x : Fl} (h : f80.has x) :
    decode80 (BitVec.ofNat 64 (encode80 x).1).toNat (zx 2 (BitVec.ofNat 64 (encode80 x).2)).toNat = x := by
  obtain ⟨h1, h2, h3⟩ := decode_encode80 h
  have e2 : (zx 2 (BitVec.ofNat 64 (encode80 x).2)).toNat = (encode80 x).2 := by
    unfold zx
    rw [BitVec.toNat_setWidth, BitVec.toNat_setWidth, BitVec.toNat_ofNat]
    omega
  rw [BitVec.toNat_ofNat, Nat.mod_eq_of_lt h1, e2, h3]

/-! Activations. -/

/-- The same activation for the integer code; no variables. -/
def _root_.Slimcc.Spec.FP.FEnv.env (E : FEnv) : Env := ⟨fun _ => .int, fun _ => False, E.loc, E.stk, E.K, E.sym, E.bp⟩

theorem _root_.Slimcc.Spec.FP.FEnv.env_ok {E : FEnv} (h : E.Ok) : E.env.Ok := ⟨fun _ h => h.elim, fun _ _ h => h.elim, fun _ _ h => h.elim, h.room⟩

section
variable {E : FEnv} {σ : Nat → Val}

theorem fslots_disj (h : E.Ok) (j k : Nat) (hj : j < E.K) (hk : k < E.K) (hne : j ≠ k) : Disj (E.slot j) 8 (E.slot k) 8 :=
  slots_disj E.env (FEnv.env_ok h) j k hj hk hne

theorem slot_up (k : Nat) : E.slot (k + 1) + 8 = E.slot k := by
  have h1 := slot_down E.env (k + 1)
  have h2 := slot_down E.env k
  change E.slot (k + 1) = E.slot 0 + _ at h1
  change E.slot k = E.slot 0 + _ at h2
  have : BitVec.ofNat 64 (8 * (k + 1)) = BitVec.ofNat 64 (8 * k) + 8 := by rw [Nat.mul_add, BitVec.ofNat_add]; rfl
  rw [h1, h2, this]
  generalize BitVec.ofNat 64 (8 * k) = w
  generalize E.slot 0 = z
  bv_omega

theorem fea_slot (k : Nat) (s : FS) (hbp : s.g.r .bp = E.bp) : ea E.sym s.g (slotMem E.stk k) = E.slot k := ea_slot (E := E.env) k s.g hbp

theorem fea_loc (hok : E.Ok) (x : Nat) (s : FS) (hbp : s.g.r .bp = E.bp) : ea E.sym s.g (E.loc x) = E.addr x := by
  unfold FEnv.addr
  rcases hok.direct x with ⟨o, h⟩ | ⟨g, h⟩
  · simp only [h, ea, hbp]
  · simp only [h, ea]

theorem leaves_refl (k f : Nat) (s : FS) : Leaves E k f s s := ⟨rfl, fun _ => rfl, rfl, fun _ _ => rfl, fun _ _ _ => rfl⟩

theorem leaves_trans {k f : Nat} {s s1 s2 : FS} (h1 : Leaves E k f s s1) (h2 : Leaves E k f s1 s2) : Leaves E k f s s2 :=
  ⟨h2.bp.trans h1.bp, fun i => (h2.tmp i).trans (h1.tmp i), h2.cw.trans h1.cw, fun i hi => (h2.xmm i hi).trans (h1.xmm i hi),
    fun a ha hb => (h2.mem a ha hb).trans (h1.mem a ha hb)⟩

theorem leaves_mono {k f k' f' : Nat} {s s1 : FS} (h : Leaves E k f s s1) (hk : k ≤ k') (hf : f ≤ f') : Leaves E k' f' s s1 :=
  ⟨h.bp, h.tmp, h.cw, fun i hi => h.xmm i (by omega), fun a ha hb => h.mem a ha fun i hi => hb i (by omega)⟩

theorem und_leaves {s s1 : FS} (h : Undisturbed s s1) (hsp : s.g.r rsp = E.sp) : Leaves E 0 0 s s1 :=
  ⟨h.bp, h.tmp, h.cw, h.xmm, fun a ha _ => h.mem a (by rw [hsp]; exact ha)⟩

theorem blk_off (a b : Word) (i n k : Nat) (h : i + k ≤ n) (hn : n ≤ 2 ^ 63) (hb : InBlk (a + BitVec.ofNat 64 i) k b) : InBlk a n b := by
  unfold InBlk at *
  have e : b - a = (b - (a + BitVec.ofNat 64 i)) + BitVec.ofNat 64 i := by
    generalize BitVec.ofNat 64 i = j
    bv_omega
  rw [e, BitVec.toNat_add, BitVec.toNat_ofNat, Nat.mod_eq_of_lt (show i < 2 ^ 64 by omega)]
  omega

/-- What is in memory depends on the bytes of the object only. -/
theorem at_congr (t : VTy) (v : Val) (a : Word) (m m' : Mem) (h : ∀ b, InBlk a t.size b → m' b = m b) (hm : At t v a m) : At t v a m' := by
  cases t with
  | int t =>
    cases v with
    | f x => exact hm
    | i z =>
      refine ⟨hm.1, fun i hi => ?_⟩
      rw [← hm.2 i hi]
      have h8 : t.bytes ≤ 8 := by cases t <;> decide
      refine h _ (blk_off a _ i _ 1 (by show i + 1 ≤ t.bytes; omega) (by show t.bytes ≤ _; omega) ?_)
      unfold InBlk; rw [BitVec.sub_self]; decide
  | flo f =>
    cases v with
    | i z => cases f <;> exact hm
    | f x =>
      cases f with
      | float =>
        show decode f32 32 (rd m' a 4).toNat = x
        rw [rd_congr m' m a 4 (by omega) h]; exact hm
      | double =>
        show decode f64 64 (rd m' a 8).toNat = x
        rw [rd_congr m' m a 8 (by omega) h]; exact hm
      | ldouble =>
        refine ⟨hm.1, ?_⟩
        rw [rd_congr m' m a 8 (by omega) (fun b hb => h b (by unfold InBlk at *; show _ < 16; omega)),
          rd_congr m' m (a + 8) 2 (by omega) (fun b hb => h b (blk_off a b 8 16 2 (by omega) (by omega) hb))]
        exact hm.2

theorem within_leaves (hok : E.Ok) {n n' k f : Nat} {s s' : FS} (hk : k ≤ E.K) (h : Within E σ n s) (hl : Leaves E k f s s')
    (hst : s'.st.length ≤ n') : Within E σ n' s' :=
  ⟨hl.bp.trans h.bp, (hl.tmp 6).trans h.sp, hl.cw.trans h.cw, hst, fun x =>
    at_congr _ _ _ _ _ (fun b hb => hl.mem b (fun hc => hok.vars x b ⟨hb, hc⟩) fun i hi hc => hok.slots x i (by omega) b ⟨hb, hc⟩) (h.mem x)⟩

theorem within_mono {n n' : Nat} {s : FS} (h : Within E σ n s) (hn : n ≤ n') : Within E σ n' s := ⟨h.bp, h.sp, h.cw, by have := h.st; omega, h.mem⟩

theorem within_plain {n : Nat} {s : FS} (h : Within E σ n s) : plainCW s.cw := by rw [h.cw]; decide

/-- A slot is as before if the code uses fewer. -/
theorem rd_slot (hok : E.Ok) {k f j sz : Nat} {s s' : FS} (hl : Leaves E k f s s') (hj : k ≤ j) (hjK : j < E.K) (hsz : sz ≤ 8) :
    rd s'.g.m (E.slot j) sz = rd s.g.m (E.slot j) sz :=
  rd_congr _ _ _ _ hsz fun b hb => hl.mem b (fun hc => hok.temps j hjK b ⟨by unfold InBlk at *; omega, hc⟩)
    fun i hi hc => fslots_disj hok i j (by omega) hjK (by omega) b ⟨hc, by unfold InBlk at *; omega⟩

/-- Both operands of an operator are where the instructions expect them. -/
def Both (f : FTy) (x y : Fl) (r n : Nat) (s : FS) : Prop :=
  match f with
  | .ldouble => f80.has x ∧ f80.has y ∧ ∃ st, s.st = x :: y :: st ∧ st.length ≤ n
  | .float => 1 ≤ r ∧ datum false (s.xmm r) = x ∧ datum false (s.xmm 0) = y ∧ s.st.length ≤ n
  | .double => 1 ≤ r ∧ datum true (s.xmm r) = x ∧ datum true (s.xmm 0) = y ∧ s.st.length ≤ n

theorem both_fty (d : Bool) (x y : Fl) (r n : Nat) (s : FS) :
    Both (fty d) x y r n s ↔ 1 ≤ r ∧ datum d (s.xmm r) = x ∧ datum d (s.xmm 0) = y ∧ s.st.length ≤ n := by cases d <;> exact Iff.rfl

theorem inPlace_fty (d : Bool) (x : Fl) (n : Nat) (s : FS) : InPlace (.flo (fty d)) (.f x) n s ↔ datum d (s.xmm 0) = x ∧ s.st.length ≤ n := by
  constructor
  · rintro ⟨st, h1, h2⟩
    rw [inFp_iff] at h1
    exact ⟨h1.1, by rw [h1.2]; exact h2⟩
  · rintro ⟨h1, h2⟩
    exact ⟨s.st, (inFp_iff _ _ _ _).2 ⟨h1, rfl⟩, h2⟩

theorem zx4_rd (m : Mem) (a w : Word) : zx 4 (rd (wr m a 4 w) a 4) = zx 4 w := by rw [rd_wr_same _ _ _ _ (by omega), zx_zx]

theorem datum_spill (d : Bool) (m : Mem) (a w : Word) : datum d (rd (wr m a (if d then 8 else 4) w) a (if d then 8 else 4)) = datum d w := by
  cases d
  · simp only [Bool.false_eq_true, if_false]
    rw [rd_wr_same _ _ _ _ (by omega)]
    unfold datum
    simp only [Bool.false_eq_true, if_false, zx_zx]
  · simp only [if_true]
    rw [rd_wr_same _ _ _ _ (by omega), zx8]

theorem exec_fstpt (sym : Nat → Word) (m : MemOp) (s : FS) (x : Fl) (st : List Fl) (a b : Word) (hst : s.st = x :: st) (ha : ea sym s.g m = a) (hb : a + 8 = b) :
    fexec sym (.fstpt m) s = some { s with
      g := { s.g with m := wr (wr s.g.m a 8 (BitVec.ofNat 64 (encode80 x).1)) b 2 (BitVec.ofNat 64 (encode80 x).2) }, st := st } := by
  subst ha hb
  unfold fexec
  rw [hst]

theorem exec_fldt (sym : Nat → Word) (m : MemOp) (s : FS) (x : Fl) (a b : Word) (ha : ea sym s.g m = a) (hb : a + 8 = b) (hst : s.st.length < 8)
    (hx : decode80 (rd s.g.m a 8).toNat (rd s.g.m b 2).toNat = x) : fexec sym (.fldt m) s = some { s with st := x :: s.st } := by
  subst ha hb hx
  exact push_some _ _ hst

/-- The code of an operand. -/
def Gives (E : FEnv) (σ : Nat → Val) (n : Nat) (t : VTy) (v : Val) (o : FOut) : Prop :=
  ∀ s, Within E σ n s → Runs E.sym o.code none s fun s' => InPlace t v n s' ∧ Leaves E o.st o.fp s s'

theorem operands_sse (hok : E.Ok) (d : Bool) (a b : FOut) (op : Nat → List FLine) (x y : Fl) (n : Nat) (hn : n ≤ 6) (Q : FS → Prop)
    (ha : Gives E σ n (.flo (fty d)) (.f x) a) (hb : Gives E σ n (.flo (fty d)) (.f y) b) (hK : (operands E.stk (fty d) a b op).st ≤ E.K)
    (hop : ∀ r s, Within E σ (n + 2) s → Both (fty d) x y r n s → Runs E.sym (op r) none s fun s' => Q s' ∧ Leaves E 0 (r - 1) s s')
    (s : FS) (hs : Within E σ n s) :
    Runs E.sym (operands E.stk (fty d) a b op).code none s fun s' => Q s' ∧ Leaves E (operands E.stk (fty d) a b op).st (operands E.stk (fty d) a b op).fp s s' := by
  have eo : operands E.stk (fty d) a b op =
      ⟨a.code ++ pushF E.stk d (fslot b) ++ b.code ++ popF E.stk d (fslot b) ++ op (popReg (fslot b)),
        max a.fp (b.fp + match fslot b with | .reg _ => 1 | .stk _ => 0), max a.st (b.st + match fslot b with | .reg _ => 0 | .stk _ => 1)⟩ := by
    cases d <;> rfl
  rw [eo] at hK ⊢
  unfold fslot at hK ⊢
  by_cases hf : b.fp < FP_SLOTS
  · rw [if_pos hf] at hK ⊢
    dsimp only [pushF, popF, popReg] at hK ⊢
    rw [List.append_nil, List.append_assoc, List.append_assoc]
    refine runs_append (ha s hs) fun s1 h1 => ?_
    obtain ⟨h1, l1⟩ := h1
    rw [inPlace_fty] at h1
    have w1 := within_leaves hok (by omega) hs l1 h1.2
    rw [List.singleton_append]
    refine runs_i (by rfl) ?_
    obtain ⟨s2, e2⟩ : ∃ s2, s2 = s1.setX (b.fp + 2) (merge d (s1.xmm (b.fp + 2)) (s1.xmm 0)) := ⟨_, rfl⟩
    have l2 : Leaves E 0 (b.fp + 1) s1 s2 := by
      rw [e2]; exact ⟨rfl, fun _ => rfl, rfl, fun i hi => if_neg (by omega), fun _ _ _ => rfl⟩
    have hx2 : datum d (s2.xmm (b.fp + 2)) = x := by
      rw [e2]; show datum d (if _ = _ then _ else _) = x
      rw [if_pos rfl, datum_merge]; exact h1.1
    have w2 : Within E σ n s2 := within_leaves hok (by omega) w1 l2 (by rw [e2]; exact h1.2)
    rw [← e2]
    refine runs_append (hb s2 w2) fun s3 h3 => ?_
    obtain ⟨h3, l3⟩ := h3
    rw [inPlace_fty] at h3
    have w3 := within_leaves hok (by omega) w2 l3 (n' := n + 2) (by omega)
    refine runs_imp (hop (b.fp + 2) s3 w3 ((both_fty _ _ _ _ _ _).2 ⟨by omega, ?_, h3.1, h3.2⟩)) fun s' h' => ⟨h'.1, ?_⟩
    · rw [l3.xmm _ (by omega)]; exact hx2
    · exact leaves_trans (leaves_mono l1 (by omega) (by omega)) (leaves_trans (leaves_mono l2 (by omega) (by omega))
        (leaves_trans (leaves_mono l3 (by omega) (by omega)) (leaves_mono h'.2 (by omega) (by omega))))
  · rw [if_neg hf] at hK ⊢
    dsimp only [pushF, popF, popReg] at hK ⊢
    rw [List.append_assoc, List.append_assoc, List.append_assoc]
    refine runs_append (ha s hs) fun s1 h1 => ?_
    obtain ⟨h1, l1⟩ := h1
    rw [inPlace_fty] at h1
    have w1 := within_leaves hok (by omega) hs l1 h1.2
    rw [List.singleton_append]
    refine runs_i (by rfl) ?_
    obtain ⟨s2, e2⟩ : ∃ s2 : FS, s2 = { s1 with g := { s1.g with m := wr s1.g.m (E.slot b.st) (if d then 8 else 4) (s1.xmm 0) } } := ⟨_, rfl⟩
    have l2 : Leaves E (b.st + 1) 0 s1 s2 := by
      rw [e2]
      refine ⟨rfl, fun _ => rfl, rfl, fun i hi => rfl, fun c _ hc => wr_other _ _ _ _ _ fun hd => hc b.st (by omega) ?_⟩
      unfold InBlk at *
      cases d
      · rw [if_neg (by decide)] at hd; omega
      · rw [if_pos rfl] at hd; omega
    have w2 : Within E σ n s2 := within_leaves hok (by omega) w1 l2 (by rw [e2]; exact h1.2)
    rw [fea_slot _ _ w1.bp, ← e2]
    refine runs_append (hb s2 w2) fun s3 h3 => ?_
    obtain ⟨h3, l3⟩ := h3
    rw [inPlace_fty] at h3
    have w3 := within_leaves hok (by omega) w2 l3 h3.2
    rw [List.singleton_append]
    refine runs_i (by rfl) ?_
    obtain ⟨s4, e4⟩ : ∃ s4 : FS, s4 = s3.setX 1 (rd s3.g.m (E.slot b.st) (if d then 8 else 4)) := ⟨_, rfl⟩
    have l4 : Leaves E 0 0 s3 s4 := by
      rw [e4]; exact ⟨rfl, fun _ => rfl, rfl, fun i hi => if_neg (by omega), fun _ _ _ => rfl⟩
    have w4 : Within E σ (n + 2) s4 := within_leaves hok (by omega) w3 l4 (by rw [e4]; exact le_trans h3.2 (by omega))
    rw [fea_slot _ _ w3.bp, ← e4]
    refine runs_imp (hop 1 s4 w4 ((both_fty _ _ _ _ _ _).2 ⟨by omega, ?_, ?_, ?_⟩)) fun s' h' => ⟨h'.1, ?_⟩
    · rw [e4]
      show datum d (if 1 = 1 then _ else _) = x
      rw [if_pos rfl, rd_slot hok l3 (Nat.le_refl _) (by omega) (by cases d <;> decide), e2, ← h1.1]
      exact datum_spill d _ _ _
    · rw [e4]; exact h3.1
    · rw [e4]; exact h3.2
    · exact leaves_trans (leaves_mono l1 (by omega) (by omega)) (leaves_trans (leaves_mono l2 (by omega) (by omega))
        (leaves_trans (leaves_mono l3 (by omega) (by omega)) (leaves_trans (leaves_mono l4 (by omega) (by omega)) (leaves_mono h'.2 (by omega) (by omega)))))

theorem operands_x87 (hok : E.Ok) (a b : FOut) (op : Nat → List FLine) (x y : Fl) (n : Nat) (hn : n ≤ 6) (Q : FS → Prop)
    (ha : Gives E σ n (.flo .ldouble) (.f x) a) (hb : Gives E σ n (.flo .ldouble) (.f y) b) (hK : (operands E.stk .ldouble a b op).st ≤ E.K)
    (hop : ∀ r s, Within E σ (n + 2) s → Both .ldouble x y r n s → Runs E.sym (op r) none s fun s' => Q s' ∧ Leaves E 0 (r - 1) s s')
    (s : FS) (hs : Within E σ n s) :
    Runs E.sym (operands E.stk .ldouble a b op).code none s fun s' => Q s' ∧ Leaves E (operands E.stk .ldouble a b op).st (operands E.stk .ldouble a b op).fp s s' := by
  dsimp only [operands] at hK ⊢
  rw [List.append_assoc, List.append_assoc, List.append_assoc]
  refine runs_append (ha s hs) fun s1 h1 => ?_
  obtain ⟨⟨st, ⟨hx, hst⟩, hlen⟩, l1⟩ := h1
  have w1 := within_leaves hok (by omega) hs l1 (n' := n + 1) (by rw [hst, List.length_cons]; omega)
  rw [List.singleton_append]
  have ex : fexec E.sym (.fstpt (slotMem E.stk (b.st + 1))) s1 = some { s1 with
      g := { s1.g with m := wr (wr s1.g.m (E.slot (b.st + 1)) 8 (BitVec.ofNat 64 (encode80 x).1)) (E.slot b.st) 2 (BitVec.ofNat 64 (encode80 x).2) }, st := st } := by
    exact exec_fstpt _ _ _ _ _ _ _ hst (fea_slot _ _ w1.bp) (slot_up _)
  refine runs_i ex ?_
  generalize e2 : ({ s1 with
      g := { s1.g with m := wr (wr s1.g.m (E.slot (b.st + 1)) 8 (BitVec.ofNat 64 (encode80 x).1)) (E.slot b.st) 2 (BitVec.ofNat 64 (encode80 x).2) }, st := st } : FS) = s2
  have l2 : Leaves E (b.st + 2) 0 s1 s2 := by
    rw [← e2]
    refine ⟨rfl, fun _ => rfl, rfl, fun i hi => rfl, fun c _ hc => ?_⟩
    show wr (wr _ _ _ _) _ _ _ c = _
    rw [wr_other _ _ _ _ _ (fun hd => hc b.st (by omega) (by unfold InBlk at *; omega)), wr_other _ _ _ _ _ (fun hd => hc (b.st + 1) (by omega) hd)]
  have w2 : Within E σ n s2 := within_leaves hok (by omega) w1 l2 (by rw [← e2]; exact hlen)
  have r1 : rd s2.g.m (E.slot (b.st + 1)) 8 = BitVec.ofNat 64 (encode80 x).1 := by
    rw [← e2]
    show rd (wr (wr _ _ _ _) _ _ _) _ _ = _
    rw [rd_wr_disj _ _ _ _ _ _ (by omega) ((fslots_disj hok _ _ (by omega) (by omega) (by omega)).mono (by omega) (by omega)), rd_wr_same _ _ _ _ (by omega), zx8]
  have r2 : rd s2.g.m (E.slot b.st) 2 = zx 2 (BitVec.ofNat 64 (encode80 x).2) := by
    rw [← e2]
    show rd (wr (wr _ _ _ _) _ _ _) _ _ = _
    rw [rd_wr_same _ _ _ _ (by omega)]
  refine runs_append (hb s2 w2) fun s3 h3 => ?_
  obtain ⟨⟨st3, ⟨hy, hst3⟩, hlen3⟩, l3⟩ := h3
  have w3 := within_leaves hok (by omega) w2 l3 (n' := n + 1) (by rw [hst3, List.length_cons]; omega)
  rw [List.singleton_append]
  have ex3 : fexec E.sym (.fldt (slotMem E.stk (b.st + 1))) s3 = some { s3 with st := x :: s3.st } := by
    refine exec_fldt _ _ _ _ _ _ (fea_slot _ _ w3.bp) (slot_up _) (by have := w3.st; omega) ?_
    rw [rd_slot hok l3 (by omega) (by omega) (by omega), rd_slot hok l3 (by omega) (by omega) (by omega), r1, r2, decode_words hx]
  refine runs_i ex3 ?_
  have l4 : Leaves E 0 0 s3 { s3 with st := x :: s3.st } := ⟨rfl, fun _ => rfl, rfl, fun _ _ => rfl, fun _ _ _ => rfl⟩
  have w4 : Within E σ (n + 2) { s3 with st := x :: s3.st } := within_leaves hok (by omega) w3 l4 (by
    show (x :: s3.st).length ≤ _; rw [List.length_cons]; have := w3.st; omega)
  refine runs_imp (hop 0 _ w4 ⟨hx, hy, st3, by show x :: s3.st = _; rw [hst3], hlen3⟩) fun s' h' => ⟨h'.1, ?_⟩
  exact leaves_trans (leaves_mono l1 (by omega) (by omega)) (leaves_trans (leaves_mono l2 (by omega) (by omega))
    (leaves_trans (leaves_mono l3 (by omega) (by omega)) (leaves_trans (leaves_mono l4 (by omega) (by omega)) (leaves_mono h'.2 (by omega) (by omega)))))


theorem operands_run (hok : E.Ok) (f : FTy) (a b : FOut) (op : Nat → List FLine) (x y : Fl) (n : Nat) (hn : n ≤ 6) (Q : FS → Prop)
    (ha : Gives E σ n (.flo f) (.f x) a) (hb : Gives E σ n (.flo f) (.f y) b) (hK : (operands E.stk f a b op).st ≤ E.K)
    (hop : ∀ r s, Within E σ (n + 2) s → Both f x y r n s → Runs E.sym (op r) none s fun s' => Q s' ∧ Leaves E 0 (r - 1) s s')
    (s : FS) (hs : Within E σ n s) :
    Runs E.sym (operands E.stk f a b op).code none s fun s' => Q s' ∧ Leaves E (operands E.stk f a b op).st (operands E.stk f a b op).fp s s' := by
  cases f with
  | float => exact operands_sse hok false a b op x y n hn Q ha hb hK hop s hs
  | double => exact operands_sse hok true a b op x y n hn Q ha hb hK hop s hs
  | ldouble => exact operands_x87 hok a b op x y n hn Q ha hb hK hop s hs

end
end Slimcc.FP
