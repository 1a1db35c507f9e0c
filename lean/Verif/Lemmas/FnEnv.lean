import Verif.Spec.Linked
import Verif.Lemmas.CallCode
import Verif.Lemmas.FnAt
/-! The activation of a function: where its variables are. -/
set_option autoImplicit false
namespace Slimcc
open Slimcc.Spec Slimcc.Spec.CTy Slimcc.Ty Slimcc.X86 Slimcc.Gen

theorem inBlk_nat {b : Word} {n : Nat} (h : b.toNat + n ≤ 2 ^ 64) (a : Word) : InBlk b n a ↔ b.toNat ≤ a.toNat ∧ a.toNat < b.toNat + n := by
  unfold InBlk
  rw [BitVec.toNat_sub]
  have := a.isLt
  have := b.isLt
  omega

theorem frame_nat {bp : Word} {o : Int} (h : 0 ≤ (bp.toNat : Int) + o) (h' : (bp.toNat : Int) + o < 2 ^ 64) : ((bp + BitVec.ofInt 64 o).toNat : Int) = bp.toNat + o := by
  rw [BitVec.toNat_add, BitVec.toNat_ofInt]
  have := bp.isLt
  omega

theorem inBlk_frame {bp : Word} {o : Int} {n : Nat} (h : 0 ≤ (bp.toNat : Int) + o) (h' : (bp.toNat : Int) + o + n ≤ 2 ^ 64) (hn : 0 < n) (a : Word) :
    InBlk (bp + BitVec.ofInt 64 o) n a ↔ (bp.toNat : Int) + o ≤ a.toNat ∧ (a.toNat : Int) < bp.toNat + o + n := by
  have e := frame_nat h (by omega)
  rw [inBlk_nat (by omega)]
  omega

theorem bytes_pos (t : CTy) : 0 < t.bytes := by cases t <;> decide

theorem zip_lookup : ∀ (ps : List Nat) (k i x : Nat), ps.Nodup → ps[i]? = some x →
    (ps.zip ((List.range' k ps.length).map (slotOf 0))).lookup x = some (slotOf 0 (k + i))
  | [], _, _, _, _, h => by simp at h
  | p :: ps, k, i, x, hn, h => by
    simp only [List.length_cons, List.range'_succ, List.map_cons, List.zip_cons_cons, List.lookup_cons]
    cases i with
    | zero => simp at h; subst h; simp
    | succ i =>
      simp only [List.getElem?_cons_succ] at h
      have hx : x ≠ p := fun e => (List.nodup_cons.1 hn).1 (e ▸ List.mem_of_getElem? h)
      rw [show (x == p) = false by simpa using hx]
      have := zip_lookup ps (k + 1) i x (List.nodup_cons.1 hn).2 h
      rw [show k + (i + 1) = k + 1 + i by omega]
      exact this

theorem zip_lookup_none : ∀ (ps : List Nat) (k x : Nat), x ∉ ps →
    (ps.zip ((List.range' k ps.length).map (slotOf 0))).lookup x = none
  | [], _, _, _ => rfl
  | p :: ps, k, x, h => by
    simp only [List.length_cons, List.range'_succ, List.map_cons, List.zip_cons_cons, List.lookup_cons]
    rw [show (x == p) = false by simpa using fun e => h (by simp [e])]
    exact zip_lookup_none ps (k + 1) x fun hm => h (List.mem_cons_of_mem _ hm)

theorem paramSlots_eq (Γ : Nat → CTy) (f : FnDef) : paramSlots Γ f = f.params.zip ((List.range' 0 f.params.length).map (slotOf 0)) := by
  unfold paramSlots
  have := conv_ints (f.params.map fun x => ity (Γ x)) 0 0 { gp := 0, fp := 0 } rfl rfl rfl (Nat.le_refl _)
  rw [List.map_map, List.length_map] at this
  rw [show (List.map (fun x => CC.CTy.scalar (.int (ity (Γ x)).size) (ity (Γ x)).size) f.params) =
    List.map ((fun t : ITy => CC.CTy.scalar (.int t.size) t.size) ∘ fun x => ity (Γ x)) f.params from rfl, this]

/-- The activation of a function called with the stack pointer `S`, with `k` slots. -/
def actEnv (P : Prog) (I : Image) (f : FnDef) (fr : Frame) (k : Nat) (S : Word) : Env where
  Γ := P.Γ
  dom x := P.glob x = true ∨ x ∈ f.params ++ f.locals
  loc := fnLoc P.Γ P.glob f fr
  stk := fr.stk
  K := k
  sym := I.sym
  bp := S - 16#64

/-- The offset of a local variable. -/
def OffsetOf (f : FnDef) (fr : Frame) (x : Nat) (o : Int) : Prop :=
  (x ∈ own f ∧ o = fr.ofs x) ∨ ∃ i : Nat, 6 ≤ i ∧ f.params[i]? = some x ∧ o = 8 * (i - 6) + 16

section
variable {hs : HostShift} {opt : Bool} {P : Prog} {I : Image} {f : FnDef} {fr : Frame} {k : Nat} {S : Word} {lo hi : Nat}

theorem fnLoc_glob {x : Nat} (h : P.glob x = true) : fnLoc P.Γ P.glob f fr x = .sym x := by
  unfold fnLoc; rw [if_pos h]

theorem fnLoc_local (hR : FnRules P opt f) {x : Nat} (h : x ∈ f.params ++ f.locals) : ∃ o, fnLoc P.Γ P.glob f fr x = .frame o ∧ OffsetOf f fr x o := by
  unfold fnLoc
  rw [if_neg (by rw [hR.own x h]; decide), paramSlots_eq]
  have hn := List.nodup_append.1 hR.distinct
  by_cases hp : x ∈ f.params
  · obtain ⟨i, hi⟩ := List.getElem?_of_mem hp
    rw [zip_lookup _ 0 i x hn.1 hi]
    unfold slotOf
    by_cases h6 : 0 + (0 + i) < 6
    · rw [if_pos h6]
      refine ⟨_, rfl, .inl ⟨List.mem_append_left _ ?_, rfl⟩⟩
      exact List.mem_of_getElem? (i := i) (by rw [List.getElem?_take_of_lt (by omega)]; exact hi)
    · rw [if_neg h6]
      refine ⟨_, rfl, .inr ⟨i, by omega, hi, ?_⟩⟩
      omega
  · rw [zip_lookup_none _ 0 x hp]
    exact ⟨_, rfl, .inl ⟨List.mem_append_right _ ((List.mem_append.1 h).resolve_left hp), rfl⟩⟩

/-- What is known of the stack of an activation. -/
structure ActOk (hs : HostShift) (opt : Bool) (P : Prog) (I : Image) (f : FnDef) (fr : Frame) (k : Nat) (S : Word) (lo hi : Nat) : Prop where
  rules : FnRules P opt f
  frame : FrameOk hs opt P f fr
  apart : ∀ x y, P.glob x = true → P.glob y = true → x ≠ y → Disj (I.sym x) (P.Γ x).bytes (I.sym y) (P.Γ y).bytes
  stack : ∀ x a, P.glob x = true → InBlk (I.sym x) (P.Γ x).bytes a → a.toNat < lo ∨ hi ≤ a.toNat
  room : lo + 16 + frameSize fr k ≤ S.toNat
  inside : S.toNat + argBytes 0 f.params.length ≤ hi
  top : hi ≤ 2 ^ 64

theorem frameSize_ge (fr : Frame) (k : Nat) : fr.stk + 8 * k ≤ frameSize fr k := by
  unfold frameSize CC.alignTo; omega

variable (A : ActOk hs opt P I f fr k S lo hi)
include A

theorem ActOk.bp_nat : (actEnv P I f fr k S).bp.toNat + 16 = S.toNat := by
  show (S - 16#64).toNat + 16 = _
  have := A.room
  have := S.isLt
  rw [BitVec.toNat_sub]
  simp
  omega

theorem offset_in {x : Nat} {o : Int} (h : OffsetOf f fr x o) :
    (-(fr.stk : Int) ≤ o ∧ o + (P.Γ x).bytes ≤ 0) ∨ (16 ≤ o ∧ o + (P.Γ x).bytes ≤ 16 + argBytes 0 f.params.length) := by
  rcases h with ⟨h, rfl⟩ | ⟨i, h6, hi, rfl⟩
  · exact .inl (A.frame.inside x h)
  · have := (List.getElem?_eq_some_iff.1 hi).1
    have := bytes_le (P.Γ x)
    unfold argBytes
    exact .inr ⟨by omega, by omega⟩

theorem offset_apart {x y : Nat} {o p : Int} (hx : OffsetOf f fr x o) (hy : OffsetOf f fr y p) (hne : x ≠ y) : OfsApart o (P.Γ x).bytes p (P.Γ y).bytes := by
  have h1 := offset_in A hx
  have h2 := offset_in A hy
  have := bytes_pos (P.Γ x)
  have := bytes_pos (P.Γ y)
  have := bytes_le (P.Γ x)
  have := bytes_le (P.Γ y)
  rcases hx with ⟨hx, rfl⟩ | ⟨i, h6, hi, rfl⟩
  · rcases hy with ⟨hy, rfl⟩ | ⟨j, h7, hj, rfl⟩
    · exact A.frame.apart x hx y hy hne
    · unfold OfsApart
      have := A.frame.inside x hx
      omega
  · rcases hy with ⟨hy, rfl⟩ | ⟨j, h7, hj, rfl⟩
    · unfold OfsApart
      have := A.frame.inside y hy
      omega
    · have hij : i ≠ j := fun e => hne (by rw [e, hj] at hi; injection hi with hi; exact hi.symm)
      unfold OfsApart
      omega

theorem addr_glob {x : Nat} (h : P.glob x = true) : (actEnv P I f fr k S).addr x = I.sym x := by
  show (match fnLoc P.Γ P.glob f fr x with | .frame ofs => _ | .sym g => _ | .ind _ | .off _ _ => _) = _
  rw [fnLoc_glob h]
  rfl

theorem addr_local {x : Nat} (h : x ∈ f.params ++ f.locals) : ∃ o, (actEnv P I f fr k S).addr x = (actEnv P I f fr k S).bp + BitVec.ofInt 64 o ∧ OffsetOf f fr x o := by
  obtain ⟨o, h1, h2⟩ := fnLoc_local (fr := fr) A.rules h
  refine ⟨o, ?_, h2⟩
  show (match fnLoc P.Γ P.glob f fr x with | .frame ofs => _ | .sym g => _ | .ind _ | .off _ _ => _) = _
  rw [h1]

/-- A block at an offset of the frame or the arguments. -/
theorem blk_frame {o : Int} {n : Nat} (h : (-(fr.stk : Int) ≤ o ∧ o + n ≤ 0) ∨ (16 ≤ o ∧ o + n ≤ 16 + argBytes 0 f.params.length)) (hn : 0 < n) (a : Word) :
    InBlk ((actEnv P I f fr k S).bp + BitVec.ofInt 64 o) n a ↔ (S.toNat : Int) - 16 + o ≤ a.toNat ∧ (a.toNat : Int) < S.toNat - 16 + o + n := by
  have h1 := A.bp_nat
  have h2 := A.room
  have h3 := A.inside
  have h4 := A.top
  have h5 := frameSize_ge fr k
  rw [inBlk_frame (by omega) (by omega) hn]
  omega

theorem blk_local {x : Nat} {o : Int} (h : OffsetOf f fr x o) (a : Word) :
    InBlk ((actEnv P I f fr k S).bp + BitVec.ofInt 64 o) (P.Γ x).bytes a ↔ (S.toNat : Int) - 16 + o ≤ a.toNat ∧ (a.toNat : Int) < S.toNat - 16 + o + (P.Γ x).bytes :=
  blk_frame A (offset_in A h) (bytes_pos _) a

theorem blk_slot {j : Nat} (hj : j < k) (a : Word) :
    InBlk ((actEnv P I f fr k S).slot j) 8 a ↔ (S.toNat : Int) - 16 - (fr.stk + (j + 1) * 8) ≤ a.toNat ∧ (a.toNat : Int) < S.toNat - 16 - (fr.stk + (j + 1) * 8) + 8 := by
  have h1 := A.bp_nat
  have h2 := A.room
  have h3 := A.inside
  have h4 := A.top
  have h5 := frameSize_ge fr k
  show InBlk ((actEnv P I f fr k S).bp + BitVec.ofInt 64 (-((fr.stk + (j + 1) * 8 : Nat) : Int))) 8 a ↔ _
  rw [inBlk_frame (by omega) (by omega) (by omega)]
  omega

theorem act_ok : (actEnv P I f fr k S).Ok where
  direct x hx := by
    rcases hx with hx | hx
    · exact .inr ⟨x, fnLoc_glob hx⟩
    · obtain ⟨o, h, _⟩ := fnLoc_local (fr := fr) A.rules hx
      exact .inl ⟨o, h⟩
  vars x y hx hy hne := by
    have r := A.room
    have i := A.inside
    have fs := frameSize_ge fr k
    have half : ∀ x y, P.glob x = true → y ∈ f.params ++ f.locals → Disj ((actEnv P I f fr k S).addr x) ((actEnv P I f fr k S).size x) ((actEnv P I f fr k S).addr y) ((actEnv P I f fr k S).size y) := by
      intro x y hx hy c hc
      obtain ⟨p, h2, h3⟩ := addr_local A hy
      rw [addr_glob A hx, h2] at hc
      have h4 := (blk_local A h3 c).1 hc.2
      have h5 := offset_in A h3
      have h6 := A.stack x c hx hc.1
      omega
    rcases hx with hx | hx
    · rcases hy with hy | hy
      · rw [addr_glob A hx, addr_glob A hy]
        exact A.apart x y hx hy hne
      · exact half x y hx hy
    · rcases hy with hy | hy
      · exact (half y x hy hx).symm
      · intro c hc
        obtain ⟨o, h2, h3⟩ := addr_local A hx
        obtain ⟨p, h4, h5⟩ := addr_local A hy
        rw [h2, h4] at hc
        have h6 := (blk_local A h3 c).1 hc.1
        have h7 := (blk_local A h5 c).1 hc.2
        have h8 := offset_apart A h3 h5 hne
        unfold OfsApart at h8
        omega
  slots x j hx hj := by
    have r := A.room
    have i := A.inside
    have fs := frameSize_ge fr k
    intro c hc
    have h1 := (blk_slot A hj c).1 hc.2
    have hj : j < k := hj
    rcases hx with hx | hx
    · rw [addr_glob A hx] at hc
      have h6 := A.stack x c hx hc.1
      omega
    · obtain ⟨o, h2, h3⟩ := addr_local A hx
      rw [h2] at hc
      have h6 := (blk_local A h3 c).1 hc.1
      have h5 := offset_in A h3
      omega
  room := by
    have r := A.room
    have fs := frameSize_ge fr k
    have := S.isLt
    show 8 * k ≤ _
    omega

end
end Slimcc
