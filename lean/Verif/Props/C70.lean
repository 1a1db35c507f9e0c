import Verif.Spec.ConstRead
import Verif.Lemmas.GInitWrite
import Verif.Lemmas.GInitEmit
set_option autoImplicit false
/-!
C70 What the compiler reads from a constant object is what the program would read.
-/
namespace Slimcc.Props
open Slimcc.GInit Slimcc.GInitSpec

/-- An integer type, and a bit-field inside its storage unit. -/
def ReadOk (sz : Nat) (bf : Option (Nat × Nat)) : Prop :=
  (sz = 1 ∨ sz = 2 ∨ sz = 4 ∨ sz = 8) ∧ ∀ bofs w, bf = some (bofs, w) → 0 < w ∧ bofs + w ≤ 8 * sz

theorem clear_iff (ofs : Int) (sz : Nat) : ∀ (rels : List Rel), rels.Pairwise (fun x y => x.ofs + 8 ≤ y.ofs) →
    (clearOfRels ofs sz rels = true ↔ ∀ r ∈ rels, (r.ofs : Int) + 8 ≤ ofs ∨ ofs + sz ≤ r.ofs) := by
  intro rels
  induction rels with
  | nil => intro _; simp [clearOfRels]
  | cons r rs ih =>
    intro hs
    rw [List.pairwise_cons] at hs
    rw [clearOfRels]
    by_cases h1 : (r.ofs : Int) + 8 ≤ ofs
    · rw [if_pos h1, ih hs.2]
      simp [h1]
    · rw [if_neg h1]
      by_cases h2 : ofs + sz ≤ r.ofs
      · rw [if_pos h2]
        simp only [List.mem_cons, forall_eq_or_imp, true_iff]
        refine ⟨.inr h2, fun x hx => .inr ?_⟩
        have := hs.1 x hx
        omega
      · rw [if_neg h2]
        simp [h1, h2]

theorem signExtend_bits (sz : Nat) (uns : Bool) (x y : Word) (h : signExtend sz uns x = .ok y) :
    (∀ j, j < 8 * sz → y.getLsbD j = x.getLsbD j) ∧ ∀ j, 8 * sz ≤ j → j < 64 → y.getLsbD j = (!uns && x.getLsbD (8 * sz - 1)) := by
  unfold signExtend at h
  by_cases h8 : sz = 8
  · rw [if_pos h8] at h; cases h; subst h8
    exact ⟨fun _ _ => rfl, fun j h1 h2 => by omega⟩
  rw [if_neg h8] at h
  have ext : ∀ k : Nat, 0 < k → k < 64 → ∀ y : Word, y = (if uns then (x.setWidth k).setWidth 64 else (x.setWidth k).signExtend 64) →
      (∀ j, j < k → y.getLsbD j = x.getLsbD j) ∧ ∀ j, k ≤ j → j < 64 → y.getLsbD j = (!uns && x.getLsbD (k - 1)) := by
    rintro k hk hk' y rfl
    cases uns with
    | true =>
      simp only [if_true, Bool.not_true, Bool.false_and]
      constructor
      · intro j hj
        have : j < 64 := by omega
        simp [hj, this]
      · intro j hj _
        have : ¬ j < k := by omega
        simp [this]
    | false =>
      simp only [Bool.false_eq_true, if_false, Bool.not_false, Bool.true_and]
      constructor
      · intro j hj
        have : j < 64 := by omega
        rw [BitVec.getLsbD_signExtend]
        simp [hj, this]
      · intro j hj hj2
        have : ¬ j < k := by omega
        rw [BitVec.getLsbD_signExtend]
        simp only [hj2, decide_true, this, if_false, Bool.true_and]
        rw [BitVec.msb_eq_getLsbD_last, BitVec.getLsbD_setWidth]
        have : k - 1 < k := by omega
        simp [this]
  by_cases h1 : sz = 1
  · rw [if_pos h1] at h; cases h; subst h1
    exact ext 8 (by omega) (by omega) _ rfl
  rw [if_neg h1] at h
  by_cases h2 : sz = 2
  · rw [if_pos h2] at h; cases h; subst h2
    exact ext 16 (by omega) (by omega) _ rfl
  rw [if_neg h2] at h
  by_cases h4 : sz = 4
  · rw [if_pos h4] at h; cases h; subst h4
    exact ext 32 (by omega) (by omega) _ rfl
  rw [if_neg h4] at h
  cases h

theorem signExtend_ok (sz : Nat) (uns : Bool) (x : Word) (h : sz = 1 ∨ sz = 2 ∨ sz = 4 ∨ sz = 8) : ∃ y, signExtend sz uns x = .ok y := by
  rcases h with rfl | rfl | rfl | rfl <;> exact ⟨_, rfl⟩

theorem shift_bits (uns : Bool) (x : Word) (bofs w : Nat) (hw : 0 < w) (h : bofs + w ≤ 64) :
    let y := x <<< (64 - w - bofs)
    let z := if uns then y >>> (64 - w) else y.sshiftRight (64 - w)
    (∀ j, j < w → z.getLsbD j = x.getLsbD (bofs + j)) ∧ ∀ j, w ≤ j → j < 64 → z.getLsbD j = (!uns && x.getLsbD (bofs + w - 1)) := by
  intro y z
  have hy : ∀ j, j < w → y.getLsbD (64 - w + j) = x.getLsbD (bofs + j) := by
    intro j hj
    show (x <<< (64 - w - bofs)).getLsbD (64 - w + j) = _
    rw [BitVec.getLsbD_shiftLeft]
    have e1 : 64 - w + j < 64 := by omega
    have e2 : ¬ (64 - w + j < 64 - w - bofs) := by omega
    have e3 : 64 - w + j - (64 - w - bofs) = bofs + j := by omega
    simp [e1, e2, e3]
  have hm : y.msb = x.getLsbD (bofs + w - 1) := by
    rw [BitVec.msb_eq_getLsbD_last]
    have := hy (w - 1) (by omega)
    have e : 64 - w + (w - 1) = 64 - 1 := by omega
    have e2 : bofs + (w - 1) = bofs + w - 1 := by omega
    rw [e, e2] at this
    exact this
  show (∀ j, j < w → (if uns then y >>> (64 - w) else y.sshiftRight (64 - w)).getLsbD j = _) ∧ ∀ j, w ≤ j → j < 64 → (if uns then y >>> (64 - w) else y.sshiftRight (64 - w)).getLsbD j = _
  cases uns with
  | true =>
    simp only [if_true, Bool.not_true, Bool.false_and, BitVec.getLsbD_ushiftRight]
    exact ⟨hy, fun j h1 _ => BitVec.getLsbD_of_ge _ _ (by omega)⟩
  | false =>
    simp only [Bool.false_eq_true, if_false, Bool.not_false, Bool.true_and, BitVec.getLsbD_sshiftRight]
    constructor
    · intro j hj
      have e1 : ¬ 64 ≤ j := by omega
      have e2 : 64 - w + j < 64 := by omega
      rw [if_pos e2, hy j hj]
      simp [e1]
    · intro j h1 h2
      have e1 : ¬ 64 ≤ j := by omega
      have e2 : ¬ (64 - w + j < 64) := by omega
      simp [e1, e2, hm]

/-- An object in which the relocations do not overlap the part read. -/
theorem read_bits (d : Data) (o sz : Nat) (uns : Bool) (bf : Option (Nat × Nat)) (hok : ReadOk sz bf)
    (hs : d.rels.Pairwise (fun x y => x.ofs + 8 ≤ y.ofs)) (hr : ∀ r ∈ d.rels, r.ofs + 8 ≤ d.buf.n)
    (hin : o + sz ≤ d.buf.n) (hclear : ∀ r ∈ d.rels, r.ofs + 8 ≤ o ∨ o + sz ≤ r.ofs) (addr : String → Word) :
    ∀ p, 8 * o ≤ p → p < 8 * (o + sz) → MemBit addr (assemble (emitData d)) p ((d.buf.at_ (p / 8)).getLsbD (p % 8)) := by
  intro p h1 h2
  have he : assemble (emitData d) = (List.range' 0 d.buf.n).map (content d.buf.at_ d.rels) := by
    rw [emitData, emitFrom_ok d.buf d.rels 0 hs (fun r h => ⟨by omega, hr r h⟩)]
    rfl
  have hp : p / 8 < d.buf.n := by omega
  refine ⟨.byte (d.buf.at_ (p / 8)), ?_, rfl⟩
  rw [he, List.getElem?_map, List.getElem?_range' hp, Option.map_some]
  congr 1
  unfold content
  have hf : d.rels.find? (fun r => decide (r.ofs ≤ 0 + 1 * (p / 8) ∧ 0 + 1 * (p / 8) < r.ofs + 8)) = none := by
    rw [List.find?_eq_none]
    intro r hr2
    rcases hclear r hr2 with h | h <;> simp <;> omega
  rw [hf]
  simp

theorem constRead_bits (d : Data) (o sz : Nat) (uns : Bool) (bf : Option (Nat × Nat)) (hok : ReadOk sz bf)
    (hs : d.rels.Pairwise (fun x y => x.ofs + 8 ≤ y.ofs)) (hr : ∀ r ∈ d.rels, r.ofs + 8 ≤ d.buf.n)
    (hin : o + sz ≤ d.buf.n) (hclear : ∀ r ∈ d.rels, r.ofs + 8 ≤ o ∨ o + sz ≤ r.ofs) (addr : String → Word) (opt : Bool) (v : CVar) (ofs : Int)
    (hd : constData opt v ofs sz = .ok (d.buf, o)) :
    ∃ x, constRead opt v ofs sz uns bf = .ok x ∧ Reads addr (assemble (emitData d)) (place o sz bf).1 (place o sz bf).2 (!uns) x := by
  have hraw : readBuf d.buf o sz = .ok (rdBytes d.buf.at_ o sz) := by
    unfold readBuf
    rw [if_pos hok.1, if_pos hin]
  obtain ⟨y, hy⟩ := signExtend_ok sz uns (rdBytes d.buf.at_ o sz) hok.1
  obtain ⟨hb, hx⟩ := signExtend_bits sz uns _ y hy
  have h8 : 8 * sz ≤ 64 := by rcases hok.1 with h | h | h | h <;> omega
  have h1 : 1 ≤ sz := by rcases hok.1 with h | h | h | h <;> omega
  have raw : ∀ j, j < 8 * sz → MemBit addr (assemble (emitData d)) (8 * o + j) (y.getLsbD j) := by
    intro j hj
    have := read_bits d o sz uns bf hok hs hr hin hclear addr (8 * o + j) (by omega) (by omega)
    rw [hb j hj, rdBytes_bit _ _ _ _ h8]
    have e1 : (8 * o + j) / 8 = o + j / 8 := by omega
    have e2 : (8 * o + j) % 8 = j % 8 := by omega
    rw [e1, e2] at this
    simpa [hj] using this
  have run : ∀ bf : Option (Nat × Nat), constRead opt v ofs sz uns bf = (match bf with
      | none => .ok y
      | some (bofs, w) => if w = 0 ∨ 64 < bofs + w then .error .ub
        else .ok (if uns then (y <<< (64 - w - bofs)) >>> (64 - w) else (y <<< (64 - w - bofs)).sshiftRight (64 - w))) := by
    intro bf
    simp only [constRead, hd, bind, Except.bind, hraw, hy]
    rfl
  rw [run]
  cases bf with
  | none =>
    refine ⟨y, rfl, raw, fun j h2 h3 => ?_⟩
    simp only [place] at h2 ⊢
    rw [hx j h2 h3, hb (8 * sz - 1) (by omega)]
  | some q =>
    obtain ⟨bofs, w⟩ := q
    obtain ⟨hw, hfit⟩ := hok.2 bofs w rfl
    simp only
    rw [if_neg (by omega)]
    obtain ⟨g1, g2⟩ := shift_bits uns y bofs w hw (by omega)
    refine ⟨_, rfl, fun j hj => ?_, fun j h2 h3 => ?_⟩
    · simp only [place] at hj ⊢
      rw [g1 j hj, Nat.add_assoc]
      exact raw (bofs + j) (by omega)
    · simp only [place] at h2 ⊢
      rw [g2 j h2 h3, g1 (w - 1) (by omega)]
      congr 2
      omega

/-- **C70.** An integer or bit-field that the compiler reads from a `const` static object, at any offset of any
initialised object, is the one the program would read there, wherever the linker puts the symbols. -/
theorem C70_value (t : GTy) (i : Init) (hw : WF t) (hf : Fits i t) (d : Data) (hd : gvarData t i = .ok d) (opt weak isConst : Bool)
    (ofs : Int) (sz : Nat) (uns : Bool) (bf : Option (Nat × Nat)) (hok : ReadOk sz bf) (x : Word)
    (h : constRead opt ⟨some d, none, weak, isConst, t.size⟩ ofs sz uns bf = .ok x) (addr : String → Word) :
    0 ≤ ofs ∧ isConst = true ∧ weak = false ∧
      Reads addr (assemble (emitData d)) (place ofs.toNat sz bf).1 (place ofs.toNat sz bf).2 (!uns) x := by
  obtain ⟨b', new, e, p⟩ := write_ok i t hw hf 0 { n := t.size, at_ := fun _ => 0 } [] (by simp) (fun p _ _ => by simp [bitb])
  have hd' : d = { buf := b', rels := new } := by
    rw [gvarData, e] at hd
    cases hd
    rfl
  subst hd'
  simp only [Nat.mul_zero, Nat.zero_add] at p
  have hn : b'.n = t.size := p.n
  cases hc : constData opt ⟨some { buf := b', rels := new }, none, weak, isConst, t.size⟩ ofs sz with
  | error f => unfold constRead at h; rw [hc] at h; cases h
  | ok r =>
    have hc' := hc
    unfold constData at hc'
    by_cases h1 : isStaticConst opt ⟨some { buf := b', rels := new }, none, weak, isConst, t.size⟩ ofs sz = true
    · rw [if_neg (by simp [h1])] at hc'
      by_cases h2 : ofs < 0 ∨ (t.size : Int) < ofs + sz
      · rw [if_pos h2] at hc'; cases hc'
      · rw [if_neg h2] at hc'
        simp only at hc'
        cases hc'
        unfold isStaticConst at h1
        simp only at h1
        by_cases h3 : opt = false ∨ weak = true ∨ isConst = false
        · rw [if_pos h3] at h1; cases h1
        · rw [if_neg h3, clear_iff ofs sz new p.sorted] at h1
          obtain ⟨y, g1, g2⟩ := constRead_bits { buf := b', rels := new } ofs.toNat sz uns bf hok p.sorted
            (fun r hr => by have := p.range r hr; show _ ≤ b'.n; omega) (by show _ ≤ b'.n; omega)
            (fun r hr => by have := h1 r hr; omega) addr opt _ ofs hc
          rw [h] at g1
          cases g1
          refine ⟨by omega, ?_, ?_, g2⟩
          · cases isConst <;> simp_all
          · cases weak <;> simp_all
    · rw [if_pos (by simp [h1])] at hc'
      cases hc'

/-- **When the compiler reads**: when it optimises, and the object is `const`, not weak, and has an initialiser, exactly
the parts inside the object are known that no address overlaps; everything else is left to the program (the
read is refused where a constant is required), and the compiler's own behaviour is never undefined. -/
theorem C70_known (t : GTy) (i : Init) (hw : WF t) (hf : Fits i t) (d : Data) (hd : gvarData t i = .ok d) (opt weak isConst : Bool)
    (ofs : Int) (sz : Nat) (uns : Bool) (bf : Option (Nat × Nat)) (hok : ReadOk sz bf) :
    (∃ x, constRead opt ⟨some d, none, weak, isConst, t.size⟩ ofs sz uns bf = .ok x) ∧
      (opt = true ∧ weak = false ∧ isConst = true ∧ 0 ≤ ofs ∧ ofs + sz ≤ t.size ∧
        ∀ o l a, Cell.addr o l a ∈ cells i t 0 → (o : Int) + 8 ≤ ofs ∨ ofs + sz ≤ o) ∨
    constRead opt ⟨some d, none, weak, isConst, t.size⟩ ofs sz uns bf = .error .diag ∧
      ¬ (opt = true ∧ weak = false ∧ isConst = true ∧ 0 ≤ ofs ∧ ofs + sz ≤ t.size ∧
        ∀ o l a, Cell.addr o l a ∈ cells i t 0 → (o : Int) + 8 ≤ ofs ∨ ofs + sz ≤ o) := by
  obtain ⟨b', new, e, p⟩ := write_ok i t hw hf 0 { n := t.size, at_ := fun _ => 0 } [] (by simp) (fun p _ _ => by simp [bitb])
  have hd' : d = { buf := b', rels := new } := by
    rw [gvarData, e] at hd
    cases hd
    rfl
  subst hd'
  simp only [Nat.mul_zero, Nat.zero_add] at p
  have hn : b'.n = t.size := p.n
  have hcell : (∀ o l a, Cell.addr o l a ∈ cells i t 0 → (o : Int) + 8 ≤ ofs ∨ ofs + sz ≤ o) ↔
      ∀ r ∈ new, (r.ofs : Int) + 8 ≤ ofs ∨ ofs + sz ≤ r.ofs := by
    constructor
    · intro h r hr
      exact h r.ofs r.label r.addend ((p.addr _ _ _).mpr hr)
    · intro h o l a hm
      exact h ⟨o, l, a⟩ ((p.addr _ _ _).mp hm)
  rw [hcell, ← clear_iff ofs sz new p.sorted]
  by_cases hc : opt = true ∧ weak = false ∧ isConst = true ∧ 0 ≤ ofs ∧ ofs + sz ≤ t.size ∧ clearOfRels ofs sz new = true
  · left
    refine ⟨?_, hc⟩
    obtain ⟨rfl, rfl, rfl, h1, h2, h3⟩ := hc
    have hcd : constData true ⟨some { buf := b', rels := new }, none, false, true, t.size⟩ ofs sz = .ok (b', ofs.toNat) := by
      unfold constData isStaticConst
      simp only [h3]
      rw [if_neg (by simp), if_neg (by omega)]
    rw [clear_iff ofs sz new p.sorted] at h3
    obtain ⟨y, g1, -⟩ := constRead_bits { buf := b', rels := new } ofs.toNat sz uns bf hok p.sorted
      (fun r hr => by have := p.range r hr; show _ ≤ b'.n; omega) (by show _ ≤ b'.n; omega)
      (fun r hr => by have := h3 r hr; omega) (fun _ => 0) true _ ofs hcd
    exact ⟨y, g1⟩
  · right
    refine ⟨?_, hc⟩
    have : constData opt ⟨some { buf := b', rels := new }, none, weak, isConst, t.size⟩ ofs sz = .error .diag := by
      unfold constData
      by_cases h1 : isStaticConst opt ⟨some { buf := b', rels := new }, none, weak, isConst, t.size⟩ ofs sz = true
      · rw [if_neg (by simp [h1])]
        simp only
        rw [if_pos]
        unfold isStaticConst at h1
        simp only at h1
        by_cases h3 : opt = false ∨ weak = true ∨ isConst = false
        · rw [if_pos h3] at h1; cases h1
        · rw [if_neg h3] at h1
          by_cases h4 : ofs < 0 ∨ (t.size : Int) < ofs + sz
          · exact h4
          · exfalso
            apply hc
            refine ⟨?_, ?_, ?_, by omega, by omega, h1⟩
            · cases opt <;> simp_all
            · cases weak <;> simp_all
            · cases isConst <;> simp_all
      · rw [if_pos (by simp [h1])]
    unfold constRead
    rw [this]
    rfl

/-- **`constexpr` objects** are read whether or not the compiler optimises; the value is that of the data written for
them, provided no address is in the data. -/
theorem C70_constexpr (t : GTy) (i : Init) (hw : WF t) (hf : Fits i t) (d : Data) (hd : gvarData t i = .ok d) (hrel : d.rels = []) (opt weak isConst : Bool)
    (ofs : Int) (sz : Nat) (uns : Bool) (bf : Option (Nat × Nat)) (hok : ReadOk sz bf) (init : Option Data) (addr : String → Word)
    (h0 : 0 ≤ ofs) (h1 : ofs + sz ≤ t.size) :
    ∃ x, constRead opt ⟨init, some d, weak, isConst, t.size⟩ ofs sz uns bf = .ok x ∧
      Reads addr (assemble (emitData d)) (place ofs.toNat sz bf).1 (place ofs.toNat sz bf).2 (!uns) x := by
  obtain ⟨b', new, e, p⟩ := write_ok i t hw hf 0 { n := t.size, at_ := fun _ => 0 } [] (by simp) (fun p _ _ => by simp [bitb])
  have hd' : d = { buf := b', rels := new } := by
    rw [gvarData, e] at hd
    cases hd
    rfl
  subst hd'
  have hn : b'.n = t.size := p.n
  simp only at hrel
  subst hrel
  refine constRead_bits _ ofs.toNat sz uns bf hok (by simp) (by simp) (by show _ ≤ b'.n; omega) (by simp) addr opt _ ofs ?_
  unfold constData
  rw [if_neg (by simp)]
  simp only
  rw [if_neg (by omega)]

/-! ### A concrete case

`static const struct { int a; int *p; unsigned c : 3, d : 5; } x = { -1, &g + 1, 2, 9 };` -/

def exCrTy : GTy := .agg false 24 (.cons 0 none (.num 4 false) (.cons 8 none (.num 8 false)
  (.cons 16 (some (0, 3)) (.num 4 false) (.cons 16 (some (3, 5)) (.num 4 false) .nil))))
def exCrInit : Init := .list (.cons (.num (-1)) (.cons (.addr "g" 4) (.cons (.num 2) (.cons (.num 9) .nil)))) 0

theorem exCr_ok : WF exCrTy ∧ Fits exCrInit exCrTy := by
  constructor
  · simp [exCrTy, WF, WFm, region, GTy.size]
  · simp [exCrTy, exCrInit, Fits, FitsMems, isBoolTy]

theorem exCr_read : ∃ d, gvarData exCrTy exCrInit = .ok d ∧
    (constRead true ⟨some d, none, false, true, 24⟩ 0 4 false none).toOption = some (-1) ∧
    (constRead true ⟨some d, none, false, true, 24⟩ 16 4 true (some (3, 5))).toOption = some 9 ∧
    (constRead true ⟨some d, none, false, true, 24⟩ 8 8 false none).toOption = none ∧
    (constRead true ⟨some d, none, false, true, 24⟩ 21 4 false none).toOption = none :=
  ⟨_, rfl, by decide +kernel, by decide +kernel, by decide +kernel, by decide +kernel⟩

/-! ### Departure -/

/-- **A `constexpr` object that is a copy of an object with an address in it** is read as if the address were zero:
`static const struct { unsigned long q; } a = { (unsigned long)&g }; constexpr struct S b = a;` makes `b.q` zero. -/
theorem C70_constexpr_address : ∃ a b, gvarData (.agg false 8 (.cons 0 none (.num 8 false) .nil)) (.list (.cons (.addr "g" 0) .nil) 0) = .ok a ∧
    gvarData (.agg false 8 (.cons 0 none (.num 8 false) .nil)) (.copy a 0) = .ok b ∧
    b.rels = [⟨0, "g", 0⟩] ∧
    (constRead true ⟨none, some b, false, true, 8⟩ 0 8 true none).toOption = some 0 :=
  ⟨_, _, rfl, rfl, by decide +kernel, by decide +kernel⟩

end Slimcc.Props
