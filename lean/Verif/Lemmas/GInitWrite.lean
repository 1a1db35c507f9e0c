/- Lemmas for C22: the whole initialiser, and the directives. -/
import Verif.Lemmas.GInit
set_option autoImplicit false

namespace Slimcc.GInit
open Slimcc.GInitSpec

theorem conv_low (isBool : Bool) (v : Word) (k j : Nat) (hj : j < 8) :
    (byteOf (if isBool then (if v = 0 then 0 else 1) else v) k).getLsbD j =
      convBit isBool v (8 * k + j) := by
  rw [byteOf_bit _ _ _ hj, convBit]
  cases isBool
  · simp
  · by_cases h : v = 0
    · simp [h]
    · have h' : ¬ v = 0#64 := h
      simp only [if_true, h, if_false]
      rw [show (1 : Word) = 1#64 from rfl, BitVec.getLsbD_one]
      simp [h']

/-- What `write` does on an object of type `t`. -/
def WriteOk (i : Init) (t : GTy) : Prop := ∀ (off : Nat) (b : Buf) (rels : List Rel),
  off + t.size ≤ b.n → Zero b (8 * off) (8 * (off + t.size)) →
  ∃ b' new, write i t off b rels = .ok (b', rels ++ new) ∧
    Post (cells i t off) (8 * off) (8 * (off + t.size)) b b' new

theorem copy_ok (src : Data) (sofs : Nat) (t : GTy) (hf : Fits (.copy src sofs) t) :
    WriteOk (.copy src sofs) t := by
  intro off b rels hb hz
  have hs : SrcOk src sofs t.size := by
    cases t with
    | arr b n => exact absurd hf (by simp [Fits])
    | num s bl => exact hf
    | flo s => exact hf
    | agg u s ms => exact hf
  obtain ⟨b', new, e, hp⟩ := copy_post src sofs t.size off b rels hs hb hz
  refine ⟨b', new, ?_, ?_⟩
  · cases t with
    | arr b n => exact absurd hf (by simp [Fits])
    | num s bl => exact e
    | flo s => exact e
    | agg u s ms => exact e
  · have hc : cells (.copy src sofs) t off = copyCells src sofs t.size off := by
      cases t <;> simp [cells]
    rw [hc]; exact hp

theorem addr_ok (l : String) (a : Int) (t : GTy) (hf : Fits (.addr l a) t) :
    WriteOk (.addr l a) t := by
  intro off b rels hb hz
  cases t with
  | num s bl =>
    obtain ⟨rfl, rfl⟩ := hf
    refine ⟨b, [⟨off, l, a⟩], by simp [write, writeLeaf], ?_⟩
    have hc : cells (.addr l a) (.num 8 false) off = [.addr off l a] := by simp [cells]
    rw [hc]
    simp only [GTy.size] at hz ⊢
    refine ⟨rfl, by omega, fun _ _ => rfl, ?_, ?_, ?_, ?_, List.pairwise_singleton _ _⟩
    · intro l w v h; simp at h
    · intro p h1 h2 _; exact hz p h1 h2
    · intro o l' a'; simp
    · intro r hr
      rw [List.mem_singleton] at hr
      subst hr
      simp only
      omega
  | _ => exact absurd hf (by simp [Fits])

theorem num_ok (v : Word) (t : GTy) (hf : Fits (.num v) t) : WriteOk (.num v) t := by
  intro off b rels hb hz
  cases t with
  | num s bl =>
    obtain ⟨b', e, hp⟩ := wr_post b off s (byteOf (if bl then (if v = 0 then 0 else 1) else v))
      (convBit bl v) hb (fun k j _ hj => conv_low bl v k j hj)
    refine ⟨b', [], ?_, by simpa [cells, GTy.size] using hp⟩
    simp only [write, writeLeaf]
    rw [e]
    simp [bind, Except.bind]
  | _ => exact absurd hf (by simp [Fits])

theorem flo_ok (bs : List Byte) (t : GTy) (hf : Fits (.flo bs) t) : WriteOk (.flo bs) t := by
  intro off b rels hb hz
  cases t with
  | flo s =>
    have hl : bs.length ≤ s := hf
    simp only [GTy.size] at hb hz ⊢
    obtain ⟨b', e, hp⟩ := wr_post b off bs.length (fun k => bs.getD k 0)
      (fun j => (bs.getD (j / 8) 0).getLsbD (j % 8)) (by omega)
      (fun k j _ hj => by
        have e1 : (8 * k + j) / 8 = k := by omega
        have e2 : (8 * k + j) % 8 = j := by omega
        simp only [e1, e2])
    refine ⟨b', [], ?_, ?_⟩
    · simp only [write, writeLeaf]
      rw [e]
      simp [bind, Except.bind]
    · have := hp.widen (l' := 8 * off) (h' := 8 * (off + s)) (by omega) (by omega) hz
      simpa [cells] using this
  | _ => exact absurd hf (by simp [Fits])

/-- One member of a structure or union. -/
theorem member_ok (e : Init) (o s prev : Nat) (bf : Option (Nat × Nat)) (t : GTy) (ms : GMems)
    (u : Bool) (hw : WFm (.cons o bf t ms) u prev s) (hf1 : Fits e t)
    (hf2 : bf ≠ none → e = .none ∨ ∃ v, e = .num v ∧ (isBoolTy t = true → v = 0 ∨ v = 1))
    (ih : WriteOk e t) (off : Nat) (b : Buf) (rels : List Rel) (hb : off + s ≤ b.n)
    (hz : Zero b (8 * off + (region o bf t).1) (8 * off + (region o bf t).2)) :
    ∃ b1 n1, storeMember bf e t (off + o) b rels (write e t (off + o) b rels) = .ok (b1, rels ++ n1) ∧
      Post (memberCells bf e t (off + o) (cells e t (off + o)))
        (8 * off + (region o bf t).1) (8 * off + (region o bf t).2) b b1 n1 := by
  simp only [WFm] at hw
  obtain ⟨hw1, hw2, hw3, hw4, hw5⟩ := hw
  cases bf with
  | none =>
    simp only [region] at hz ⊢
    have r1 : 8 * off + 8 * o = 8 * (off + o) := by omega
    have r2 : 8 * off + 8 * (o + t.size) = 8 * (off + o + t.size) := by omega
    rw [r1, r2] at hz ⊢
    obtain ⟨b1, n1, e1, p1⟩ := ih (off + o) b rels (by omega) hz
    exact ⟨b1, n1, by simpa [storeMember] using e1, by simpa [memberCells] using p1⟩
  | some x =>
    obtain ⟨bofs, w⟩ := x
    simp only [region] at hw3 hw4 hz ⊢
    rcases hf2 (by simp) with rfl | ⟨v, rfl, hv⟩
    · refine ⟨b, [], by simp [storeMember, write], ?_⟩
      have : memberCells (some (bofs, w)) .none t (off + o) (cells .none t (off + o)) = [] := by
        cases t <;> simp [memberCells, cells]
      rw [this]
      exact Post.nil b _ _ (by omega) hz
    · have r1 : 8 * off + (8 * o + bofs) = 8 * (off + o) + bofs := by omega
      have r2 : 8 * off + (8 * o + bofs + w) = 8 * (off + o) + bofs + w := by omega
      rw [r1, r2] at hz ⊢
      obtain ⟨b1, e1, p1⟩ := writeBits_post b (off + o) t.size bofs w v (convBit (isBoolTy t) v)
        (by omega) hw4.1 hw4.2.2.1 hw4.2.1 hz
        (fun j hj => by
          rw [convBit]
          cases hB : isBoolTy t with
          | false => simp
          | true =>
            rcases hv hB with rfl | rfl
            · simp
            · rw [show (1 : Word) = 1#64 from rfl, BitVec.getLsbD_one]; simp)
      refine ⟨b1, [], ?_, p1⟩
      simp only [storeMember, e1, bind, Except.bind, List.append_nil]

theorem region_in {o s prev : Nat} {bf : Option (Nat × Nat)} {t : GTy} {ms : GMems} {u : Bool}
    (hw : WFm (.cons o bf t ms) u prev s) :
    (region o bf t).1 ≤ (region o bf t).2 ∧ (region o bf t).2 ≤ 8 * s := by
  simp only [WFm] at hw
  obtain ⟨hw1, hw2, hw3, hw4, hw5⟩ := hw
  cases bf with
  | none => simp only [region]; omega
  | some x => obtain ⟨x1, x2⟩ := x; simp only [region] at hw4 ⊢; omega

theorem WFm_parts {o s prev : Nat} {bf : Option (Nat × Nat)} {t : GTy} {ms : GMems} {u : Bool}
    (hw : WFm (.cons o bf t ms) u prev s) :
    WF t ∧ (u = false → prev ≤ (region o bf t).1) ∧ WFm ms u (region o bf t).2 s := by
  simp only [WFm] at hw
  exact ⟨hw.1, hw.2.2.1, hw.2.2.2.2⟩

theorem cellsMems_after : ∀ (es : Inits) (ms : GMems) (k j off : Nat), k < j →
    cellsMems es ms true k j off = []
  | .cons e es, .cons o bf t ms, k, j, off, h => by
    rw [cellsMems, if_pos ⟨rfl, by omega⟩]
    exact cellsMems_after es ms k (j + 1) off (by omega)
  | .nil, ms, k, j, off, h => by cases ms <;> simp [cellsMems]
  | .cons e es, .nil, k, j, off, h => by simp [cellsMems]

theorem writeMems_after : ∀ (es : Inits) (ms : GMems) (k j off : Nat) (b : Buf) (rels : List Rel),
    k < j → FitsMems es ms → writeMems es ms true k j off b rels = .ok (b, rels)
  | .cons e es, .cons o bf t ms, k, j, off, b, rels, h, hf => by
    rw [writeMems, if_pos ⟨rfl, by omega⟩]
    exact writeMems_after es ms k (j + 1) off b rels (by omega) (by simp only [FitsMems] at hf; exact hf.2.2)
  | .nil, .nil, k, j, off, b, rels, h, hf => by simp [writeMems]
  | .nil, .cons .., k, j, off, b, rels, h, hf => absurd hf (by simp [FitsMems])
  | .cons e es, .nil, k, j, off, b, rels, h, hf => absurd hf (by simp [FitsMems])

mutual
theorem write_ok : ∀ (i : Init) (t : GTy), WF t → Fits i t → WriteOk i t
  | .none, t, _, _ => by
    intro off b rels hb hz
    refine ⟨b, [], by simp [write], ?_⟩
    have hc : cells .none t off = [] := by cases t <;> simp [cells]
    rw [hc]
    exact Post.nil b _ _ (by omega) hz
  | .list es k, .arr t n, hw, hf => by
    intro off b rels hb hz
    simp only [GTy.size] at hb hz ⊢
    obtain ⟨b', new, e, hp⟩ := writeArr_ok es t n 0 hw (by simpa [Fits] using hf) off b rels
      (by simpa using hb) (by simpa using hz)
    refine ⟨b', new, by simpa [write] using e, ?_⟩
    simpa [cells] using hp
  | .list es k, .agg u s ms, hw, hf => by
    intro off b rels hb hz
    simp only [GTy.size] at hb hz ⊢
    cases u with
    | false =>
      obtain ⟨b', new, e, hp⟩ := writeStruct_ok es ms k 0 0 s hw (by simpa [Fits] using hf) off b rels
        hb (by simpa using hz) (by omega)
      refine ⟨b', new, by simpa [write] using e, ?_⟩
      simpa [cells] using hp
    | true =>
      obtain ⟨b', new, e, hp⟩ := writeUnion_ok es ms k 0 0 s hw (by simpa [Fits] using hf) off b rels
        hb hz
      refine ⟨b', new, by simpa [write] using e, ?_⟩
      simpa [cells] using hp
  | .num v, t, _, hf => num_ok v t hf
  | .flo bs, t, _, hf => flo_ok bs t hf
  | .addr l a, t, _, hf => addr_ok l a t hf
  | .copy src sofs, t, _, hf => copy_ok src sofs t hf
  | .list _ _, .num _ _, _, hf => absurd hf (by simp [Fits])
  | .list _ _, .flo _, _, hf => absurd hf (by simp [Fits])
theorem writeArr_ok : ∀ (es : Inits) (t : GTy) (n i : Nat), WF t → FitsArr es t (n - i) →
    ∀ (off : Nat) (b : Buf) (rels : List Rel), off + t.size * n ≤ b.n →
    Zero b (8 * (off + t.size * i)) (8 * (off + t.size * n)) →
    ∃ b' new, writeArr es t n off i b rels = .ok (b', rels ++ new) ∧
      Post (cellsArr es t n off i) (8 * (off + t.size * min i n)) (8 * (off + t.size * n)) b b' new
  | .nil, t, n, i, hw, hf, off, b, rels, hb, hz => by
    have hle : n ≤ i := by simp only [FitsArr] at hf; omega
    refine ⟨b, [], by rw [writeArr, if_neg (by omega)]; simp, ?_⟩
    rw [cellsArr, Nat.min_eq_right hle]
    exact Post.nil b _ _ (by omega) (fun p h1 h2 => absurd h1 (by omega))
  | .cons e es, t, n, i, hw, hf, off, b, rels, hb, hz => by
    simp only [FitsArr] at hf
    obtain ⟨h0, hf1, hf2⟩ := hf
    have hi : i < n := by omega
    have hm : t.size * (i + 1) ≤ t.size * n := Nat.mul_le_mul_left _ hi
    have hm' : t.size * (i + 1) = t.size * i + t.size := Nat.mul_succ _ _
    obtain ⟨b1, n1, e1, p1⟩ := write_ok e t hw hf1 (off + t.size * i) b rels (by omega)
      (hz.sub (by omega) (by omega))
    have z2 : Zero b (8 * (off + t.size * (i + 1))) (8 * (off + t.size * n)) :=
      hz.sub (by omega) (by omega)
    obtain ⟨b2, n2, e2, p2⟩ := writeArr_ok es t n (i + 1) hw
      (by rw [show n - (i + 1) = n - i - 1 by omega]; exact hf2) off b1 (rels ++ n1)
      (by rw [p1.n]; exact hb) (Zero.after p1 z2 (by omega))
    rw [Nat.min_eq_left (by omega)] at p2
    refine ⟨b2, n1 ++ n2, ?_, ?_⟩
    · rw [writeArr, if_pos hi, e1]
      simp only [bind, Except.bind]
      rw [e2, List.append_assoc]
    · rw [cellsArr, if_pos hi, Nat.min_eq_left (by omega)]
      exact p1.seq p2 (by omega) hz
/-- The members of a structure, from bit `prev` on. -/
theorem writeStruct_ok : ∀ (es : Inits) (ms : GMems) (k j prev s : Nat), WFm ms false prev s →
    FitsMems es ms → ∀ (off : Nat) (b : Buf) (rels : List Rel), off + s ≤ b.n →
    Zero b (8 * off + prev) (8 * (off + s)) → prev ≤ 8 * s →
    ∃ b' new, writeMems es ms false k j off b rels = .ok (b', rels ++ new) ∧
      Post (cellsMems es ms false k j off) (8 * off + prev) (8 * (off + s)) b b' new
  | .nil, .nil, k, j, prev, s, hw, hf, off, b, rels, hb, hz, hs =>
    ⟨b, [], by simp [writeMems], by simpa [cellsMems] using Post.nil b _ _ (by omega) hz⟩
  | .cons _ _, .nil, k, j, prev, s, hw, hf, off, b, rels, hb, hz, hs =>
    absurd hf (by simp [FitsMems])
  | .nil, .cons .., k, j, prev, s, hw, hf, off, b, rels, hb, hz, hs =>
    absurd hf (by simp [FitsMems])
  | .cons e es, .cons o bf t ms, k, j, prev, s, hw, hf, off, b, rels, hb, hz, hs => by
    simp only [FitsMems] at hf
    obtain ⟨hf1, hf2, hf3⟩ := hf
    have hreg := region_in hw
    have hprev : prev ≤ (region o bf t).1 := (WFm_parts hw).2.1 rfl
    have hwt : WF t := (WFm_parts hw).1
    have hwr : WFm ms false (region o bf t).2 s := (WFm_parts hw).2.2
    obtain ⟨b1, n1, e1, p1⟩ := member_ok e o s prev bf t ms false hw hf1 hf2 (write_ok e t hwt hf1)
      off b rels hb (hz.sub (by omega) (by omega))
    have z2 : Zero b (8 * off + (region o bf t).2) (8 * (off + s)) := hz.sub (by omega) (by omega)
    obtain ⟨b2, n2, e2, p2⟩ := writeStruct_ok es ms k (j + 1) (region o bf t).2 s hwr hf3 off b1
      (rels ++ n1) (by rw [p1.n]; exact hb) (Zero.after p1 z2 (by omega)) hreg.2
    refine ⟨b2, n1 ++ n2, ?_, ?_⟩
    · rw [writeMems, if_neg (by simp), e1]
      simp only [bind, Except.bind]
      rw [e2, List.append_assoc]
    · rw [cellsMems, if_neg (by simp)]
      exact (p1.seq p2 (Nat.le_refl _) (hz.sub (by omega) (by omega))).widen
        (l' := 8 * off + prev) (h' := 8 * (off + s)) (by omega) (by omega) hz
/-- The members of a union: only the one chosen. -/
theorem writeUnion_ok : ∀ (es : Inits) (ms : GMems) (k j prev s : Nat), WFm ms true prev s →
    FitsMems es ms → ∀ (off : Nat) (b : Buf) (rels : List Rel), off + s ≤ b.n →
    Zero b (8 * off) (8 * (off + s)) →
    ∃ b' new, writeMems es ms true k j off b rels = .ok (b', rels ++ new) ∧
      Post (cellsMems es ms true k j off) (8 * off) (8 * (off + s)) b b' new
  | .nil, .nil, k, j, prev, s, hw, hf, off, b, rels, hb, hz =>
    ⟨b, [], by simp [writeMems], by simpa [cellsMems] using Post.nil b _ _ (by omega) hz⟩
  | .cons _ _, .nil, k, j, prev, s, hw, hf, off, b, rels, hb, hz =>
    absurd hf (by simp [FitsMems])
  | .nil, .cons .., k, j, prev, s, hw, hf, off, b, rels, hb, hz =>
    absurd hf (by simp [FitsMems])
  | .cons e es, .cons o bf t ms, k, j, prev, s, hw, hf, off, b, rels, hb, hz => by
    simp only [FitsMems] at hf
    obtain ⟨hf1, hf2, hf3⟩ := hf
    have hreg := region_in hw
    have hwt : WF t := (WFm_parts hw).1
    have hwr : WFm ms true (region o bf t).2 s := (WFm_parts hw).2.2
    by_cases hj : j = k
    · subst hj
      obtain ⟨b1, n1, e1, p1⟩ := member_ok e o s prev bf t ms true hw hf1 hf2 (write_ok e t hwt hf1)
        off b rels hb (hz.sub (by omega) (by omega))
      refine ⟨b1, n1, ?_, ?_⟩
      · rw [writeMems, if_neg (by simp), e1]
        simp only [bind, Except.bind]
        exact writeMems_after es ms j (j + 1) off b1 (rels ++ n1) (by omega) hf3
      · rw [cellsMems, if_neg (by simp), cellsMems_after es ms j (j + 1) off (by omega), List.append_nil]
        exact p1.widen (by omega) (by omega) hz
    · rw [writeMems, if_pos ⟨rfl, hj⟩, cellsMems, if_pos ⟨rfl, hj⟩]
      exact writeUnion_ok es ms k (j + 1) (region o bf t).2 s hwr hf3 off b rels hb hz
end

end Slimcc.GInit
