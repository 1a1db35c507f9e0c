/- Lemmas for C22: the directives. -/
import Verif.Lemmas.GInitWrite
set_option autoImplicit false

namespace Slimcc.GInit
open Slimcc.GInitSpec

theorem asm_append (a b : List Dir) : assemble (a ++ b) = assemble a ++ assemble b := by
  simp [assemble]

theorem asm_cons (a : Dir) (b : List Dir) : assemble (a :: b) = asmDir a ++ assemble b := by
  simp [assemble]

theorem rd_byte (f : Nat → Byte) (pos n w k : Nat) (hn : 8 * n ≤ 64) (hw : w = 8 * n) (hk : k < n) :
    (((rdBytes f pos n).setWidth w) >>> (8 * k)).setWidth 8 = f (pos + k) := by
  apply BitVec.eq_of_getLsbD_eq
  intro j hj
  rw [BitVec.getLsbD_setWidth, BitVec.getLsbD_ushiftRight, BitVec.getLsbD_setWidth,
    rdBytes_bit _ _ _ _ hn]
  have e1 : (8 * k + j) / 8 = k := by omega
  have e2 : (8 * k + j) % 8 = j := by omega
  have e3 : 8 * k + j < 8 * n := by omega
  have e4 : 8 * k + j < w := by omega
  simp [e1, e2, e3, e4, hj]

theorem map_range' (f : Nat → Out) (pos n m : Nat) :
    (List.range' pos (n + m)).map f = (List.range n).map (fun k => f (pos + k)) ++
      (List.range' (pos + n) m).map f := by
  rw [← List.range'_append_1, List.map_append]
  congr 1
  rw [List.range'_eq_map_range, List.map_map]
  rfl

theorem emitBytes_ok (f : Nat → Byte) (pos rem : Nat) :
    assemble (emitBytes f pos rem) = (List.range' pos rem).map (fun i => .byte (f i)) := by
  induction rem using Nat.strongRecOn generalizing pos with
  | _ rem ih =>
    rw [emitBytes]
    by_cases h8 : rem ≥ 8
    · rw [if_pos h8, asm_cons, ih (rem - 8) (by omega), asmDir]
      conv => rhs; rw [show rem = 8 + (rem - 8) by omega, map_range']
      congr 1
      apply List.map_congr_left
      intro k hk
      rw [List.mem_range] at hk
      have := rd_byte f pos 8 64 k (by omega) rfl hk
      rw [BitVec.setWidth_eq] at this
      rw [this]
    · rw [if_neg h8]
      by_cases h4 : rem ≥ 4
      · rw [if_pos h4, asm_cons, ih (rem - 4) (by omega), asmDir]
        conv => rhs; rw [show rem = 4 + (rem - 4) by omega, map_range']
        congr 1
        apply List.map_congr_left
        intro k hk
        rw [List.mem_range] at hk
        rw [rd_byte f pos 4 32 k (by omega) rfl hk]
      · rw [if_neg h4]
        by_cases h2 : rem ≥ 2
        · rw [if_pos h2, asm_cons, ih (rem - 2) (by omega), asmDir]
          conv => rhs; rw [show rem = 2 + (rem - 2) by omega, map_range']
          congr 1
          apply List.map_congr_left
          intro k hk
          rw [List.mem_range] at hk
          rw [rd_byte f pos 2 16 k (by omega) rfl hk]
        · rw [if_neg h2]
          by_cases h1 : rem ≥ 1
          · rw [if_pos h1, asm_cons, ih (rem - 1) (by omega), asmDir]
            conv => rhs; rw [show rem = 1 + (rem - 1) by omega, map_range']
            rfl
          · rw [if_neg h1]
            have : rem = 0 := by omega
            subst this
            rfl

/-- What byte `i` of the object is. -/
def content (f : Nat → Byte) (rels : List Rel) (i : Nat) : Out :=
  match rels.find? (fun r => decide (r.ofs ≤ i ∧ i < r.ofs + 8)) with
  | some r => .part r.label r.addend (i - r.ofs)
  | none => .byte (f i)

theorem emitFrom_ok (d : Buf) : ∀ (rels : List Rel) (pos : Nat),
    rels.Pairwise (fun x y => x.ofs + 8 ≤ y.ofs) →
    (∀ r ∈ rels, pos ≤ r.ofs ∧ r.ofs + 8 ≤ d.n) →
    assemble (emitFrom d rels pos) = (List.range' pos (d.n - pos)).map (content d.at_ rels)
  | [], pos, _, _ => by
    rw [emitFrom, emitBytes_ok]
    rfl
  | r :: rs, pos, hs, hr => by
    rw [List.pairwise_cons] at hs
    have h0 := hr r (by simp)
    rw [emitFrom, asm_append, asm_cons, emitBytes_ok,
      emitFrom_ok d rs _ hs.2 (fun x hx => by
        have := hr x (by simp [hx]); have := hs.1 x hx; omega)]
    conv => rhs; rw [show d.n - pos = (r.ofs - pos) + (8 + (d.n - (pos + (r.ofs - pos) + 8))) by omega,
      map_range', map_range']
    congr 1
    · rw [List.range'_eq_map_range, List.map_map]
      apply List.map_congr_left
      intro k hk
      rw [List.mem_range] at hk
      simp only [Function.comp_apply, content]
      rw [List.find?_eq_none.mpr]
      intro x hx
      have : r.ofs ≤ x.ofs := by
        rcases List.mem_cons.mp hx with rfl | hx
        · omega
        · have := hs.1 x hx; omega
      simp; omega
    · congr 1
      · rw [asmDir]
        apply List.map_congr_left
        intro k hk
        rw [List.mem_range] at hk
        rw [content, List.find?_cons_of_pos (by simp; omega)]
        simp only
        congr 1
        omega
      · apply List.map_congr_left
        intro i hi
        rw [List.mem_range'_1] at hi
        rw [content, content, List.find?_cons_of_neg (by simp; omega)]

/-- In sorted relocations the one that covers a byte is the one found. -/
theorem find_rel {rels : List Rel} (hs : rels.Pairwise (fun x y => x.ofs + 8 ≤ y.ofs)) {r : Rel}
    (hr : r ∈ rels) (i : Nat) (h1 : r.ofs ≤ i) (h2 : i < r.ofs + 8) :
    rels.find? (fun r => decide (r.ofs ≤ i ∧ i < r.ofs + 8)) = some r := by
  induction rels with
  | nil => simp at hr
  | cons x xs ih =>
    rw [List.pairwise_cons] at hs
    rcases List.mem_cons.mp hr with rfl | hr
    · rw [List.find?_cons_of_pos (by simp; omega)]
    · have := hs.1 r hr
      rw [List.find?_cons_of_neg (by simp; omega)]
      exact ih hs.2 hr

/-- From the bits and relocations to the assembled object. -/
theorem holds_of_post {cs : List Cell} {n : Nat} {b b' : Buf} {rels : List Rel} (hb : b.n = n)
    (p : Post cs 0 (8 * n) b b' rels) :
    Holds (assemble (emitData { buf := b', rels := rels })) n cs := by
  have hn : b'.n = n := p.n.trans hb
  have hr : ∀ r ∈ rels, r.ofs + 8 ≤ n := fun r h => by have := p.range r h; omega
  have he : assemble (emitData { buf := b', rels := rels }) =
      (List.range' 0 n).map (content b'.at_ rels) := by
    rw [emitData, emitFrom_ok b' rels 0 p.sorted (fun r h => ⟨by omega, by rw [hn]; exact hr r h⟩), hn]
    rfl
  rw [he]
  have get : ∀ i, i < n → ((List.range' 0 n).map (content b'.at_ rels))[i]? =
      some (content b'.at_ rels i) := by
    intro i hi
    rw [List.getElem?_map, List.getElem?_range' hi]
    simp
  have bit : ∀ q, q < 8 * n → (∀ r ∈ rels, ¬ (8 * r.ofs ≤ q ∧ q < 8 * (r.ofs + 8))) →
      BitIs ((List.range' 0 n).map (content b'.at_ rels)) q (bitb b' q) := by
    intro q h1 h2
    refine ⟨b'.at_ (q / 8), ?_, rfl⟩
    rw [get _ (by omega), content, List.find?_eq_none.mpr]
    intro r h
    have := h2 r h
    simp; omega
  refine ⟨by simp, ?_, ?_, ?_⟩
  · intro lo w val hc j hj
    obtain ⟨a1, a2, a3⟩ := p.bits lo w val hc
    obtain ⟨c1, c2⟩ := a3 j hj
    rw [← c1]
    exact bit _ (by omega) c2
  · intro o l a hc k hk
    have hm := (p.addr o l a).mp hc
    have := hr _ hm
    simp only at this
    rw [get _ (by omega), content, find_rel p.sorted hm _ (by simp) (by simp; omega)]
    simp only
    congr 2
    omega
  · intro q hq hc
    rw [← p.zero q (by omega) hq hc]
    refine bit q hq (fun r h => ?_)
    have := hc _ ((p.addr r.ofs r.label r.addend).mpr h)
    simpa [Cell.covers] using this

end Slimcc.GInit
