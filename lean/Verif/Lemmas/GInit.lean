/- Lemmas for C22: writing the data of a static object. -/
import Verif.Spec.GInit
set_option autoImplicit false

namespace Slimcc.GInit
open Slimcc.GInitSpec

/-- Bit `p` of the data. -/
def bitb (b : Buf) (p : Nat) : Bool := (b.at_ (p / 8)).getLsbD (p % 8)

theorem byteOf_bit (v : Word) (k j : Nat) (h : j < 8) :
    (byteOf v k).getLsbD j = v.getLsbD (8 * k + j) := by
  simp [byteOf, h]

theorem wr_ok (b : Buf) (ofs sz : Nat) (f : Nat → Byte) (h : ofs + sz ≤ b.n) :
    ∃ b', b.wr ofs sz f = .ok b' ∧ b'.n = b.n ∧
      (∀ i, b'.at_ i = if ofs ≤ i ∧ i < ofs + sz then f (i - ofs) else b.at_ i) := by
  simp [Buf.wr, h]

theorem rdBytes_bit (f : Nat → Byte) (ofs : Nat) : ∀ (k p : Nat), 8 * k ≤ 64 →
    (rdBytes f ofs k).getLsbD p = (decide (p < 8 * k) && (f (ofs + p / 8)).getLsbD (p % 8))
  | 0, p, _ => by simp [rdBytes]
  | k + 1, p, hk => by
    rw [rdBytes, BitVec.getLsbD_or, rdBytes_bit f ofs k p (by omega), BitVec.getLsbD_shiftLeft,
      BitVec.getLsbD_setWidth]
    by_cases h1 : p < 8 * k
    · have : p < 8 * (k + 1) := by omega
      simp [h1, this]
    · by_cases h2 : p < 8 * (k + 1)
      · have e1 : p / 8 = k := by omega
        have e2 : p - 8 * k = p % 8 := by omega
        have h3 : p < 64 := by omega
        have h4 : p % 8 < 64 := by omega
        simp [h1, h2, h3, e1, e2, h4]
      · have h5 : (f (ofs + k)).getLsbD (p - 8 * k) = false := by
          apply BitVec.getLsbD_of_ge; omega
        simp [h1, h2, h5]

theorem mask_bit (w j : Nat) (m : Word) (h : maskOf w = .ok m) :
    m.getLsbD j = decide (j < w) := by
  unfold maskOf at h
  split at h <;> rename_i hw
  · cases h
    have e : ((1 : Word) <<< w) - 1 = BitVec.ofNat 64 (2 ^ w - 1) := by
      apply BitVec.eq_of_toNat_eq
      have hp : 2 ^ w < 2 ^ 64 := Nat.pow_lt_pow_right (by omega) (by omega)
      have hq : 0 < 2 ^ w := Nat.pow_pos (by omega)
      simp only [BitVec.toNat_sub, BitVec.toNat_shiftLeft, BitVec.toNat_ofNat, Nat.shiftLeft_eq]
      have e1 : (1 : Word).toNat = 1 := rfl
      rw [e1]
      omega
    rw [e, BitVec.getLsbD_ofNat, Nat.testBit_two_pow_sub_one]
    by_cases hj : j < w
    · have : j < 64 := by omega
      simp [hj, this]
    · simp [hj]
  · cases h

/-- The effect of writing on the bits `lo` to `hi`, which are zero before. -/
structure Post (cs : List Cell) (lo hi : Nat) (b b' : Buf) (new : List Rel) : Prop where
  n : b'.n = b.n
  le : lo ≤ hi
  outside : ∀ p, p < lo ∨ hi ≤ p → bitb b' p = bitb b p
  bits : ∀ l w v, Cell.bits l w v ∈ cs → lo ≤ l ∧ l + w ≤ hi ∧
    ∀ j, j < w → bitb b' (l + j) = v j ∧ ∀ r ∈ new, ¬ (8 * r.ofs ≤ l + j ∧ l + j < 8 * (r.ofs + 8))
  zero : ∀ p, lo ≤ p → p < hi → (∀ c ∈ cs, ¬ c.covers p) → bitb b' p = false
  addr : ∀ o l a, Cell.addr o l a ∈ cs ↔ (⟨o, l, a⟩ : Rel) ∈ new
  range : ∀ r ∈ new, lo ≤ 8 * r.ofs ∧ 8 * (r.ofs + 8) ≤ hi
  sorted : new.Pairwise (fun x y => x.ofs + 8 ≤ y.ofs)

def Zero (b : Buf) (lo hi : Nat) : Prop := ∀ p, lo ≤ p → p < hi → bitb b p = false

theorem Post.nil (b : Buf) (lo hi : Nat) (h : lo ≤ hi) (hz : Zero b lo hi) :
    Post [] lo hi b b [] where
  n := rfl
  le := h
  outside := fun _ _ => rfl
  bits := by simp
  zero := fun p h1 h2 _ => hz p h1 h2
  addr := by simp
  range := by simp
  sorted := List.Pairwise.nil

theorem Post.seq {cs ds : List Cell} {l1 h1 l2 h2 : Nat} {b b1 b2 : Buf} {m n : List Rel}
    (p : Post cs l1 h1 b b1 m) (q : Post ds l2 h2 b1 b2 n) (h : h1 ≤ l2) (hz : Zero b l1 h2) :
    Post (cs ++ ds) l1 h2 b b2 (m ++ n) where
  n := q.n.trans p.n
  le := by have := p.le; have := q.le; omega
  outside := fun x hx => by
    have := p.le; have := q.le
    rw [q.outside x (by omega), p.outside x (by omega)]
  bits := by
    have hpl := p.le; have hql := q.le
    intro l w v hc
    rcases List.mem_append.mp hc with hc | hc
    · obtain ⟨a1, a2, a3⟩ := p.bits l w v hc
      refine ⟨a1, by omega, fun j hj => ?_⟩
      obtain ⟨c1, c2⟩ := a3 j hj
      refine ⟨by rw [q.outside _ (by omega)]; exact c1, fun r hr => ?_⟩
      rcases List.mem_append.mp hr with hr | hr
      · exact c2 r hr
      · have := q.range r hr; omega
    · obtain ⟨a1, a2, a3⟩ := q.bits l w v hc
      refine ⟨by omega, by omega, fun j hj => ?_⟩
      obtain ⟨c1, c2⟩ := a3 j hj
      refine ⟨c1, fun r hr => ?_⟩
      rcases List.mem_append.mp hr with hr | hr
      · have := p.range r hr; omega
      · exact c2 r hr
  zero := fun x hx1 hx2 hc => by
    have hpl := p.le; have hql := q.le
    by_cases a : x < h1
    · rw [q.outside x (by omega)]
      exact p.zero x hx1 a (fun c hc' => hc c (by simp [hc']))
    · by_cases a2 : x < l2
      · rw [q.outside x (by omega), p.outside x (by omega)]
        exact hz x hx1 hx2
      · exact q.zero x (by omega) hx2 (fun c hc' => hc c (by simp [hc']))
  addr := fun o l a => by simp [p.addr, q.addr]
  range := fun r hr => by
    have hpl := p.le; have hql := q.le
    rcases List.mem_append.mp hr with hr | hr
    · have := p.range r hr; omega
    · have := q.range r hr; omega
  sorted := by
    rw [List.pairwise_append]
    refine ⟨p.sorted, q.sorted, fun x hx y hy => ?_⟩
    have := p.range x hx; have := q.range y hy; omega

theorem Post.widen {cs : List Cell} {l h l' h' : Nat} {b b' : Buf} {m : List Rel}
    (p : Post cs l h b b' m) (h1 : l' ≤ l) (h2 : h ≤ h') (hz : Zero b l' h') :
    Post cs l' h' b b' m where
  n := p.n
  le := by have := p.le; omega
  outside := fun x hx => by have := p.le; exact p.outside x (by omega)
  bits := fun a w v hc => by
    obtain ⟨a1, a2, a3⟩ := p.bits a w v hc
    exact ⟨by omega, by omega, a3⟩
  zero := fun x hx1 hx2 hc => by
    by_cases a : l ≤ x ∧ x < h
    · exact p.zero x a.1 a.2 hc
    · rw [p.outside x (by omega)]; exact hz x hx1 hx2
  addr := p.addr
  range := fun r hr => by have := p.range r hr; omega
  sorted := p.sorted

theorem Zero.after {cs : List Cell} {l h l2 h2 : Nat} {b b' : Buf} {m : List Rel}
    (p : Post cs l h b b' m) (hz : Zero b l2 h2) (hh : h ≤ l2) : Zero b' l2 h2 := by
  intro x h1 h2
  have := p.le
  rw [p.outside x (by omega)]; exact hz x h1 h2

theorem Zero.sub {l h l2 h2 : Nat} {b : Buf} (hz : Zero b l h) (h1 : l ≤ l2) (hh : h2 ≤ h) :
    Zero b l2 h2 := fun x a c => hz x (by omega) (by omega)

/-- Writing whole bytes. -/
theorem wr_post (b : Buf) (ofs sz : Nat) (f : Nat → Byte) (v : Nat → Bool) (h : ofs + sz ≤ b.n)
    (hv : ∀ k j, k < sz → j < 8 → (f k).getLsbD j = v (8 * k + j)) :
    ∃ b', b.wr ofs sz f = .ok b' ∧
      Post [.bits (8 * ofs) (8 * sz) v] (8 * ofs) (8 * (ofs + sz)) b b' [] := by
  obtain ⟨b', e, hn, hb⟩ := wr_ok b ofs sz f h
  refine ⟨b', e, ?_⟩
  refine ⟨hn, by omega, ?_, ?_, ?_, by simp, by simp, List.Pairwise.nil⟩
  · intro p hp
    rw [bitb, hb, if_neg (by omega)]; rfl
  · intro l w v' hc
    simp only [List.mem_singleton, Cell.bits.injEq] at hc
    obtain ⟨rfl, rfl, rfl⟩ := hc
    refine ⟨by omega, by omega, fun j hj => ⟨?_, by simp⟩⟩
    rw [bitb, hb, if_pos (by omega), hv _ _ (by omega) (by omega)]
    congr 1; omega
  · intro p h1 h2 hc
    exact absurd ⟨h1, by omega⟩ (hc _ (List.mem_singleton.mpr rfl))

/-- Writing a bit-field. -/
theorem writeBits_post (b : Buf) (ofs sz bofs w : Nat) (v : Word) (x : Nat → Bool)
    (h : ofs + sz ≤ b.n) (hs : sz = 1 ∨ sz = 2 ∨ sz = 4 ∨ sz = 8) (hw : w < 63)
    (hin : bofs + w ≤ 8 * sz) (hz : Zero b (8 * ofs + bofs) (8 * ofs + bofs + w))
    (hx : ∀ j, j < w → x j = v.getLsbD j) :
    ∃ b', writeBits b ofs sz bofs w v = .ok b' ∧
      Post [.bits (8 * ofs + bofs) w x] (8 * ofs + bofs) (8 * ofs + bofs + w) b b' [] := by
  have hm : maskOf w = .ok (((1 : Word) <<< w) - 1) := by simp [maskOf, hw]
  have hr : readBuf b ofs sz = .ok (rdBytes b.at_ ofs sz) := by simp [readBuf, hs, h]
  have hs8 : 8 * sz ≤ 64 := by omega
  obtain ⟨b', e, hn, hb⟩ := wr_ok b ofs sz
    (byteOf (rdBytes b.at_ ofs sz ||| ((v &&& (((1 : Word) <<< w) - 1)) <<< bofs))) h
  have key : ∀ p, 8 * ofs ≤ p → p < 8 * (ofs + sz) → bitb b' p =
      (bitb b p || (decide (8 * ofs + bofs ≤ p ∧ p < 8 * ofs + bofs + w) &&
        v.getLsbD (p - (8 * ofs + bofs)))) := by
    intro p h1 h2
    rw [bitb, hb, if_pos (by omega), byteOf_bit _ _ _ (by omega), BitVec.getLsbD_or,
      rdBytes_bit _ _ _ _ hs8, BitVec.getLsbD_shiftLeft, BitVec.getLsbD_and, mask_bit w _ _ hm]
    have e1 : 8 * (p / 8 - ofs) + p % 8 = p - 8 * ofs := by omega
    have e2 : ofs + (p - 8 * ofs) / 8 = p / 8 := by omega
    have e3 : (p - 8 * ofs) % 8 = p % 8 := by omega
    rw [e1, e2, e3]
    have e4 : p - 8 * ofs < 8 * sz := by omega
    have e5 : p - 8 * ofs < 64 := by omega
    have e6 : p - 8 * ofs - bofs = p - (8 * ofs + bofs) := by omega
    rw [e6]
    simp only [e4, e5, decide_true, Bool.true_and, bitb]
    congr 1
    by_cases a : 8 * ofs + bofs ≤ p
    · have a1 : ¬ (p - 8 * ofs < bofs) := by omega
      by_cases a2 : p < 8 * ofs + bofs + w
      · have a3 : p - (8 * ofs + bofs) < w := by omega
        simp [a, a1, a2, a3]
      · have a3 : ¬ (p - (8 * ofs + bofs) < w) := by omega
        simp [a2, a3]
    · have a1 : p - 8 * ofs < bofs := by omega
      simp [a, a1]
  refine ⟨b', ?_, ?_⟩
  · simp only [writeBits, hr, hm, bind, Except.bind]; exact e
  refine ⟨hn, by omega, ?_, ?_, ?_, by simp, by simp, List.Pairwise.nil⟩
  · intro p hp
    by_cases a : 8 * ofs ≤ p ∧ p < 8 * (ofs + sz)
    · rw [key p a.1 a.2]
      have : ¬ (8 * ofs + bofs ≤ p ∧ p < 8 * ofs + bofs + w) := by omega
      simp [this]
    · rw [bitb, hb, if_neg (by omega)]; rfl
  · intro l w' v' hc
    simp only [List.mem_singleton, Cell.bits.injEq] at hc
    obtain ⟨rfl, rfl, rfl⟩ := hc
    refine ⟨by omega, by omega, fun j hj => ⟨?_, by simp⟩⟩
    rw [key _ (by omega) (by omega), hz _ (by omega) (by omega), hx j hj]
    have e1 : 8 * ofs + bofs + j - (8 * ofs + bofs) = j := by omega
    rw [e1]
    simp [hj]
  · intro p h1 h2 hc
    exact absurd ⟨h1, by omega⟩ (hc _ (List.mem_singleton.mpr rfl))

/-! ### Copying from a constant object -/

/-- Position `q` of the source holds an address. -/
def inRel (rels : List Rel) (q : Nat) : Bool := rels.any (fun r => decide (r.ofs ≤ q ∧ q < r.ofs + 8))

theorem copyLoop_ok (src : Data) (sofs off size : Nat) : ∀ (fuel pos : Nat) (rels : List Rel)
    (b : Buf) (out : List Rel), size ≤ fuel + pos → off + size ≤ b.n →
    rels.Pairwise (fun x y => x.ofs + 8 ≤ y.ofs) →
    (∀ r ∈ rels, pos + sofs ≤ r.ofs ∧ r.ofs + 8 ≤ src.buf.n ∧
      (r.ofs + 8 ≤ sofs + size ∨ sofs + size ≤ r.ofs)) →
    ∃ b', copyLoop src sofs off size fuel pos rels b out =
        .ok (b', out ++ (rels.filter (fun r => decide (r.ofs < sofs + size))).map
          (fun r => { ofs := off + (r.ofs - sofs), label := r.label, addend := r.addend })) ∧
      b'.n = b.n ∧
      ∀ i, b'.at_ i = if off + pos ≤ i ∧ i < off + size ∧ i - off + sofs < src.buf.n ∧
        inRel rels (i - off + sofs) = false then src.buf.at_ (i - off + sofs) else b.at_ i
  | 0, pos, rels, b, out, hf, hb, hs, hr => by
    refine ⟨b, ?_, rfl, fun i => by rw [if_neg (by omega)]⟩
    rw [copyLoop]
    have : rels.filter (fun r => decide (r.ofs < sofs + size)) = [] := by
      rw [List.filter_eq_nil_iff]
      intro r h
      have := hr r h
      simp; omega
    simp [this]
  | fuel + 1, pos, rels, b, out, hf, hb, hs, hr => by
    rw [copyLoop.eq_def]
    dsimp only
    by_cases hc : pos < size ∧ pos + sofs < src.buf.n
    · rw [if_pos hc]
      have bytewise : (∀ r ∈ rels, r.ofs ≠ pos + sofs) → ∃ b',
          (b.wr (pos + off) 1 (fun _ => src.buf.at_ (pos + sofs)) >>= fun b =>
            copyLoop src sofs off size fuel (pos + 1) rels b out) =
          .ok (b', out ++ (rels.filter (fun r => decide (r.ofs < sofs + size))).map
            (fun r => { ofs := off + (r.ofs - sofs), label := r.label, addend := r.addend })) ∧
          b'.n = b.n ∧
          ∀ i, b'.at_ i = if off + pos ≤ i ∧ i < off + size ∧ i - off + sofs < src.buf.n ∧
            inRel rels (i - off + sofs) = false then src.buf.at_ (i - off + sofs) else b.at_ i := by
        intro hne
        obtain ⟨b1, e1, n1, a1⟩ := wr_ok b (pos + off) 1 (fun _ => src.buf.at_ (pos + sofs)) (by omega)
        obtain ⟨b2, e2, n2, a2⟩ := copyLoop_ok src sofs off size fuel (pos + 1) rels b1 out (by omega)
          (by omega) hs (fun r h => by have := hr r h; have := hne r h; omega)
        refine ⟨b2, by rw [e1]; exact e2, by omega, fun i => ?_⟩
        rw [a2 i]
        by_cases hi : i = pos + off
        · subst hi
          have hin : inRel rels (pos + off - off + sofs) = false := by
            rw [inRel, List.any_eq_false]
            intro r h
            have := hr r h; have := hne r h
            simp; omega
          rw [if_neg (by omega), if_pos ⟨by omega, by omega, by omega, hin⟩, a1, if_pos (by omega)]
          congr 1; omega
        · by_cases hc2 : off + (pos + 1) ≤ i ∧ i < off + size ∧ i - off + sofs < src.buf.n ∧
              inRel rels (i - off + sofs) = false
          · rw [if_pos hc2, if_pos ⟨by omega, hc2.2⟩]
          · rw [if_neg hc2, if_neg (fun h => hc2 ⟨by omega, h.2⟩), a1, if_neg (by omega)]
      cases rels with
      | nil => exact bytewise (by simp)
      | cons r rest =>
        by_cases he : r.ofs = pos + sofs
        · simp only [he, if_pos]
          have hr0 := hr r (by simp)
          rw [List.pairwise_cons] at hs
          obtain ⟨b', e, n', a'⟩ := copyLoop_ok src sofs off size fuel (pos + 8) rest b
            (out ++ [{ ofs := pos + off, label := r.label, addend := r.addend }]) (by omega) hb hs.2
            (fun x hx => by
              have := hr x (by simp [hx]); have := hs.1 x hx; omega)
          refine ⟨b', ?_, n', fun i => ?_⟩
          · rw [e]
            have h1 : decide (r.ofs < sofs + size) = true := by simp; omega
            rw [List.filter_cons, if_pos h1, List.map_cons]
            have h2 : off + (r.ofs - sofs) = pos + off := by omega
            rw [h2]
            simp
          · rw [a' i]
            by_cases h8 : off + pos ≤ i ∧ i < off + (pos + 8)
            · have hin : inRel (r :: rest) (i - off + sofs) = true := by
                rw [inRel, List.any_cons]
                have : decide (r.ofs ≤ i - off + sofs ∧ i - off + sofs < r.ofs + 8) = true := by
                  simp; omega
                rw [this]; rfl
              rw [if_neg (by omega), if_neg (by rw [hin]; simp)]
            · by_cases hlt : i < off + pos
              · rw [if_neg (by omega), if_neg (by omega)]
              · have hin : inRel (r :: rest) (i - off + sofs) = inRel rest (i - off + sofs) := by
                  rw [inRel, List.any_cons]
                  have : decide (r.ofs ≤ i - off + sofs ∧ i - off + sofs < r.ofs + 8) = false := by
                    simp; omega
                  rw [this]; rfl
                rw [hin]
                by_cases hq : i < off + size ∧ i - off + sofs < src.buf.n ∧
                    inRel rest (i - off + sofs) = false
                · rw [if_pos ⟨by omega, hq⟩, if_pos ⟨by omega, hq⟩]
                · rw [if_neg (fun h => hq h.2), if_neg (fun h => hq h.2)]
        · simp only [he, if_false]
          rw [List.pairwise_cons] at hs
          refine bytewise (fun x hx => ?_)
          rcases List.mem_cons.mp hx with rfl | hx
          · exact he
          · have := hs.1 x hx; have := hr r (by simp); omega
    · rw [if_neg hc]
      have hnone : ∀ r ∈ rels, sofs + size ≤ r.ofs := by
        intro r h; have := hr r h; omega
      have hf0 : rels.filter (fun r => decide (r.ofs < sofs + size)) = [] := by
        rw [List.filter_eq_nil_iff]
        intro r h
        have := hnone r h
        simp; omega
      refine ⟨b, by simp [hf0], rfl, fun i => by rw [if_neg (by omega)]⟩

theorem dropWhile_sorted (sofs : Nat) : ∀ (rels : List Rel),
    rels.Pairwise (fun x y => x.ofs + 8 ≤ y.ofs) →
    rels.dropWhile (fun r => decide (r.ofs < sofs)) = rels.filter (fun r => decide (sofs ≤ r.ofs))
  | [], _ => rfl
  | r :: rs, h => by
    rw [List.pairwise_cons] at h
    by_cases hr : r.ofs < sofs
    · rw [List.dropWhile_cons, if_pos (by simpa using hr), List.filter_cons, if_neg (by simp; omega)]
      exact dropWhile_sorted sofs rs h.2
    · rw [List.dropWhile_cons, if_neg (by simpa using hr), eq_comm, List.filter_eq_self]
      intro x hx
      rcases List.mem_cons.mp hx with rfl | hx
      · simp; omega
      · have := h.1 x hx; simp; omega

theorem copy_post (src : Data) (sofs size off : Nat) (b : Buf) (rels : List Rel)
    (hs : SrcOk src sofs size) (hb : off + size ≤ b.n) (hz : Zero b (8 * off) (8 * (off + size))) :
    ∃ b' new, copyLoop src sofs off size size 0
        (src.rels.dropWhile (fun r => r.ofs < sofs)) b rels = .ok (b', rels ++ new) ∧
      Post (copyCells src sofs size off) (8 * off) (8 * (off + size)) b b' new := by
  rw [dropWhile_sorted sofs _ hs.sorted]
  obtain ⟨b', e, hn, ha⟩ := copyLoop_ok src sofs off size size 0
    (src.rels.filter (fun r => decide (sofs ≤ r.ofs))) b rels (by omega) hb
    (hs.sorted.sublist List.filter_sublist)
    (fun r hr => by
      rw [List.mem_filter] at hr
      have h1 := hs.inside r hr.1
      have h2 := hs.whole r hr.1
      have h3 : sofs ≤ r.ofs := by simpa using hr.2
      omega)
  have hmem : ∀ r : Rel, r ∈ (src.rels.filter (fun r => decide (sofs ≤ r.ofs))).filter
      (fun r => decide (r.ofs < sofs + size)) ↔ r ∈ src.rels ∧ sofs ≤ r.ofs ∧ r.ofs < sofs + size := by
    intro r; simp only [List.mem_filter, decide_eq_true_eq]; exact and_assoc
  have hin : ∀ i, off ≤ i → i < off + size →
      (inRel (src.rels.filter (fun r => decide (sofs ≤ r.ofs))) (i - off + sofs) = false ↔
        src.rels.all (fun r => decide (¬ (r.ofs ≤ i - off + sofs ∧ i - off + sofs < r.ofs + 8))) = true) := by
    intro i h1 h2
    rw [inRel, List.any_eq_false, List.all_eq_true]
    constructor
    · intro h r hr
      by_cases hq : sofs ≤ r.ofs
      · have := h r (List.mem_filter.mpr ⟨hr, by simpa using hq⟩)
        simp only [decide_eq_true_eq] at this ⊢
        exact this
      · have := hs.whole r hr
        simp; omega
    · intro h r hr
      have := h r (List.mem_filter.mp hr).1
      simp only [decide_eq_true_eq] at this ⊢
      exact this
  have hbit : ∀ p, 8 * off ≤ p → p < 8 * (off + size) →
      (¬ (p / 8 - off + sofs < src.buf.n ∧ src.rels.all (fun r =>
        decide (¬ (r.ofs ≤ p / 8 - off + sofs ∧ p / 8 - off + sofs < r.ofs + 8))) = true)) →
      bitb b' p = false := by
    intro p h1 h2 h3
    rw [bitb, ha, if_neg]
    · exact hz p h1 h2
    · rintro ⟨c1, c2, c3, c4⟩
      exact h3 ⟨c3, (hin _ (by omega) c2).mp c4⟩
  refine ⟨b', _, e, hn, by omega, ?_, ?_, ?_, ?_, ?_, ?_⟩
  · intro p hp
    rw [bitb, ha, if_neg (by omega)]; rfl
  · intro l w v hc
    rw [copyCells, List.mem_append] at hc
    rcases hc with hc | hc
    · obtain ⟨p, hp, he⟩ := List.mem_map.mp hc
      rw [List.mem_filter, List.mem_range] at hp
      obtain ⟨hp1, hp2⟩ := hp
      rw [Bool.and_eq_true, decide_eq_true_eq] at hp2
      cases he
      refine ⟨by omega, by omega, fun j hj => ⟨?_, fun r hr => ?_⟩⟩
      · have e1 : (8 * (off + p) + j) / 8 = off + p := by omega
        have e2 : (8 * (off + p) + j) % 8 = j := by omega
        have e3 : off + p - off + sofs = p + sofs := by omega
        rw [bitb, e1, e2, ha, e3, if_pos]
        refine ⟨by omega, by omega, hp2.1, ?_⟩
        have := (hin (off + p) (by omega) (by omega))
        rw [e3] at this
        exact this.mpr hp2.2
      · obtain ⟨r', hr', rfl⟩ := List.mem_map.mp hr
        have hm := (hmem r').mp hr'
        have := List.all_eq_true.mp hp2.2 r' hm.1
        simp only [decide_eq_true_eq] at this
        simp only
        omega
    · obtain ⟨r, _, he⟩ := List.mem_map.mp hc
      cases he
  · intro p h1 h2 hc
    refine hbit p h1 h2 ?_
    rintro ⟨h3, h4⟩
    refine hc (.bits (8 * (off + (p / 8 - off))) 8 (src.buf.at_ (p / 8 - off + sofs)).getLsbD) ?_ ?_
    · rw [copyCells, List.mem_append]
      refine Or.inl (List.mem_map.mpr ⟨p / 8 - off, ?_, rfl⟩)
      rw [List.mem_filter, List.mem_range]
      refine ⟨by omega, ?_⟩
      rw [Bool.and_eq_true, decide_eq_true_eq]
      exact ⟨h3, h4⟩
    · simp only [Cell.covers]; omega
  · intro o l a
    rw [copyCells, List.mem_append]
    constructor
    · rintro (h | h)
      · obtain ⟨p, _, he⟩ := List.mem_map.mp h; cases he
      · obtain ⟨r, hr, he⟩ := List.mem_map.mp h
        rw [List.mem_filter, decide_eq_true_eq] at hr
        cases he
        exact List.mem_map.mpr ⟨r, (hmem r).mpr ⟨hr.1, hr.2.1, hr.2.2⟩, rfl⟩
    · intro h
      obtain ⟨r, hr, he⟩ := List.mem_map.mp h
      have hm := (hmem r).mp hr
      cases he
      refine Or.inr (List.mem_map.mpr ⟨r, ?_, rfl⟩)
      rw [List.mem_filter, decide_eq_true_eq]
      exact ⟨hm.1, hm.2⟩
  · intro r hr
    obtain ⟨r', hr', rfl⟩ := List.mem_map.mp hr
    have hm := (hmem r').mp hr'
    have := hs.whole r' hm.1
    simp only
    omega
  · rw [List.pairwise_map]
    have hp : ((src.rels.filter (fun r => decide (sofs ≤ r.ofs))).filter
      (fun r => decide (r.ofs < sofs + size))).Pairwise (fun x y : Rel => x.ofs + 8 ≤ y.ofs) :=
      (hs.sorted.sublist List.filter_sublist).sublist List.filter_sublist
    refine hp.imp_of_mem ?_
    intro x y hx hy h
    have := (hmem x).mp hx
    have := (hmem y).mp hy
    simp only
    omega

end Slimcc.GInit
