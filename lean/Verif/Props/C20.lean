import Verif.Props.C18
/-!
C20: bit-fields. Positions are in bits from the start of the structure: a member of the result
occupies the bits from `startBit` to `endBit` (exclusive).
-/
set_option autoImplicit false
namespace Slimcc.Props
open Slimcc Slimcc.Spec Slimcc.Layout

/-- No bit of the structure belongs to two members. -/
theorem C20_disjoint (packed : Bool) (alt : Nat) (fs : List Field) (L : Result) (h : StructOk packed alt fs)
    (hL : structDecl packed alt (fs.map Field.member) = .ok L) (i j : Nat) (p q : Placed)
    (hi : L.members[i]? = some p) (hj : L.members[j]? = some q) (hij : i ≠ j) (b : Int) :
    ¬ ((startBit p ≤ b ∧ b < endBit p) ∧ (startBit q ≤ b ∧ b < endBit q)) := by
  have hd := C18_disjoint packed alt fs L h hL
  rw [List.pairwise_iff_getElem] at hd
  obtain ⟨hi', hi⟩ := List.getElem?_eq_some_iff.1 hi
  obtain ⟨hj', hj⟩ := List.getElem?_eq_some_iff.1 hj
  rcases Nat.lt_or_gt_of_ne hij with hlt | hlt
  · have := hd i j hi' hj' hlt
    rw [hi, hj] at this
    omega
  · have := hd j i hj' hi' hlt
    rw [hi, hj] at this
    omega

theorem unit_of_fits (f : Field) (w s e : Nat) (hw : f.Wf) (hn : f.width = some w) (h0 : w ≠ 0) (hf : Fits false e f s) :
    s % (8 * f.size) + w ≤ 8 * f.size := by
  have h2 := hf.2
  rw [hn] at h2
  have h3 := h2.2.2 h0 rfl
  have hp := (hw.bits w hn).1.pos
  have d1 := Nat.div_add_mod s (8 * f.size)
  have d2 := Nat.div_add_mod (s + w - 1) (8 * f.size)
  have d3 := Nat.mod_lt (s + w - 1) (show 0 < 8 * f.size by omega)
  rw [← h3] at d2
  omega

/-- In a structure that is not packed, a bit-field lies inside one unit of its declared type that is at
a multiple of the size of the type. The offset recorded is that of the unit. -/
theorem C20_unit (alt : Nat) (fs : List Field) (L : Result) (h : StructOk false alt fs)
    (hL : structDecl false alt (fs.map Field.member) = .ok L) :
    ∀ p ∈ L.members, ∀ w, p.mem.width = some w →
      0 ≤ p.offset ∧ p.mem.size ∣ p.offset ∧ 0 ≤ p.bitOffset ∧ p.bitOffset + w ≤ 8 * p.mem.size := by
  obtain ⟨pl, used, a, size, h1, h2, _⟩ := placed_of h hL
  intro p hp w hw
  rw [h2] at hp
  obtain ⟨q, hq, rfl⟩ := List.mem_map.1 hp
  obtain ⟨hq', hm⟩ := List.mem_filter.1 hq
  have hf : q.1 ∈ fs := by rw [← laid_fst h1]; exact List.mem_map_of_mem hq'
  obtain ⟨f, s⟩ := q
  obtain ⟨e, he⟩ := laid_fits h1 _ hq'
  rw [record_mem] at hw ⊢
  dsimp only at he hf hm hw ⊢
  have hn : ∃ w' : Nat, f.width = some w' ∧ w = w' := by
    unfold Field.member at hw
    cases hx : f.width with
    | none => rw [hx] at hw; cases hw
    | some w' => rw [hx] at hw; cases hw; exact ⟨w', rfl, rfl⟩
  obtain ⟨w', hn, rfl⟩ := hn
  have h0 : w' ≠ 0 := by
    intro h0
    have := ((h.wf f hf).bits w' hn).2.2 h0
    unfold Field.isMember at hm
    rw [hn, this] at hm
    cases hm
  have hu := unit_of_fits f w' s e (h.wf f hf) hn h0 he
  rw [record_bit f s w' hn]
  refine ⟨Int.natCast_nonneg _, Int.natCast_dvd_natCast.2 ⟨_, Nat.mul_comm _ _⟩, Int.natCast_nonneg _, ?_⟩
  show ((s % (8 * f.size) : Nat) : Int) + w' ≤ 8 * (f.size : Int)
  omega

/-- If the type of the bit-field has its natural alignment, the unit lies inside the structure, so
that reading or writing the unit stays inside the object. -/
theorem C20_unit_inside (alt : Nat) (fs : List Field) (L : Result) (h : StructOk false alt fs) (halt : alt = 0 ∨ PowTwo alt)
    (hL : structDecl false alt (fs.map Field.member) = .ok L) :
    ∀ p ∈ L.members, ∀ w, p.mem.width = some w → p.mem.align = p.mem.size → p.offset + p.mem.size ≤ L.size := by
  intro p hp w hw hnat
  have hu := C20_unit alt fs L h hL p hp w hw
  have hin := C18_inside false alt fs L h hL p hp
  have hal := C18_size_aligned false alt fs L h hL
  obtain ⟨pl, used, a, size, h1, h2, h3, h4, h5, h6, _⟩ := placed_of h hL
  rw [h2] at hp
  obtain ⟨q, hq, rfl⟩ := List.mem_map.1 hp
  obtain ⟨hq', hm⟩ := List.mem_filter.1 hq
  have hf : q.1 ∈ fs := by rw [← laid_fst h1]; exact List.mem_map_of_mem hq'
  obtain ⟨f, s⟩ := q
  rw [record_mem] at hw hu hnat ⊢
  dsimp only at hw hu hf hm hnat ⊢
  have hnat : f.align = f.size := by
    have : (f.align : Int) = f.size := hnat
    omega
  have hwp : 0 < w := by
    have hx : f.member.width = f.width.map Nat.cast := rfl
    rw [hx] at hw
    cases hn : f.width with
    | none => rw [hn] at hw; cases hw
    | some w' =>
      rw [hn] at hw
      cases hw
      have : w' ≠ 0 := by
        intro h0
        have := ((h.wf f hf).bits w' hn).2.2 h0
        unfold Field.isMember at hm
        rw [hn, this] at hm
        cases hm
      show (0 : Int) < (w' : Nat)
      omega
  -- the alignment of the structure is a power of two at least as large
  have hpa : PowTwo a := by
    rcases h4.1 with e | e | ⟨g, hg, _, e⟩
    · exact ⟨0, e⟩
    · rcases halt with h0 | h0
      · have := h4.2 1 (.inl rfl); omega
      · rw [e]; exact h0
    · rcases e with e | ⟨_, e⟩
      · rcases (h.wf g hg).alt with h0 | h0
        · have := h4.2 1 (.inl rfl); omega
        · rw [e]; exact h0
      · rw [e]; exact (h.wf g hg).align
  have hle : f.size ≤ a := by
    rw [← hnat]; exact h4.2 f.align (.inr (.inr ⟨f, hf, hm, .inr ⟨rfl, rfl⟩⟩))
  have hfp : PowTwo f.size := by rw [← hnat]; exact (h.wf f hf).align
  have hd : f.size ∣ size := Nat.dvd_trans (hfp.dvd hpa hle) h6.1.1
  -- the bit-field starts before the end of the structure
  have hlt : (record (f, s)).offset < size := by
    have e1 : endBit (record (f, s)) = 8 * (record (f, s)).offset + (record (f, s)).bitOffset + w := by
      unfold endBit startBit
      rw [record_mem]
      dsimp only
      rw [hw]; rfl
    rw [e1, h5] at hin
    omega
  obtain ⟨hu1, hu2, _⟩ := hu
  rw [h5]
  have hu2 : (f.size : Int) ∣ (record (f, s)).offset := hu2
  show _ + (f.size : Int) ≤ size
  generalize (record (f, s)).offset = o at *
  obtain ⟨o', rfl⟩ := Int.eq_ofNat_of_zero_le hu1
  have hu2 := Int.natCast_dvd_natCast.1 hu2
  obtain ⟨k, hk⟩ := hu2
  obtain ⟨j, hj⟩ := hd
  have hkj : k < j := by
    have : f.size * k < f.size * j := by rw [← hk, ← hj]; omega
    exact Nat.lt_of_mul_lt_mul_left this
  have : f.size * (k + 1) ≤ f.size * j := Nat.mul_le_mul_left _ hkj
  rw [Nat.mul_add, Nat.mul_one, ← hk, ← hj] at this
  omega

/-- A bit-field of width zero ends the unit: all members before it end at or before some boundary of
its type, and all members after it start at or after that boundary. -/
theorem C20_zero_width (packed : Bool) (alt : Nat) (fs1 : List Field) (z : Field) (fs2 : List Field) (L : Result)
    (h : StructOk packed alt (fs1 ++ z :: fs2)) (hz : z.width = some 0)
    (hL : structDecl packed alt ((fs1 ++ z :: fs2).map Field.member) = .ok L) :
    ∃ ps qs, ∃ b : Nat, L.members = ps ++ qs ∧ ps.map (fun p => p.mem) = (fs1.filter Field.isMember).map Field.member ∧
      8 * z.size ∣ b ∧ (∀ p ∈ ps, endBit p ≤ b) ∧ (∀ q ∈ qs, (b : Int) ≤ startBit q) := by
  obtain ⟨pl, used, a, size, h1, h2, _, _, _, _, h3⟩ := placed_of h hL
  obtain ⟨pl1, pl2, u, rfl, g1, g2⟩ := laid_split h1
  cases g2 with
  | cons _ _ s _ pl2 _ k1 k2 =>
    have hzm : z.isMember = false := by
      unfold Field.isMember
      rw [hz, ((h.wf z (by simp)).bits 0 hz).2.2 rfl]; rfl
    have hzl : z.len = 0 := by unfold Field.len; rw [hz]; rfl
    rw [hzl] at k2
    refine ⟨(pl1.filter (fun p => p.1.isMember)).map record, (pl2.filter (fun p => p.1.isMember)).map record, s, ?_, ?_, ?_, ?_, ?_⟩
    · rw [h2, List.filter_append, List.filter_cons]
      simp only [hzm, Bool.false_eq_true, if_false]
      rw [List.map_append]
    · rw [List.map_map, ← laid_fst g1, List.filter_map, List.map_map]
      exact List.map_congr_left fun p _ => record_mem p
    · have := k1.1.2
      rw [hz] at this
      exact this.2.1 rfl
    · intro p hp
      obtain ⟨q, hq, rfl⟩ := List.mem_map.1 hp
      have hq' := (List.mem_filter.1 hq).1
      rw [(h3 q (List.mem_append_left _ hq')).2]
      have h5 := ((laid_bounds g1).2 q hq').2
      have h6 := k1.1.1
      omega
    · intro p hp
      obtain ⟨q, hq, rfl⟩ := List.mem_map.1 hp
      have hq' := (List.mem_filter.1 hq).1
      rw [(h3 q (List.mem_append_right _ (.tail _ hq'))).1]
      have h5 := ((laid_bounds k2).2 q hq').1
      omega

/-- `struct { char c; int a : 7; int b : 20; unsigned : 3; long d : 40; int : 0; short e : 9; int f; }`. -/
def exBits : List Field :=
  [⟨1, 1, false, true, none, 0⟩, ⟨4, 4, false, true, some 7, 0⟩, ⟨4, 4, false, true, some 20, 0⟩, ⟨4, 4, false, false, some 3, 0⟩,
   ⟨8, 8, false, true, some 40, 0⟩, ⟨4, 4, false, false, some 0, 0⟩, ⟨2, 2, false, true, some 9, 0⟩, ⟨4, 4, false, true, none, 0⟩]

theorem exBits_ok (packed : Bool) : StructOk packed 0 exBits := by
  constructor
  · intro f hf
    simp only [exBits, List.mem_cons, List.not_mem_nil, or_false] at hf
    rcases hf with rfl | rfl | rfl | rfl | rfl | rfl | rfl | rfl <;> constructor <;>
      first
        | exact ⟨0, rfl⟩ | exact ⟨1, rfl⟩ | exact ⟨2, rfl⟩ | exact ⟨3, rfl⟩ | exact .inl rfl
        | (intro w h; cases h; exact ⟨⟨1, rfl⟩, by decide, by decide⟩)
        | (intro w h; cases h; exact ⟨⟨2, rfl⟩, by decide, by decide⟩)
        | (intro w h; cases h; exact ⟨⟨3, rfl⟩, by decide, by decide⟩)
        | (intro w h; cases h)
  · intro f hf
    simp only [exBits, List.mem_cons, List.not_mem_nil, or_false] at hf
    rcases hf with rfl | rfl | rfl | rfl | rfl | rfl | rfl | rfl <;> simp
  · intro f hf
    simp only [exBits, List.mem_cons, List.not_mem_nil, or_false] at hf
    rcases hf with rfl | rfl | rfl | rfl | rfl | rfl | rfl | rfl <;> simp
  · cases packed with
    | false =>
      refine ⟨8, ⟨.inr (.inr ⟨⟨8, 8, false, true, some 40, 0⟩, by simp [exBits], rfl, .inr ⟨rfl, rfl⟩⟩), ?_⟩, by decide⟩
      rintro x (h | h | ⟨f, hf, _, h⟩)
      · omega
      · omega
      · simp only [exBits, List.mem_cons, List.not_mem_nil, or_false] at hf
        rcases hf with rfl | rfl | rfl | rfl | rfl | rfl | rfl | rfl <;> simp at h <;> omega
    | true =>
      refine ⟨1, ⟨.inl rfl, ?_⟩, by decide⟩
      rintro x (h | h | ⟨f, hf, _, h⟩)
      · omega
      · omega
      · simp only [exBits, List.mem_cons, List.not_mem_nil, or_false] at hf
        rcases hf with rfl | rfl | rfl | rfl | rfl | rfl | rfl | rfl <;> simp at h <;> omega

example : ∃ L, structDecl false 0 (exBits.map Field.member) = .ok L ∧ L.size = 24 ∧
    L.members.map (fun p => (p.offset, p.bitOffset)) = [(0, 0), (0, 8), (4, 0), (8, 0), (16, 0), (20, 0)] := by
  refine ⟨_, rfl, ?_⟩; decide +kernel

/-! ### Where slimcc departs from the property -/

/-- `struct __attribute__((packed)) { int a : 31; int b : 2; }`: the second bit-field is given the
unit at offset 0 and bit 31, of which only one bit is in that unit. -/
theorem C20_packed_straddles :
    ∃ L, structDecl true 0 [⟨4, 4, false, true, some 31, 0⟩, ⟨4, 4, false, true, some 2, 0⟩] = .ok L ∧
      L.members.map (fun p => (p.offset, p.bitOffset)) = [(0, 0), (0, 31)] := by
  refine ⟨_, rfl, ?_⟩; decide +kernel

/-- `struct __attribute__((packed)) { int a : 3; }` is one byte long, but the unit of `a` has four. -/
theorem C20_packed_unit_outside :
    ∃ L, structDecl true 0 [⟨4, 4, false, true, some 3, 0⟩] = .ok L ∧ L.size = 1 ∧ L.members.map (fun p => p.offset + p.mem.size) = [4] := by
  refine ⟨_, rfl, ?_⟩; decide +kernel

/-- `struct { int a : 40; }`: a width beyond the type is not diagnosed. -/
theorem C20_width_unchecked :
    ∃ L, structDecl false 0 [⟨4, 4, false, true, some 40, 0⟩] = .ok L ∧ L.size = 8 := by
  refine ⟨_, rfl, ?_⟩; decide +kernel

end Slimcc.Props
