import Verif.Lemmas.Layout
/-!
C18: structure layout.

`Spec.Layout` says where members go in bits: `Laid` puts every member at the first position where it
may start (`Fits`). `structDecl` is the model of `struct_decl`. The theorems are for structures whose
members, with their alignments, need less than 2^31 bits (`room`), and whose members are what C
requires (`Field.Wf`). A member of structure type in a packed structure that asks for no more than
the alignment of its own type is excluded (`Honoured`): there slimcc ignores the request, see
`C18_packed_alignas_ignored`.
-/
set_option autoImplicit false
namespace Slimcc.Props
open Slimcc Slimcc.Spec Slimcc.Layout

/-- The hypotheses on the declaration: well-formed members and a structure below 2^28 bytes. -/
structure StructOk (packed : Bool) (alt : Nat) (fs : List Field) : Prop where
  wf : ∀ f ∈ fs, f.Wf
  bitInt : ∀ f ∈ fs, f.width.isSome = true → f.aggregate = false
  hon : ∀ f ∈ fs, packed = true → f.aggregate = true → f.alt ≤ 1 ∨ f.align < f.alt
  small : ∃ a, AlignIs packed alt fs a ∧ room fs + 8 * a ≤ 2147483647

/-- The layout is the one of the ABI: `struct_decl` succeeds, every member is at the first position
after the previous one where it may start, the alignment is the largest one that occurs, and the size
is the least multiple of it that holds everything. -/
theorem C18_layout (packed : Bool) (alt : Nat) (fs : List Field) (h : StructOk packed alt fs) :
    ∃ L pl used a size, structDecl packed alt (fs.map Field.member) = .ok L ∧
      Laid packed 0 fs pl used ∧ L.members = (pl.filter (fun p => p.1.isMember)).map record ∧
      L.align = ((a : Nat) : Int) ∧ AlignIs packed alt fs a ∧
      L.size = ((size : Nat) : Int) ∧ Least (fun n => a ∣ n ∧ used ≤ 8 * n) size := by
  obtain ⟨a, ha, hs⟩ := h.small
  obtain ⟨L, pl, used, size, h1, h2, h3, h4, h5, h6⟩ :=
    struct_ok packed alt fs a (fun f hf => ⟨h.wf f hf, h.bitInt f hf, h.hon f hf⟩) ha hs
  exact ⟨L, pl, used, a, size, h1, h2, h3, h4, ha, h5, h6⟩

/-- The positions recorded are those of `Laid`. -/
theorem placed_of {packed : Bool} {alt : Nat} {fs : List Field} {L : Result} (h : StructOk packed alt fs)
    (hL : structDecl packed alt (fs.map Field.member) = .ok L) :
    ∃ pl used a size, Laid packed 0 fs pl used ∧ L.members = (pl.filter (fun p => p.1.isMember)).map record ∧
      L.align = ((a : Nat) : Int) ∧ AlignIs packed alt fs a ∧ L.size = ((size : Nat) : Int) ∧
      Least (fun n => a ∣ n ∧ used ≤ 8 * n) size ∧
      ∀ p ∈ pl, startBit (record p) = (p.2 : Nat) ∧ endBit (record p) = (p.2 + p.1.len : Nat) := by
  obtain ⟨L', pl, used, a, size, h1, h2, h3⟩ := C18_layout packed alt fs h
  rw [hL] at h1
  cases h1
  refine ⟨pl, used, a, size, h2, h3.1, h3.2.1, h3.2.2.1, h3.2.2.2.1, h3.2.2.2.2, fun p hp => ?_⟩
  have hf : p.1 ∈ fs := by rw [← laid_fst h2]; exact List.mem_map_of_mem hp
  obtain ⟨e, he⟩ := laid_fits h2 p hp
  exact ⟨record_start packed e p (h.wf _ hf) he, record_end packed e p (h.wf _ hf) he⟩

/-- The members of the structure are the declared ones, in order, without the unnamed bit-fields. -/
theorem C18_order (packed : Bool) (alt : Nat) (fs : List Field) (L : Result) (h : StructOk packed alt fs)
    (hL : structDecl packed alt (fs.map Field.member) = .ok L) :
    L.members.map (fun p => p.mem) = (fs.filter Field.isMember).map Field.member := by
  obtain ⟨pl, used, a, size, h1, h2, _⟩ := placed_of h hL
  rw [h2, List.map_map, ← laid_fst h1, List.filter_map, List.map_map]
  refine List.map_congr_left fun p _ => record_mem p

/-- A member starts after all earlier members have ended, so no two share a bit. -/
theorem C18_disjoint (packed : Bool) (alt : Nat) (fs : List Field) (L : Result) (h : StructOk packed alt fs)
    (hL : structDecl packed alt (fs.map Field.member) = .ok L) :
    L.members.Pairwise (fun p q => endBit p ≤ startBit q) := by
  obtain ⟨pl, used, a, size, h1, h2, _, _, _, _, h3⟩ := placed_of h hL
  rw [h2, List.pairwise_map]
  refine List.Pairwise.imp_of_mem ?_ ((laid_pairwise h1).filter _)
  intro p q hp hq hpq
  rw [(h3 p (List.mem_filter.1 hp).1).2, (h3 q (List.mem_filter.1 hq).1).1]
  omega

/-- Every member lies inside the structure. -/
theorem C18_inside (packed : Bool) (alt : Nat) (fs : List Field) (L : Result) (h : StructOk packed alt fs)
    (hL : structDecl packed alt (fs.map Field.member) = .ok L) :
    ∀ p ∈ L.members, 0 ≤ startBit p ∧ endBit p ≤ 8 * L.size := by
  obtain ⟨pl, used, a, size, h1, h2, _, _, hz, hl, h3⟩ := placed_of h hL
  intro p hp
  rw [h2] at hp
  obtain ⟨q, hq, rfl⟩ := List.mem_map.1 hp
  have hq' := (List.mem_filter.1 hq).1
  rw [(h3 q hq').1, (h3 q hq').2, hz]
  have h4 := (laid_bounds h1).2 q hq'
  have h5 := hl.1.2
  omega

/-- Members that are not bit-fields are at multiples of their alignment: the one they ask for, and
unless the structure is packed the one of their type. -/
theorem C18_aligned (packed : Bool) (alt : Nat) (fs : List Field) (L : Result) (h : StructOk packed alt fs)
    (hL : structDecl packed alt (fs.map Field.member) = .ok L) :
    ∀ p ∈ L.members, p.mem.width = none → p.bitOffset = 0 ∧
      (packed = false → p.mem.align ∣ p.offset) ∧ (p.mem.altAlign ≠ 0 → p.mem.altAlign ∣ p.offset) := by
  obtain ⟨pl, used, a, size, h1, h2, _⟩ := placed_of h hL
  intro p hp hw
  rw [h2] at hp
  obtain ⟨q, hq, rfl⟩ := List.mem_map.1 hp
  have hq' := (List.mem_filter.1 hq).1
  have hf : q.1 ∈ fs := by rw [← laid_fst h1]; exact List.mem_map_of_mem hq'
  obtain ⟨f, s⟩ := q
  obtain ⟨e, he⟩ := laid_fits h1 _ hq'
  rw [record_mem] at hw ⊢
  have hn : f.width = none := by
    unfold Field.member at hw; cases hx : f.width with
    | none => rfl
    | some w => rw [hx] at hw; cases hw
  have hd := he.2
  dsimp only at hd hf
  rw [hn] at hd
  have hd : 8 * f.reqAlign packed ∣ s := hd
  have hd2 : f.reqAlign packed ∣ s / 8 := by
    obtain ⟨k, hk⟩ := hd
    exact ⟨k, by rw [hk, Nat.mul_assoc, Nat.mul_div_cancel_left _ (by omega)]⟩
  have hwf := h.wf f hf
  unfold Field.reqAlign at hd2
  have ho : (record (f, s)).offset = ((s / 8 : Nat) : Int) := by unfold record; simp only [hn]
  refine ⟨by unfold record; simp only [hn], fun hp => ?_, fun hz => ?_⟩
  · rw [ho]
    refine Int.natCast_dvd_natCast.2 (Nat.dvd_trans ?_ hd2)
    subst hp
    simp only [Bool.false_eq_true, if_false]
    rcases hwf.alt with h0 | h0
    · rw [h0, Nat.max_eq_left (by omega)]; exact Nat.dvd_refl _
    · exact hwf.align.dvd (hwf.align.max h0) (Nat.le_max_left _ _)
  · rw [ho]
    have hz' : f.alt ≠ 0 := fun e => hz (by show (f.alt : Int) = 0; omega)
    have h0 := hwf.alt.resolve_left hz'
    refine Int.natCast_dvd_natCast.2 (Nat.dvd_trans ?_ hd2)
    refine h0.dvd (PowTwo.max ?_ h0) (Nat.le_max_right _ _)
    split
    · exact ⟨0, rfl⟩
    · exact hwf.align

/-- The alignment of the structure is a multiple of what its members need, and its size is a multiple
of its alignment, so that arrays of it keep the members aligned. -/
theorem C18_size_aligned (packed : Bool) (alt : Nat) (fs : List Field) (L : Result) (h : StructOk packed alt fs)
    (hL : structDecl packed alt (fs.map Field.member) = .ok L) :
    0 < L.align ∧ L.align ∣ L.size ∧
    (∀ p ∈ L.members, (packed = false → p.mem.align ≤ L.align) ∧ p.mem.altAlign ≤ L.align) := by
  obtain ⟨pl, used, a, size, h1, h2, h3, h4, h5, h6, _⟩ := placed_of h hL
  have h1a : 1 ≤ a := h4.2 1 (.inl rfl)
  refine ⟨by omega, by rw [h3, h5]; exact Int.natCast_dvd_natCast.2 h6.1.1, fun p hp => ?_⟩
  rw [h2] at hp
  obtain ⟨q, hq, rfl⟩ := List.mem_map.1 hp
  obtain ⟨hq', hm⟩ := List.mem_filter.1 hq
  have hf : q.1 ∈ fs := by rw [← laid_fst h1]; exact List.mem_map_of_mem hq'
  rw [record_mem, h3]
  refine ⟨fun hp => ?_, ?_⟩
  · have := h4.2 q.1.align (.inr (.inr ⟨q.1, hf, hm, .inr ⟨hp, rfl⟩⟩))
    show (q.1.align : Int) ≤ a; omega
  · have := h4.2 q.1.alt (.inr (.inr ⟨q.1, hf, hm, .inl rfl⟩))
    show (q.1.alt : Int) ≤ a; omega

theorem packed_laid (fs : List Field) : ∀ (e : Nat) (pl : List (Field × Nat)) (used : Nat), 8 ∣ e → (∀ f ∈ fs, f.width = none ∧ f.alt = 0) →
    Laid true e fs pl used → used = e + 8 * (fs.map (fun f => f.size)).sum ∧
      ∀ fs1 f fs2, fs = fs1 ++ f :: fs2 → pl[fs1.length]? = some (f, e + 8 * (fs1.map (fun f => f.size)).sum) := by
  induction fs with
  | nil => intro e pl used _ _ h; cases h; exact ⟨by simp, fun fs1 f fs2 h => by cases fs1 <;> cases h⟩
  | cons f fs ih =>
    intro e pl used hd hf h
    cases h with
    | cons _ _ s _ pl' _ h1 h2 =>
      obtain ⟨hn, ha⟩ := hf f (.head _)
      have hfit : Fits true e f e := by
        refine ⟨Nat.le_refl _, ?_⟩
        rw [hn]
        show 8 * max 1 f.alt ∣ e
        rw [ha]; exact hd
      have hs : s = e := Nat.le_antisymm (h1.2 e hfit) h1.1.1
      subst hs
      have hl : f.len = 8 * f.size := by unfold Field.len; rw [hn]; rfl
      rw [hl] at h2
      obtain ⟨g1, g2⟩ := ih (s + 8 * f.size) pl' used (Nat.dvd_add hd ⟨_, rfl⟩) (fun g hg => hf g (.tail _ hg)) h2
      refine ⟨by rw [g1, List.map_cons, List.sum_cons]; omega, fun fs1 g fs2 he => ?_⟩
      cases fs1 with
      | nil => cases he; simp
      | cons x fs1 =>
        obtain ⟨rfl, he'⟩ := List.cons.inj he
        have := g2 fs1 g fs2 he'
        rw [List.length_cons, List.getElem?_cons_succ, this, List.map_cons, List.sum_cons]
        congr 2; omega

/-- A packed structure of ordinary members that ask for no alignment has no padding: each member is
right after those before it, and nothing follows the last one. -/
theorem C18_packed (fs1 : List Field) (f : Field) (fs2 : List Field) (L : Result) (h : StructOk true 0 (fs1 ++ f :: fs2))
    (hf : ∀ g ∈ fs1 ++ f :: fs2, g.width = none ∧ g.alt = 0)
    (hL : structDecl true 0 ((fs1 ++ f :: fs2).map Field.member) = .ok L) :
    L.size = ((((fs1 ++ f :: fs2).map (fun g => g.size)).sum : Nat) : Int) ∧ L.align = 1 ∧
    L.members[fs1.length]? = some ⟨f.member, (((fs1.map (fun g => g.size)).sum : Nat) : Int), 0⟩ := by
  obtain ⟨pl, used, a, size, h1, h2, h3, h4, h5, h6, _⟩ := placed_of h hL
  obtain ⟨hu, hp⟩ := packed_laid _ 0 pl used ⟨0, rfl⟩ hf h1
  have ha : a = 1 := by
    refine Nat.le_antisymm ?_ (h4.2 1 (.inl rfl))
    rcases h4.1 with h | h | ⟨g, hg, hm, h | ⟨h, _⟩⟩
    · omega
    · omega
    · have := (hf g hg).2; omega
    · cases h
  subst ha
  have hall : pl.filter (fun p => p.1.isMember) = pl := by
    rw [List.filter_eq_self]
    intro p hp
    have hm : p.1 ∈ fs1 ++ f :: fs2 := by rw [← laid_fst h1]; exact List.mem_map_of_mem hp
    unfold Field.isMember; rw [(hf _ hm).1]; rfl
  refine ⟨?_, by rw [h3]; rfl, ?_⟩
  · rw [h5]
    have := h6.1.2
    have := h6.2 ((fs1 ++ f :: fs2).map (fun g => g.size)).sum ⟨Nat.one_dvd _, by omega⟩
    omega
  · rw [h2, hall, List.getElem?_map, hp fs1 f fs2 rfl]
    have hn := (hf f (by simp)).1
    show some (record _) = _
    unfold record
    simp only [hn]
    congr 3; omega

/-! ### The hypotheses are met -/

/-- `struct { char a; int b; char c; double d; _Alignas(32) short e; struct { int x, y, z; } f; }`. -/
def exFields : List Field :=
  [⟨1, 1, false, true, none, 0⟩, ⟨4, 4, false, true, none, 0⟩, ⟨1, 1, false, true, none, 0⟩,
   ⟨8, 8, false, true, none, 0⟩, ⟨2, 2, false, true, none, 32⟩, ⟨12, 4, true, true, none, 0⟩]

theorem exFields_ok (packed : Bool) : StructOk packed 0 exFields := by
  constructor
  · intro f hf
    simp only [exFields, List.mem_cons, List.not_mem_nil, or_false] at hf
    rcases hf with rfl | rfl | rfl | rfl | rfl | rfl <;> constructor <;>
      first
        | exact ⟨0, rfl⟩ | exact ⟨1, rfl⟩ | exact ⟨2, rfl⟩ | exact ⟨3, rfl⟩ | exact .inl rfl | exact .inr ⟨5, rfl⟩
        | (intro w h; cases h)
  · intro f hf
    simp only [exFields, List.mem_cons, List.not_mem_nil, or_false] at hf
    rcases hf with rfl | rfl | rfl | rfl | rfl | rfl <;> simp
  · intro f hf
    simp only [exFields, List.mem_cons, List.not_mem_nil, or_false] at hf
    rcases hf with rfl | rfl | rfl | rfl | rfl | rfl <;> simp
  · refine ⟨32, ⟨.inr (.inr ⟨⟨2, 2, false, true, none, 32⟩, by simp [exFields], rfl, .inl rfl⟩), ?_⟩, by cases packed <;> decide⟩
    rintro x (h | h | ⟨f, hf, _, h⟩)
    · omega
    · omega
    · simp only [exFields, List.mem_cons, List.not_mem_nil, or_false] at hf
      rcases hf with rfl | rfl | rfl | rfl | rfl | rfl <;> simp at h <;> omega

example : (structDecl false 0 (exFields.map Field.member)) =
    .ok ⟨[⟨⟨1, 1, false, true, none, 0⟩, 0, 0⟩, ⟨⟨4, 4, false, true, none, 0⟩, 4, 0⟩, ⟨⟨1, 1, false, true, none, 0⟩, 8, 0⟩,
      ⟨⟨8, 8, false, true, none, 0⟩, 16, 0⟩, ⟨⟨2, 2, false, true, none, 32⟩, 32, 0⟩, ⟨⟨12, 4, true, true, none, 0⟩, 36, 0⟩], 64, 32⟩ := by
  decide +kernel

/-! ### Where slimcc departs from the property -/

/-- `struct __attribute__((packed)) { char c; _Alignas(4) struct { int x; } s; }`: the member `s`
asks for alignment 4 and gets offset 1 (in a structure that is itself aligned to 4). -/
theorem C18_packed_alignas_ignored :
    structDecl true 0 [⟨1, 1, false, true, none, 0⟩, ⟨4, 4, true, true, none, 4⟩] =
      .ok ⟨[⟨⟨1, 1, false, true, none, 0⟩, 0, 0⟩, ⟨⟨4, 4, true, true, none, 4⟩, 1, 0⟩], 8, 4⟩ := by
  decide +kernel

/-- `struct { char a[536870912]; int b; }`: the bit count is kept in an `int` and wraps to 0, so `b`
is put on top of `a` and the size is 4. -/
theorem C18_huge_member_overlaps :
    structDecl false 0 [⟨536870912, 1, false, true, none, 0⟩, ⟨4, 4, false, true, none, 0⟩] =
      .ok ⟨[⟨⟨536870912, 1, false, true, none, 0⟩, 0, 0⟩, ⟨⟨4, 4, false, true, none, 0⟩, 0, 0⟩], 4, 4⟩ := by
  decide +kernel

/-- `struct { char a[268435455]; long b; }`: the count overflows, which is undefined behaviour of the
compiler. -/
theorem C18_overflow :
    structDecl false 0 [⟨268435455, 1, false, true, none, 0⟩, ⟨8, 8, false, true, none, 0⟩] = .ub := by
  decide +kernel

end Slimcc.Props
