import Verif.Lemmas.Layout
/-!
C19: union layout. `unionDecl` is the model of `union_decl`; the bytes a member needs are its size,
or for a bit-field its width rounded up to bytes.
-/
set_option autoImplicit false
namespace Slimcc.Props
open Slimcc Slimcc.Spec Slimcc.Layout

/-- The number of bytes a member of a union occupies. -/
def unionBytes (f : Field) : Nat := (f.len + 7) / 8

theorem union_loop (packed : Bool) (fs : List Field) : ∀ (alt : Nat) (size : Int), -1 ≤ size →
    (∀ f ∈ fs, f.size ≤ 268435454 ∧ f.len ≤ 8 * f.size) →
    ∃ r, unionLoop packed (fs.map Field.member) alt size = .ok ((fs.map Field.member).foldl (altStep packed) (alt : Int), r) ∧
      size ≤ r ∧ (∀ f ∈ fs, (unionBytes f : Int) ≤ r) ∧ (r = size ∨ ∃ f ∈ fs, r = unionBytes f) := by
  induction fs with
  | nil => intro alt size _ _; exact ⟨size, rfl, Int.le_refl _, (fun f h => by cases h), .inl rfl⟩
  | cons f fs ih =>
    intro alt size h1 hf
    have hb := hf f (.head _)
    have hA : ∃ A : Nat, altStep packed alt f.member = (A : Int) := by
      unfold altStep
      have : (f.member.altAlign : Int) = (f.alt : Nat) := rfl
      split
      · exact ⟨(max (if packed = true then (alt : Int) else max (alt : Int) f.member.align) f.member.altAlign).toNat, by rw [this]; omega⟩
      · exact ⟨alt, rfl⟩
    obtain ⟨A, hA⟩ := hA
    have hsz : (match f.member.width with
        | some w => (alignTo w 8 >>= fun b => Outcome.ok (b.tdiv 8))
        | none => Outcome.ok (toInt f.member.size)) = .ok ((unionBytes f : Nat) : Int) := by
      unfold unionBytes
      have hl := hb.2
      cases hw : f.width with
      | none =>
        have hm : f.member.width = none := by unfold Field.member; rw [hw]; rfl
        have hlen : f.len = 8 * f.size := by unfold Field.len; rw [hw]; rfl
        rw [hm, hlen]
        show Outcome.ok (toInt ((f.size : Nat) : Int)) = _
        rw [toInt_nat _ (by omega)]
        congr 2; omega
      | some w =>
        have hm : f.member.width = some ((w : Nat) : Int) := by unfold Field.member; rw [hw]; rfl
        have hlen : f.len = w := by unfold Field.len; rw [hw]; rfl
        rw [hlen] at hl
        rw [hm, hlen]
        show (alignTo (w : Int) ((8 : Nat) : Int) >>= _) = _
        rw [alignTo_nat _ _ (by omega) (by omega)]
        show Outcome.ok (Int.tdiv ((up w 8 : Nat) : Int) 8) = _
        rw [show Int.tdiv ((up w 8 : Nat) : Int) 8 = ((up w 8 / 8 : Nat) : Int) from (Int.ofNat_tdiv _ 8).symm]
        congr 2
        unfold up; omega
    obtain ⟨r, g1, g2, g3, g4⟩ := ih A (max size (unionBytes f)) (by omega) (fun g hg => hf g (.tail _ hg))
    refine ⟨r, ?_, by omega, ?_, ?_⟩
    · rw [List.map_cons, unionLoop]
      show ((match f.member.width with
        | some w => (alignTo w 8 >>= fun b => Outcome.ok (b.tdiv 8))
        | none => Outcome.ok (toInt f.member.size)) >>= _) = _
      rw [hsz]
      show unionLoop packed _ (altStep packed alt f.member) (max size (unionBytes f)) = _
      rw [hA, g1, List.foldl_cons, hA]
    · intro g hg
      rcases List.mem_cons.1 hg with rfl | hg
      · omega
      · exact g3 g hg
    · rcases g4 with g4 | ⟨g, hg, g4⟩
      · rcases Int.le_total size (unionBytes f) with h | h
        · right; exact ⟨f, .head _, by omega⟩
        · left; omega
      · right; exact ⟨g, .tail _ hg, g4⟩

/-- The declaration of a union of members below 2^28 bytes, with an alignment below 2^28. -/
structure UnionOk (packed : Bool) (alt : Nat) (fs : List Field) : Prop where
  wf : ∀ f ∈ fs, f.Wf
  small : ∀ f ∈ fs, f.size ≤ 268435454 ∧ f.align ≤ 268435454 ∧ f.alt ≤ 268435454
  alt : alt ≤ 268435454

/-- A union has all its members at offset zero, in declaration order; its alignment is the largest one
that occurs, and its size the least multiple of the alignment that holds every member. -/
theorem C19_layout (packed : Bool) (alt : Nat) (fs : List Field) (h : UnionOk packed alt fs) :
    ∃ L a size, unionDecl packed alt (fs.map Field.member) = .ok L ∧
      L.members = (fs.filter Field.isMember).map (fun f => ⟨f.member, 0, 0⟩) ∧
      L.align = ((a : Nat) : Int) ∧ AlignIs packed alt fs a ∧
      L.size = ((size : Nat) : Int) ∧ Least (fun n => a ∣ n ∧ ∀ f ∈ fs, f.len ≤ 8 * n) size := by
  have hl : ∀ f ∈ fs, f.size ≤ 268435454 ∧ f.len ≤ 8 * f.size := by
    intro f hf
    refine ⟨(h.small f hf).1, ?_⟩
    unfold Field.len
    cases hw : f.width with
    | none => exact Nat.le_refl _
    | some w => exact ((h.wf f hf).bits w hw).2.1
  obtain ⟨r, h1, h2, h3, h4⟩ := union_loop packed fs alt (-1) (by omega) hl
  obtain ⟨a, g1, g2, g3, g4⟩ := align_is packed fs alt h.wf
  have hab : a ≤ 268435454 := by
    rcases g1.1 with e | e | ⟨f, hf, _, e | ⟨_, e⟩⟩
    · omega
    · have := h.alt; omega
    · have := h.small f hf; omega
    · have := h.small f hf; omega
  -- the largest size
  have hR : ∃ n : Nat, max r 0 = (n : Int) ∧ n ≤ 268435454 ∧ ∀ m, (∀ f ∈ fs, f.len ≤ 8 * m) ↔ n ≤ m := by
    refine ⟨(max r 0).toNat, by omega, ?_, fun m => ⟨fun hm => ?_, fun hm f hf => ?_⟩⟩
    · rcases h4 with h4 | ⟨f, hf, h4⟩
      · omega
      · have := hl f hf; unfold unionBytes at h4; omega
    · rcases h4 with h4 | ⟨f, hf, h4⟩
      · omega
      · have := hm f hf; unfold unionBytes at h4; omega
    · have := h3 f hf; unfold unionBytes at this; omega
  obtain ⟨n, e1, e2, e3⟩ := hR
  refine ⟨⟨((fs.map Field.member).filter Member.kept).map fun m => ⟨m, 0, 0⟩, ((up n a : Nat) : Int), a⟩, a, up n a, ?_, ?_, rfl, g1, rfl, ?_⟩
  · unfold unionDecl
    rw [h1]
    show (alignTo (toInt (max r 0)) (if _ ≠ (0 : Int) then _ else 1) >>= _) = _
    rw [g3, e1, toInt_nat _ (by omega), alignTo_nat _ _ g2 (by omega)]
    rfl
  · dsimp only
    rw [List.filter_map, List.map_map]
    have : (Member.kept ∘ Field.member) = Field.isMember := funext kept_eq
    rw [this]; rfl
  · refine ⟨⟨up_dvd _ _, (e3 _).2 (up_ge _ _ g2)⟩, fun m hm => up_least _ _ _ g2 hm.1 ((e3 m).1 hm.2)⟩

/-- `union { char a[5]; int b; long c : 40; _Alignas(16) short d; }`. -/
def exUnion : List Field :=
  [⟨5, 1, false, true, none, 0⟩, ⟨4, 4, false, true, none, 0⟩, ⟨8, 8, false, true, some 40, 0⟩, ⟨2, 2, false, true, none, 16⟩]

theorem exUnion_ok : UnionOk false 0 exUnion := by
  constructor
  · intro f hf
    simp only [exUnion, List.mem_cons, List.not_mem_nil, or_false] at hf
    rcases hf with rfl | rfl | rfl | rfl <;> constructor <;>
      first
        | exact ⟨0, rfl⟩ | exact ⟨1, rfl⟩ | exact ⟨2, rfl⟩ | exact ⟨3, rfl⟩ | exact .inl rfl | exact .inr ⟨4, rfl⟩
        | (intro w h; cases h; exact ⟨⟨3, rfl⟩, by decide, by decide⟩)
        | (intro w h; cases h)
  · intro f hf
    simp only [exUnion, List.mem_cons, List.not_mem_nil, or_false] at hf
    rcases hf with rfl | rfl | rfl | rfl <;> simp
  · decide

example : ∃ L, unionDecl false 0 (exUnion.map Field.member) = .ok L ∧ L.size = 16 ∧ L.align = 16 ∧ L.members.length = 4 := by
  refine ⟨_, rfl, ?_⟩; decide

/-- `union { char a[4294967296]; int b; }`: the size of the first member is converted to `int` and
becomes 0, so the union is four bytes long. -/
theorem C19_huge_member_outside :
    ∃ L, unionDecl false 0 [⟨4294967296, 1, false, true, none, 0⟩, ⟨4, 4, false, true, none, 0⟩] = .ok L ∧ L.size = 4 :=
  ⟨_, rfl, by decide⟩

end Slimcc.Props
