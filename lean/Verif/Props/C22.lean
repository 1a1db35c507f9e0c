import Verif.Lemmas.GInitEmit
import Verif.Props.C20
/-!
C22: the data of a static object.

`gvarData` is the model of `gvar_initializer` (with `write_gvar_data`), `emitData` of the data part of
`emit_data`.  `Spec.GInit` says which bits of the object an initialiser gives which values (`cells`),
and what it means that the assembled object holds them and zeros elsewhere (`Holds`).
-/
set_option autoImplicit false
namespace Slimcc.Props
open Slimcc Slimcc.GInit Slimcc.GInitSpec

/-- For a type as the layout makes it and an initialiser of its shape, the assembled data has the size
of the object, every initialised scalar, bit-field and address has its value at its place, and every
other bit is zero.  Nothing outside the object is accessed: that would be the result `ub`. -/
theorem C22_data (t : GTy) (i : Init) (hw : WF t) (hf : Fits i t) :
    ∃ d, gvarData t i = .ok d ∧ Holds (assemble (emitData d)) t.size (cells i t 0) := by
  obtain ⟨b', new, e, p⟩ := write_ok i t hw hf 0 { n := t.size, at_ := fun _ => 0 } [] (by simp)
    (fun p _ _ => by simp [bitb])
  refine ⟨{ buf := b', rels := new }, ?_, ?_⟩
  · rw [gvarData, e]; rfl
  · simp only [Nat.mul_zero, Nat.zero_add] at p
    exact holds_of_post rfl p

/-- The specification leaves nothing open: two objects that hold the same cells are the same, so the
data is determined by the initialiser. -/
theorem C22_determined (o1 o2 : List Out) (size : Nat) (cs : List Cell) (h1 : Holds o1 size cs)
    (h2 : Holds o2 size cs) : o1 = o2 := by
  have key : ∀ p, p < 8 * size → (∃ b, BitIs o1 p b ∧ BitIs o2 p b) ∨
      ∃ l a k, o1[p / 8]? = some (.part l a k) ∧ o2[p / 8]? = some (.part l a k) := by
    intro p hp
    by_cases hc : ∃ c ∈ cs, c.covers p
    · obtain ⟨c, hc, hp2⟩ := hc
      cases c with
      | bits lo w v =>
        obtain ⟨c1, c2⟩ := hp2
        have e : lo + (p - lo) = p := by omega
        have r1 := h1.bits lo w v hc (p - lo) (by omega)
        have r2 := h2.bits lo w v hc (p - lo) (by omega)
        rw [e] at r1 r2
        exact Or.inl ⟨_, r1, r2⟩
      | addr o l a =>
        obtain ⟨c1, c2⟩ := hp2
        have e : o + (p / 8 - o) = p / 8 := by omega
        have r1 := h1.addrs o l a hc (p / 8 - o) (by omega)
        have r2 := h2.addrs o l a hc (p / 8 - o) (by omega)
        rw [e] at r1 r2
        exact Or.inr ⟨_, _, _, r1, r2⟩
    · have hc : ∀ c ∈ cs, ¬ c.covers p := fun c h1 h2 => hc ⟨c, h1, h2⟩
      exact Or.inl ⟨_, h1.rest p hp hc, h2.rest p hp hc⟩
  apply List.ext_getElem?
  intro i
  by_cases hi : i < size
  · have h0 := key (8 * i) (by omega)
    rw [show 8 * i / 8 = i by omega] at h0
    rcases h0 with ⟨b, ⟨x, hx, _⟩, ⟨y, hy, _⟩⟩ | ⟨l, a, k, r1, r2⟩
    · rw [show 8 * i / 8 = i by omega] at hx hy
      rw [hx, hy]
      congr 2
      apply BitVec.eq_of_getLsbD_eq
      intro j hj
      have hk := key (8 * i + j) (by omega)
      have e1 : (8 * i + j) / 8 = i := by omega
      have e2 : (8 * i + j) % 8 = j := by omega
      rcases hk with ⟨b, ⟨x', hx', bx⟩, ⟨y', hy', b_y⟩⟩ | ⟨l, a, k, r1, r2⟩
      · rw [e1] at hx' hy'
        rw [e2] at bx b_y
        rw [hx] at hx'; rw [hy] at hy'
        cases hx'; cases hy'
        rw [bx, b_y]
      · rw [e1, hx] at r1; cases r1
    · rw [r1, r2]
  · rw [List.getElem?_eq_none (by have := h1.length; omega),
      List.getElem?_eq_none (by have := h2.length; omega)]

/-- The directives say what the data and relocations say, whatever they are, as long as the
relocations are in order, apart and inside. -/
theorem C22_directives (d : Data) (hs : d.rels.Pairwise (fun x y => x.ofs + 8 ≤ y.ofs))
    (hr : ∀ r ∈ d.rels, r.ofs + 8 ≤ d.buf.n) :
    (assemble (emitData d)).length = d.buf.n ∧
    (∀ r ∈ d.rels, ∀ k, k < 8 → (assemble (emitData d))[r.ofs + k]? = some (.part r.label r.addend k)) ∧
    (∀ i, i < d.buf.n → (∀ r ∈ d.rels, ¬ (r.ofs ≤ i ∧ i < r.ofs + 8)) →
      (assemble (emitData d))[i]? = some (.byte (d.buf.at_ i))) := by
  have he : assemble (emitData d) = (List.range' 0 d.buf.n).map (content d.buf.at_ d.rels) := by
    rw [emitData, emitFrom_ok d.buf d.rels 0 hs (fun r h => ⟨by omega, hr r h⟩)]
    rfl
  have get : ∀ i, i < d.buf.n → (assemble (emitData d))[i]? = some (content d.buf.at_ d.rels i) := by
    intro i hi
    rw [he, List.getElem?_map, List.getElem?_range' hi]
    simp
  refine ⟨by rw [he]; simp, fun r h k hk => ?_, fun i hi h => ?_⟩
  · have := hr r h
    rw [get _ (by omega), content, find_rel hs h _ (by omega) (by omega)]
    simp only
    congr 2
    omega
  · rw [get i hi, content, List.find?_eq_none.mpr]
    intro r hr'
    have := h r hr'
    simp; omega

/-! ### Types from the layout -/

open Slimcc.Layout Slimcc.Spec in
/-- The members of a structure that has been laid out, with their types. -/
def gmems : List (Placed × GTy) → GMems
  | [] => .nil
  | (p, t) :: ps => .cons p.offset.toNat (p.mem.width.map (fun w => (p.bitOffset.toNat, w.toNat))) t (gmems ps)

open Slimcc.Layout Slimcc.Spec in
/-- A type that may be that of a member: of its size, and for a bit-field an integer type with its
natural alignment and fewer than 63 bits used. -/
structure MemberTy (p : Placed) (t : GTy) : Prop where
  wf : WF t
  size : p.mem.size = (t.size : Int)
  bits : ∀ w, p.mem.width = some w → p.mem.align = p.mem.size ∧ w < 63 ∧ ∃ s b, t = .num s b

open Slimcc.Layout Slimcc.Spec in
theorem wfm_of (s : Nat) : ∀ (ps : List (Placed × GTy)) (prev : Nat),
    (∀ x ∈ ps, MemberTy x.1 x.2 ∧ 0 ≤ x.1.offset ∧ 0 ≤ x.1.bitOffset ∧
      x.1.offset + x.1.mem.size ≤ s ∧ (prev : Int) ≤ startBit x.1 ∧
      (x.1.mem.width = none → x.1.bitOffset = 0) ∧
      ∀ w, x.1.mem.width = some w → 0 ≤ w ∧ x.1.bitOffset + w ≤ 8 * x.1.mem.size) →
    ps.Pairwise (fun x y => endBit x.1 ≤ startBit y.1) → WFm (gmems ps) false prev s
  | [], _, _, _ => by simp [gmems, WFm]
  | (p, t) :: ps, prev, h, hp => by
    rw [List.pairwise_cons] at hp
    obtain ⟨ht, h1, h2, h3, h4, h5, h6⟩ := h (p, t) (by simp)
    have hsz := ht.size
    dsimp only at h1 h2 h3 h4 h5 h6 hsz
    have hrest : ∀ e : Nat, (e : Int) = endBit p → WFm (gmems ps) false e s := by
      intro e he
      refine wfm_of s ps e (fun x hx => ?_) hp.2
      obtain ⟨g1, g2, g3, g4, _, g6, g7⟩ := h x (by simp [hx])
      have := hp.1 x hx
      exact ⟨g1, g2, g3, g4, by rw [he]; exact this, g6, g7⟩
    rw [gmems]
    simp only [WFm]
    cases hw : p.mem.width with
    | none =>
      have hb := h5 hw
      have hend : endBit p = 8 * p.offset + 8 * p.mem.size := by
        unfold endBit startBit; rw [hw, hb]; simp
      have hst : startBit p = 8 * p.offset := by unfold startBit; omega
      refine ⟨ht.wf, by omega, fun _ => ?_, by simp, ?_⟩
      · simp only [Option.map_none, region]; omega
      · simp only [Option.map_none, region]
        exact hrest _ (by omega)
    | some w =>
      obtain ⟨b1, b2, ss, bb, rfl⟩ := ht.bits w hw
      obtain ⟨c1, c2⟩ := h6 w hw
      have hend : endBit p = 8 * p.offset + p.bitOffset + w := by
        unfold endBit startBit; rw [hw]; simp
      have hst : startBit p = 8 * p.offset + p.bitOffset := rfl
      have hss := ht.wf
      simp only [WF] at hss
      refine ⟨ht.wf, by omega, fun _ => ?_, ?_, ?_⟩
      · simp only [Option.map_some, region]; omega
      · simp only [Option.map_some, GTy.size] at hsz ⊢
        exact ⟨hss, by omega, by omega, ss, bb, rfl⟩
      · simp only [Option.map_some, region]
        exact hrest _ (by omega)

theorem pairwise_zip {α β : Type} (R : α → α → Prop) : ∀ (l : List α) (m : List β), l.Pairwise R →
    (l.zip m).Pairwise (fun x y => R x.1 y.1)
  | [], _, _ => by simp
  | _ :: _, [], _ => by simp
  | a :: l, b :: m, h => by
    rw [List.pairwise_cons] at h
    rw [List.zip_cons_cons, List.pairwise_cons]
    exact ⟨fun y hy => h.1 _ (List.of_mem_zip hy).1, pairwise_zip R l m h.2⟩

open Slimcc.Layout Slimcc.Spec in
/-- The layout of a structure that is not packed gives types of the kind `C22_data` is about. -/
theorem C22_layout_suits (alt : Nat) (fs : List Field) (L : Result) (h : StructOk false alt fs)
    (halt : alt = 0 ∨ PowTwo alt) (hL : structDecl false alt (fs.map Field.member) = .ok L)
    (ts : List GTy) (hts : ∀ x ∈ L.members.zip ts, MemberTy x.1 x.2) :
    WF (.agg false L.size.toNat (gmems (L.members.zip ts))) := by
  rw [WF]
  obtain ⟨pl, used, a, size, h1, h2, _, _, h5, _⟩ := placed_of h hL
  have hz : L.size = (L.size.toNat : Int) := by rw [h5]; simp
  have hmem : ∀ x ∈ L.members.zip ts, x.1 ∈ L.members := fun x hx => (List.of_mem_zip hx).1
  refine wfm_of _ _ 0 (fun x hx => ?_) ?_
  · have hm := hmem x hx
    have ht := hts x hx
    have hin := C18_inside false alt fs L h hL x.1 hm
    have hb0 : x.1.mem.width = none → x.1.bitOffset = 0 := by
      rw [h2] at hm
      obtain ⟨q, _, hq⟩ := List.mem_map.1 hm
      intro hw
      rw [← hq] at hw ⊢
      rw [record_mem] at hw
      unfold record
      cases hqw : q.1.width with
      | none => rfl
      | some w => unfold Field.member at hw; rw [hqw] at hw; cases hw
    cases hw : x.1.mem.width with
    | none =>
      have hb := hb0 hw
      have hst : startBit x.1 = 8 * x.1.offset + x.1.bitOffset := rfl
      have hend : endBit x.1 = 8 * x.1.offset + x.1.bitOffset + 8 * x.1.mem.size := by
        unfold endBit startBit; rw [hw]; simp
      exact ⟨ht, by omega, by omega, by omega, by omega, fun _ => hb, fun w h => by cases h⟩
    | some w =>
      obtain ⟨u1, u2, u3, u4⟩ := C20_unit alt fs L h hL x.1 hm w hw
      have hi := C20_unit_inside alt fs L h halt hL x.1 hm w hw (ht.bits w hw).1
      refine ⟨ht, u1, u3, by omega, by omega, (fun h => by cases h), fun w' h => ?_⟩
      cases h
      refine ⟨?_, u4⟩
      rw [h2] at hm
      obtain ⟨q, _, hq⟩ := List.mem_map.1 hm
      rw [← hq, record_mem] at hw
      unfold Field.member at hw
      cases hqw : q.1.width with
      | none => rw [hqw] at hw; cases hw
      | some w'' => rw [hqw] at hw; cases hw; simp
  · exact pairwise_zip _ _ _ (C18_disjoint false alt fs L h hL)

/-! ### Examples -/

/-- `struct { char c; int a : 3; unsigned b : 7; int *p; int arr[2]; _Bool f : 1; }`. -/
def exStatic : GTy :=
  .agg false 32 (.cons 0 none (.num 1 false) (.cons 0 (some (8, 3)) (.num 4 false)
    (.cons 0 (some (11, 7)) (.num 4 false) (.cons 8 none (.num 8 false)
      (.cons 16 none (.arr (.num 4 false) 2) (.cons 24 (some (0, 1)) (.num 1 true) .nil))))))

/-- `{ 65, -1, 100, &x[1], { [1] = 7 }, 1 }`. -/
def exStaticInit : Init :=
  .list (.cons (.num 65) (.cons (.num (-1)) (.cons (.num 100) (.cons (.addr "x" 4)
    (.cons (.list (.cons .none (.cons (.num 7) .nil)) 0) (.cons (.num 1) .nil)))))) 0

example : WF exStatic := by simp [exStatic, WF, WFm, region, GTy.size]

example : Fits exStaticInit exStatic := by
  simp [exStatic, exStaticInit, Fits, FitsArr, FitsMems, isBoolTy]

/-- The words of the object: the bit-fields share the first one with the character. -/
example : (gvarData exStatic exStaticInit).toOption.map (fun d => (List.range 32).map d.buf.at_) =
    some [65, 39, 3, 0, 0, 0, 0, 0, 0, 0, 0, 0, 0, 0, 0, 0,
      0, 0, 0, 0, 7, 0, 0, 0, 1, 0, 0, 0, 0, 0, 0, 0] := by decide

example : (gvarData exStatic exStaticInit).toOption.map (fun d => d.rels) = some [⟨8, "x", 4⟩] := by decide

/-- A constant object with an address in it, to copy from. -/
def exConstObj : Data :=
  { buf := { n := 24, at_ := fun i => if i = 0 then 5 else 0 }, rels := [⟨8, "y", 0⟩] }

example : Fits (.copy exConstObj 0) (.agg false 24 .nil) :=
  ⟨List.pairwise_singleton _ _, (by simp [exConstObj]), (by simp [exConstObj])⟩

example : WF (.agg true 8 (.cons 0 none (.num 8 false) (.cons 0 none (.flo 4) .nil))) := by
  simp [WF, WFm, GTy.size]

open Slimcc.Layout Slimcc.Spec in
/-- The structure of `C20`, with its types: `char`, `int`, `int`, `long`, `short`, `int`. -/
example : ∃ L, structDecl false 0 (exBits.map Field.member) = .ok L ∧ L.members.length = 6 ∧
    WF (.agg false L.size.toNat (gmems (L.members.zip
      [.num 1 false, .num 4 false, .num 4 false, .num 8 false, .num 2 false, .num 4 false]))) := by
  have hL : ∃ L, structDecl false 0 (exBits.map Field.member) = .ok L := ⟨_, rfl⟩
  obtain ⟨L, hL⟩ := hL
  have hm := C18_order false 0 exBits L (exBits_ok false) hL
  refine ⟨L, hL, (by simpa using congrArg List.length hm : L.members.length = (exBits.filter Field.isMember).length).trans (by decide), ?_⟩
  refine C22_layout_suits 0 exBits L (exBits_ok false) (.inl rfl) hL _ ?_
  intro x hx
  have key : ∀ (l : List Placed) (ms : List Member) (ts : List GTy), l.map (fun p => p.mem) = ms →
      ∀ x ∈ l.zip ts, (x.1.mem, x.2) ∈ ms.zip ts := by
    intro l ms ts h x hx
    subst h
    rw [List.zip_map_left]
    exact List.mem_map.mpr ⟨x, hx, rfl⟩
  have hx' := key _ _ _ hm x hx
  obtain ⟨p, t⟩ := x
  simp [exBits, Field.isMember, Field.member] at hx'
  rcases hx' with ⟨e, rfl⟩ | ⟨e, rfl⟩ | ⟨e, rfl⟩ | ⟨e, rfl⟩ | ⟨e, rfl⟩ | ⟨e, rfl⟩ <;>
    exact ⟨by simp [WF], by simp [e, GTy.size], by rw [e]; rintro w hw; cases hw <;> simp⟩

/-! ### Departures -/

/-- `struct { _Bool b : 1; } x = { 2 };`: the value is not converted to `_Bool`, so 0 is stored where
C asks for 1. -/
theorem C22_bool_bitfield :
    (gvarData (.agg false 1 (.cons 0 (some (0, 1)) (.num 1 true) .nil))
      (.list (.cons (.num 2) .nil) 0)).toOption.map (fun d => d.buf.at_ 0) = some 0 ∧
    ∃ v, cells (.list (.cons (.num 2) .nil) 0)
      (.agg false 1 (.cons 0 (some (0, 1)) (.num 1 true) .nil)) 0 = [.bits 0 1 v] ∧ v 0 = true := by
  refine ⟨by decide, convBit true 2, by simp [cells, cellsMems, memberCells, isBoolTy], by decide⟩

/-- A bit-field that fills a 64-bit unit (`unsigned long x : 64`) shifts by the width of the type. -/
theorem C22_wide_bitfield_undefined (v : Word) :
    ∃ f, gvarData (.agg false 8 (.cons 0 (some (0, 64)) (.num 8 false) .nil))
      (.list (.cons (.num v) .nil) 0) = .error f ∧ f = .ub :=
  ⟨_, rfl, rfl⟩

/-- In a packed structure the storage unit may reach beyond the object (`C20_packed_unit_outside`);
the initialiser then reads and writes outside the buffer. -/
theorem C22_packed_overrun (v : Word) :
    ∃ f, gvarData (.agg false 1 (.cons 0 (some (0, 3)) (.num 4 false) .nil))
      (.list (.cons (.num v) .nil) 0) = .error f ∧ f = .ub :=
  ⟨_, rfl, rfl⟩

end Slimcc.Props
