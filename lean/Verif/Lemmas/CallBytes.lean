/-
The bytes of register arguments and results arrive.
-/
import Verif.Model.CallBytes
import Verif.Lemmas.CallSides
import Verif.Lemmas.CallVa
set_option autoImplicit false

namespace Slimcc.CCL
open Slimcc.CC Slimcc.SysV

theorem p2_le (n : Nat) (h : 0 < n) : MemCopy.p2 n ≤ n ∧ 0 < MemCopy.p2 n := by
  unfold MemCopy.p2
  split
  · omega
  · split
    · omega
    · split <;> omega

theorem storeGp2_at (b : Bytes) (sz dst : Nat) (m : Memory) (ofs : Nat) (h : ofs < sz)
    (h8 : sz - ofs ≤ 8) (x : Nat) : (storeGp2 b sz dst m ofs).2 x =
      if dst + ofs ≤ x ∧ x < dst + sz then b (x - (dst + ofs)) else m x := by
  induction hn : sz - ofs using Nat.strongRecOn generalizing b m ofs with
  | _ n ih =>
    obtain ⟨p1, p2⟩ := p2_le (sz - ofs) (by omega)
    rw [storeGp2]
    split
    · rename_i hge
      have : MemCopy.p2 (sz - ofs) = sz - ofs := by omega
      rw [this]
      simp only [st]
      have e : dst + ofs + (sz - ofs) = dst + sz := by omega
      rw [e]
    · rename_i hlt
      rw [ih (sz - (ofs + MemCopy.p2 (sz - ofs))) (by omega) (shrBytes b (MemCopy.p2 (sz - ofs)))
        (st m (dst + ofs) (MemCopy.p2 (sz - ofs)) b) (ofs + MemCopy.p2 (sz - ofs)) (by omega)
        (by omega) rfl]
      generalize MemCopy.p2 (sz - ofs) = p at *
      simp only [st, shrBytes]
      by_cases h1 : dst + (ofs + p) ≤ x ∧ x < dst + sz
      · rw [if_pos h1, if_pos (by omega), if_pos (by omega)]
        congr 1
        omega
      · rw [if_neg h1]
        by_cases h2 : dst + ofs ≤ x ∧ x < dst + ofs + p
        · rw [if_pos h2, if_pos (by omega)]
        · rw [if_neg h2, if_neg (by omega)]

theorem storeGp2_st (b : Bytes) {sz : Nat} (dst : Nat) (m : Memory) (h : 0 < sz) (h8 : sz ≤ 8) :
    (storeGp2 b sz dst m 0).2 = st m dst sz b := by
  funext x
  rw [storeGp2_at b sz dst m 0 h (by omega)]
  rfl

theorem get_set_same (f : RF) (r : Reg) (b : Bytes) : (f.set r b).get r = b := by
  cases r <;> simp [RF.set, RF.get]

theorem get_set_ne (f : RF) {r r' : Reg} (b : Bytes) (h : r' ≠ r) : (f.set r b).get r' = f.get r' := by
  cases r <;> cases r' <;> simp [RF.set, RF.get] <;> intro e <;> exact absurd (by rw [e]) h

/-- Storing the parts of a parameter. -/
theorem storeParts_ok (V : Bytes) (dst size : Nat) (parts : List (Reg × Nat × Nat)) :
    ∀ (k0 : Nat) (f : RF) (m : Memory),
    (∀ (j : Nat) (r : Reg) (o n : Nat), parts[j]? = some (r, o, n) →
      o = 8 * (k0 + j) ∧ n = min 8 (size - 8 * (k0 + j)) ∧ 0 < n ∧
      (∀ i, i < n → f.get r i = V (o + i)) ∧ (∀ q, r = .fp q → n = 4 ∨ n = 8)) →
    (parts.map (·.1)).Nodup →
    ∃ f' m', storeParts dst parts f m = some (f', m') ∧
      (∀ x, m' x = if dst + 8 * k0 ≤ x ∧ x < dst + min size (8 * (k0 + parts.length)) then V (x - dst)
        else m x) ∧
      ∀ r, r ∉ parts.map (·.1) → f'.get r = f.get r := by
  induction parts with
  | nil =>
    intro k0 f m _ _
    refine ⟨f, m, rfl, ?_, fun _ _ => rfl⟩
    intro x
    rw [if_neg]
    simp only [List.length_nil]
    omega
  | cons p ps ih =>
    obtain ⟨r, o, n⟩ := p
    intro k0 f m h hnd
    obtain ⟨ho, hn, hpos, hval, hfp⟩ := h 0 r o n rfl
    simp only [List.map_cons, List.nodup_cons] at hnd
    -- the head
    have head : ∃ f₁, storePart dst f m (r, o, n) = some (f₁, st m (dst + o) n (f.get r)) ∧
        ∀ r', r' ≠ r → f₁.get r' = f.get r' := by
      cases r with
      | fp q =>
        refine ⟨f, ?_, fun _ _ => rfl⟩
        simp only [storePart, storeFp, if_pos (hfp q rfl), Option.map_some]
        rfl
      | gp q =>
        refine ⟨f.set (.gp q) (storeGp2 (f.gp q) n (dst + o) m 0).1, ?_,
          fun r' hr' => get_set_ne _ _ hr'⟩
        simp only [storePart]
        rw [storeGp2_st (f.gp q) (dst + o) m hpos (by omega)]
        rfl
    obtain ⟨f₁, h1, h2⟩ := head
    obtain ⟨f', m', k1, k2, k3⟩ := ih (k0 + 1) f₁ (st m (dst + o) n (f.get r)) (by
      intro j r' o' n' hj
      obtain ⟨a, b, c, d, e⟩ := h (j + 1) r' o' n' (by simpa using hj)
      have hne : r' ≠ r := by
        intro he
        subst he
        exact hnd.1 (List.mem_map.mpr ⟨_, List.mem_of_getElem? hj, rfl⟩)
      refine ⟨by omega, by rw [b]; congr 2; omega, c, ?_, e⟩
      intro i hi
      rw [h2 r' hne]
      exact d i hi) hnd.2
    refine ⟨f', m', by simp only [storeParts, h1, Option.bind_some]; exact k1, ?_, ?_⟩
    · intro x
      rw [k2]
      have hlast : ps ≠ [] → n = 8 := by
        intro hne
        obtain ⟨q, qs, rfl⟩ := List.exists_cons_of_ne_nil hne
        obtain ⟨r', o', n'⟩ := q
        obtain ⟨a, b, c, -⟩ := h 1 r' o' n' (by simp)
        omega
      have hlast' : ps.length ≠ 0 → n = 8 := fun hl => hlast (fun e => hl (by rw [e]; rfl))
      simp only [List.length_cons]
      by_cases c1 : dst + 8 * (k0 + 1) ≤ x ∧ x < dst + min size (8 * (k0 + 1 + ps.length))
      · rw [if_pos c1, if_pos (by omega)]
      · rw [if_neg c1]
        simp only [st]
        by_cases c2 : dst + o ≤ x ∧ x < dst + o + n
        · rw [if_pos c2, if_pos (by omega), hval _ (by omega)]
          congr 1
          omega
        · rw [if_neg c2, if_neg]
          intro c3
          by_cases hl : ps.length = 0
          · rw [hl] at c1 c3
            omega
          · have := hlast' hl
            omega
    · intro r' hr'
      simp only [List.map_cons, List.mem_cons, not_or] at hr'
      rw [k3 r' hr'.2, h2 r' hr'.1]

/-- Loading the parts of an argument. -/
theorem placeParts_ok (up : Bytes) (t : CTy) (m : Memory) (src : Nat) (rs : List Reg) :
    ∀ (k : Nat) (f : RF), rs.Nodup →
    (∀ (j : Nat) (r : Reg), rs[j]? = some r →
      (placeParts up t m src rs k f).get r = ld m (src + 8 * (k + j)) (loadSize t) up) ∧
    ∀ r, r ∉ rs → (placeParts up t m src rs k f).get r = f.get r := by
  induction rs with
  | nil => exact fun k f _ => ⟨by intro j r h; simp at h, fun _ _ => rfl⟩
  | cons r rs ih =>
    intro k f hnd
    rw [List.nodup_cons] at hnd
    obtain ⟨h1, h2⟩ := ih (k + 1) (f.set r (ld m (src + 8 * k) (loadSize t) up)) hnd.2
    refine ⟨?_, ?_⟩
    · intro j r' hj
      cases j with
      | zero =>
        simp only [List.getElem?_cons_zero, Option.some.injEq] at hj
        subst hj
        show (placeParts up t m src rs (k + 1) _).get r = _
        rw [h2 r hnd.1, get_set_same]
        rfl
      | succ j =>
        simp only [List.getElem?_cons_succ] at hj
        show (placeParts up t m src rs (k + 1) _).get r' = _
        rw [h1 j r' hj]
        congr 1
        omega
    · intro r' hr'
      simp only [List.mem_cons, not_or] at hr'
      show (placeParts up t m src rs (k + 1) _).get r' = _
      rw [h2 r' hr'.2, get_set_ne _ _ hr'.1]

/-- A register below the counters. -/
def Below (g f : Nat) : Reg → Prop
  | .gp n => n < g
  | .fp n => n < f

theorem Span.below {rs : List Reg} {g g' f f' : Nat} (s : Span rs g g' f f') {r : Reg}
    (h : r ∈ rs) : Below g' f' r ∧ ¬ Below g f r := by
  cases r with
  | gp n => have := (s.gp n).mp h; exact ⟨this.2, by simp only [Below]; omega⟩
  | fp n => have := (s.fp n).mp h; exact ⟨this.2, by simp only [Below]; omega⟩

theorem Below.mono {g g' f f' : Nat} (hg : g ≤ g') (hf : f ≤ f') {r : Reg} (h : Below g f r) :
    Below g' f' r := by
  cases r with
  | gp n => simp only [Below] at *; omega
  | fp n => simp only [Below] at *; omega

theorem passAll_frame (up : Bytes) (m : Memory) (as : List Arg) : ∀ (ss : List Slot) (g f : Nat)
    (rf : RF) (r : Reg), Below g f r → (passAll up m as ss g f rf).get r = rf.get r := by
  induction as with
  | nil => intro ss g f rf r _; cases ss <;> rfl
  | cons a as ih =>
    intro ss g f rf r hb
    cases ss with
    | nil => rfl
    | cons s ss =>
      cases s with
      | onStack o => exact ih ss g f rf r hb
      | inRegs =>
        have sp := place_span a.ty g f
        simp only [passAll]
        rw [ih ss _ _ _ r (hb.mono sp.gle sp.fle)]
        exact (placeParts_ok up a.ty m a.src _ 0 rf sp.nodup).2 r (fun hm => (sp.below hm).2 hb)

/-- The registers hold the bytes of the arguments. -/
def Held (m : Memory) : List Arg → List Slot → Nat → Nat → RF → Prop
  | a :: as, .inRegs :: ss, g, f, rf =>
    (∀ (r : Reg) (o n : Nat), (r, o, n) ∈ (storeParam a.ty g f).1 →
      ∀ i, i < n → rf.get r i = m (a.src + o + i)) ∧
    Held m as ss (storeParam a.ty g f).2.1 (storeParam a.ty g f).2.2 rf
  | _ :: as, .onStack _ :: ss, g, f, rf => Held m as ss g f rf
  | _, _, _, _, _ => True

theorem held_congr (m : Memory) (as : List Arg) : ∀ (ss : List Slot) (g f : Nat) (rf rf' : RF),
    (∀ r, ¬ Below g f r → rf'.get r = rf.get r) → Held m as ss g f rf → Held m as ss g f rf' := by
  induction as with
  | nil => intro ss g f rf rf' _ _; cases ss <;> trivial
  | cons a as ih =>
    intro ss g f rf rf' he h
    cases ss with
    | nil => trivial
    | cons s ss =>
      cases s with
      | onStack o => exact ih ss g f rf rf' he h
      | inRegs =>
        have sp := place_span a.ty g f
        obtain ⟨e1, e2⟩ := storeParam_place a.ty g f
        refine ⟨?_, ?_⟩
        · intro r o n hm i hi
          have : r ∈ (placeRegArg a.ty g f).1 := by
            rw [← e1]; exact List.mem_map.mpr ⟨_, hm, rfl⟩
          rw [he r (sp.below this).2]
          exact h.1 r o n hm i hi
        · refine ih ss _ _ rf rf' ?_ h.2
          rw [e2]
          intro r hr
          exact he r (fun hb => hr (hb.mono sp.gle sp.fle))

/-- A type whose parts are its eightbytes. -/
structure RegTy (t : CTy) : Prop where
  pos : 0 < t.size
  parts : ∀ g f, PartsOf t (storeParam t g f).1
  load : t.size ≤ loadSize t ∨ loadSize t = 8
  flo : ∀ g f q o n, (Reg.fp q, o, n) ∈ (storeParam t g f).1 → n = 4 ∨ n = 8

theorem part_len {t : CTy} (h : RegTy t) {g f j : Nat} {r : Reg} {o n : Nat}
    (hj : (storeParam t g f).1[j]? = some (r, o, n)) :
    o = 8 * j ∧ n = min 8 (t.size - 8 * j) ∧ 0 < n := by
  obtain ⟨h1, h2⟩ := (h.parts g f).at_ j r o n hj
  have hl := (List.getElem?_eq_some_iff.mp hj).1
  rw [(h.parts g f).length] at hl
  refine ⟨h1, h2, by omega⟩

theorem passAll_held (up : Bytes) (m : Memory) (as : List Arg) : ∀ (ss : List Slot) (g f : Nat)
    (rf : RF), (∀ (i : Nat) (a : Arg), as[i]? = some a → ss[i]? = some .inRegs → RegTy a.ty) →
    Held m as ss g f (passAll up m as ss g f rf) := by
  induction as with
  | nil => intro ss g f rf _; cases ss <;> trivial
  | cons a as ih =>
    intro ss g f rf hr
    cases ss with
    | nil => trivial
    | cons s ss =>
      have hr' : ∀ (i : Nat) (a : Arg), as[i]? = some a → ss[i]? = some .inRegs → RegTy a.ty :=
        fun i a' h1 h2 => hr (i + 1) a' (by simpa using h1) (by simpa using h2)
      cases s with
      | onStack o => exact ih ss g f rf hr'
      | inRegs =>
        have ht := hr 0 a rfl rfl
        have sp := place_span a.ty g f
        obtain ⟨e1, e2⟩ := storeParam_place a.ty g f
        refine ⟨?_, ?_⟩
        · intro r o n hm i hi
          obtain ⟨j, hj⟩ := List.mem_iff_getElem?.mp hm
          have hrj : (placeRegArg a.ty g f).1[j]? = some r := by
            rw [← e1, List.getElem?_map, hj]; rfl
          obtain ⟨k1, k2, k3⟩ := part_len ht hj
          simp only [passAll]
          rw [passAll_frame _ _ _ _ _ _ _ r (sp.below (List.mem_of_getElem? hrj)).1,
            (placeParts_ok up a.ty m a.src _ 0 rf sp.nodup).1 j r hrj]
          simp only [ld]
          have hl := ht.load
          rw [if_pos]
          · congr 1
            omega
          · have hlen := (List.getElem?_eq_some_iff.mp hj).1
            rw [(ht.parts g f).length] at hlen
            omega
        · rw [e2]
          exact ih ss _ _ _ hr'

/-- Blocks of the register parameters. -/
def InBlock (x : Nat) (a : Arg) : Prop := a.dst ≤ x ∧ x < a.dst + a.ty.size

instance (x : Nat) (a : Arg) : Decidable (InBlock x a) := by unfold InBlock; infer_instance

theorem recvAll_ok (m : Memory) (as : List Arg) : ∀ (ss : List Slot) (g f : Nat) (rf : RF)
    (m₀ : Memory), (∀ (i : Nat) (a : Arg), as[i]? = some a → ss[i]? = some .inRegs → RegTy a.ty) →
    (∀ (i j : Nat) (a b : Arg), i < j → as[i]? = some a → as[j]? = some b →
      ss[i]? = some .inRegs → ss[j]? = some .inRegs → ∀ x, ¬ (InBlock x a ∧ InBlock x b)) →
    Held m as ss g f rf →
    ∃ m', recvAll as ss g f rf m₀ = some m' ∧
      (∀ (i : Nat) (a : Arg), as[i]? = some a → ss[i]? = some .inRegs →
        ∀ k, k < a.ty.size → m' (a.dst + k) = m (a.src + k)) ∧
      ∀ x, (∀ (i : Nat) (a : Arg), as[i]? = some a → ss[i]? = some .inRegs → ¬ InBlock x a) →
        m' x = m₀ x := by
  induction as with
  | nil =>
    intro ss g f rf m₀ _ _ _
    refine ⟨m₀, by cases ss <;> rfl, ?_, fun _ _ => rfl⟩
    intro i a h; simp at h
  | cons a as ih =>
    intro ss g f rf m₀ hr hd h
    cases ss with
    | nil =>
      refine ⟨m₀, rfl, ?_, fun _ _ => rfl⟩
      intro i a _ h; simp at h
    | cons s ss =>
      have hr' : ∀ (i : Nat) (a : Arg), as[i]? = some a → ss[i]? = some .inRegs → RegTy a.ty :=
        fun i a' h1 h2 => hr (i + 1) a' (by simpa using h1) (by simpa using h2)
      have hd' := fun (i j : Nat) (a b : Arg) (hij : i < j) (h1 : as[i]? = some a)
        (h2 : as[j]? = some b) (h3 : ss[i]? = some Slot.inRegs) (h4 : ss[j]? = some Slot.inRegs) =>
        hd (i + 1) (j + 1) a b (by omega) (by simpa using h1) (by simpa using h2)
          (by simpa using h3) (by simpa using h4)
      cases s with
      | onStack o =>
        obtain ⟨m', k1, k2, k3⟩ := ih ss g f rf m₀ hr' hd' h
        refine ⟨m', k1, ?_, ?_⟩
        · intro i b h1 h2
          cases i with
          | zero => simp at h2
          | succ i => exact k2 i b (by simpa using h1) (by simpa using h2)
        · intro x hx
          exact k3 x (fun i b h1 h2 => hx (i + 1) b (by simpa using h1) (by simpa using h2))
      | inRegs =>
        have ht := hr 0 a rfl rfl
        have sp := place_span a.ty g f
        obtain ⟨e1, e2⟩ := storeParam_place a.ty g f
        obtain ⟨hh, hrest⟩ := h
        obtain ⟨f₁, m₁, s1, s2, s3⟩ := storeParts_ok (fun i => m (a.src + i)) a.dst a.ty.size
          (storeParam a.ty g f).1 0 rf m₀ (by
            intro j r o n hj
            obtain ⟨p1, p2, p3⟩ := part_len ht hj
            refine ⟨by omega, by rw [p2]; congr 2; omega, p3, ?_, ?_⟩
            · intro i hi
              rw [hh r o n (List.mem_of_getElem? hj) i hi, Nat.add_assoc]
            · rintro q rfl
              exact ht.flo g f q o n (List.mem_of_getElem? hj)) (by rw [e1]; exact sp.nodup)
        have hlen := (ht.parts g f).length
        have s2' : ∀ x, m₁ x = if InBlock x a then m (a.src + (x - a.dst)) else m₀ x := by
          intro x
          rw [s2]
          unfold InBlock
          rw [hlen]
          have : min a.ty.size (8 * (0 + (a.ty.size + 7) / 8)) = a.ty.size := by omega
          rw [this, Nat.mul_zero, Nat.add_zero]
        obtain ⟨m', k1, k2, k3⟩ := ih ss (storeParam a.ty g f).2.1 (storeParam a.ty g f).2.2 f₁ m₁ hr' hd'
          (held_congr m as ss _ _ rf f₁ (by
            intro r hr
            refine s3 r (fun hm => hr ?_)
            rw [e1] at hm
            rw [e2]
            exact (sp.below hm).1) hrest)
        refine ⟨m', by simp only [recvAll, s1, Option.bind_some]; exact k1, ?_, ?_⟩
        · intro i b h1 h2 k hk
          cases i with
          | zero =>
            simp only [List.getElem?_cons_zero, Option.some.injEq] at h1
            subst h1
            rw [k3 (a.dst + k), s2', if_pos ⟨by omega, by omega⟩]
            · congr 1; omega
            · intro i b h3 h4 hb
              exact hd 0 (i + 1) a b (by omega) rfl (by simpa using h3) rfl (by simpa using h4)
                (a.dst + k) ⟨⟨by omega, by omega⟩, hb⟩
          | succ i => exact k2 i b (by simpa using h1) (by simpa using h2) k hk
        · intro x hx
          rw [k3 x (fun i b h1 h2 => hx (i + 1) b (by simpa using h1) (by simpa using h2)), s2',
            if_neg (hx 0 a rfl rfl)]

/-- Sizes of aggregates with a floating member are multiples of four. -/
def Whole (t : CTy) : Prop := (∃ l ∈ leaves t 0, l.2 = .float ∨ l.2 = .double) → 4 ∣ t.size

theorem sse_leaf {t : CTy} {e : Nat} (h : classOf t e = .sse) :
    ∃ l ∈ leaves t 0, l.2 = .float ∨ l.2 = .double := by
  unfold classOf at h
  simp only at h
  split at h
  · cases h
  split at h
  · cases h
  split at h
  · rename_i hm
    obtain ⟨l, h1, h2⟩ := List.mem_map.mp hm
    refine ⟨l, (List.mem_filter.mp h1).1, ?_⟩
    cases hl : l.2 <;> simp [hl, scalarClass] at h2 ⊢
  · cases h

theorem flo_four {un : Bool} {s a : Nat} {ms : Mems} (hr : Regular (.agg un s a ms)) (hs : s ≤ 16)
    (hw : Whole (.agg un s a ms)) {e : Nat} (he : 8 * e < s)
    (hf : hasFlonum (8 * e) (8 * e + 8) (.agg un s a ms) 0 = true) :
    min 8 (s - 8 * e) = 4 ∨ min 8 (s - 8 * e) = 8 := by
  obtain ⟨hl, hn⟩ := hr.plain ⟨un, s, a, ms, rfl⟩ hs
  have c := class_flonum (e := e) hr.wf (fun _ _ e => by cases e) (fun l h => (hl l h).2)
    (hn e he)
  rw [hf] at c
  have h4 : 4 ∣ s := hw (sse_leaf (c.1 rfl))
  omega

theorem regTy_of {t : CTy} {c : Cnt} (hr : Regular t) (hw : Whole t)
    (hs : (convStep c t).1 = .inRegs) : RegTy t := by
  refine ⟨hr.pos, fun g f => storeParam_parts g f hr.kind hr.pos hs, ?_, ?_⟩
  · rcases hr.kind with ⟨k, a, rfl, -⟩ | ⟨un, s, a, ms, rfl⟩
    · exact .inl (Nat.le_refl _)
    · exact .inr rfl
  · intro g f q o n hm
    rcases hr.kind with ⟨k, a, rfl, -⟩ | ⟨un, s, a, ms, rfl⟩
    · cases k <;> simp [storeParam, CTy.size, SK.size] at hm ⊢ <;> omega
    · have hle : s ≤ 16 := by
        refine Nat.not_lt.mp (fun hgt => ?_)
        have e : convStep c (.agg un s a ms) = toStack c (.agg un s a ms) := by
          have : ¬ (CTy.agg un s a ms).size ≤ 16 := by simp only [CTy.size]; omega
          simp only [convStep, if_neg this]
        rw [e, (toStack_regs c _).2.2.1] at hs
        cases hs
      have h0 : hasFlonum1 (.agg un s a ms) = true → min 8 s = 4 ∨ min 8 s = 8 :=
        fun h => flo_four hr hle hw (e := 0) hr.pos h
      have h1 : 8 < s → hasFlonum2 (.agg un s a ms) = true → min 8 (s - 8) = 4 ∨ min 8 (s - 8) = 8 :=
        fun h8 h => flo_four hr hle hw (e := 1) (by omega) h
      unfold storeParam at hm
      simp only [CTy.size] at hm
      cases f1 : hasFlonum1 (.agg un s a ms) <;> cases f2 : hasFlonum2 (.agg un s a ms) <;>
        by_cases h8 : s > 8 <;> simp [f1, f2, h8] at hm <;> (try have := h0 f1) <;>
        (try have := h1 h8 f2) <;> omega

/-! ### Results -/

theorem retLoads_one {t : CTy} {m : Memory} {s : RetSt} (h0 : 0 < t.size) (h8 : t.size ≤ 8) :
    retLoads t m 0 s = retLoad t m 0 s := by
  rw [retLoads, if_pos h0]
  cases retLoad t m 0 s with
  | none => rfl
  | some s' => rw [Option.bind_some, retLoads, if_neg (by omega)]

theorem retLoads_two {t : CTy} {m : Memory} {s : RetSt} (h8 : 8 < t.size) (h16 : t.size ≤ 16) :
    retLoads t m 0 s = (retLoad t m 0 s).bind (retLoad t m 8) := by
  rw [retLoads, if_pos (by omega)]
  cases retLoad t m 0 s with
  | none => rfl
  | some s' =>
    rw [Option.bind_some, Option.bind_some, retLoads, if_pos (by omega)]
    cases retLoad t m (0 + 8) s' with
    | none => rfl
    | some s'' => rw [Option.bind_some, retLoads, if_neg (by omega)]

theorem regSz_ge {c : Nat} (h : c ≤ 8) : c ≤ regSz c := by
  unfold regSz
  split
  · omega
  split
  · omega
  split <;> omega

theorem ld_lt {m : Memory} {a n : Nat} {up : Bytes} {i : Nat} (h : i < n) : ld m a n up i = m (a + i) :=
  if_pos h

/-- The register of an eightbyte of the result. -/
def retReg (flo : Bool) (gp fp : Nat) (f : RF) : Bytes := if flo then f.fp fp else f.gp gp

theorem retLoad_first {t : CTy} {m : Memory} {src : Nat} {f : RF} (h0 : 0 < t.size)
    (hf : hasFlonum1 t = true → min 8 t.size = 4 ∨ min 8 t.size = 8) :
    ∃ s, retLoad t m 0 { ax := some src, cx := none, useCx := false, gp := 0, fp := 0, f := f } = some s ∧
      (∀ i, i < min 8 t.size → retReg (hasFlonum1 t) 0 0 s.f i = m (src + i)) ∧
      s.gp = b2n (!hasFlonum1 t) ∧ s.fp = b2n (hasFlonum1 t) ∧
      (if hasFlonum1 t then s.ax = some src ∧ s.useCx = false
        else s.cx = some src ∧ s.useCx = true) := by
  cases f1 : hasFlonum1 t with
  | true =>
    refine ⟨_, by simp [retLoad, retFlo, f1]; rfl, ?_, rfl, rfl, by simp⟩
    intro i hi
    have := hf f1
    simp only [retReg, if_true, RF.set]
    exact ld_lt (by split <;> omega)
  | false =>
    refine ⟨_, by simp [retLoad, retFlo, f1]; rfl, ?_, rfl, rfl, by simp⟩
    intro i hi
    have := regSz_ge (c := min 8 t.size) (by omega)
    simp only [retReg, if_true, RF.set, ld, Bool.false_eq_true, if_false]
    rw [if_pos (by omega)]

theorem retLoad_second {t : CTy} {m : Memory} {src : Nat} {s : RetSt} (h8 : 8 < t.size)
    (h16 : t.size ≤ 16)
    (hf : hasFlonum2 t = true → min 8 (t.size - 8) = 4 ∨ min 8 (t.size - 8) = 8)
    (hgp : s.gp = b2n (!hasFlonum1 t)) (hfp : s.fp = b2n (hasFlonum1 t))
    (hp : if hasFlonum1 t then s.ax = some src ∧ s.useCx = false
      else s.cx = some src ∧ s.useCx = true) :
    ∃ s', retLoad t m 8 s = some s' ∧
      (∀ i, i < t.size - 8 → retReg (hasFlonum2 t) (b2n (!hasFlonum1 t)) (b2n (hasFlonum1 t)) s'.f i =
        m (src + 8 + i)) ∧
      retReg (hasFlonum1 t) 0 0 s'.f = retReg (hasFlonum1 t) 0 0 s.f := by
  have hc : min 8 (t.size - 8) = t.size - 8 := by omega
  cases f2 : hasFlonum2 t with
  | true =>
    have h4 := hf f2
    cases f1 : hasFlonum1 t <;> rw [f1] at hgp hfp hp <;>
      simp only [if_true, Bool.false_eq_true, if_false] at hp <;> simp [b2n] at hgp hfp
    all_goals
      refine ⟨_, by simp [retLoad, retFlo, f2, hp.1, hp.2, hfp]; rfl, ?_, ?_⟩
      · intro i hi
        simp only [retReg, if_true, RF.set, b2n, Bool.not_true, Bool.not_false, Bool.false_eq_true, if_false]
        exact ld_lt (by split <;> omega)
      · simp [retReg, RF.set]
  | false =>
    have := regSz_ge (c := t.size - 8) (by omega)
    cases f1 : hasFlonum1 t <;> rw [f1] at hgp hfp hp <;>
      simp only [if_true, Bool.false_eq_true, if_false] at hp <;> simp [b2n] at hgp hfp
    all_goals
      refine ⟨_, by simp [retLoad, retFlo, f2, hp.1, hgp]; rfl, ?_, ?_⟩
      · intro i hi
        simp only [retReg, RF.set, b2n]
        simp
        exact ld_lt (by rw [hc]; omega)
      · simp [retReg, RF.set]

theorem ret_ok {un : Bool} {s a : Nat} {ms : Mems} (hr : Regular (.agg un s a ms)) (hs : s ≤ 16)
    (hw : Whole (.agg un s a ms)) (m m₀ : Memory) (src dst : Nat) (f : RF) :
    ∃ f', retRegs (.agg un s a ms) m src f = some f' ∧
      (∀ k, k < s → retStores (.agg un s a ms) dst 0 0 0 f' m₀ (dst + k) = m (src + k)) ∧
      ∀ x, ¬ (dst ≤ x ∧ x < dst + s) → retStores (.agg un s a ms) dst 0 0 0 f' m₀ x = m₀ x := by
  have hpos : 0 < s := hr.pos
  have hsz : (CTy.agg un s a ms).size = s := rfl
  have h0 : hasFlonum1 (.agg un s a ms) = true → min 8 s = 4 ∨ min 8 s = 8 :=
    fun h => flo_four hr hs hw (e := 0) hr.pos h
  have h1 : 8 < s → hasFlonum2 (.agg un s a ms) = true → min 8 (s - 8) = 4 ∨ min 8 (s - 8) = 8 :=
    fun h8 h => flo_four hr hs hw (e := 1) (by omega) h
  generalize CTy.agg un s a ms = t at *
  subst hsz
  have flo : ∀ c : Nat, c = 4 ∨ c = 8 → (if c = 4 then 4 else 8) = c := by
    intro c hc; rcases hc with rfl | rfl <;> rfl
  obtain ⟨s₁, e1, v1, g1, p1, q1⟩ := retLoad_first (m := m) (src := src) (f := f) hpos h0
  by_cases h8 : t.size ≤ 8
  · have hst : ∀ (g : RF), retStores t dst 0 0 0 g m₀ =
        st m₀ dst t.size (retReg (hasFlonum1 t) 0 0 g) := by
      intro g
      rw [retStores, if_pos hpos]
      simp only [retFlo, if_true, Nat.sub_zero, Nat.add_zero, retReg]
      split
      · rename_i f1
        rw [retStores, if_neg (by omega), flo _ (h0 f1)]
        congr 1; omega
      · rw [retStores, if_neg (by omega), storeGp2_st _ _ _ (by omega) (by omega)]
        congr 1; omega
    refine ⟨s₁.f, by rw [retRegs, retLoads_one hpos h8, e1]; rfl, ?_, ?_⟩
    · intro k hk
      rw [hst]
      simp only [st]
      rw [if_pos (by omega), Nat.add_sub_cancel_left, v1 k (by omega)]
    · intro x hx
      rw [hst]
      simp only [st]
      rw [if_neg (by omega)]
  · have h8 : 8 < t.size := by omega
    obtain ⟨s₂, e2, v2, k2⟩ := retLoad_second h8 hs (h1 h8) g1 p1 q1 (m := m)
    have hst : ∀ (g : RF), retStores t dst 0 0 0 g m₀ =
        st (st m₀ dst 8 (retReg (hasFlonum1 t) 0 0 g)) (dst + 8) (t.size - 8)
          (retReg (hasFlonum2 t) (b2n (!hasFlonum1 t)) (b2n (hasFlonum1 t)) g) := by
      intro g
      have hm : min 8 (t.size - 0) = 8 := by omega
      have hm' : min 8 (t.size - 8) = t.size - 8 := by omega
      rw [retStores, if_pos hpos]
      simp only [retFlo, if_true, hm, retReg]
      cases f1 : hasFlonum1 t <;> simp only [Bool.false_eq_true, if_false, if_true, b2n,
        Bool.not_true, Bool.not_false]
      · rw [retStores, if_pos (by omega)]
        simp only [retFlo, hm']
        cases f2 : hasFlonum2 t <;> simp
        · rw [retStores, if_neg (by omega), storeGp2_st _ _ _ (by omega) (by omega),
            storeGp2_st _ _ _ (by omega) (by omega)]
          simp [RF.set]
        · rw [retStores, if_neg (by omega), storeGp2_st _ _ _ (by omega) (by omega)]
          have := h1 h8 f2
          rw [hm'] at this
          rw [flo _ this]
          simp [RF.set]
      · rw [retStores, if_pos (by omega)]
        simp only [retFlo, hm']
        cases f2 : hasFlonum2 t <;> simp
        · rw [retStores, if_neg (by omega), storeGp2_st _ _ _ (by omega) (by omega)]
        · rw [retStores, if_neg (by omega)]
          have := h1 h8 f2
          rw [hm'] at this
          rw [flo _ this]
    refine ⟨s₂.f, by rw [retRegs, retLoads_two h8 hs, e1, Option.bind_some, e2]; rfl, ?_, ?_⟩
    · intro k hk
      rw [hst, k2]
      simp only [st]
      by_cases hk8 : k < 8
      · rw [if_neg (by omega), if_pos (by omega), Nat.add_sub_cancel_left, v1 k (by omega)]
      · rw [if_pos (by omega), show dst + k - (dst + 8) = k - 8 by omega, v2 _ (by omega)]
        congr 1
        omega
    · intro x hx
      rw [hst]
      simp only [st]
      rw [if_neg (by omega), if_neg (by omega)]

end Slimcc.CCL
