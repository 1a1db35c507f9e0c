import Verif.Spec.Arena
/-! # C02: arena blocks never alias and are aligned -/
set_option autoImplicit false
namespace Slimcc.Props
open Slimcc Slimcc.Arena

theorem and_neg16 (x : Nat) (h : x < 2 ^ 64) : x &&& (2 ^ 64 - 16) = x / 16 * 16 := by
  apply Nat.eq_of_testBit_eq
  intro i
  have h16 : x / 16 * 16 = (x >>> 4) <<< 4 := by
    simp [Nat.shiftRight_eq_div_pow, Nat.shiftLeft_eq]
  rw [h16, Nat.testBit_and, Nat.testBit_shiftLeft, Nat.testBit_shiftRight]
  have hc : (2 ^ 64 - 16 : Nat) = (2 ^ 60 - 1) <<< 4 := by decide
  rw [hc, Nat.testBit_shiftLeft, Nat.testBit_two_pow_sub_one]
  by_cases h4 : i ≥ 4
  · have e : 4 + (i - 4) = i := by omega
    by_cases h64 : i < 64
    · have : i - 4 < 60 := by omega
      simp [h4, this, e]
    · have hb : x.testBit i = false := by
        apply Nat.testBit_lt_two_pow
        exact Nat.lt_of_lt_of_le h (Nat.pow_le_pow_right (by decide) (by omega))
      simp [hb, e]
  · simp [h4]

theorem alignedSize_eq (sz : Nat) (h : sz + 15 < 2 ^ 64) : alignedSize sz = (sz + 15) / 16 * 16 := by
  unfold alignedSize
  rw [Nat.mod_eq_of_lt h, and_neg16 _ h]

structure ArenaInv (isOn : Bool) (s : State) : Prop where
  onPage : isOn = true → ∃ p, s.page = some p
  mult : s.used % 16 = 0
  bound : s.used ≤ 4064
  placed : ∀ b ∈ s.live, Spec.WellPlaced b
  below : ∀ p, s.page = some p → ∀ b ∈ s.live, b.page < p ∨ (b.page = p ∧ b.off + b.size ≤ s.used)
  disj : s.live.Pairwise Spec.NoOverlap

theorem arena_run (ops : List Op) : ∀ (isOn : Bool) (s : State), ArenaInv isOn s →
    Spec.LegalUse isOn ops →
    ∃ s', run s ops = .ok s' ∧ (∀ b ∈ s'.live, Spec.WellPlaced b) ∧
      s'.live.Pairwise Spec.NoOverlap ∧
      s'.live.map Block.size = Spec.requestsSinceOn ops (s.live.map Block.size) := by
  induction ops with
  | nil => intro isOn s inv _; exact ⟨s, rfl, inv.placed, inv.disj, rfl⟩
  | cons o os ih =>
    intro isOn s inv legal
    cases o with
    | on =>
      obtain ⟨s', a, b, c, d⟩ := ih true (arenaOn s)
        ⟨fun _ => ⟨0, rfl⟩, rfl, by simp [arenaOn], by simp [arenaOn], by simp [arenaOn], by simp [arenaOn]⟩ legal
      exact ⟨s', by simpa [run, step] using a, b, c, by simpa [Spec.requestsSinceOn, arenaOn] using d⟩
    | off f =>
      have inv' : ArenaInv false (arenaOff f s) := by
        unfold arenaOff
        cases f
        · exact ⟨by simp, inv.mult, inv.bound, inv.placed, inv.below, inv.disj⟩
        · exact ⟨by simp, inv.mult, inv.bound, inv.placed, by simp, inv.disj⟩
      obtain ⟨s', a, b, c, d⟩ := ih false _ inv' legal
      refine ⟨s', by simpa [run, step] using a, b, c, ?_⟩
      rw [d]; unfold arenaOff; cases f <;> rfl
    | alloc sz =>
      obtain ⟨hon, hsz, hl⟩ := legal
      obtain ⟨p, hp⟩ := inv.onPage hon
      have ha := alignedSize_eq sz (by omega)
      have hb := inv.bound
      have hm := inv.mult
      by_cases hfit : (s.used + alignedSize sz) % 2 ^ 64 ≤ PAGE_SIZE
      · have hfit' : s.used + alignedSize sz ≤ 4064 := by
          unfold PAGE_SIZE at hfit
          rw [Nat.mod_eq_of_lt (by omega)] at hfit
          exact hfit
        have inv' : ArenaInv isOn { s with used := s.used + alignedSize sz, live := ⟨p, s.used, sz⟩ :: s.live } := by
          refine ⟨fun _ => ⟨p, hp⟩, ?_, hfit', ?_, ?_, ?_⟩
          · simp only; omega
          · intro b hb'
            simp only [List.mem_cons] at hb'
            rcases hb' with rfl | hb'
            · unfold Spec.WellPlaced; simp only; omega
            · exact inv.placed b hb'
          · intro q hq b hb'
            simp only [List.mem_cons] at hb'
            simp only at hq ⊢
            rcases hb' with rfl | hb'
            · right
              have : p = q := by rw [hp] at hq; exact Option.some.inj hq
              simp only; omega
            · rcases inv.below q hq b hb' with h | ⟨h1, h2⟩
              · exact Or.inl h
              · right; omega
          · rw [List.pairwise_cons]
            refine ⟨?_, inv.disj⟩
            intro b hb' q x ⟨⟨h1, h2, h3⟩, ⟨h4, h5, h6⟩⟩
            simp only at h1 h2 h3
            rcases inv.below p hp b hb' with h | ⟨h7, h8⟩ <;> omega
        obtain ⟨s', a, b, c, d⟩ := ih isOn _ inv' hl
        refine ⟨s', ?_, b, c, by simpa [Spec.requestsSinceOn] using d⟩
        simp only [run, step, allocate, hp, hfit, if_true]; rw [hp] at a; exact a
      · have inv' : ArenaInv isOn { s with chain := max s.chain (p + 2), page := some (p + 1), used := alignedSize sz, live := ⟨p + 1, 0, sz⟩ :: s.live } := by
          refine ⟨fun _ => ⟨p + 1, rfl⟩, ?_, ?_, ?_, ?_, ?_⟩
          · simp only; omega
          · simp only; clear hfit; omega
          · intro b hb'
            simp only [List.mem_cons] at hb'
            rcases hb' with rfl | hb'
            · exact ⟨by simp only; omega, rfl⟩
            · exact inv.placed b hb'
          · intro q hq b hb'
            simp only [Option.some.injEq] at hq
            simp only [List.mem_cons] at hb'
            simp only
            rcases hb' with rfl | hb'
            · right; simp only; omega
            · rcases inv.below p hp b hb' with h | ⟨h1, h2⟩
              · left; omega
              · left; omega
          · rw [List.pairwise_cons]
            refine ⟨?_, inv.disj⟩
            intro b hb' q x ⟨⟨h1, h2, h3⟩, ⟨h4, h5, h6⟩⟩
            simp only at h1 h2 h3
            rcases inv.below p hp b hb' with h | ⟨h7, h8⟩ <;> omega
        obtain ⟨s', a, b, c, d⟩ := ih isOn _ inv' hl
        refine ⟨s', ?_, b, c, by simpa [Spec.requestsSinceOn] using d⟩
        simp only [run, step, allocate, hp, hfit, if_false]; exact a

/-- C02. In every legal use of an arena (any number of on/off epochs, with or without freeing,
any sequence of requests of at most a page made while it is on), no undefined behaviour occurs,
exactly the requested blocks are handed out since the last `on` (sizes, most recent first), they
are pairwise disjoint, aligned and inside their page. -/
theorem C02_arena_blocks_disjoint (ops : List Op) (legal : Spec.LegalUse false ops) :
    ∃ s, run State.init ops = .ok s ∧
      (∀ b ∈ s.live, Spec.WellPlaced b) ∧ s.live.Pairwise Spec.NoOverlap ∧
      s.live.map Block.size = Spec.requestsSinceOn ops [] :=
  arena_run ops false State.init
    ⟨by simp, rfl, by decide, by simp [State.init], by simp [State.init], by simp [State.init]⟩ legal

/-- The zero-fill of `calloc`-style requests (alloc.c:64-66 writes the rounded-up size) stays
inside the page and outside every earlier block: the rounded block is itself well placed and
the next block starts after it. -/
theorem C02_clear_stays_in_block (s s' : State) (b : Block) (sz : Nat) (hsz : sz ≤ 4064)
    (hu : s.used ≤ 4064) (h : allocate s sz = .ok (s', b)) :
    sz ≤ alignedSize sz ∧ b.off + alignedSize sz = s'.used ∧ s'.used ≤ 4064 := by
  have ha := alignedSize_eq sz (by omega)
  unfold allocate at h
  simp only at h
  split at h
  · cases h
  · split at h
    · rename_i hfit
      unfold PAGE_SIZE at hfit
      rw [Nat.mod_eq_of_lt (by omega)] at hfit
      cases h; exact ⟨by omega, rfl, hfit⟩
    · rename_i hfit; cases h; clear hfit; simp only; omega

/-- Why the size precondition is needed: any request above a page (and below 2^64-16) gets a
block that overruns its page. (All call sites in the code pass `sizeof` of a small struct.) -/
theorem C02_oversized_request_overruns (s : State) (p sz : Nat) (hp : s.page = some p)
    (hu : s.used ≤ 4064) (h1 : 4064 < sz) (h2 : sz < 2 ^ 63) :
    ∃ s' b, allocate s sz = .ok (s', b) ∧ b.off + b.size > 4064 := by
  have ha := alignedSize_eq sz (by omega)
  unfold allocate
  simp only [hp]
  rw [if_neg]
  · exact ⟨_, _, rfl, by simp only; omega⟩
  · unfold PAGE_SIZE; rw [Nat.mod_eq_of_lt (by omega)]; omega

/-- Non-vacuity: two epochs, page switch. -/
example : Spec.LegalUse false [.on, .alloc 100, .alloc 4000, .alloc 8, .off true, .on, .alloc 4064, .alloc 1] := by
  simp [Spec.LegalUse]

end Slimcc.Props
