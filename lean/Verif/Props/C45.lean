import Verif.Model.Driver
import Verif.Spec.Dirs
set_option autoImplicit false
/-!
C45 Include path list is normalised without losing a directory.
-/
namespace Slimcc.Props
open Slimcc Slimcc.Driver Slimcc.Spec

/-- A path without the slashes at its end. -/
def trimP (p : Str) : Str := p.take (trimLen p p.length)

theorem trimLen_le (p : Str) : ∀ n, trimLen p n ≤ n
  | 0 => Nat.le_refl _
  | n + 1 => by
    rw [trimLen]
    split
    · exact Nat.le_succ_of_le (trimLen_le p n)
    · exact Nat.le_refl _

/-- It removes exactly the slashes at the end. -/
theorem C45_trimmed (p : Str) : Trimmed p (trimP p) := by
  have key : ∀ n, n ≤ p.length → (∃ k, p.take n = p.take (trimLen p n) ++ List.replicate k 47) ∧ (n ≠ 0 → trimLen p n ≠ 0) ∧
      ((p.take (trimLen p n)).getLast? = some 47 → (p.take (trimLen p n)).length = 1) := by
    intro n
    induction n with
    | zero => exact fun _ => ⟨⟨0, by rw [trimLen]; simp⟩, fun h => absurd rfl h, by rw [trimLen]; simp⟩
    | succ n ih =>
      intro hn
      rw [trimLen]
      split
      · rename_i h
        obtain ⟨⟨k, hk⟩, h0, h1⟩ := ih (by omega)
        refine ⟨⟨k + 1, ?_⟩, fun _ => h0 (by omega), h1⟩
        rw [List.take_add_one, h.2, hk, List.replicate_succ', ← List.append_assoc]; rfl
      · rename_i h
        refine ⟨⟨0, by simp⟩, fun _ => by omega, fun hl => ?_⟩
        by_cases h0 : n = 0
        · rw [h0]; simp; omega
        · refine absurd ⟨by omega, ?_⟩ h
          rw [List.take_add_one] at hl
          cases hx : p[n]? with
          | none => rw [List.getElem?_eq_none_iff] at hx; omega
          | some c =>
            rw [hx] at hl
            simpa using hl
  obtain ⟨⟨k, hk⟩, h0, h1⟩ := key p.length (Nat.le_refl _)
  refine ⟨⟨k, by rw [List.take_length] at hk; exact hk⟩, fun hne h => ?_, h1⟩
  have hl : p.length ≠ 0 := fun h => hne (List.eq_nil_of_length_eq_zero h)
  rcases List.take_eq_nil_iff.1 h with h | h
  · exact h0 hl h
  · exact hne h

theorem addInclude_eq (arr : List Str) (p : Str) : addInclude arr p = if trimP p ∈ arr then arr else arr ++ [trimP p] := by
  have hb : arr.any (fun s2 => s2.take (trimLen p p.length) == p.take (trimLen p p.length) && s2.length == trimLen p p.length) = true ↔ trimP p ∈ arr := by
    have hle := trimLen_le p p.length
    rw [List.any_eq_true]
    constructor
    · rintro ⟨s, hs, h⟩
      rw [Bool.and_eq_true, beq_iff_eq, beq_iff_eq] at h
      rw [List.take_of_length_le (by omega)] at h
      unfold trimP
      rw [← h.1]; exact hs
    · intro h
      refine ⟨_, h, ?_⟩
      rw [Bool.and_eq_true, beq_iff_eq, beq_iff_eq]
      unfold trimP
      exact ⟨by rw [List.take_take, Nat.min_self], by rw [List.length_take]; omega⟩
  unfold addInclude
  dsimp only
  by_cases h : trimP p ∈ arr
  · rw [if_pos h, if_pos (hb.2 h)]
  · rw [if_neg h, if_neg (fun h' => h (hb.1 h'))]
    rfl

theorem mem_firsts (x : Str) : ∀ l : List Str, x ∈ firsts l ↔ x ∈ l
  | [] => Iff.rfl
  | y :: l => by
    rw [firsts, List.mem_cons, List.mem_cons, List.mem_filter, mem_firsts x l]
    by_cases h : x = y
    · simp [h]
    · simp [h]

theorem firsts_nodup : ∀ l : List Str, (firsts l).Nodup
  | [] => List.nodup_nil
  | y :: l => by
    rw [firsts, List.nodup_cons]
    exact ⟨by simp, (firsts_nodup l).filter _⟩

theorem notIn_iff (l : List Str) (y : Str) : notIn l y = true ↔ y ∉ l := by unfold notIn; simp

theorem notIn_congr {l l' : List Str} (h : ∀ y, y ∈ l ↔ y ∈ l') : notIn l = notIn l' := by
  funext y
  rw [Bool.eq_iff_iff, notIn_iff, notIn_iff, h]

theorem filter_notIn_nil (l : List Str) : l.filter (notIn []) = l := List.filter_eq_self.2 (fun _ _ => rfl)

theorem fold_add (ps : List Str) : ∀ (arr : List Str), ps.foldl addInclude arr = arr ++ (firsts (ps.map trimP)).filter (notIn arr) := by
  induction ps with
  | nil => intro arr; simp [firsts]
  | cons p ps ih =>
    intro arr
    rw [List.foldl_cons, ih, addInclude_eq, List.map_cons, firsts]
    by_cases h : trimP p ∈ arr
    · rw [if_pos h, List.filter_cons_of_neg (by rw [notIn_iff]; simpa using h), List.filter_filter]
      congr 1
      apply List.filter_congr
      intro x _
      rw [Bool.eq_iff_iff, Bool.and_eq_true, notIn_iff, bne_iff_ne]
      exact ⟨fun hx => ⟨hx, fun e => hx (e ▸ h)⟩, fun hx => hx.1⟩
    · rw [if_neg h, List.filter_cons_of_pos ((notIn_iff _ _).2 h), List.filter_filter, List.append_assoc]
      show arr ++ (trimP p :: _) = _
      congr 2
      apply List.filter_congr
      intro x _
      rw [Bool.eq_iff_iff, Bool.and_eq_true, notIn_iff, notIn_iff, bne_iff_ne]
      simp

theorem firsts_append (a b : List Str) : firsts (a ++ b) = firsts a ++ (firsts b).filter (notIn a) := by
  induction a with
  | nil => rw [List.nil_append, filter_notIn_nil]; rfl
  | cons x a ih =>
    rw [List.cons_append, firsts, firsts, ih, List.filter_append, List.filter_filter, List.cons_append]
    congr 2
    apply List.filter_congr
    intro y _
    rw [Bool.eq_iff_iff, Bool.and_eq_true, notIn_iff, notIn_iff, bne_iff_ne]
    simp

theorem firsts_idem (l : List Str) : firsts (firsts l) = firsts l := by
  have : ∀ l : List Str, l.Nodup → firsts l = l := by
    intro l
    induction l with
    | nil => intro _; rfl
    | cons x l ih =>
      intro h
      rw [List.nodup_cons] at h
      rw [firsts, ih h.2, List.filter_eq_self.2]
      intro y hy
      simp only [bne_iff_ne]
      exact fun e => h.1 (e ▸ hy)
  exact this _ (firsts_nodup l)

theorem trimP_idem (p : Str) : trimP (trimP p) = trimP p := by
  obtain ⟨⟨k, hk⟩, h1, h2⟩ := C45_trimmed (trimP p)
  obtain ⟨_, h3, h4⟩ := C45_trimmed p
  cases k with
  | zero => simpa using hk.symm
  | succ k =>
    have hl : (trimP p).getLast? = some 47 := by rw [hk, List.replicate_succ', ← List.append_assoc, List.getLast?_concat]
    have h5 := h4 hl
    have h6 : (trimP (trimP p)).length = 0 := by rw [hk] at h5; simp at h5; omega
    have h7 := List.eq_nil_of_length_eq_zero h6
    exact absurd h7 (h1 (fun h => by rw [h] at h5; cases h5))

/-- There is only one way to do it. -/
theorem C45_trimmed_unique (p d : Str) (h : Trimmed p d) : d = trimP p := by
  have key : ∀ (a b : Str) (m n : Nat), a ++ List.replicate m 47 = b ++ List.replicate n 47 → a.length ≤ b.length → (a.length = 0 → b.length = 0) →
      (b.getLast? = some 47 → b.length = 1) → a = b := by
    intro a b m n e hl h0 h1
    have hex : ∃ c, b = a ++ c ∧ List.replicate m 47 = c ++ List.replicate n 47 := by
      rcases List.append_eq_append_iff.1 e with ⟨c, h, h'⟩ | ⟨c, h, h'⟩
      · exact ⟨c, h, h'⟩
      · have : c = [] := by
          rw [h] at hl; simp at hl; exact List.eq_nil_of_length_eq_zero (by omega)
        subst this
        exact ⟨[], by simpa using h.symm, by simpa using h'.symm⟩
    obtain ⟨c, rfl, hc⟩ := hex
    have hc' : ∀ x ∈ c, x = 47 := fun x hx => List.eq_of_mem_replicate (hc ▸ List.mem_append_left _ hx)
    cases hx : c.getLast? with
    | none => rw [List.getLast?_eq_none_iff.1 hx]; simp
    | some x =>
      have hne : c ≠ [] := fun h => by rw [h] at hx; cases hx
      have hx47 := hc' x (List.mem_of_getLast? hx)
      have := h1 (by rw [List.getLast?_append, hx, hx47]; rfl)
      have hcl : c.length ≠ 0 := fun h => hne (List.eq_nil_of_length_eq_zero h)
      rw [List.length_append] at this
      have := h0 (by omega)
      rw [List.length_append] at this
      omega
  obtain ⟨⟨m, hm⟩, a1, a2⟩ := h
  obtain ⟨⟨n, hn⟩, b1, b2⟩ := C45_trimmed p
  have h0 : ∀ x : Str, (∃ k, p = x ++ List.replicate k 47) → (p ≠ [] → x ≠ []) → ∀ y : Str, (∃ k, p = y ++ List.replicate k 47) → x.length = 0 → y.length = 0 := by
    rintro x ⟨k, hk⟩ hx y ⟨j, hj⟩ hx0
    have : p = [] := Classical.byContradiction fun h => hx h (List.eq_nil_of_length_eq_zero hx0)
    rw [this] at hj
    have := congrArg List.length hj
    simp at this
    omega
  rcases Nat.le_total d.length (trimP p).length with hl | hl
  · exact key _ _ m n (hm.symm.trans hn) hl (h0 d ⟨m, hm⟩ a1 _ ⟨n, hn⟩) b2
  · exact (key _ _ n m (hn.symm.trans hm) hl (h0 _ ⟨n, hn⟩ b1 _ ⟨m, hm⟩) a2).symm

/-- The directories that are searched: those of `-I` that are not system directories, each at its first place; then the system
directories, each at its first place: of `-isystem`, of the platform, and of `-idirafter`. All of them without slashes at the end. -/
theorem C45_list (user sys after std : List Str) (trim : Str → Str) (ht : ∀ p, Trimmed p (trim p)) :
    includePaths user sys after std =
      (firsts (user.map trim)).filter (notIn ((sys ++ std ++ after).map trim)) ++ firsts ((sys ++ std ++ after).map trim) := by
  have ht : trim = trimP := funext fun p => C45_trimmed_unique p _ (ht p)
  subst ht
  have haft : (after.foldl addInclude []).map trimP = firsts (after.map trimP) := by
    rw [fold_add, List.nil_append, filter_notIn_nil]
    have : ∀ x ∈ firsts (after.map trimP), trimP x = x := by
      intro x hx
      obtain ⟨y, _, rfl⟩ := List.mem_map.1 ((mem_firsts x _).1 hx)
      exact trimP_idem y
    rw [List.map_congr_left this, List.map_id']
  have hsys : (after.foldl addInclude []).foldl addInclude (std.foldl addInclude (sys.foldl addInclude [])) = firsts ((sys ++ std ++ after).map trimP) := by
    rw [fold_add (after.foldl addInclude []), haft, firsts_idem, fold_add std, fold_add sys, List.map_append, List.map_append, firsts_append, firsts_append,
      List.nil_append, filter_notIn_nil, notIn_congr (fun y => mem_firsts y (sys.map trimP))]
    congr 2
    apply notIn_congr
    intro x
    rw [List.mem_append, List.mem_append, mem_firsts, List.mem_filter, mem_firsts, notIn_iff]
    constructor
    · rintro (h | h)
      · exact .inl h
      · exact .inr h.1
    · rintro (h | h)
      · exact .inl h
      · by_cases hs : x ∈ sys.map trimP
        · exact .inl hs
        · exact .inr ⟨h, hs⟩
  unfold includePaths
  dsimp only
  rw [hsys, fold_add user, List.nil_append, filter_notIn_nil]
  congr 1
  apply List.filter_congr
  intro x _
  rw [Bool.eq_iff_iff, notIn_iff, Bool.not_eq_true', ← Bool.not_eq_true, List.any_eq_true, ← mem_firsts]
  apply not_congr
  constructor
  · rintro ⟨y, hy, e⟩; rw [beq_iff_eq] at e; exact e ▸ hy
  · intro h; exact ⟨x, h, by simp⟩

/-- No directory occurs twice. -/
theorem C45_no_duplicates (user sys after std : List Str) : (includePaths user sys after std).Nodup := by
  rw [C45_list user sys after std trimP C45_trimmed]
  refine List.nodup_append.2 ⟨(firsts_nodup _).filter _, firsts_nodup _, ?_⟩
  intro a ha b hb e
  rw [mem_firsts] at hb
  exact (notIn_iff _ _).1 (List.mem_filter.1 ha).2 (e ▸ hb)

/-- No directory is lost, and none is added. -/
theorem C45_no_loss (user sys after std : List Str) (d : Str) :
    d ∈ includePaths user sys after std ↔ ∃ p ∈ user ++ (sys ++ std ++ after), Trimmed p d := by
  have hm : ∀ l : List Str, d ∈ l.map trimP ↔ ∃ p ∈ l, Trimmed p d := fun l => by
    rw [List.mem_map]
    constructor
    · rintro ⟨p, hp, rfl⟩; exact ⟨p, hp, C45_trimmed p⟩
    · rintro ⟨p, hp, h⟩; exact ⟨p, hp, (C45_trimmed_unique p d h).symm⟩
  rw [C45_list user sys after std trimP C45_trimmed, List.mem_append, List.mem_filter, mem_firsts, mem_firsts, notIn_iff, ← hm, List.map_append (l₁ := user), List.mem_append]
  constructor
  · rintro (h | h)
    · exact .inl h.1
    · exact .inr h
  · rintro (h | h)
    · by_cases hs : d ∈ (sys ++ std ++ after).map trimP
      · exact .inr hs
      · exact .inl ⟨h, hs⟩
    · exact .inr h

/-- `-Ia/ -I/ -Ib -Ia -isystem b//`, with `/u` of the platform. -/
example : includePaths [[97, 47], [47], [98], [97]] [[98, 47, 47]] [] [[47, 117]] = [[97], [47], [98], [47, 117]] := rfl

end Slimcc.Props
