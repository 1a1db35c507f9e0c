import Verif.Spec.Files
set_option autoImplicit false
/-!
C49 Driver classifies inputs and derives output names consistently.
-/
namespace Slimcc.Props
open Slimcc Slimcc.Driver Slimcc.Spec

theorem endsWith_iff (p q : Str) : endsWith p q = true ↔ ∃ a, p = a ++ q := by
  unfold endsWith
  rw [Bool.and_eq_true, decide_eq_true_eq, beq_iff_eq]
  constructor
  · rintro ⟨h, e⟩
    exact ⟨p.take (p.length - q.length), by
      conv => rhs; rhs; rw [← e]
      rw [List.take_append_drop]⟩
  · rintro ⟨a, rfl⟩
    simp

/-- The extension after the last dot is determined. -/
theorem ext_unique {a b e f : Str} (h : a ++ 46 :: e = b ++ 46 :: f) (he : 46 ∉ e) (hf : 46 ∉ f) : a = b ∧ e = f := by
  rcases List.append_eq_append_iff.1 h with ⟨c, h1, h2⟩ | ⟨c, h1, h2⟩
  · cases c with
    | nil => simp at h2; exact ⟨by simpa using h1.symm, h2⟩
    | cons x c =>
      rw [List.cons_append] at h2
      injection h2 with _ h2
      exact absurd (by rw [h2]; simp) he
  · cases c with
    | nil => simp at h2; exact ⟨by simpa using h1, h2.symm⟩
    | cons x c =>
      rw [List.cons_append] at h2
      injection h2 with _ h2
      exact absurd (by rw [h2]; simp) hf

theorem endsWith_ext {a e f : Str} (he : 46 ∉ e) (hf : 46 ∉ f) : endsWith (a ++ 46 :: e) (46 :: f) = decide (e = f) := by
  rw [Bool.eq_iff_iff, endsWith_iff, decide_eq_true_eq]
  constructor
  · rintro ⟨b, h⟩; exact (ext_unique h he hf).2
  · rintro rfl; exact ⟨a, rfl⟩

/-- The extension decides, whatever comes before it. -/
theorem C49_extension (E : Bool) (a : Str) (ext : String) (ty : FileType) (h : (ext, ty) ∈ extensions) : fileType E (a ++ 46 :: str ext) = some ty := by
  have he : ∀ f : Str, 46 ∉ f → endsWith (a ++ 46 :: str ext) (46 :: f) = decide (str ext = f) := by
    intro f hf
    refine endsWith_ext ?_ hf
    simp only [extensions, List.mem_cons, Prod.mk.injEq, List.not_mem_nil, or_false] at h
    rcases h with ⟨rfl, _⟩ | ⟨rfl, _⟩ | ⟨rfl, _⟩ | ⟨rfl, _⟩ | ⟨rfl, _⟩ | ⟨rfl, _⟩ | ⟨rfl, _⟩ <;> decide
  unfold fileType
  rw [he [97] (by decide), he [115, 111] (by decide), he [111] (by decide), he [108, 111] (by decide), he [99] (by decide), he [115] (by decide), he [83] (by decide)]
  simp only [extensions, List.mem_cons, Prod.mk.injEq, List.not_mem_nil, or_false] at h
  rcases h with ⟨rfl, rfl⟩ | ⟨rfl, rfl⟩ | ⟨rfl, rfl⟩ | ⟨rfl, rfl⟩ | ⟨rfl, rfl⟩ | ⟨rfl, rfl⟩ | ⟨rfl, rfl⟩ <;> rfl

theorem isDigit_iff (c : Nat) : isDigit c = true ↔ 48 ≤ c ∧ c ≤ 57 := by unfold isDigit; simp

theorem skipVersion_digits : ∀ (ds v : Str), (∀ d ∈ ds, 48 ≤ d ∧ d ≤ 57) → skipVersion (ds ++ v) = skipVersion v
  | [], v, _ => rfl
  | d :: ds, v, h => by
    rw [List.cons_append, skipVersion, if_pos (by rw [(isDigit_iff d).2 (h d (List.mem_cons_self ..))]; rfl)]
    exact skipVersion_digits ds v (fun x hx => h x (List.mem_cons_of_mem _ hx))

theorem skipVersion_dot (d : Nat) (v : Str) (h : 48 ≤ d ∧ d ≤ 57) : skipVersion (46 :: d :: v) = skipVersion (d :: v) := by
  rw [skipVersion, if_pos]
  show (isDigit 46 || (true && isDigit d)) = true
  rw [(isDigit_iff d).2 h]; simp

theorem version_skip {v : Str} (h : Version v) : skipVersion v = [] := by
  induction h with
  | last ds hne hd =>
    cases ds with
    | nil => exact absurd rfl hne
    | cons d ds =>
      rw [skipVersion_dot d ds (hd d (List.mem_cons_self ..))]
      have := skipVersion_digits (d :: ds) [] hd
      rw [List.append_nil] at this
      rw [this]; rfl
  | more ds v hne hd _ ih =>
    cases ds with
    | nil => exact absurd rfl hne
    | cons d ds =>
      rw [List.cons_append, skipVersion_dot d _ (hd d (List.mem_cons_self ..)), ← List.cons_append, skipVersion_digits (d :: ds) v hd, ih]

theorem skip_version : ∀ (v : Str), skipVersion v = [] → ∃ ds w, v = ds ++ w ∧ (∀ d ∈ ds, 48 ≤ d ∧ d ≤ 57) ∧ (w = [] ∨ Version w) ∧ (ds = [] → v.head? = some 46 ∨ v = [])
  | [], _ => ⟨[], [], rfl, (fun _ h => by cases h), .inl rfl, fun _ => .inr rfl⟩
  | c :: r, h => by
    rw [skipVersion] at h
    split at h
    · rename_i hc
      obtain ⟨ds, w, e, hd, hw, hh⟩ := skip_version r h
      rw [Bool.or_eq_true, Bool.and_eq_true, isDigit_iff, beq_iff_eq] at hc
      rcases hc with hc | ⟨hc, hr⟩
      · refine ⟨c :: ds, w, by rw [e]; rfl, ?_, hw, fun h => by cases h⟩
        intro d hm
        rcases List.mem_cons.1 hm with rfl | hm
        · exact hc
        · exact hd d hm
      · have hne : ds ≠ [] := by
          intro h0
          subst h0
          rcases hh rfl with h1 | h1
          · cases r with
            | nil => cases h1
            | cons x r =>
              cases h1
              exact absurd (show isDigit 46 = true from hr) (by decide)
          · rw [h1] at hr; cases hr
        refine ⟨[], c :: r, rfl, (fun _ h => by cases h), .inr ?_, fun _ => .inl (by rw [hc]; rfl)⟩
        rw [e, hc]
        rcases hw with rfl | hw
        · rw [List.append_nil]; exact .last ds hne hd
        · exact .more ds w hne hd hw
    · cases h

theorem strstr_some {q : Str} : ∀ {s p : Str}, strstr s q = some p → (∃ a, s = a ++ p) ∧ q <+: p
  | [], p, h => by
    rw [strstr] at h
    split at h
    · rename_i hq; cases h; exact ⟨⟨[], rfl⟩, by rw [hq]; exact List.prefix_rfl⟩
    · cases h
  | c :: s, p, h => by
    rw [strstr] at h
    split at h
    · rename_i hq; cases h; exact ⟨⟨[], rfl⟩, List.isPrefixOf_iff_prefix.1 hq⟩
    · obtain ⟨⟨a, e⟩, hp⟩ := strstr_some h
      exact ⟨⟨c :: a, by rw [e]; rfl⟩, hp⟩

theorem strstr_first {q : Str} : ∀ (a : Str) (b : Str), (∀ a' b', a ++ (q ++ b) = a' ++ (q ++ b') → a.length ≤ a'.length) → strstr (a ++ (q ++ b)) q = some (q ++ b)
  | [], b, _ => by
    cases h : q ++ b with
    | nil =>
      have : q = [] := (List.append_eq_nil_iff.1 h).1
      rw [this]; rfl
    | cons c r =>
      rw [List.nil_append, strstr, if_pos (by rw [List.isPrefixOf_iff_prefix, ← h]; exact List.prefix_append ..)]
  | c :: a, b, h => by
    rw [List.cons_append, strstr, if_neg]
    · refine strstr_first a b (fun a' b' e => ?_)
      have := h (c :: a') b' (by rw [List.cons_append, e]; rfl)
      simpa using this
    · intro hp
      obtain ⟨t, ht⟩ := List.isPrefixOf_iff_prefix.1 hp
      have := h [] t (by rw [List.cons_append, ← ht]; rfl)
      simp at this

/-- What is accepted otherwise: with `-E`, standard input and headers; a shared library with a version. Nothing else is. -/
theorem C49_only (E : Bool) (s : Str) (ty : FileType) (h : fileType E s = some ty) :
    (∃ a ext, s = a ++ 46 :: str ext ∧ (ext, ty) ∈ extensions) ∨ (E = true ∧ ty = .c ∧ (s = str "-" ∨ ∃ a, s = a ++ str ".h")) ∨
    (ty = .dso ∧ ∃ a v, s = a ++ str ".so" ++ v ∧ Version v) := by
  unfold fileType at h
  split at h
  · rename_i he; cases h; obtain ⟨a, e⟩ := (endsWith_iff _ _).1 he; exact .inl ⟨a, "a", e, by decide⟩
  · split at h
    · rename_i he; cases h; obtain ⟨a, e⟩ := (endsWith_iff _ _).1 he; exact .inl ⟨a, "so", e, by decide⟩
    · split at h
      · rename_i he; cases h
        rw [Bool.or_eq_true] at he
        rcases he with he | he
        · obtain ⟨a, e⟩ := (endsWith_iff _ _).1 he; exact .inl ⟨a, "o", e, by decide⟩
        · obtain ⟨a, e⟩ := (endsWith_iff _ _).1 he; exact .inl ⟨a, "lo", e, by decide⟩
      · split at h
        · rename_i he; cases h; obtain ⟨a, e⟩ := (endsWith_iff _ _).1 he; exact .inl ⟨a, "c", e, by decide⟩
        · split at h
          · rename_i he; cases h; obtain ⟨a, e⟩ := (endsWith_iff _ _).1 he; exact .inl ⟨a, "s", e, by decide⟩
          · split at h
            · rename_i he; cases h; obtain ⟨a, e⟩ := (endsWith_iff _ _).1 he; exact .inl ⟨a, "S", e, by decide⟩
            · split at h
              · rename_i he; cases h
                rw [Bool.and_eq_true, Bool.or_eq_true, beq_iff_eq] at he
                refine .inr (.inl ⟨he.1, rfl, ?_⟩)
                rcases he.2 with he | he
                · exact .inl he
                · exact .inr ((endsWith_iff _ _).1 he)
              · split at h
                · rename_i p hp
                  split at h
                  · rename_i hv
                    cases h
                    obtain ⟨⟨a, e⟩, t, ht⟩ := strstr_some hp
                    refine .inr (.inr ⟨rfl, a, p.drop 3, ?_, ?_⟩)
                    · rw [e, ← ht]; rw [List.append_assoc]; rfl
                    · rw [← ht] at hv ⊢
                      obtain ⟨ds, w, e2, hd, hw, _⟩ := skip_version _ hv
                      have e3 : List.drop 3 ([46, 115, 111, 46] ++ t) = 46 :: t := rfl
                      rw [e3] at e2 ⊢
                      cases ds with
                      | nil =>
                        rw [e2]
                        rcases hw with rfl | hw
                        · cases e2
                        · exact hw
                      | cons d ds =>
                        have := hd d (List.mem_cons_self ..)
                        have : d = 46 := by cases e2; rfl
                        omega
                  · cases h
                · cases h

/-- A shared library with a version, if `.so.` does not occur before. -/
theorem C49_versioned (E : Bool) (a v : Str) (hv : Version v) (hf : ∀ a' b, a ++ str ".so" ++ v = a' ++ str ".so." ++ b → a.length ≤ a'.length) :
    fileType E (a ++ str ".so" ++ v) = some .dso := by
  have hdig : ∀ v, Version v → ∃ t d, v = t ++ [d] ∧ 48 ≤ d ∧ d ≤ 57 := by
    have tail : ∀ ds : Str, ds ≠ [] → (∀ d ∈ ds, 48 ≤ d ∧ d ≤ 57) → ∃ t d, ds = t ++ [d] ∧ 48 ≤ d ∧ d ≤ 57 := by
      intro ds hne hd
      exact ⟨ds.dropLast, ds.getLast hne, (List.dropLast_concat_getLast hne).symm, hd _ (List.getLast_mem hne)⟩
    intro v h
    induction h with
    | last ds hne hd =>
      obtain ⟨t, d, e, h⟩ := tail ds hne hd
      exact ⟨46 :: t, d, by rw [e]; rfl, h⟩
    | more ds v _ _ _ ih =>
      obtain ⟨t, d, e, h⟩ := ih
      exact ⟨46 :: (ds ++ t), d, by rw [e]; simp, h⟩
  obtain ⟨t, d, e, hd⟩ := hdig v hv
  have no : ∀ q : Str, (∀ c ∈ q.getLast?, ¬ (48 ≤ c ∧ c ≤ 57)) → q ≠ [] → endsWith (a ++ str ".so" ++ v) q = false := by
    intro q hq hne
    rw [← Bool.not_eq_true, endsWith_iff]
    rintro ⟨b, hb⟩
    have := congrArg List.getLast? hb
    rw [e, ← List.append_assoc, List.getLast?_concat, List.getLast?_append] at this
    cases hl : q.getLast? with
    | none => exact hne (List.getLast?_eq_none_iff.1 hl)
    | some c =>
      rw [hl] at this
      cases this
      exact hq d (by rw [hl]; rfl) hd
  obtain ⟨t', ht'⟩ : ∃ t', v = 46 :: t' := by cases hv with
    | last ds _ _ => exact ⟨_, rfl⟩
    | more ds v _ _ _ => exact ⟨_, rfl⟩
  have hs : strstr (a ++ str ".so" ++ v) [46, 115, 111, 46] = some ([46, 115, 111, 46] ++ t') := by
    have e4 : a ++ str ".so" ++ v = a ++ ([46, 115, 111, 46] ++ t') := by rw [ht', List.append_assoc]; rfl
    rw [e4]
    refine strstr_first a t' (fun a' b' h => hf a' b' ?_)
    rw [e4, h, List.append_assoc]; rfl
  unfold fileType
  rw [no _ (by decide) (by decide), no _ (by decide) (by decide), no _ (by decide) (by decide), no _ (by decide) (by decide), no _ (by decide) (by decide),
    no _ (by decide) (by decide), no _ (by decide) (by decide), no _ (by decide) (by decide), hs]
  have h45 : (a ++ str ".so" ++ v == [45]) = false := by
    rw [← Bool.not_eq_true, beq_iff_eq]
    intro h
    have := congrArg List.length h
    simp [show (str ".so").length = 3 from rfl] at this
    omega
  rw [h45]
  have hfin : skipVersion (List.drop 3 ([46, 115, 111, 46] ++ t')) = [] := by
    rw [show List.drop 3 ([46, 115, 111, 46] ++ t') = v from ht'.symm]
    exact version_skip hv
  cases E <;> (simp only [Bool.or_self, Bool.false_eq_true, if_false, Bool.and_false]; rw [if_pos hfin])

/-! ### Output names -/

theorem baseName_eq (dir base : Str) (hd : dir = [] ∨ dir.getLast? = some 47) (hb : base ≠ []) (hs : 47 ∉ base) : baseName (dir ++ base) = base := by
  have h47 : ∀ x ∈ base.reverse, (x == 47) = false := by
    intro x hx
    rw [← Bool.not_eq_true, beq_iff_eq]
    exact fun h => hs (h ▸ List.mem_reverse.1 hx)
  have hr : base.reverse ≠ [] := by simpa using hb
  have h1 : ((dir ++ base).reverse.dropWhile (· == 47)).reverse = dir ++ base := by
    rw [List.reverse_append]
    cases hc : base.reverse with
    | nil => exact absurd hc hr
    | cons c r =>
      rw [List.cons_append, List.dropWhile_cons_of_neg (by rw [h47 c (by rw [hc]; exact List.mem_cons_self ..)]; simp), ← List.cons_append, ← hc]
      simp
  have h2 : ((dir ++ base).reverse.takeWhile (· != 47)).reverse = base := by
    rw [List.reverse_append, List.takeWhile_append_of_pos (fun x hx => by rw [bne, h47 x hx]; rfl)]
    have : dir.reverse.takeWhile (· != 47) = [] := by
      rcases hd with rfl | hd
      · rfl
      · rw [← List.head?_reverse] at hd
        cases hx : dir.reverse with
        | nil => rfl
        | cons c r => rw [hx] at hd; cases hd; rfl
    rw [this, List.append_nil, List.reverse_reverse]
  unfold baseName
  rw [h1, if_neg (by simp [hb]), if_neg (by simp [hb]), h2]

/-- The last extension of the base name is replaced. -/
theorem C49_replaced (dir stem ext extn : Str) (hd : dir = [] ∨ dir.getLast? = some 47) (hs : 47 ∉ stem) (he : 47 ∉ ext) (hx : 46 ∉ ext) :
    replaceExtn (dir ++ (stem ++ 46 :: ext)) extn = stem ++ extn := by
  unfold replaceExtn
  rw [baseName_eq dir (stem ++ 46 :: ext) hd (by simp) (by simp [hs, he])]
  unfold cutDot
  rw [if_pos (by simp), List.reverse_append, List.reverse_cons]
  rw [List.append_assoc, List.dropWhile_append_of_pos (fun x hx' => by
    rw [bne_iff_ne]
    exact fun h => hx (h ▸ List.mem_reverse.1 hx'))]
  simp

/-- Without an extension, it is added. -/
theorem C49_added (dir base extn : Str) (hd : dir = [] ∨ dir.getLast? = some 47) (hb : base ≠ []) (hs : 47 ∉ base) (hx : 46 ∉ base) :
    replaceExtn (dir ++ base) extn = base ++ extn := by
  unfold replaceExtn
  rw [baseName_eq dir base hd hb hs]
  unfold cutDot
  rw [if_neg (by simpa using hx)]

/-! ### The inputs -/

theorem parseX_iff (l : Str) (x : Option FileType) (h : parseX l = some x) : ∃ k, l = str k ∧ (k, x) ∈ languages := by
  unfold parseX at h
  split at h
  · rename_i e; cases h; exact ⟨"c", e, by decide⟩
  · split at h
    · rename_i e; cases h; exact ⟨"assembler", e, by decide⟩
    · split at h
      · rename_i e; cases h; exact ⟨"assembler-with-cpp", e, by decide⟩
      · split at h
        · rename_i e; cases h; exact ⟨"none", e, by decide⟩
        · cases h

theorem lastX_file {pre : List Item} {t : Option FileType} (s : Str) (h : LastX pre t) : LastX (pre ++ [.file s]) t := by
  rcases h with ⟨a, l, b, e, hb, hl⟩ | ⟨h, ht⟩
  · refine .inl ⟨a, l, b ++ [.file s], by rw [e]; simp, ?_, hl⟩
    intro i hi
    rcases List.mem_append.1 hi with hi | hi
    · exact hb i hi
    · rw [List.mem_singleton.1 hi]; rfl
  · refine .inr ⟨?_, ht⟩
    intro i hi
    rcases List.mem_append.1 hi with hi | hi
    · exact h i hi
    · rw [List.mem_singleton.1 hi]; rfl

theorem Links.mono {E : Bool} {acts acts' : List Act} (hs : ∀ a ∈ acts, a ∈ acts') {pre items : List Item} {o : List Out} (h : Links E acts pre items o) :
    Links E acts' pre items o := by
  induction h with
  | nil pre => exact .nil pre
  | x pre l r o _ ih => exact .x pre l r o ih
  | file pre s x ty r f o h1 h2 h3 _ ih =>
    refine .file pre s x ty r f o h1 h2 ?_ ih
    rcases h3 with h | ⟨h, n, e, m⟩ | ⟨h, n, m, e, m1, m2⟩
    · exact .inl h
    · exact .inr (.inl ⟨h, n, e, hs _ m⟩)
    · exact .inr (.inr ⟨h, n, m, e, hs _ m1, hs _ m2⟩)

theorem inputs_file (op : Opts) (x : Option FileType) (n : Nat) (s : Str) (r : List Str) (hs : s ≠ str "-x") (p : List Act × List Out)
    (h : inputs op x n (s :: r) = some p) : ∃ ty, (x = some ty ∨ x = none ∧ fileType op.E s = some ty) ∧
      ∃ q, inputs op x (oneInput op n s ty).2.2 r = some q ∧ p = ((oneInput op n s ty).1 ++ q.1, (oneInput op n s ty).2.1 ++ q.2) := by
  rw [inputs.eq_def] at h; dsimp only at h; rw [if_neg (show ¬ s = [45, 120] from hs)] at h
  cases x with
  | some t =>
    dsimp only at h
    cases hq : inputs op (some t) (oneInput op n s t).2.2 r with
    | none => rw [hq] at h; cases h
    | some q => rw [hq] at h; cases h; exact ⟨t, .inl rfl, q, hq, rfl⟩
  | none =>
    dsimp only at h
    cases ht : fileType op.E s with
    | none => rw [ht] at h; cases h
    | some t =>
      rw [ht] at h
      dsimp only at h
      cases hq : inputs op none (oneInput op n s t).2.2 r with
      | none => rw [hq] at h; cases h
      | some q => rw [hq] at h; cases h; exact ⟨t, .inr ⟨rfl, rfl⟩, q, hq, rfl⟩

/-- Without `-c`, `-S`, `-E` and `-M`: the linker gets one file for every input, in the order of the inputs. It is the input itself if
this is an object file or a library, and otherwise what the assembler has made of the input, which has first been compiled if it is C or assembler
to be preprocessed. The type is that of the last `-x` before the input, or else that of its extension. -/
theorem C49_link_order (op : Opts) (h1 : op.c = false ∧ op.S = false ∧ op.E = false ∧ op.M = false) (items : List Item) (hf : ∀ s, Item.file s ∈ items → s ≠ str "-x")
    (acts : List Act) (files : List Out) (h : inputs op none 0 (itemStrs items) = some (acts, files)) : Links op.E acts [] items files := by
  have key : ∀ (items pre : List Item) (x : Option FileType) (n : Nat) (p : List Act × List Out), (∀ s, Item.file s ∈ items → s ≠ str "-x") → LastX pre x →
      inputs op x n (itemStrs items) = some p → Links op.E p.1 pre items p.2 := by
    intro items
    induction items with
    | nil => intro pre x n p _ _ h; cases h; exact .nil pre
    | cons i items ih =>
      intro pre x n p hf hx h
      cases i with
      | x l =>
        rw [itemStrs, inputs.eq_def] at h; dsimp only at h; rw [if_pos (show str "-x" = [45, 120] from rfl)] at h
        cases hp : parseX l with
        | none => rw [hp] at h; cases h
        | some x' =>
          rw [hp] at h
          obtain ⟨k, e, hk⟩ := parseX_iff l x' hp
          exact .x pre l _ _ (ih (pre ++ [.x l]) x' n p (fun s hs => hf s (List.mem_cons_of_mem _ hs))
            (.inl ⟨pre, k, [], by rw [e], (fun _ h => by cases h), hk⟩) h)
      | file s =>
        rw [itemStrs] at h
        obtain ⟨ty, hty, q, hq, rfl⟩ := inputs_file op x n s _ (hf s (List.mem_cons_self ..)) p h
        have hl := ih (pre ++ [.file s]) x _ q (fun s hs => hf s (List.mem_cons_of_mem _ hs)) (lastX_file s hx) hq
        have hl := Links.mono (acts' := (oneInput op n s ty).1 ++ q.1) (fun a ha => List.mem_append_right _ ha) hl
        have one : ∃ f, (oneInput op n s ty).2.1 = [f] ∧ (((ty = .obj ∨ ty = .ar ∨ ty = .dso) ∧ f = .path s) ∨
            (ty = .asm ∧ ∃ n', f = .tmp n' ∧ .as (.path s) f ∈ (oneInput op n s ty).1) ∨
            ((ty = .c ∨ ty = .ppAsm) ∧ ∃ n' m, f = .tmp n' ∧ .cc1 s (.tmp m) (ty == .ppAsm) ∈ (oneInput op n s ty).1 ∧ .as (.tmp m) f ∈ (oneInput op n s ty).1)) := by
          obtain ⟨hc, hS, hE, hM⟩ := h1
          unfold oneInput
          rw [hc, hS, hE, hM]
          cases ty
          · exact ⟨_, rfl, .inr (.inr ⟨.inl rfl, n + 1, n, rfl, List.mem_cons_self .., List.mem_cons_of_mem _ (List.mem_cons_self ..)⟩)⟩
          · exact ⟨_, rfl, .inr (.inl ⟨rfl, n, rfl, List.mem_cons_self ..⟩)⟩
          · exact ⟨_, rfl, .inl ⟨.inl rfl, rfl⟩⟩
          · exact ⟨_, rfl, .inl ⟨.inr (.inl rfl), rfl⟩⟩
          · exact ⟨_, rfl, .inl ⟨.inr (.inr rfl), rfl⟩⟩
          · exact ⟨_, rfl, .inr (.inr ⟨.inr rfl, n + 1, n, rfl, List.mem_cons_self .., List.mem_cons_of_mem _ (List.mem_cons_self ..)⟩)⟩
        obtain ⟨f, e, hone⟩ := one
        rw [e]
        refine .file pre s x ty items f q.2 hx hty ?_ hl
        have hm : ∀ a ∈ (oneInput op n s ty).1, a ∈ (oneInput op n s ty).1 ++ q.1 := fun a ha => List.mem_append_left _ ha
        rcases hone with h | ⟨h, n', e, m⟩ | ⟨h, n', m, e, m1, m2⟩
        · exact .inl h
        · exact .inr (.inl ⟨h, n', e, hm _ m⟩)
        · exact .inr (.inr ⟨h, n', m, e, hm _ m1, hm _ m2⟩)
  exact key items [] none 0 (acts, files) hf (.inr ⟨(fun _ h => by cases h), rfl⟩) h

theorem Made.mono {o : Option Str} {acts acts' : List Act} (hs : ∀ a ∈ acts, a ∈ acts') {s : Str} {st : Stage} {ty : FileType} (h : Made o acts s st ty) : Made o acts' s st ty := by
  cases st <;> cases ty <;> unfold Made at h ⊢ <;> first
    | trivial
    | exact hs _ h
    | (obtain ⟨n, h1, h2⟩ := h; exact ⟨n, hs _ h1, hs _ h2⟩)

theorem Stops.mono {E : Bool} {o : Option Str} {st : Stage} {acts acts' : List Act} (hs : ∀ a ∈ acts, a ∈ acts') {pre items : List Item} {f : List Out}
    (h : Stops E o st acts pre items f) : Stops E o st acts' pre items f := by
  induction h with
  | nil pre => exact .nil pre
  | x pre l r f _ ih => exact .x pre l r f ih
  | file pre s x ty r f f' h1 h2 h3 h4 _ ih => exact .file pre s x ty r f f' h1 h2 (Made.mono hs h3) h4 ih

/-- With `-E`, `-M`, `-S` or `-c` every input is brought to the first of these stages, with its result in the file of `-o` or the one
named after it; nothing is assembled before that stage is `-c`. -/
theorem C49_stages (op : Opts) (st : Stage) (h1 : stageOf op.E op.M op.S op.c = some st) (items : List Item) (hf : ∀ s, Item.file s ∈ items → s ≠ str "-x")
    (acts : List Act) (files : List Out) (h : inputs op none 0 (itemStrs items) = some (acts, files)) :
    Stops op.E op.o st acts [] items files ∧ (st ≠ .assemble → ∀ a b, Act.as a b ∉ acts) := by
  have key : ∀ (items pre : List Item) (x : Option FileType) (n : Nat) (p : List Act × List Out), (∀ s, Item.file s ∈ items → s ≠ str "-x") → LastX pre x →
      inputs op x n (itemStrs items) = some p → Stops op.E op.o st p.1 pre items p.2 ∧ (st ≠ .assemble → ∀ a b, Act.as a b ∉ p.1) := by
    intro items
    induction items with
    | nil => intro pre x n p _ _ h; cases h; exact ⟨.nil pre, fun _ _ _ h => by cases h⟩
    | cons i items ih =>
      intro pre x n p hf hx h
      cases i with
      | x l =>
        rw [itemStrs, inputs.eq_def] at h; dsimp only at h; rw [if_pos (show str "-x" = [45, 120] from rfl)] at h
        cases hp : parseX l with
        | none => rw [hp] at h; cases h
        | some x' =>
          rw [hp] at h
          obtain ⟨k, e, hk⟩ := parseX_iff l x' hp
          have := ih (pre ++ [.x l]) x' n p (fun s hs => hf s (List.mem_cons_of_mem _ hs))
            (.inl ⟨pre, k, [], by rw [e], (fun _ h => by cases h), hk⟩) h
          exact ⟨.x pre l _ _ this.1, this.2⟩
      | file s =>
        rw [itemStrs] at h
        obtain ⟨ty, hty, q, hq, rfl⟩ := inputs_file op x n s _ (hf s (List.mem_cons_self ..)) p h
        obtain ⟨hl, hno⟩ := ih (pre ++ [.file s]) x _ q (fun s hs => hf s (List.mem_cons_of_mem _ hs)) (lastX_file s hx) hq
        have hl := Stops.mono (acts' := (oneInput op n s ty).1 ++ q.1) (fun a ha => List.mem_append_right _ ha) hl
        have one : Made op.o (oneInput op n s ty).1 s st ty ∧
            (if ty = .obj ∨ ty = .ar ∨ ty = .dso then (oneInput op n s ty).2.1 ++ q.2 = .path s :: q.2 else (oneInput op n s ty).2.1 ++ q.2 = q.2) ∧
            (st ≠ .assemble → ∀ a b, Act.as a b ∉ (oneInput op n s ty).1) := by
          obtain ⟨E, M, S, c, o⟩ := op
          dsimp only at h1 ⊢
          unfold oneInput Made orElse
          cases E <;> cases M <;> cases S <;> cases c <;> cases h1 <;> cases ty <;> cases o <;>
            simp [str]
        refine ⟨.file pre s x ty items q.2 _ hx hty (Made.mono (fun a ha => List.mem_append_left _ ha) one.1) one.2.1 hl, ?_⟩
        intro hst a b hab
        rcases List.mem_append.1 hab with hab | hab
        · exact one.2.2 hst a b hab
        · exact hno hst a b hab
  exact key items [] none 0 (acts, files) hf (.inr ⟨(fun _ h => by cases h), rfl⟩) h

/-- Departure: object files are linked even if `-c` asks not to link. -/
theorem C49_linked_despite_c : inputs ⟨false, false, false, true, none⟩ none 0 [str "a.o"] = some ([], [.path (str "a.o")]) := rfl

/-- The file a program writes. -/
def actOut : Act → Out
  | .cc1 _ o _ => o
  | .as _ o => o

/-- No temporary file is written twice. -/
theorem C49_temporaries_distinct (op : Opts) (strs : List Str) (acts : List Act) (files : List Out) (h : inputs op none 0 strs = some (acts, files)) :
    ((acts.map actOut).filter (fun o => match o with | .tmp _ => true | _ => false)).Nodup := by
  have key : ∀ (k : Nat) (strs : List Str) (x : Option FileType) (n : Nat) (p : List Act × List Out), strs.length ≤ k → inputs op x n strs = some p →
      ((p.1.map actOut).filter (fun o => match o with | .tmp _ => true | _ => false)).Nodup ∧ ∀ m, Out.tmp m ∈ p.1.map actOut → n ≤ m := by
    intro k
    induction k with
    | zero =>
      intro strs x n p hk h
      cases strs with
      | nil => cases h; exact ⟨List.nodup_nil, fun _ h => by cases h⟩
      | cons s r => simp at hk
    | succ k ih =>
      intro strs x n p hk h
      cases strs with
      | nil => cases h; exact ⟨List.nodup_nil, fun _ h => by cases h⟩
      | cons s r =>
        by_cases hs : s = str "-x"
        · rw [inputs.eq_def] at h; dsimp only at h; rw [if_pos (show s = [45, 120] from hs)] at h
          cases r with
          | nil => cases h
          | cons l r =>
            dsimp only at h
            cases hp : parseX l with
            | none => rw [hp] at h; cases h
            | some x' => rw [hp] at h; exact ih r x' n p (by simp at hk; omega) h
        · obtain ⟨ty, _, q, hq, rfl⟩ := inputs_file op x n s r hs p h
          obtain ⟨hn, hm⟩ := ih r x _ q (by simp at hk; omega) hq
          have one : (((oneInput op n s ty).1.map actOut).filter (fun o => match o with | .tmp _ => true | _ => false)).Nodup ∧
              (∀ m, Out.tmp m ∈ (oneInput op n s ty).1.map actOut → n ≤ m ∧ m < (oneInput op n s ty).2.2) ∧ n ≤ (oneInput op n s ty).2.2 := by
            unfold oneInput
            cases ho : op.o <;> cases ty <;> cases op.S <;> cases op.E <;> cases op.M <;> cases op.c <;> simp [actOut] <;> omega
          obtain ⟨o1, o2, o3⟩ := one
          dsimp only
          rw [List.map_append, List.filter_append]
          refine ⟨List.nodup_append.2 ⟨o1, hn, ?_⟩, ?_⟩
          · intro a ha b hb e
            subst e
            rw [List.mem_filter] at ha hb
            cases a with
            | path s => cases ha.2
            | stdout => cases ha.2
            | tmp m =>
              have := (o2 m ha.1).2
              have := hm m hb.1
              omega
          · intro m hmem
            rcases List.mem_append.1 hmem with h | h
            · exact (o2 m h).1
            · exact Nat.le_trans o3 (hm m h)
  exact (key strs.length strs none 0 (acts, files) (Nat.le_refl _) h).1

/-- `d.x/a.b.c` with `-c` makes `a.b.o`; `libz.so.1.2` is a library. -/
example : replaceExtn (str "d.x/a.b.c") (str ".o") = str "a.b.o" ∧ fileType false (str "libz.so.1.2") = some .dso ∧ fileType false (str "d.x/a.b.c") = some .c := ⟨rfl, rfl, rfl⟩

/-- `a.c -x c b.x -x none d.o`. -/
example : ∃ acts, inputs ⟨false, false, false, false, none⟩ none 0 (itemStrs [.file (str "a.c"), .x (str "c"), .file (str "b.x"), .x (str "none"), .file (str "d.o")]) =
    some (acts, [.tmp 1, .tmp 3, .path (str "d.o")]) := ⟨_, rfl⟩

/-- `.so.` before the version: `a.so.b.so.1` is not accepted, although it ends like a shared library with a version. -/
theorem C49_first_so_only : fileType false (str "a.so.b.so.1") = none := rfl

end Slimcc.Props
