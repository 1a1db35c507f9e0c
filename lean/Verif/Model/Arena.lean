import Verif.Model.Basic
/-!
Model of the page arena of `/repo/alloc.c`.

A page is identified by its position in the chain starting at `head_page` (`page->next` is the
next position). `malloc` never fails and returns pages that do not overlap other pages and are
16-byte aligned (so alignment of a block is alignment of its offset).
The ASAN variant is not modelled.
-/
set_option autoImplicit false
namespace Slimcc.Arena
open Slimcc

/-- alloc.c:12. -/
def PAGE_SIZE : Nat := 4064

/-- A block handed out: page position, byte offset in the page, requested size. -/
structure Block where
  page : Nat
  off : Nat
  size : Nat
  deriving Repr, DecidableEq

/-- slimcc.h:78-83 `Arena`. `chain` is the number of pages linked from `head_page`
(0: `head_page == NULL`); `page` is the position of `arena->page` (`none`: null or freed);
`live` is ghost state: the blocks handed out since the last `arena_on`. -/
structure State where
  chain : Nat
  page : Option Nat
  used : Nat
  on : Bool
  live : List Block
  deriving Repr, DecidableEq

def State.init : State := ⟨0, none, 0, false, []⟩

/-- alloc.c:44: `(sz + 15) & -16LL` in 64-bit arithmetic. -/
def alignedSize (sz : Nat) : Nat := ((sz + 15) % 2 ^ 64) &&& (2 ^ 64 - 16)

/-- alloc.c:43-69 `allocate`. Zeroing (64-66) writes `alignedSize sz` bytes at the block. -/
def allocate (s : State) (sz : Nat) : Outcome (State × Block) :=
  let a := alignedSize sz
  match s.page with
  | none => .ub
  | some p =>
    if (s.used + a) % 2 ^ 64 ≤ PAGE_SIZE then
      let b : Block := ⟨p, s.used, sz⟩
      .ok ({ s with used := s.used + a, live := b :: s.live }, b)
    else
      let b : Block := ⟨p + 1, 0, sz⟩
      .ok ({ s with chain := max s.chain (p + 2), page := some (p + 1), used := a,
                    live := b :: s.live }, b)

/-- alloc.c:71-78 `arena_on`. -/
def arenaOn (s : State) : State :=
  { chain := max s.chain 1, page := some 0, used := 0, on := true, live := [] }

/-- alloc.c:80-90 `arena_off`; `freeAlloc` is the global `free_alloc`. The pages are kept and
reused by the next `arena_on` unless `free_alloc` is set. -/
def arenaOff (freeAlloc : Bool) (s : State) : State :=
  if freeAlloc then { s with on := false, chain := 0, page := none } else { s with on := false }

inductive Op where
  | on
  | off (freeAlloc : Bool)
  | alloc (sz : Nat)
  deriving Repr, DecidableEq

def step (s : State) : Op → Outcome State
  | .on => .ok (arenaOn s)
  | .off f => .ok (arenaOff f s)
  | .alloc sz => match allocate s sz with
    | .ok (s', _) => .ok s'
    | .error => .error
    | .ub => .ub

def run : State → List Op → Outcome State
  | s, [] => .ok s
  | s, o :: os => match step s o with
    | .ok s' => run s' os
    | .error => .error
    | .ub => .ub

end Slimcc.Arena
