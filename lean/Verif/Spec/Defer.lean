/-!
Blocks with deferred statements: what runs, in which order.
-/
set_option autoImplicit false
namespace Slimcc.Spec

/-- Statements. `act` is anything that does not jump. `cleanup n` is the declaration of a variable
with the attribute: `act n` is to be done with it at the end of the block. `ite pre c a b` and
`loop init pre c inc body` (`for (init; pre c; inc) body`) may declare such variables in their
headers. `brk k` and `cont k` are for the `k`-th loop or `switch` from inside (with names, or `0`).
A `switch` and its cases are here for what is said about jumps into blocks. -/
inductive DStmt where
  | skip
  | act (n : Nat)
  | seq (a b : DStmt)
  | defer (b : DStmt)
  | cleanup (n : Nat)
  | block (b : DStmt)
  | ite (pre : List Nat) (c : Nat) (a b : DStmt)
  | loop (init pre : List Nat) (c inc : Nat) (body : DStmt)
  | doWhile (body : DStmt) (c : Nat)
  | brk (k : Nat)
  | cont (k : Nat)
  | ret
  | label (l : Nat)
  | goto (l : Nat)
  | sw (body : DStmt)
  | case
  deriving DecidableEq, Repr

/-- What is seen of a run: what is done, and how the conditions come out. -/
inductive DEv where
  | act (n : Nat)
  | cond (c : Nat) (b : Bool)
  deriving DecidableEq, Repr

/-- How a statement ends. -/
inductive DExit where
  | normal
  | brk (k : Nat)
  | cont (k : Nat)
  | ret
  deriving DecidableEq, Repr

/-- What there is to run: a statement in a scope with the deferred statements `D` pending (the
latest first), a scope of its own, the deferred statements of a scope that is left, a loop. -/
inductive Task where
  | st (s : DStmt) (D : List DStmt)
  | scope (s : DStmt)
  | defers (D : List DStmt)
  | iter (pre : List Nat) (c inc : Nat) (body : DStmt)
  | doIter (body : DStmt) (c : Nat)

/-- The deferred actions of the variables of a header: the latest first. -/
def headerDefers (l : List Nat) : List DStmt := (l.map DStmt.act).reverse

/-- How a loop ends if its body ends so (`none`: it goes on). -/
def loopEnd : DExit → Option DExit
  | .normal => none
  | .cont 0 => none
  | .brk 0 => some .normal
  | .brk (k + 1) => some (.brk k)
  | .cont (k + 1) => some (.cont k)
  | .ret => some .ret

/-- A run: what is seen, how it ends, and what is pending in the scope then. Whenever a scope is
left, in whichever way, all that is pending in it is run, the latest first. There is no rule for
`goto`, for `case` and for a deferred statement that jumps out of itself. -/
inductive DRuns : Task → List DEv → DExit → List DStmt → Prop
  | skip {D : List DStmt} : DRuns (.st .skip D) [] .normal D
  | act {n : Nat} {D : List DStmt} : DRuns (.st (.act n) D) [.act n] .normal D
  | label {l : Nat} {D : List DStmt} : DRuns (.st (.label l) D) [] .normal D
  | seq {a b : DStmt} {D D1 D2 : List DStmt} {t1 t2 : List DEv} {x : DExit} :
      DRuns (.st a D) t1 .normal D1 → DRuns (.st b D1) t2 x D2 → DRuns (.st (.seq a b) D) (t1 ++ t2) x D2
  | seqOut {a b : DStmt} {D D1 : List DStmt} {t : List DEv} {x : DExit} :
      DRuns (.st a D) t x D1 → x ≠ .normal → DRuns (.st (.seq a b) D) t x D1
  | defer {b : DStmt} {D : List DStmt} : DRuns (.st (.defer b) D) [] .normal (b :: D)
  | cleanup {n : Nat} {D : List DStmt} : DRuns (.st (.cleanup n) D) [] .normal (.act n :: D)
  | brk {k : Nat} {D : List DStmt} : DRuns (.st (.brk k) D) [] (.brk k) D
  | cont {k : Nat} {D : List DStmt} : DRuns (.st (.cont k) D) [] (.cont k) D
  | ret {D : List DStmt} : DRuns (.st .ret D) [] .ret D
  | block {b : DStmt} {D : List DStmt} {t : List DEv} {x : DExit} : DRuns (.scope b) t x [] → DRuns (.st (.block b) D) t x D
  | ite {pre : List Nat} {c : Nat} {a b : DStmt} {D : List DStmt} {v : Bool} {t t' : List DEv} {x : DExit} :
      DRuns (.scope (if v then a else b)) t x [] → DRuns (.defers (headerDefers pre)) t' .normal [] →
      DRuns (.st (.ite pre c a b) D) (.cond c v :: (t ++ t')) x D
  | loop {init pre : List Nat} {c inc : Nat} {body : DStmt} {D : List DStmt} {t t' : List DEv} {x : DExit} :
      DRuns (.iter pre c inc body) t x [] → DRuns (.defers (headerDefers init)) t' .normal [] →
      DRuns (.st (.loop init pre c inc body) D) (t ++ t') x D
  | doWhile {body : DStmt} {c : Nat} {D : List DStmt} {t : List DEv} {x : DExit} :
      DRuns (.doIter body c) t x [] → DRuns (.st (.doWhile body c) D) t x D
  | scope {s : DStmt} {D : List DStmt} {t t' : List DEv} {x : DExit} :
      DRuns (.st s []) t x D → DRuns (.defers D) t' .normal [] → DRuns (.scope s) (t ++ t') x []
  | noDefers : DRuns (.defers []) [] .normal []
  | defers {b : DStmt} {D : List DStmt} {t t' : List DEv} :
      DRuns (.scope b) t .normal [] → DRuns (.defers D) t' .normal [] → DRuns (.defers (b :: D)) (t ++ t') .normal []
  | iterEnd {pre : List Nat} {c inc : Nat} {body : DStmt} {t : List DEv} :
      DRuns (.defers (headerDefers pre)) t .normal [] → DRuns (.iter pre c inc body) (.cond c false :: t) .normal []
  | iterNext {pre : List Nat} {c inc : Nat} {body : DStmt} {t t' t'' : List DEv} {x x' : DExit} :
      DRuns (.scope body) t x [] → loopEnd x = none → DRuns (.defers (headerDefers pre)) t' .normal [] →
      DRuns (.iter pre c inc body) t'' x' [] → DRuns (.iter pre c inc body) (.cond c true :: (t ++ .act inc :: (t' ++ t''))) x' []
  | iterOut {pre : List Nat} {c inc : Nat} {body : DStmt} {t t' : List DEv} {x x' : DExit} :
      DRuns (.scope body) t x [] → loopEnd x = some x' → DRuns (.defers (headerDefers pre)) t' .normal [] →
      DRuns (.iter pre c inc body) (.cond c true :: (t ++ t')) x' []
  | doEnd {body : DStmt} {c : Nat} {t : List DEv} {x : DExit} :
      DRuns (.scope body) t x [] → loopEnd x = none → DRuns (.doIter body c) (t ++ [.cond c false]) .normal []
  | doNext {body : DStmt} {c : Nat} {t t' : List DEv} {x x' : DExit} :
      DRuns (.scope body) t x [] → loopEnd x = none → DRuns (.doIter body c) t' x' [] →
      DRuns (.doIter body c) (t ++ .cond c true :: t') x' []
  | doOut {body : DStmt} {c : Nat} {t : List DEv} {x x' : DExit} :
      DRuns (.scope body) t x [] → loopEnd x = some x' → DRuns (.doIter body c) t x' []

/-- What is pending after a statement of a scope, if it is passed. -/
def pendingAfter : DStmt → List DStmt → List DStmt
  | .defer b, D => b :: D
  | .cleanup n, D => .act n :: D
  | .seq a b, D => pendingAfter b (pendingAfter a D)
  | _, D => D

/-! ### Places

To tell deferred statements with the same text apart they are numbered in the order of their ends. -/

/-- The number of deferred statements in a statement, those of variables included. -/
def defersIn : DStmt → Nat
  | .seq a b => defersIn a + defersIn b
  | .defer b => defersIn b + 1
  | .cleanup _ => 1
  | .block b => defersIn b
  | .ite pre _ a b => pre.length + defersIn a + defersIn b
  | .loop init pre _ _ b => init.length + pre.length + defersIn b
  | .doWhile b _ => defersIn b
  | .sw b => defersIn b
  | _ => 0

/-- Pending deferred statements with their numbers, the latest first. -/
abbrev Pend := List (Nat × DStmt)

/-- What is pending after the declarations of a header. -/
def headerPend : Nat → List Nat → Pend → Pend
  | _, [], D => D
  | k, n :: l, D => headerPend (k + 1) l ((k, .act n) :: D)

/-- What is pending after a statement of a scope. -/
def pendAfter : DStmt → Nat → Pend → Pend
  | .defer b, k, D => (k + defersIn b, b) :: D
  | .cleanup n, k, D => (k, .act n) :: D
  | .seq a b, k, D => pendAfter b (k + defersIn a) (pendAfter a k D)
  | _, _, D => D

/-- `x` stands in `s`, and `Q` is pending there (of all the scopes around it) if `P` is pending at
`s`, where the numbers begin with `k`. -/
inductive Stands (x : DStmt) : DStmt → Nat → Pend → Pend → Prop
  | here {k : Nat} {P : Pend} : Stands x x k P P
  | left {a b : DStmt} {k : Nat} {P Q : Pend} : Stands x a k P Q → Stands x (.seq a b) k P Q
  | right {a b : DStmt} {k : Nat} {P Q : Pend} : Stands x b (k + defersIn a) (pendAfter a k P) Q → Stands x (.seq a b) k P Q
  | block {b : DStmt} {k : Nat} {P Q : Pend} : Stands x b k P Q → Stands x (.block b) k P Q
  | deferred {b : DStmt} {k : Nat} {P Q : Pend} : Stands x b k P Q → Stands x (.defer b) k P Q
  | iteThen {pre : List Nat} {c k : Nat} {a b : DStmt} {P Q : Pend} :
      Stands x a (k + pre.length) (headerPend k pre P) Q → Stands x (.ite pre c a b) k P Q
  | iteElse {pre : List Nat} {c k : Nat} {a b : DStmt} {P Q : Pend} :
      Stands x b (k + pre.length + defersIn a) (headerPend k pre P) Q → Stands x (.ite pre c a b) k P Q
  | loop {init pre : List Nat} {c inc k : Nat} {body : DStmt} {P Q : Pend} :
      Stands x body (k + init.length + pre.length) (headerPend (k + init.length) pre (headerPend k init P)) Q → Stands x (.loop init pre c inc body) k P Q
  | doWhile {body : DStmt} {c k : Nat} {P Q : Pend} : Stands x body k P Q → Stands x (.doWhile body c) k P Q
  | sw {body : DStmt} {k : Nat} {P Q : Pend} : Stands x body k P Q → Stands x (.sw body) k P Q

/-- `x` stands in `s`, not in a loop or `switch` inside of it, and `R` has been deferred on the way
from `s` to there (`D` before `s`). -/
inductive Near (x : DStmt) : DStmt → List DStmt → List DStmt → Prop
  | here {D : List DStmt} : Near x x D D
  | left {a b : DStmt} {D R : List DStmt} : Near x a D R → Near x (.seq a b) D R
  | right {a b : DStmt} {D R : List DStmt} : Near x b (pendingAfter a D) R → Near x (.seq a b) D R
  | block {b : DStmt} {D R : List DStmt} : Near x b D R → Near x (.block b) D R
  | deferred {b : DStmt} {D R : List DStmt} : Near x b D R → Near x (.defer b) D R
  | iteThen {pre : List Nat} {c : Nat} {a b : DStmt} {D R : List DStmt} : Near x a (headerDefers pre ++ D) R → Near x (.ite pre c a b) D R
  | iteElse {pre : List Nat} {c : Nat} {a b : DStmt} {D R : List DStmt} : Near x b (headerDefers pre ++ D) R → Near x (.ite pre c a b) D R

/-- How often the action `m` is written in a statement. -/
def occ (m : Nat) : DStmt → Nat
  | .act n => if n = m then 1 else 0
  | .cleanup n => if n = m then 1 else 0
  | .seq a b => occ m a + occ m b
  | .defer b => occ m b
  | .block b => occ m b
  | .ite pre _ a b => pre.count m + occ m a + occ m b
  | .loop init pre _ inc b => init.count m + pre.count m + (if inc = m then 1 else 0) + occ m b
  | .doWhile b _ => occ m b
  | .sw b => occ m b
  | _ => 0

/-- How often the label `l` is written in a statement. -/
def labelled (l : Nat) : DStmt → Nat
  | .label k => if k = l then 1 else 0
  | .seq a b => labelled l a + labelled l b
  | .defer b => labelled l b
  | .block b => labelled l b
  | .ite _ _ a b => labelled l a + labelled l b
  | .loop _ _ _ _ b => labelled l b
  | .doWhile b _ => labelled l b
  | .sw b => labelled l b
  | _ => 0

/-- No loop, `switch` or label in a statement. -/
def noNames : DStmt → Bool
  | .seq a b => noNames a && noNames b
  | .defer b => noNames b
  | .block b => noNames b
  | .ite _ _ a b => noNames a && noNames b
  | .loop _ _ _ _ _ => false
  | .doWhile _ _ => false
  | .label _ => false
  | .sw _ => false
  | _ => true

/-- No loop, `switch` or label in a deferred statement. -/
def plainDefers : DStmt → Bool
  | .seq a b => plainDefers a && plainDefers b
  | .defer b => noNames b && plainDefers b
  | .block b => plainDefers b
  | .ite _ _ a b => plainDefers a && plainDefers b
  | .loop _ _ _ _ b => plainDefers b
  | .doWhile b _ => plainDefers b
  | .sw b => plainDefers b
  | _ => true

end Slimcc.Spec
