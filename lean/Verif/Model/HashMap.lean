import Verif.Model.Basic
/-!
Model of `/repo/hashmap.c`.

Simplifications: a key is the byte string `key[0..keylen)` (the code stores the
pointer and compares with `memcmp`, so callers must not modify key memory);
the value `void *` is a natural number with `NULL = 0`; `calloc` never fails.
The hash function is a parameter (`fnvHash` is the one the code uses).
-/
namespace Slimcc.HashMap
open Slimcc

abbrev Key := List UInt8
/-- `void *`; 0 is `NULL`. -/
abbrev Val := Nat

/-- slimcc.h `HashEntry`: `key == NULL`, `key == TOMBSTONE` (hashmap.c:15), or a live entry. -/
inductive Entry where
  | empty
  | tomb
  | live (k : Key) (v : Val)
  deriving Repr, DecidableEq

/-- slimcc.h `HashMap`. `buckets = []` models `buckets == NULL` (capacity 0);
otherwise `capacity = buckets.length`, as the code sets both together (lines 42-43, 79-80). -/
structure Map where
  buckets : List Entry
  used : Nat
  deriving Repr, DecidableEq

/-- A zero-initialised `HashMap`. -/
def Map.init : Map := ⟨[], 0⟩

/-- hashmap.c:17-24 `fnv_hash`. -/
def fnvHash (s : Key) : UInt64 :=
  s.foldl (fun h c => (h * 0x100000001b3) ^^^ c.toUInt64) 0xcbf29ce484222325

/-- The bucket index `(hash + i) & (map->capacity - 1)` in `uint64_t`, hashmap.c:68 and 88. -/
def slot (hash : UInt64) (cap i : Nat) : Nat :=
  ((hash.toNat + i) % 2 ^ 64) &&& (cap - 1)

inductive Probe where
  | found (j : Nat)   -- `match(ent, ...)` is true
  | free (j : Nat)    -- `ent->key == NULL`
  deriving Repr, DecidableEq

/-- The loop shared by `get_entry` (hashmap.c:67-74) and `get_or_insert_entry`
(hashmap.c:87-100), with `match` (56-59) inlined; `n` is the number of iterations left.
Leaving the loop is `internal_error()`. -/
def probe (bs : List Entry) (hash : UInt64) (k : Key) : Nat → Nat → Outcome Probe
  | 0, _ => .error
  | n + 1, i =>
    let j := slot hash bs.length i
    match bs[j]? with
    | none => .ub
    | some .empty => .ok (.free j)
    | some .tomb => probe bs hash k n (i + 1)
    | some (.live k' _) => if k' = k then .ok (.found j) else probe bs hash k n (i + 1)

section
variable (hash : Key → UInt64)

/-- hashmap.c:61-75 `get_entry`: index of the entry, or none for `NULL`. -/
def getEntry (m : Map) (k : Key) : Outcome (Option Nat) :=
  if m.buckets.isEmpty then .ok none else
  match probe m.buckets (hash k) k m.buckets.length 0 with
  | .ok (.found j) => .ok (some j)
  | .ok (.free _) => .ok none
  | .error => .error
  | .ub => .ub

/-- hashmap.c:107-110 `hashmap_get2`. -/
def get (m : Map) (k : Key) : Outcome Val :=
  match getEntry hash m k with
  | .ok (some j) =>
    match m.buckets[j]? with
    | some (.live _ v) => .ok v
    | _ => .ub
  | .ok none => .ok 0
  | .error => .error
  | .ub => .ub

/-- hashmap.c:125-129 `hashmap_delete2`. -/
def delete (m : Map) (k : Key) : Outcome Map :=
  match getEntry hash m k with
  | .ok (some j) => .ok { m with buckets := m.buckets.set j .tomb }
  | .ok none => .ok m
  | .error => .error
  | .ub => .ub

/-- hashmap.c:87-100 followed by the assignment of line 118: the part of
`hashmap_put2` after the growth check. -/
def insertVal (m : Map) (k : Key) (v : Val) : Outcome Map :=
  match probe m.buckets (hash k) k m.buckets.length 0 with
  | .ok (.found j) => .ok { m with buckets := m.buckets.set j (.live k v) }
  | .ok (.free j) => .ok { buckets := m.buckets.set j (.live k v), used := m.used + 1 }
  | .error => .error
  | .ub => .ub

/-- hashmap.c:116-119 `hashmap_put2` with `get_or_insert_entry` (77-101), the call to
`rehash` of line 82 being a parameter (the two functions are mutually recursive).
`map->used * 100` is an `int` product: overflow is `ub`. -/
def putWith (rehash : Map → Outcome Map) (m : Map) (k : Key) (v : Val) : Outcome Map :=
  if m.buckets.isEmpty then
    insertVal hash { m with buckets := List.replicate 16 .empty } k v
  else if m.used * 100 > INT_MAX then .ub
  else if m.used * 100 / m.buckets.length ≥ 70 then
    match rehash m with
    | .ok m' => insertVal hash m' k v
    | .error => .error
    | .ub => .ub
  else insertVal hash m k v

/-- hashmap.c:30-33: number of live entries. -/
def countLive (bs : List Entry) : Nat :=
  bs.countP fun e => match e with | .live _ _ => true | _ => false

/-- hashmap.c:35-37: the doubling loop; `int` overflow of `nkeys * 100` or `cap * 2` is `ub`. -/
def growCap (nkeys cap : Nat) : Outcome Nat :=
  if nkeys * 100 > INT_MAX then .ub
  else if h : nkeys * 100 / cap ≥ 50 then
    if cap * 2 > INT_MAX then .ub else growCap nkeys (cap * 2)
  else .ok cap
  termination_by 2 * nkeys + 1 - cap
  decreasing_by
    have hc : 0 < cap := by
      rcases Nat.eq_zero_or_pos cap with h0 | h0
      · subst h0; simp at h
      · exact h0
    have : 50 * cap ≤ nkeys * 100 := (Nat.le_div_iff_mul_le hc).1 h
    omega

/-- hashmap.c:45-49: re-insertion of the live entries in bucket order. The nested
`hashmap_put2` could in principle call `rehash` again; the model makes this the outcome
`error`, and the theorems show it does not happen. -/
def reinsert : List Entry → Map → Outcome Map
  | [], m => .ok m
  | .live k v :: es, m =>
    match putWith hash (fun _ => .error) m k v with
    | .ok m' => reinsert es m'
    | .error => .error
    | .ub => .ub
  | _ :: es, m => reinsert es m

/-- hashmap.c:28-54 `rehash`; the two `assert`s are `error`. -/
def rehash (m : Map) : Outcome Map :=
  let nkeys := countLive m.buckets
  match growCap nkeys m.buckets.length with
  | .ok cap =>
    if cap = 0 then .error else
    match reinsert hash m.buckets { buckets := List.replicate cap .empty, used := 0 } with
    | .ok m2 => if m2.used = nkeys then .ok m2 else .error
    | .error => .error
    | .ub => .ub
  | .error => .error
  | .ub => .ub

/-- hashmap.c:116-119 `hashmap_put2`. -/
def put (m : Map) (k : Key) (v : Val) : Outcome Map := putWith hash (rehash hash) m k v

end

/-- The API calls on a table. -/
inductive Op where
  | put (k : Key) (v : Val)
  | delete (k : Key)
  | get (k : Key)
  deriving Repr, DecidableEq

/-- One API call; lookups do not change the table. -/
def step (hash : Key → UInt64) (m : Map) : Op → Outcome Map
  | .put k v => put hash m k v
  | .delete k => delete hash m k
  | .get k => match get hash m k with | .ok _ => .ok m | .error => .error | .ub => .ub

/-- A history of API calls on a table. -/
def run (hash : Key → UInt64) : Map → List Op → Outcome Map
  | m, [] => .ok m
  | m, o :: os => match step hash m o with
    | .ok m' => run hash m' os
    | .error => .error
    | .ub => .ub

end Slimcc.HashMap
