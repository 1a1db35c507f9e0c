import Verif.Model.Member
/-!
What a member access denotes, after C11 6.5.2.3 and 6.7.2.1p13: the members of an anonymous structure
or union count as members of the structure around it, and the result has the qualifiers of the object
in addition to those of the member.
-/
set_option autoImplicit false
namespace Slimcc.Spec
open Slimcc.Mem

/-- The member is one of those listed. -/
inductive Listed : Member → Mems → Prop where
  | here (m : Member) (rest : Mems) : Listed m (.cons m.name m.ofs m.ty rest)
  | there (m : Member) (nm : Option (List Nat)) (o : Nat) (t : MTy) (rest : Mems) : Listed m rest → Listed m (.cons nm o t rest)

/-- `MemPath n q ms o q' t`: in an object with qualifiers `q` and members `ms`, the name `n` denotes what is
`o` bytes from the start, of type `t`, the qualifiers of all the structures around it being `q'`. -/
inductive MemPath (n : List Nat) : Quals → Mems → Nat → Quals → MTy → Prop where
  | named (q : Quals) (ms : Mems) (o : Nat) (t : MTy) : Listed ⟨some n, o, t⟩ ms → MemPath n q ms o q t
  | anon (q q2 q' : Quals) (ms ms' : Mems) (u : Bool) (o o' : Nat) (t : MTy) : Listed ⟨none, o, .agg q2 u ms'⟩ ms →
      MemPath n { q2 with const := q.const || q2.const, volatile := q.volatile || q2.volatile } ms' o' q' t → MemPath n q ms (o + o') q' t

/-- The type with the object's `const` and `volatile` in addition to its own qualifiers. -/
def withObject (t : MTy) (q : Quals) : MTy :=
  t.withQuals { t.quals with const := t.quals.const || q.const, volatile := t.quals.volatile || q.volatile }

end Slimcc.Spec
