import Verif.Model.Compat
/-!
Compatibility of types, written from C23 6.2.7, 6.7.4, 6.7.6 (function types with prototypes).
-/
set_option autoImplicit false
namespace Slimcc.Spec
open Ty

mutual
/-- Two types are compatible, disregarding their top-level qualifiers. -/
inductive Compat : CT → CT → Prop
  /-- only what the types stand for matters -/
  | wrapL (q : Quals) (o t : CT) : Compat o t → Compat (.origin q o) t
  | wrapR (q : Quals) (o t : CT) : Compat t o → Compat t (.origin q o)
  | int (k : IKind) (u : Bool) : Compat (.int k u) (.int k u)
  | flo (k : FKind) : Compat (.flo k) (.flo k)
  /-- the same type -/
  | nominal (kind id : Nat) : Compat (.nominal kind id) (.nominal kind id)
  /-- pointers to identically qualified compatible types -/
  | ptr (q q' : Quals) (a b : CT) : a.quals = b.quals → Compat a b → Compat (.ptr q a) (.ptr q' b)
  /-- arrays of identically qualified compatible elements, sizes equal if both are known -/
  | array (q q' : Quals) (a b : CT) (n m : Int) : a.quals = b.quals → Compat a b → (0 ≤ n → 0 ≤ m → n = m) →
      Compat (.array q a n) (.array q' b m)
  | vla (q q' : Quals) (a b : CT) : a.quals = b.quals → Compat a b → Compat (.vla q a) (.vla q' b)
  | vlaArray (q q' : Quals) (a b : CT) (n : Int) : a.quals = b.quals → Compat a b → Compat (.vla q a) (.array q' b n)
  | arrayVla (q q' : Quals) (a b : CT) (n : Int) : a.quals = b.quals → Compat a b → Compat (.array q a n) (.vla q' b)
  /-- functions with compatible results, the same use of `...`, and pairwise compatible parameters -/
  | func (r r' : CT) (p p' : CTs) (v o o' : Bool) : Compat r r' → CompatParams p p' →
      Compat (.func r p v o) (.func r' p' v o')
inductive CompatParams : CTs → CTs → Prop
  | nil : CompatParams .nil .nil
  | cons (t t' : CT) (p p' : CTs) : Compat t t' → CompatParams p p' → CompatParams (.cons t p) (.cons t' p')
end

end Slimcc.Spec
