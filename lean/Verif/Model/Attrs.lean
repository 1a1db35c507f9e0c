import Verif.Spec.Attrs
/-!
Model of the last pass of the preprocessor as far as it deals with attributes: preprocess.c:1871-1918
`preprocess3`, 1838-1869 `filter_attr`, 1804-1837 `is_gnu_attr` and `is_supported_attr`, 244-291 `split_paren`
and `split_bracket`; parse.c:1230-1248 `skip_paren`.

Simplifications: token lists end where the code has an EOF token. The tables of names are lists (the hash map
is that of C01). The tokens of an attribute are kept as they are; the code runs the pass over them again.
Keywords and adjacent string literals, which the same loop handles, are left alone (C13, C29), and so is the
recycling of tokens. `none` is a diagnostic that ends the compilation.
-/
set_option autoImplicit false
namespace Slimcc.Attrs
open Slimcc.Spec.Attrs (Tk Seen)

/-- preprocess.c:1805-1822 the names in the table. -/
def table : List String :=
  ["alias", "__alias__", "aligned", "__aligned__", "cleanup", "__cleanup__", "constructor", "__constructor__", "destructor", "__destructor__",
   "gnu_inline", "__gnu_inline__", "packed", "__packed__", "returns_twice", "__returns_twice__", "section", "__section__",
   "visibility", "__visibility__", "weak", "__weak__"]

/-- preprocess.c:1826-1837 `is_supported_attr`, for an identifier. -/
def isSupported (isBracket : Bool) (vendor : Option Tk) (name : String) : Bool :=
  (!isBracket || vendor == some (.ident "gnu")) && table.contains name

/-- parse.c:1230-1248 `skip_paren`: what it steps over, and the rest. -/
def skipParen : Nat → List Tk → Option (List Tk × List Tk)
  | _, [] => none
  | level, t :: ts =>
    if level = 0 ∧ t = .rpar then some ([t], ts)
    else (skipParen (if t = .lpar then level + 1 else if t = .rpar then level - 1 else level) ts).map fun r => (t :: r.1, r.2)

/-- preprocess.c:244-271 `split_paren`: the tokens before the closing parenthesis, and the rest. -/
def splitParen : Nat → List Tk → Option (List Tk × List Tk)
  | _, [] => none
  | level, t :: ts =>
    if level = 0 ∧ t = .rpar then some ([], ts)
    else (splitParen (if t = .lpar then level + 1 else if t = .rpar then level - 1 else level) ts).map fun r => (t :: r.1, r.2)

/-- preprocess.c:273-293 `split_bracket`. -/
def splitBracket : Nat → List Tk → Option (List Tk × List Tk)
  | _, [] => none
  | level, t :: ts =>
    if level = 0 ∧ t = .rbrk then some ([], ts)
    else (splitBracket (if t = .lbrk then level + 1 else if t = .rbrk then level - 1 else level) ts).map fun r => (t :: r.1, r.2)

/-- preprocess.c:1841-1842: a comma before every attribute but the first. -/
def afterComma (first : Bool) (ts : List Tk) : Option (List Tk) :=
  if first then some ts else match ts with | .comma :: r => some r | _ => none

/-- preprocess.c:1844-1848: a vendor, and what follows. -/
def vendorOf (ts : List Tk) : Option (Option Tk × List Tk) :=
  match ts with
  | .ident v :: .colon :: .colon :: r => some (some (.ident v), r)
  | .ident _ :: .colon :: _ => none
  | ts => some (none, ts)

/-- preprocess.c:1849-1855: the tokens of one attribute, and what follows. -/
def oneAttr (ts : List Tk) : Option (String × List Tk × List Tk) :=
  match ts with
  | .ident n :: .lpar :: r => (skipParen 0 r).map fun p => (n, .ident n :: .lpar :: p.1, p.2)
  | .ident n :: r => some (n, [.ident n], r)
  | _ => none

/-- preprocess.c:1838-1869 `filter_attr`; the fuel is the length of the list. -/
def filterAttr (isBracket : Bool) : Nat → Bool → List Tk → List Seen → Option (List Seen)
  | _, _, [], lst => some lst
  | 0, _, _, _ => none
  | f + 1, first, ts, lst => do
    let ts ← afterComma first ts
    let (vendor, ts) ← vendorOf ts
    let (name, own, r) ← oneAttr ts
    filterAttr isBracket f false r (if isSupported isBracket vendor name then lst ++ [⟨isBracket, own⟩] else lst)

/-- preprocess.c:1881-1883, 1887: `( ( list ) )`. -/
def gnuList (ts : List Tk) : Option (List Tk × List Tk) :=
  match ts with
  | .lpar :: .lpar :: r =>
    match splitParen 0 r with
    | some (list, .rpar :: r) => some (list, r)
    | _ => none
  | _ => none

/-- preprocess.c:1893, 1897: what follows `[ [`. -/
def stdList (ts : List Tk) : Option (List Tk × List Tk) :=
  match splitBracket 0 ts with
  | some (list, .rbrk :: r) => some (list, r)
  | _ => none

/-- preprocess.c:1871-1918 `preprocess3`; `attrs` is the list at `attr_head`, and the fuel is the length of the
list. -/
def pass : Nat → List Seen → List Tk → Option (List (Tk × List Seen))
  | _, _, [] => some []
  | 0, _, _ => none
  | f + 1, attrs, t :: ts =>
    if t = .ident "__attribute__" ∨ t = .ident "__attribute" then do
      let (list, r) ← gnuList ts
      let attrs ← filterAttr false list.length true list attrs
      pass f attrs r
    else if t = .lbrk ∧ ts.head? = some .lbrk then do
      let (list, r) ← stdList ts.tail
      let attrs ← filterAttr true list.length true list attrs
      pass f attrs r
    else (pass f [] ts).map ((t, attrs) :: ·)

/-- preprocess.c:1920-1950 `preprocess`, after the macros are expanded. -/
def attributes (ts : List Tk) : Option (List (Tk × List Seen)) := pass ts.length [] ts

end Slimcc.Attrs
