import Verif.Model.AsmCode
/-!
The text of an `asm` statement as printed, codegen.c:3361-3381, 3599-3731.

Simplifications, for the whole file:
* The template is a list of characters without NUL.
* Runs of ordinary characters are written one by one.
* Of a symbol (constraint `i`) only the text is kept, if it is one of the two forms that are printed;
  of a symbol in a memory operand only its number.
* `labels` of operands that are not labels are empty.
-/
set_option autoImplicit false
namespace Slimcc.Asm

/-- What printing asks about an operand or label (`AsmParam` after `asm_fill_ops2`). -/
structure Shown where
  kind : Kind := .none
  reg : Reg := 0
  size : Nat := 0
  name : Option (List Char) := none
  val : Int := 0
  symTxt : Option (List Char) := none
  mem : Option AMem := none
  labels : List (List Char) := []
  unique : Option (List Char) := none
  deriving DecidableEq, Repr

/-- `regs`, codegen.c:57-75. -/
def regTab : List (List String) :=
  [["null", "null", "null", "null"],
   ["%al", "%ax", "%eax", "%rax"],
   ["%cl", "%cx", "%ecx", "%rcx"],
   ["%dl", "%dx", "%edx", "%rdx"],
   ["%sil", "%si", "%esi", "%rsi"],
   ["%dil", "%di", "%edi", "%rdi"],
   ["%r8b", "%r8w", "%r8d", "%r8"],
   ["%r9b", "%r9w", "%r9d", "%r9"],
   ["%r10b", "%r10w", "%r10d", "%r10"],
   ["%r11b", "%r11w", "%r11d", "%r11"],
   ["%r12b", "%r12w", "%r12d", "%r12"],
   ["%r13b", "%r13w", "%r13d", "%r13"],
   ["%r14b", "%r14w", "%r14d", "%r14"],
   ["%r15b", "%r15w", "%r15d", "%r15"],
   ["%bl", "%bx", "%ebx", "%rbx"],
   ["%bpl", "%bp", "%ebp", "%rbp"],
   ["%spl", "%sp", "%esp", "%rsp"]]

def regStr (r : Reg) (k : Nat) : List Char := (((regTab.getD r []).getD k "").toList)

/-- codegen.c:3361-3369. -/
def highByte (r : Reg) : List Char :=
  if r = rAX then "%ah".toList else if r = rBX then "%bh".toList else if r = rCX then "%ch".toList
  else if r = rDX then "%dh".toList else regStr r 0

/-- codegen.c:3371-3381; `none` is the internal error. -/
def regSz (r : Reg) (sz : Nat) : Option (List Char) :=
  if isGp r then
    match sz with
    | 1 => some (regStr r 0)
    | 2 => some (regStr r 1)
    | 4 => some (regStr r 2)
    | 8 => some (regStr r 3)
    | _ => none
  else none

/-- An integer in decimal (`%d`, `PRIi64`). -/
def decStr (n : Int) : List Char := (toString n).toList

/-- codegen.c:3694: a memory operand. -/
def memStr (symName : Nat → List Char) : AMem → List Char
  | .at_ o b => decStr o ++ '(' :: regStr b 3 ++ [')']
  | .sym x => symName x ++ "(%rip)".toList

/-- codegen.c:3674-3726: an operand with a modifier. -/
def opStr (symName : Nat → List Char) (p : Plan) (md : Option Char) (o : Shown) : Option (List Char) :=
  let punct := if md = some 'c' then [] else ['$']
  match o.kind with
  | .num => some (punct ++ decStr o.val)
  | .sym => o.symTxt.map (punct ++ ·)
  | .mem =>
    match o.mem with
    | some a => some (memStr symName (altMem p a))
    | none => if o.reg ≠ 0 then some ('(' :: regStr o.reg 3 ++ [')']) else none
  | .reg =>
    if isXmm o.reg then some ("%xmm".toList ++ decStr (o.reg - rXMM0 : Nat))
    else if isX87 o.reg then some ("%st(".toList ++ decStr (o.reg - rST0 : Nat) ++ [')'])
    else if isGp o.reg then
      match md with
      | some 'h' => some (highByte o.reg)
      | some 'b' => some (regStr o.reg 0)
      | some 'w' => some (regStr o.reg 1)
      | some 'k' => some (regStr o.reg 2)
      | some 'q' => some (regStr o.reg 3)
      | _ => regSz o.reg o.size
    else none
  | _ => none

/-- codegen.c:3599-3605 `named_op`: what follows `name]`. -/
def namedOp : List Char → List Char → Option (List Char)
  | p, [] => match p with
    | ']' :: r => some r
    | _ => none
  | [], _ :: _ => none
  | c :: p, d :: n => if c = d then namedOp p n else none

/-- codegen.c:3608-3620: the loop over the operands, from number `i`. -/
def findNamed (isLabel : Bool) (p : List Char) : List Shown → Nat → Option (Nat × List Char)
  | [], _ => none
  | o :: os, i =>
    match (if isLabel then o.labels else o.name.toList).findSome? (namedOp p) with
    | some r => some (i, r)
    | none => findNamed isLabel p os (i + 1)

/-- `strtoul` base 10. -/
def digitsVal (ds : List Char) : Nat := ds.foldl (fun n d => 10 * n + (d.toNat - '0'.toNat)) 0

/-- codegen.c:3607-3627 `find_op`: the operand's number and the rest of the template. -/
def findOp (isLabel : Bool) (ops : List Shown) (p : List Char) : Option (Nat × List Char) :=
  match p with
  | '[' :: r => findNamed isLabel r ops 0
  | c :: _ =>
    if c.isDigit then
      let k := digitsVal (p.takeWhile Char.isDigit)
      if k < ops.length then some (k, p.dropWhile Char.isDigit) else none
    else none
  | [] => none

/-- `*p == '[' || Isdigit(*p)`, codegen.c:3647, 3670. -/
def startsRef : List Char → Bool
  | c :: _ => c == '[' || c.isDigit
  | [] => false

/-- codegen.c:3659-3669: the modifier. -/
def modOf : List Char → Option Char × List Char
  | [] => (none, [])
  | c :: r => if c ∈ ['h', 'b', 'w', 'k', 'q', 'c'] then (some c, r) else (none, c :: r)

section
variable (symName : Nat → List Char) (pl : Plan) (hasOut : Bool) (ops : List Shown)

/-- codegen.c:3647-3657: a label. -/
def labelStr (i : Nat) : Option (List Char) :=
  match (ops.getD i {}).unique with
  | none => none
  | some u => some (if hasOut then decStr i ++ ['f'] else u)

/-- codegen.c:3629-3729, the loop of `asm_body`; the first argument bounds its turns. -/
def bodyLoop : Nat → List Char → Option (List Char)
  | 0, _ => none
  | _ + 1, [] => some []
  | f + 1, c :: p =>
    if c ≠ '%' then (bodyLoop f p).map (c :: ·)
    else match p with
      | '%' :: q => (bodyLoop f q).map ('%' :: ·)
      | _ =>
        if p.head? = some 'l' ∧ startsRef p.tail then do
          let (i, r) ← findOp true ops p.tail
          let x ← labelStr hasOut ops i
          (bodyLoop f r).map (x ++ ·)
        else
          let (md, q) := modOf p
          if startsRef q then do
            let (i, r) ← findOp false ops q
            let x ← opStr symName pl md (ops.getD i {})
            (bodyLoop f r).map (x ++ ·)
          else none

/-- codegen.c:3629-3731 `asm_body`. -/
def asmBody (tmpl : List Char) : Option (List Char) := (bodyLoop symName pl hasOut ops (tmpl.length + 1) tmpl).map (· ++ ['\n'])

end

/-- codegen.c:3001-3020: the numbering of operands in the text: outputs, inputs, the outputs with `+`
again, labels. -/
def numbered (outs ins : List (List Char × Shown)) (labels : List Shown) : List Shown :=
  outs.map (·.2) ++ ins.map (·.2) ++ (outs.filter fun o => o.1.head? = some '+').map (·.2) ++ labels

end Slimcc.Asm
