/-!
How make reads a name in a rule (GNU make, `find_map_unquote`): a run of backslashes directly before a special character
is halved, and the character is quoted if their number is odd; other backslashes stand for themselves. `#` begins a
comment, `$$` is a dollar sign, a blank or a colon ends the name. Bytes are numbers.
-/
set_option autoImplicit false
namespace Slimcc.Spec

def addFront (a : List Nat) (p : List Nat × List Nat) : List Nat × List Nat := (a ++ p.1, p.2)

/-- The text up to the first special character that is not quoted, and the rest; `k` backslashes are pending. -/
def unquote (special : Nat → Bool) : Nat → List Nat → List Nat × List Nat
  | k, [] => (List.replicate k 92, [])
  | k, c :: r =>
    if c = 92 then unquote special (k + 1) r
    else if special c then
      if k % 2 = 1 then addFront (List.replicate (k / 2) 92 ++ [c]) (unquote special 0 r)
      else (List.replicate (k / 2) 92, c :: r)
    else addFront (List.replicate k 92 ++ [c]) (unquote special 0 r)

/-- `$$` is a dollar sign; another `$` refers to a variable of one character, which is empty. -/
def dollars : List Nat → List Nat
  | [] => []
  | [c] => if c = 36 then [] else [c]
  | c :: d :: r => if c = 36 then (if d = 36 then 36 :: dollars r else dollars r) else c :: dollars (d :: r)

/-- The name at the beginning of a line. -/
def makeName (line : List Nat) : List Nat :=
  let text := (unquote (fun c => c == 35) 0 (line.takeWhile (· != 10))).1
  (unquote (fun c => c == 32 || c == 9 || c == 58) 0 (dollars text)).1

end Slimcc.Spec
