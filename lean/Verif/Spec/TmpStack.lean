import Verif.Model.TmpStack
/-!
What it means that temporaries survive: properly nested sequences of saves and restores, and the
execution of the resulting output.
-/
set_option autoImplicit false
namespace Slimcc.Tmp

/-- A properly nested sequence: a value of a kind is saved, something happens, and it is
restored; `sz` is its size in units of eight bytes. `call` is a call by name; `callPtr` saves the address
of the function, evaluates the arguments, fills argument registers, among them the first `n` registers
for temporaries, takes the address back and calls. -/
inductive Item where
  | tmp (k : Kind) (sz : Nat) (body : List Item)
  | call
  | callPtr (n : Nat) (body : List Item)

mutual
/-- The operations of the sequence, in order. -/
def Item.ops : Item → List Op
  | .tmp k sz body => .push k :: (opsOf body ++ [.pop sz])
  | .call => [.call]
  | .callPtr n body => .push .gp :: (opsOf body ++ [.args n, .pop 1, .call])
def opsOf : List Item → List Op
  | [] => []
  | i :: r => i.ops ++ opsOf r
end

/-- Where values can be: registers for temporaries and bytes of the frame (addresses relative to
the frame pointer). -/
inductive Cell where
  | gp (i : Nat)
  | fp (i : Nat)
  | byte (a : Int)
  deriving DecidableEq

def Loc.Has : Loc → Cell → Prop
  | .gp i, .gp j => i = j
  | .fp i, .fp j => i = j
  | .mem ofs sz, .byte a => -(ofs : Int) ≤ a ∧ a < -(ofs : Int) + 8 * sz
  | _, _ => False

/-- Contents of the cells. -/
abbrev Store := Cell → Nat

/-- A call changes every register for temporaries, and may change variables: everything at or above
`-lvar`, but not the rest of the frame. -/
def callKeeps (lvar : Nat) (σ σ' : Store) : Prop := ∀ a : Int, a < -(lvar : Int) → σ' (.byte a) = σ (.byte a)

/-- Code setting argument registers, all %xmm registers among them, which may change variables as well. -/
def argsKeep (lvar n : Nat) (σ σ' : Store) : Prop :=
  callKeeps lvar σ σ' ∧ ∀ i, n ≤ i → σ' (.gp i) = σ (.gp i)

/-- Execution of the output, for every value saved and whatever calls and argument code do: at each
load, the value read is the one most recently saved and not yet loaded. -/
def Safe (lvar : Nat) : List Line → Store → List Store → Prop
  | [], _, _ => True
  | .reserved :: _, _, _ => False
  | .save l :: r, σ, g => ∀ v σ' : Store, (∀ c, l.Has c → σ' c = v c) → (∀ c, ¬l.Has c → σ' c = σ c) → Safe lvar r σ' (v :: g)
  | .load _ :: _, _, [] => False
  | .load l :: r, σ, v :: g => (∀ c, l.Has c → σ c = v c) ∧ Safe lvar r σ g
  | .call :: r, σ, g => ∀ σ', callKeeps lvar σ σ' → Safe lvar r σ' g
  | .args n :: r, σ, g => ∀ σ', argsKeep lvar n σ σ' → Safe lvar r σ' g

/-- A place that exists: six registers of either kind, and the part of the frame between the variables
and the peak. -/
def Loc.Fits (lvar peak : Nat) : Loc → Prop
  | .gp i => i < 6
  | .fp i => i < 6
  | .mem ofs sz => ofs ≤ peak ∧ lvar + 8 * sz ≤ ofs

/-- Every load is from the place of the most recent save not yet loaded. -/
def Paired : List Line → List Loc → Prop
  | [], g => g = []
  | .save l :: r, g => Paired r (l :: g)
  | .load _ :: _, [] => False
  | .load l :: r, l' :: g => l = l' ∧ Paired r g
  | .reserved :: _, _ => False
  | .call :: r, g => Paired r g
  | .args _ :: r, g => Paired r g

/-- A piece of output whose loads match its own saves, `d` of them having been done before. -/
def Balanced : List Line → Nat → Prop
  | [], d => d = 0
  | .save _ :: r, d => Balanced r (d + 1)
  | .load _ :: _, 0 => False
  | .load _ :: r, d + 1 => Balanced r d
  | _ :: r, d => Balanced r d

end Slimcc.Tmp
