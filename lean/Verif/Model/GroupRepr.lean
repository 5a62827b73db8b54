import Verif.Model.GroupInit

/-!
# The printed form of groups, which is what `==` and `hash` use
-/
namespace Verif

/-- The classes of `emlp/groups.py` whose `repr` is the one of `Group`. -/
inductive Cls
  | Trivial | SO | O | C | D | Scaling | Parity | TimeReversal | SO13p | SO13 | O13 | Lorentz | SO11p | O11 | Sp | Z | S
  | SL | GL | U | SU | Cube | RubiksCube | ZksZnxZn
  deriving DecidableEq, Repr

/-- `cls.__name__`, utils.py:3-7. -/
def Cls.name : Cls → String
  | .Trivial => "Trivial" | .SO => "SO" | .O => "O" | .C => "C" | .D => "D" | .Scaling => "Scaling" | .Parity => "Parity"
  | .TimeReversal => "TimeReversal" | .SO13p => "SO13p" | .SO13 => "SO13" | .O13 => "O13" | .Lorentz => "Lorentz"
  | .SO11p => "SO11p" | .O11 => "O11" | .Sp => "Sp" | .Z => "Z" | .S => "S" | .SL => "SL" | .GL => "GL" | .U => "U"
  | .SU => "SU" | .Cube => "Cube" | .RubiksCube => "RubiksCube" | .ZksZnxZn => "ZksZnxZn"

/-- Number of arguments the constructor passes to `Group.__init__` (groups.py, `super().__init__(...)`). -/
def Cls.arity : Cls → ℕ
  | .Parity | .TimeReversal | .SO13p | .SO13 | .O13 | .Lorentz | .SO11p | .O11 | .Cube | .RubiksCube => 0
  | .ZksZnxZn => 2
  | _ => 1

/-- The argument lists that occur: `ZksZnxZn` asserts `k in [2,4]` (groups.py:423). -/
def Cls.validArgs (c : Cls) (args : List ℕ) : Bool :=
  args.length == c.arity && (c != .ZksZnxZn || args.head? == some 2 || args.head? == some 4)

/-- How a group object was made. -/
inductive GDesc
  | plain (cls : Cls) (args : List ℕ)
  | prod (a b : GDesc)
  | embed (g : GDesc) (d : ℕ) (idx : List ℕ)

/-- `repr(n)` of a natural number. -/
def reprNat (n : ℕ) : List Char := Nat.toDigits 10 n

/-- `Group.__repr__`, groups.py:86-90, for a class with the given arguments. -/
def plainRepr (c : Cls) (args : List ℕ) : List Char :=
  c.name.toList ++ if args.isEmpty then [] else '(' :: ((args.map reprNat).flatten ++ [')'])

/-- `repr` of a group: `Group.__repr__` (86-90), `Embed.__repr__` (440, 443-444), `DirectProduct.__repr__` (467, 470-471). -/
def GDesc.repr : GDesc → List Char
  | .plain c args => plainRepr c args
  | .prod a b => a.repr ++ 'x' :: b.repr
  | .embed g d _ => g.repr ++ '_' :: 'R' :: reprNat d

/-- `Group.__eq__`, groups.py:92-93. -/
def GDesc.eq (a b : GDesc) : Bool := a.repr == b.repr

end Verif
