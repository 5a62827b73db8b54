import Verif.Model.GroupInit

/-!
# The classical groups as group objects

The constructors of `emlp/groups.py` whose generator tables are in `Model/Groups.lean`, run through `Group.__init__`.
The attributes that a class does not set are `NotImplemented` when `Group.__init__` runs (`none` below).  Arithmetic is exact; the
complex groups `U(n)` and `SU(n)` are in `Model/ComplexGroups.lean`.
-/
namespace Verif

/-- An array of shape `(k,n,n)` as a list of generators. -/
def Arr3.gens (n : ℕ) (a : Arr3 ℝ) : List (LinOp ℝ) := (a.mats n).map ofMatrix

/-- `SO(n)`, groups.py:142-152. -/
noncomputable def soGroup (n : ℕ) : Py Grp := do
  let a ← soLie n
  groupInit none (some (a.gens n)) none none none

/-- `O(n)`, groups.py:155-160: the reflection is made first, then `SO.__init__` runs. -/
noncomputable def oGroup (n : ℕ) : Py Grp := do
  let b ← oDisc n
  let a ← soLie n
  groupInit none (some (a.gens n)) (some (b.gens n)) none none

/-- `Sp(m)`, groups.py:229-249. -/
noncomputable def spGroup (m : ℕ) : Py Grp := do
  let a ← spLie m
  groupInit none (some (a.gens (2 * m))) none none none

/-- `SL(n)`, groups.py:275-289. -/
noncomputable def slGroup (n : ℕ) : Py Grp := do
  let a ← slLie n
  groupInit none (some (a.gens n)) none none none

/-- `GL(n)`, groups.py:292-301. -/
noncomputable def glGroup (n : ℕ) : Py Grp := do
  let a ← glLie n
  groupInit none (some (a.gens n)) none none none

/-- `SO13p()`, groups.py:191-201; the table is a class attribute. -/
noncomputable def so13pGroup : Py Grp := do
  let a ← so13pLie
  groupInit none (some (a.gens 4)) none none none

/-- `SO13()`, groups.py:203-205; the Lie algebra is inherited. -/
noncomputable def so13Group : Py Grp := do
  let a ← so13pLie
  groupInit none (some (a.gens 4)) (some (so13Disc.gens 4)) none none

/-- `O13()` and `Lorentz()`, groups.py:207-214. -/
noncomputable def o13Group : Py Grp := do
  let a ← so13pLie
  let b ← o13Disc
  groupInit none (some (a.gens 4)) (some (b.gens 4)) none none

/-- `SO11p()`, groups.py:216-219. -/
noncomputable def so11pGroup : Py Grp := groupInit none (some (so11pLie.gens 2)) none none none

/-- `O11()`, groups.py:221-226. -/
noncomputable def o11Group : Py Grp := do
  let b ← o11Disc
  groupInit none (some (so11pLie.gens 2)) (some (b.gens 2)) none none

/-- `Parity()`, groups.py:182-184. -/
noncomputable def parityGroup : Py Grp := do
  let b ← parityDisc
  groupInit none none (some (b.gens 4)) none none

/-- `TimeReversal()`, groups.py:186-188. -/
noncomputable def timeReversalGroup : Py Grp := do
  let b ← timeReversalDisc
  groupInit none none (some (b.gens 4)) none none

/-- `SO2eR3()`, groups.py:446-449: `Embed(SO(2),3,slice(2))`; the slice selects the coordinates 0 and 1. -/
noncomputable def so2eR3 : Py Grp := do
  let G ← soGroup 2
  embedGroup 2 G 3 [0, 1]

/-- `O2eR3()`, groups.py:451-454. -/
noncomputable def o2eR3 : Py Grp := do
  let G ← oGroup 2
  embedGroup 2 G 3 [0, 1]

/-- `DkeR3(k)`, groups.py:456-459. -/
noncomputable def dkeR3 (k : ℕ) : Py Grp := do
  let G ← dihedralGroup k
  embedGroup 2 G 3 [0, 1]

end Verif
