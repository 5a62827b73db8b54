import Mathlib.Analysis.SpecialFunctions.Trigonometric.Basic
import Verif.Model.Groups
import Verif.Model.LinOp
import Verif.Model.CubePerms

/-!
# Group objects

`Group.__init__` (dimension, defaults, the `is_orthogonal` and `is_permutation` flags) and the constructors of
`emlp/groups.py` that build their generators from operators.  A generator is an operator tree; plain arrays are
`LinOp.lazy`.  Real arithmetic is exact (the code compares floats); complex generators (`U`, `SU`) are
in `Model/ComplexGroups.lean`.
-/
namespace Verif

/-- A constructed group.  `d = none` is `NotImplemented`. -/
structure Grp where
  d : Option ℕ
  lie : List (LinOp ℝ)
  disc : List (LinOp ℝ)
  isOrth : Bool
  isPerm : Option Bool

/-- `Ai@jnp.eye(d)`, the dense generator (see `LinApply` for application of an operator to an array). -/
def denseGen (d : ℕ) (A : LinOp ℝ) : Matrix (Fin d) (Fin d) ℝ := Matrix.of fun i j => A.sem.e i j

/-- `jnp.mean(jnp.abs(A))` of an array of shape `(k,d,d)`. -/
noncomputable def meanAbs {d : ℕ} (As : List (Matrix (Fin d) (Fin d) ℝ)) : ℝ :=
  (As.map fun A => ∑ i, ∑ j, |A i j|).sum / (As.length * d * d)

/-- `rel_err(-A_dense.transpose((0,2,1)),A_dense)`, groups.py:10-11, 45. -/
noncomputable def relErrLie {d : ℕ} (As : List (Matrix (Fin d) (Fin d) ℝ)) : ℝ :=
  meanAbs (As.map fun A => -A.transpose - A) / (meanAbs (As.map fun A => -A.transpose) + meanAbs As + 1e-6)

/-- `rel_err(h_dense.transpose((0,2,1))@h_dense,jnp.eye(self.d))`, groups.py:10-11, 48 (the identity is broadcast). -/
noncomputable def relErrDisc {d : ℕ} (hs : List (Matrix (Fin d) (Fin d) ℝ)) : ℝ :=
  meanAbs (hs.map fun h => h.transpose * h - 1) / (meanAbs (hs.map fun h => h.transpose * h) + meanAbs [(1 : Matrix (Fin d) (Fin d) ℝ)] + 1e-6)

open Classical in
/-- Lines 40-48 of `Group.__init__`: the orthogonality flag, computed unless preset. -/
noncomputable def orthFlag (d : ℕ) (lie disc : List (LinOp ℝ)) : Bool :=
  (lie.length == 0 || decide (relErrLie (lie.map (denseGen d)) < 1e-6)) &&
  (disc.length == 0 || decide (relErrDisc (disc.map (denseGen d)) < 1e-6))

open Classical in
/-- `((h_dense==1).astype(int).sum(-1)==1).all()`, groups.py:56. -/
noncomputable def rowsOneOne {d : ℕ} (hs : List (Matrix (Fin d) (Fin d) ℝ)) : Bool :=
  decide (∀ h ∈ hs, ∀ i, (Finset.univ.filter fun j => h i j = 1).card = 1)

/-- Lines 51-56 of `Group.__init__`: the permutation flag, computed if the group is orthogonal. -/
noncomputable def permFlag (d : ℕ) (lie disc : List (LinOp ℝ)) : Bool :=
  lie.length == 0 && (disc.length == 0 || rowsOneOne (disc.map (denseGen d)))

/-- `self.d` after lines 24-28 of `Group.__init__`: the class attribute if set, else the last extent of the first
discrete generator, else of the first Lie algebra generator. -/
def groupDim (d : Option ℕ) (lie disc : Option (List (LinOp ℝ))) : Option ℕ :=
  match d with
  | some d => some d
  | none =>
    let d1 := match lie with
      | some (A :: _) => some A.sem.cols
      | _ => none
    match disc with
      | some (h :: _) => some h.sem.cols
      | _ => d1

/-- `Group.__init__`, groups.py:22-56.  `d`, `lie`, `disc`, `orth`, `perm` are the attributes found on the
object; `none` is `NotImplemented` resp. `None`.  `np.zeros((0,d,d))` with `d = NotImplemented` is a
`TypeError`.  If both generator lists are given and empty, the dimension stays unset and both flags are set. -/
noncomputable def groupInit (d : Option ℕ) (lie disc : Option (List (LinOp ℝ))) (orth perm : Option Bool) : Py Grp := do
  let d := groupDim d lie disc
  if d = none ∧ (lie = none ∨ disc = none) then throw .type
  let lie := lie.getD []
  let disc := disc.getD []
  let dd := d.getD 0
  let orth := if perm = some true then some true else orth
  let o := match orth with
    | some o => o
    | none => orthFlag dd lie disc
  let p := if o && perm.isNone then some (permFlag dd lie disc) else perm
  pure ⟨d, lie, disc, o, p⟩

/-- A plain `n × n` array as an operator. -/
def ofMatrix {n : ℕ} (A : Matrix (Fin n) (Fin n) ℝ) : LinOp ℝ :=
  .lazy (DMat.of n n fun i j => if h : i < n ∧ j < n then A ⟨i, h.1⟩ ⟨j, h.2⟩ else 0)

/-- The generator of `C(k)`, groups.py:166-168. -/
noncomputable def rotGen (k : ℕ) : Matrix (Fin 2) (Fin 2) ℝ :=
  let t := 2 * Real.pi / k
  !![Real.cos t, Real.sin t; -Real.sin t, Real.cos t]

/-- `C(k)`, groups.py:163-169, for `k ≥ 1` (division by zero otherwise). -/
noncomputable def cyclicGroup (k : ℕ) : Py Grp := groupInit none none (some [ofMatrix (rotGen k)]) none none

/-- The reflection of `D(k)`, groups.py:175. -/
def reflGen : Matrix (Fin 2) (Fin 2) ℝ := !![-1, 0; 0, 1]

/-- `D(k)`, groups.py:171-175: the reflection is appended after `C.__init__` has run. -/
noncomputable def dihedralGroup (k : ℕ) : Py Grp := do
  let G ← cyclicGroup k
  pure { G with disc := G.disc ++ [ofMatrix reflGen] }

/-- `Trivial(n)`, groups.py:134-139. -/
noncomputable def trivialGroup (n : ℕ) : Py Grp := groupInit (some n) none none none none

/-- `Scaling(n)`, groups.py:176-181: `np.eye(n)[None]` as Lie algebra, no discrete generators. -/
noncomputable def scalingGroup (n : ℕ) : Py Grp := groupInit none (some (((scalingLie n : Arr3 ℝ).mats n).map ofMatrix)) none none none

/-- `Z(n)`, groups.py:251-256. -/
noncomputable def shiftGroup (n : ℕ) : Py Grp := groupInit none none (some [.shift n 1]) none none

/-- `S(n)`, groups.py:259-268, `n ≥ 1` (`np.zeros((n-1,1))` fails otherwise). -/
noncomputable def symGroup (n : ℕ) : Py Grp := groupInit none none (some ((symGens n).map .perm)) none none

/-- `Cube()`, groups.py:355-363. -/
noncomputable def cubeGroup : Py Grp := groupInit none none (some (cubeGens.map .perm)) none none

/-- `RubiksCube()`, groups.py:380-410. -/
noncomputable def rubiksGroup : Py Grp := groupInit none none (some (rubiksGens.map .perm)) none none

/-- `ZksZnxZn(k,n)`, groups.py:413-425. -/
noncomputable def zksznGroup (k n : ℕ) : Py Grp := do
  if k = 2 ∨ k = 4 then
    groupInit none none (some [.kron [.eye k, .shift n 1, .eye n], .kron [.eye k, .eye n, .shift n 1],
      .kron [.shift k 1, .rot90 n (4 / k)]]) none none
  else throw .assertion

/-- `DirectProduct(G1,G2)`, groups.py:462-468, for groups with a dimension. -/
noncomputable def directProductGroup (d1 d2 : ℕ) (G1 G2 : Grp) : Py Grp :=
  groupInit none
    (some (G1.lie.map (fun A => .kronsum [A, .smul 0 (.eye d2)]) ++ G2.lie.map (fun A => .kronsum [.smul 0 (.eye d1), A])))
    (some (G1.disc.map (fun M => .kron [M, .eye d2]) ++ G2.disc.map (fun M => .kron [.eye d1, M]))) none none

/-- The array `B` with `B[slice,slice] = A`, groups.py:436-439; `idx` are the indices selected by the slice, `B`
is a square array of size `d` (zeros for the Lie algebra, the identity for the discrete generators). -/
def embedMat (d : ℕ) (idx : List ℕ) (B : ℕ → ℕ → ℝ) (A : DMat ℝ) : DMat ℝ :=
  DMat.of d d fun i j => if i ∈ idx ∧ j ∈ idx then A.e (idx.idxOf i) (idx.idxOf j) else B i j

/-- `Embed(G,d,slice)`, groups.py:428-441, for a group `G` of dimension `d1` given by arrays.  `idx` are the indices
`slice.indices(d)`; numpy raises `ValueError` if their number is not `d1` (for `d1 = 1` it broadcasts; not
modelled). -/
noncomputable def embedGroup (d1 : ℕ) (G : Grp) (d : ℕ) (idx : List ℕ) : Py Grp := do
  if idx.length ≠ d1 then throw .value
  groupInit none (some (G.lie.map fun A => .lazy (embedMat d idx (fun _ _ => 0) A.sem)))
    (some (G.disc.map fun A => .lazy (embedMat d idx (fun i j => if i = j then 1 else 0) A.sem))) none none

end Verif
