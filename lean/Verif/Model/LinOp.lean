import Verif.Spec.Dense

/-!
# Lazy linear operators: syntax and meaning

The operator objects of `emlp/reps/linear_operators.py` and
`emlp/reps/linear_operator_base.py`, as the expression trees their constructors build.  `LinOp.sem`
is the matrix each tree denotes (specification); the algorithms that apply an operator to an array
(`_matvec`, `_matmat`, `to_dense`, ...) are modelled in `Verif.Model.LinApply` and proved to agree
with `sem`.  `LazyJVP` (automatic differentiation) is in `Model/Jvp.lean`.  Not modelled: `SwapMatrix` (unused, and it calls
`jax.ops.index_update`, which no longer exists).
-/
namespace Verif

/-- Operator trees. -/
inductive LinOp (R : Type) [Zero R]
  /-- a plain jax/numpy array used as an operator, or `Lazy(A)`, linear_operator_base.py:720-736 -/
  | lazy (A : DMat R)
  /-- `I(n)`, linear_operators.py:20-31 -/
  | eye (n : ℕ)
  /-- `LazyKron(Ms)`, linear_operators.py:33-59 -/
  | kron (Ms : List (LinOp R))
  /-- `LazyKronsum(Ms)`, linear_operators.py:66-94 -/
  | kronsum (Ms : List (LinOp R))
  /-- `ConcatLazy(Ms)`, linear_operators.py:117-134 -/
  | concat (Ms : List (LinOp R))
  /-- `LazyDirectSum(Ms,multiplicities)`, linear_operators.py:136-158 -/
  | dsum (Ms : List (LinOp R × ℕ))
  /-- `LazyPerm(perm)`, linear_operators.py:177-190 -/
  | perm (p : List ℕ)
  /-- `LazyShift(n,k)`, linear_operators.py:192-205 (the shift reduced modulo `n`) -/
  | shift (n k : ℕ)
  /-- `Rot90(n,k)`, linear_operators.py:222-233 (`k` quarter turns, `k` modulo 4) -/
  | rot90 (n k : ℕ)
  /-- `_SumLinearOperator`, linear_operator_base.py:530-559 -/
  | add (A B : LinOp R)
  /-- `_ProductLinearOperator`, linear_operator_base.py:561-596 -/
  | mul (A B : LinOp R)
  /-- `_ScaledLinearOperator`, linear_operator_base.py:599-629 -/
  | smul (c : R) (A : LinOp R)
  /-- `_PowerLinearOperator`, linear_operator_base.py:632-667 -/
  | pow (A : LinOp R) (n : ℕ)

namespace DMat
variable {R : Type} [CommRing R]

/-- Vertical stacking (`jnp.concatenate(axis=0)`) of two matrices. -/
def vstack2 (A B : DMat R) : DMat R :=
  of (A.rows + B.rows) A.cols fun i j => if i < A.rows then A.e i j else B.e (i - A.rows) j

/-- Vertical stacking of a list of matrices. -/
def vstack : List (DMat R) → DMat R
  | [] => zero 0 0
  | [A] => A
  | A :: As => vstack2 A (vstack As)

/-- Matrix power. -/
def pow (A : DMat R) : ℕ → DMat R
  | 0 => one A.rows
  | n + 1 => A.mul (pow A n)

/-- Matrix of `np.roll(v,k)` on vectors of length `n`: row `i` picks entry `i-k mod n`. -/
def shiftMat (n k : ℕ) : DMat R := of n n fun i j => if (j + k) % n = i then 1 else 0

/-- The pixel of an `n × n` image that moves to pixel `ij` under `k` counterclockwise quarter turns. -/
def rotSrc (n : ℕ) : ℕ → ℕ × ℕ → ℕ × ℕ
  | 0, ij => ij
  | k + 1, ij => rotSrc n k (ij.2, n - 1 - ij.1)

/-- Matrix of `k` quarter turns acting on flattened `n × n` images. -/
def rotMat (n k : ℕ) : DMat R :=
  of (n * n) (n * n) fun a b =>
    let s := rotSrc n k (a / n, a % n)
    if s.1 * n + s.2 = b then 1 else 0

end DMat

namespace LinOp
variable {R : Type} [CommRing R]

mutual
/-- The matrix denoted by an operator tree. -/
def sem : LinOp R → DMat R
  | .lazy A => A
  | .eye n => DMat.one n
  | .kron Ms => DMat.kronL (semL Ms)
  | .kronsum Ms => DMat.kronsumL (semL Ms)
  | .concat Ms => DMat.vstack (semL Ms)
  | .dsum Ms => DMat.bdiag (semM Ms)
  | .perm p => DMat.permMat p
  | .shift n k => DMat.shiftMat n k
  | .rot90 n k => DMat.rotMat n k
  | .add A B => A.sem.add B.sem
  | .mul A B => A.sem.mul B.sem
  | .smul c A => A.sem.smul c
  | .pow A n => A.sem.pow n
/-- `sem` of each operator of a list. -/
def semL : List (LinOp R) → List (DMat R)
  | [] => []
  | M :: Ms => M.sem :: semL Ms
/-- `sem` of each operator of a list with multiplicities, repeated. -/
def semM : List (LinOp R × ℕ) → List (DMat R)
  | [] => []
  | (M, c) :: Ms => List.replicate c M.sem ++ semM Ms
end

end LinOp
end Verif
