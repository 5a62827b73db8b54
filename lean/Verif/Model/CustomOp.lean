import Verif.Model.LinApply

/-!
# Operators made from functions, and the operator classes without a lazy structure

`LinearOperator(shape,matvec=...,rmatvec=...,matmat=...,rmatmat=...)` makes a `_CustomLinearOperator`
(linear_operator_base.py:118-121, 433-476).  The functions are parameters of the model; a missing one is `none`.  Also
`MatrixLinearOperator` (671-699), `IdentityOperator` (702-717), `SwapMatrix` (linear_operators.py:207-220) and the arithmetic of
operators that `Op` does not spell out: `-A`, `A-B` and sums with plain arrays (linear_operator_base.py:370-383).
-/
namespace Verif
open List

namespace NdArr
variable {R : Type} [CommRing R]

/-- `[col.reshape(-1,1) for col in X.T]` for a 2-d array `X`. -/
def columns (X : NdArr R) : List (NdArr R) :=
  (range (X.shape.getD 1 0)).map fun j => ⟨[X.shape.headD 0, 1], (range (X.shape.headD 0)).map fun i => X.get [i, j]⟩

/-- `np.hstack(ys)` for a list of 2-d arrays with the same number of rows (`ValueError` for the empty list; arrays of other
shapes, which the code never stacks, raise here). -/
def hstack : List (NdArr R) → Py (NdArr R)
  | [] => .error .value
  | y :: ys => if ∀ z ∈ y :: ys, z.shape = [y.shape.headD 0, 1] then
      .ok (ofFn [y.shape.headD 0, ys.length + 1] fun idx => ((y :: ys).getD (idx.getD 1 0) ⟨[], []⟩).get [idx.getD 0 0, 0])
    else .error .type

end NdArr

namespace Act
variable {R : Type} [CommRing R]

/-- The default `_matmat`, linear_operator_base.py:155-161: one `matvec` for each column. -/
def byColumns (a : Act R) (X : NdArr R) : Py (NdArr R) := do NdArr.hstack (← X.columns.mapM a.matvec)

/-- The default `_matvec`, linear_operator_base.py:163-171: one `matmat` of a column. -/
def byMatrix (a : Act R) (x : NdArr R) : Py (NdArr R) := a.matmat (x.reshape [x.data.length, 1])

/-- `MatrixLinearOperator(A)`, linear_operator_base.py:671-679: `_matmat` is `A.dot`, `_matvec` the default. -/
def matrix (A : DMat R) : Act R := ⟨A.rows, A.cols, byMatrix ⟨A.rows, A.cols, .ok, NdArr.matmul A⟩, NdArr.matmul A⟩

/-- `IdentityOperator((m,n))`, linear_operator_base.py:702-716 (the shape is not checked to be square). -/
def identity (m n : ℕ) : Act R := ⟨m, n, .ok, .ok⟩

/-- The row that `SwapMatrix` moves to row `i`: `index_update(V,index[rows],V[rows[::-1]])` writes row `rows[::-1][k]` to row
`rows[k]`.  (If `rows` has repetitions jax leaves open which write wins; here the first.) -/
def swapRow (rows : List ℕ) (i : ℕ) : ℕ := if i ∈ rows then rows.reverse.getD (rows.idxOf i) 0 else i

/-- `SwapMatrix(rows,n)`, linear_operators.py:207-216. -/
def swap (rows : List ℕ) (n : ℕ) : Act R :=
  let f : NdArr R → Py (NdArr R) := fun V => .ok (V.takeFirst ((range n).map (swapRow rows)))
  ⟨n, n, f, f⟩

end Act

/-- A `_CustomLinearOperator`, linear_operator_base.py:433-447: its shape and the functions it was given. -/
structure CustomOp (R : Type) where
  rows : ℕ
  cols : ℕ
  mv : Option (NdArr R → Py (NdArr R))
  rmv : Option (NdArr R → Py (NdArr R)) := none
  mm : Option (NdArr R → Py (NdArr R)) := none
  rmm : Option (NdArr R → Py (NdArr R)) := none

namespace CustomOp
variable {R : Type} [CommRing R]

/-- Calling a function that may be `None`; `e` is what the call raises then. -/
def call (f : Option (NdArr R → Py (NdArr R))) (e : PyErr) (x : NdArr R) : Py (NdArr R) :=
  match f with
  | some f => f x
  | none => .error e

/-- `_matvec` and `_matmat`, linear_operator_base.py:449-456. -/
def act (c : CustomOp R) : Act R where
  rows := c.rows
  cols := c.cols
  mv := call c.mv .type
  mm X := match c.mm with
    | some g => g X
    | none => Act.byColumns ⟨c.rows, c.cols, call c.mv .type, .ok⟩ X

/-- `op.H`: `_adjoint`, linear_operator_base.py:470-476. -/
def H (c : CustomOp R) : CustomOp R := ⟨c.cols, c.rows, c.rmv, c.mv, c.rmm, c.mm⟩

/-- `rmatvec` and `rmatmat`: `_rmatvec` and `_rmatmat`, linear_operator_base.py:458-468; the default `_rmatmat` (308-313) is
`self.H.matmat(X)`, as the class defines `_adjoint`. -/
def ract (c : CustomOp R) : Act R where
  rows := c.cols
  cols := c.rows
  mv := call c.rmv .notImplemented
  mm X := match c.rmm with
    | some g => g X
    | none => c.H.act.matmat X

/-- `op.T`, a `_TransposedLinearOperator`, linear_operator_base.py:422-424, 499-519. -/
def T [StarRing R] (c : CustomOp R) : Act R := c.ract.conj

/-- `op.to_dense()`, the default, linear_operator_base.py:426-430. -/
def toDense (c : CustomOp R) : Py (DMat R) := Op.defaultDense c.act

end CustomOp

namespace Op
variable {R : Type} [CommRing R] [StarRing R]

/-- `-A`, linear_operator_base.py:379-380, and the negative of a plain array. -/
def neg : Op R → Py (Op R)
  | .arr X => .ok (.arr (DMat.smul (-1) X))
  | A => mkScale (-1) A

/-- `A+x` for an operator `A` and an operator or a plain array `x`, linear_operator_base.py:370-378 (and `x+A`, which jax arrays
hand over to `__radd__`). -/
def plus (A : Op R) : Op R → Py (Op R)
  | .arr X => mkAdd A (.lazy X)
  | x => mkAdd A x

/-- `A-x`, linear_operator_base.py:382-383. -/
def sub (A x : Op R) : Py (Op R) := do A.plus (← x.neg)

end Op
end Verif
