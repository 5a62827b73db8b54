import Verif.Model.RhoOp
import Mathlib.Analysis.Calculus.Deriv.Basic

/-!
# `LazyJVP` and the default `drho`

`Rep.drho` of user-defined representations (`emlp/reps/representation.py:40-43`) and the operator it returns
(`emlp/reps/linear_operators.py:103-115`).  `jax.jvp` is the directional derivative; a real group.
-/
namespace Verif
open List

/-- `jax.jvp(F,[X],[TX])[1]`, where `F t` stands for `F(X+t*TX)`: the derivative of every entry of the array at `t = 0`.  Tracing `F`
raises what `F` raises. -/
noncomputable def jvpArr (F : ℝ → Py (NdArr ℝ)) : Py (NdArr ℝ) :=
  match F 0 with
  | .error e => .error e
  | .ok y => .ok ⟨y.shape, (range y.data.length).map fun k => deriv (fun t => match F t with
    | .ok z => z.data.getD k 0
    | .error _ => 0) 0⟩

/-- `shape`, `_matvec`, `_matmat` of `LazyJVP(operator_fn,X,TX)`, linear_operators.py:103-112; `f t` is `operator_fn(X+t*TX)`. -/
noncomputable def lazyJvp (f : ℝ → DMat ℝ) : Act ℝ where
  rows := (f 0).rows
  cols := (f 0).cols
  mv v := jvpArr fun t => NdArr.matmul (f t) v
  mm v := jvpArr fun t => NdArr.matmul (f t) v

/-- Its adjoint side: `_rmatmat`, linear_operators.py:113-114; `_rmatvec` is the default, which raises because the class defines
no `_adjoint` (linear_operator_base.py:241-245). -/
noncomputable def lazyJvpR (f : ℝ → DMat ℝ) : Act ℝ where
  rows := (f 0).cols
  cols := (f 0).rows
  mv _ := .error .notImplemented
  mm v := jvpArr fun t => NdArr.matmul (f t).transpose v

/-- The function that `Rep.drho(A)` differentiates, representation.py:40-43: `rho` near the identity, in the direction `A`. -/
def rhoLine (rho : DMat ℝ → DMat ℝ) (A : DMat ℝ) (t : ℝ) : DMat ℝ := rho ((DMat.one A.rows).add (DMat.smul t A))

/-- `Rep.drho(A)`, representation.py:40-43, as an operator object: `Op.jvp` with the derivative of `rho`. -/
noncomputable def defaultDrho (rho : DMat ℝ → DMat ℝ) (A : DMat ℝ) : Op ℝ :=
  .jvp (DMat.of (rhoLine rho A 0).rows (rhoLine rho A 0).cols fun i j => deriv (fun t => (rhoLine rho A t).e i j) 0)

end Verif
