import Verif.Model.NullSpace
import Mathlib.Data.Matrix.Mul

/-!
# The descent of the iterative solver

`krylov_constraint_solve_upto_r`, representation.py:325-366: gradient descent with momentum on `|C W|²/2`.  Exact real
arithmetic; `C` is the matrix its operator stands for (C70).  `jax.value_and_grad` is the gradient, which is
`Cᵀ C W` (`descentLoss_deriv`).  For a complex `C` the start `np.random.randn` and hence every iterate is real: this is the
same descent for the real and the imaginary part of `C` on top of each other.
-/
namespace Verif

section
variable {c n r : ℕ}

/-- `loss(W)`, representation.py:334-335. -/
noncomputable def descentLoss (C : Matrix (Fin c) (Fin n) ℝ) (W : Matrix (Fin n) (Fin r) ℝ) : ℝ := (∑ i, ∑ j, |(C * W) i j| ^ 2) / 2

/-- The gradient returned by `jax.value_and_grad(loss)`, representation.py:337, in closed form. -/
noncomputable def descentGrad (C : Matrix (Fin c) (Fin n) ℝ) (W : Matrix (Fin n) (Fin r) ℝ) : Matrix (Fin n) (Fin r) ℝ := C.transpose * (C * W)

/-- The array `W` and the momentum kept in `opt_state`. -/
structure DescentState (n r : ℕ) where
  W : Matrix (Fin n) (Fin r) ℝ
  m : Matrix (Fin n) (Fin r) ℝ

/-- One iteration, representation.py:346-348: `optax.sgd(lr,.9)` keeps `m ← grad + 0.9 m` and `apply_updates` adds `-lr m`. -/
noncomputable def descentStep (lr : ℝ) (C : Matrix (Fin c) (Fin n) ℝ) (s : DescentState n r) : DescentState n r :=
  let m := descentGrad C s.W + (0.9 : ℝ) • s.m
  ⟨s.W - lr • m, m⟩

/-- The state before iteration `t`, representation.py:329-344; `W₀` is the random start, the momentum starts at zero. -/
noncomputable def descentRun (lr : ℝ) (C : Matrix (Fin c) (Fin n) ℝ) (W₀ : Matrix (Fin n) (Fin r) ℝ) : ℕ → DescentState n r
  | 0 => ⟨W₀, 0⟩
  | t + 1 => descentStep lr C (descentRun lr C W₀ t)

/-- The losses seen in attempt `a` of `krylov_constraint_solve_upto_r`, which runs with learning rate `0.01/3^a`
(representation.py:325, 362) from its own random start. -/
noncomputable def descentLosses (C : Matrix (Fin c) (Fin n) ℝ) (W₀ : ℕ → Matrix (Fin n) (Fin r) ℝ) (a t : ℕ) : Fl :=
  some (descentLoss C (descentRun (0.01 / 3 ^ a) C (W₀ a) t).W)

end
end Verif
