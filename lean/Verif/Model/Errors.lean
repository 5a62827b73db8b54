import Mathlib.Analysis.SpecialFunctions.Log.Basic
import Verif.Model.Dynamics
import Verif.Model.Trainer
import Verif.Spec.Flat

/-!
# Error measures

`scale_adjusted_rel_error` and `equivariance_error` of `emlp/reps/representation.py`, `rel_err`, `scale_adjusted_rel_err` and
`equivariance_err` of `experiments/trainer/model_trainer.py`, the rollout error of `experiments/trainer/hamiltonian_dynamics.py`.
Arrays are lists of their entries: all these functions reduce over all axes.  Real arithmetic is exact; `none` stands for `nan` or `inf`,
the result of a division by zero, and any operation on it yields `none`.
-/
namespace Verif
open List

/-- `a / b` -/
noncomputable def fdiv (a b : ℝ) : Option ℝ := if b = 0 then none else some (a / b)

/-- `jnp.mean(a)`: the mean of an array without entries is `nan`. -/
noncomputable def meanOf (a : List ℝ) : Option ℝ := fdiv a.sum a.length

/-- `jnp.sqrt(jnp.mean(jnp.abs(a)**2))`, and `jnp.sqrt((a**2).mean())`, the same for real arrays. -/
noncomputable def rms (a : List ℝ) : Option ℝ := do
  let m ← meanOf (a.map fun x => |x| ^ 2)
  pure (Real.sqrt m)

/-- `t1-t2`, for arrays of the same shape. -/
def subArr (t1 t2 : List ℝ) : List ℝ := List.zipWith (· - ·) t1 t2

/-- `g-jnp.eye(g.shape[-1])` for an array `g` of shape `(n,d,d)`. -/
def minusEye (g : List (DMat ℝ)) : List ℝ :=
  g.flatMap fun h => (List.range h.rows).flatMap fun i => (List.range h.cols).map fun j => h.e i j - if i = j then 1 else 0

/-- `scale_adjusted_rel_error(t1,t2,g)`, representation.py:478-483.  `max(scale,1e-7)` is positive. -/
noncomputable def scaleAdjustedRelError (t1 t2 : List ℝ) (g : List (DMat ℝ)) : Option ℝ := do
  let error ← rms (subArr t1 t2)
  let s1 ← rms t1
  let s2 ← rms t2
  let tscale := s1 + s2
  let gscale ← rms (minusEye g)
  let scale := max tscale gscale
  fdiv error (max scale (1 / 10 ^ 7))

/-- `W.reshape(nout,nin,-1).transpose((2,0,1))`, representation.py:490: matrix `k` has the entries `(i,j,k)` of the reshaped array.
The size of the last axis is inferred; numpy raises if that is impossible. -/
def asMatrices (nout nin : ℕ) (W : List ℝ) : Py (List (DMat ℝ)) :=
  if nout * nin = 0 ∨ W.length % (nout * nin) ≠ 0 then .error .value
  else
    let r := W.length / (nout * nin)
    .ok ((List.range r).map fun k => DMat.of nout nin fun i j => W.getD ((i * nin + j) * r + k) 0)

/-- `equivariance_error(W,repin,repout,G)`, representation.py:485-497.  `gs` are the samples of the group, `rin` and `rout` the matrices
`rho_dense` of an element; `W` is given by its entries in row-major order.  The products are batched over samples (first) and the matrices
of `W`. -/
noncomputable def equivarianceError (W : List ℝ) (nin nout : ℕ) (rin rout : DMat ℝ → DMat ℝ) (gs : List (DMat ℝ)) : Py (Option ℝ) := do
  let Ws ← asMatrices nout nin W
  let a := gs.flatMap fun g => Ws.flatMap fun M => (M.mul (rin g)).flat
  let b := gs.flatMap fun g => Ws.flatMap fun M => ((rout g).mul M).flat
  pure (scaleAdjustedRelError a b gs)

/-- `rel_err(a,b)`, hamiltonian_dynamics.py:247-249 and model_trainer.py:13-14. -/
noncomputable def relErr (a b : List ℝ) : Option ℝ := do
  let e ← rms (subArr a b)
  let x ← rms a
  let y ← rms b
  fdiv e (x + y)

/-- `scale_adjusted_rel_err(a,b,g)`, model_trainer.py:16-17. -/
noncomputable def scaleAdjustedRelErr (a b : List ℝ) (g : List (DMat ℝ)) : Option ℝ := do
  let e ← rms (subArr a b)
  let x ← rms a
  let y ← rms b
  let s ← meanOf ((minusEye g).map abs)
  fdiv e (x + y + s)

/-- `equivariance_err(model,mb,group)`, model_trainer.py:19-27.  `predict` is `model.predict` on a batch, `X` the inputs, `gs` one sample
for each row; `rho_gin@x[...,None]` multiplies row `i` by the matrix of sample `i`. -/
noncomputable def equivarianceErr (predict : DMat ℝ → Py (DMat ℝ)) (rin rout : DMat ℝ → DMat ℝ) (X : DMat ℝ) (gs : List (DMat ℝ)) : Py (Option ℝ) := do
  let act := fun (ρ : DMat ℝ → DMat ℝ) (Z : DMat ℝ) =>
    DMat.of Z.rows (ρ (gs.getD 0 (DMat.one 0))).rows fun i j => ((ρ (gs.getD i (DMat.one 0))).mulVec (Z.row i)).getD j 0
  let y1 ← predict (act rin X)
  let y ← predict X
  let y2 := act rout y
  pure (scaleAdjustedRelErr y1.flat y2.flat gs)

/-- `log_rollout_error(ds,model,minibatch)`, hamiltonian_dynamics.py:251-261 (`log_rollout_error_ode`, 270-280, is alike), from the two
rollouts, arrays of shape `(bs,t,n)`. -/
noncomputable def logRolloutError (pred gt : List (List (List ℝ))) : Option ℝ := do
  let errs ← ((List.zipWith (List.zipWith relErr) pred gt).flatten).mapM id
  let clamped := errs.map fun e => max (1 / 10 ^ 7) e
  meanOf (clamped.map Real.log)

/-- `test_Rollout` of `logStuff`, hamiltonian_dynamics.py:214-218: `np.exp` of the average over the minibatches; for errors that are
numbers. -/
noncomputable def testRollout {β : Type} (batchSize : Option ℕ) (loader : List β) (err : β → ℝ) : Py ℝ := do
  let m ← evalAverageMetrics batchSize loader err
  pure (Real.exp m)

end Verif
