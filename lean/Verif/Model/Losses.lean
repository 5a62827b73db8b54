import Mathlib.Analysis.SpecialFunctions.Log.Basic
import Verif.Model.Errors

/-!
# Training losses and test metrics

`experiments/trainer/classifier.py`.  Arrays are real, and arithmetic is exact; `none : Fl` is NaN.  The arrays are `predict(mb[0])` (or
`model(x,training=True)`) and the labels of a minibatch.
-/
namespace Verif
open List

/-- The labels of a minibatch: a vector or a matrix. -/
inductive Labels
  | d1 (y : List ℝ)
  | d2 (Y : DMat ℝ)

/-- One axis of numpy broadcasting. -/
def broadcastDim (a b : ℕ) : Py ℕ :=
  if a = b then .ok a else if a = 1 then .ok b else if b = 1 then .ok a else .error .type

/-- Entry `(i,j)` of a matrix stretched along its axes of length one. -/
def stretched (A : DMat ℝ) (i j : ℕ) : ℝ := A.e (if A.rows = 1 then 0 else i) (if A.cols = 1 then 0 else j)

/-- `P-Y` for matrices, with broadcasting. -/
def broadcastSub (P Y : DMat ℝ) : Py (DMat ℝ) := do
  let r ← broadcastDim P.rows Y.rows
  let c ← broadcastDim P.cols Y.cols
  pure (DMat.of r c fun i j => stretched P i j - stretched Y i j)

/-- `jnp.mean(D**2)`. -/
noncomputable def meanSq (D : DMat ℝ) : Fl :=
  fdiv ((range D.rows).map fun i => ((range D.cols).map fun j => D.e i j ^ 2).sum).sum (D.rows * D.cols : ℕ)

/-- `jnp.mean((pred-y)**2)`, the loss and the metric of `Regressor` (classifier.py:41, 45) and of `RegressorPlus` (model_trainer.py:42, 46);
`pred` has two axes, and a vector of labels is broadcast like a matrix with one row. -/
noncomputable def mse (P : DMat ℝ) : Labels → Py Fl
  | .d1 y => (broadcastSub P (DMat.of 1 y.length fun _ j => y.getD j 0)).map meanSq
  | .d2 Y => (broadcastSub P Y).map meanSq

/-- `jax.nn.log_softmax` of a row.  (The implementation subtracts the maximum first, which changes rounding only.) -/
noncomputable def logSoftmax (z : List ℝ) : List ℝ := z.map fun a => a - Real.log ((z.map Real.exp).sum)

/-- `jnp.take_along_axis(row,t)` of one row.  Negative indices count from the end.  What an index out of range gives depends on the version of
`jax` and is the parameter `oob`. -/
def takeAlong (oob : List ℝ → ℤ → Fl) (row : List ℝ) (t : ℤ) : Fl :=
  let i := if t < 0 then t + row.length else t
  if 0 ≤ i ∧ i < row.length then some (row.getD i.toNat 0) else oob row t

/-- The mean of numbers some of which may be NaN. -/
noncomputable def meanFl (l : List Fl) : Fl := do
  let l ← l.mapM id
  meanOf l

/-- `cross_entropy(logprobs,targets)`, classifier.py:9-12, for rows and as many targets. -/
noncomputable def crossEntropy (oob : List ℝ → ℤ → Fl) (logp : List (List ℝ)) (targets : List ℤ) : Fl :=
  (meanFl (zipWith (takeAlong oob) logp targets)).map (-·)

/-- `Classifier.loss`, classifier.py:19-24. -/
noncomputable def classifierLoss (oob : List ℝ → ℤ → Fl) (logits : List (List ℝ)) (targets : List ℤ) : Fl :=
  crossEntropy oob (logits.map logSoftmax) targets

open Classical in
/-- `jnp.argmax` of a row: the first largest entry, found from left to right. -/
noncomputable def argmaxFrom (best : ℕ) (bv : ℝ) : ℕ → List ℝ → ℕ
  | _, [] => best
  | i, a :: as => if bv < a then argmaxFrom i a (i + 1) as else argmaxFrom best bv (i + 1) as

/-- `jnp.argmax(row)`; of an empty row it raises. -/
noncomputable def argmax : List ℝ → Py ℕ
  | [] => .error .value
  | a :: as => .ok (argmaxFrom 0 a 1 as)

/-- `jnp.mean(jnp.argmax(logits,axis=-1)==targets)`, the metric of `Classifier`, classifier.py:27. -/
noncomputable def accuracy (logits : List (List ℝ)) (targets : List ℤ) : Py Fl := do
  let best ← logits.mapM argmax
  pure (meanOf (zipWith (fun (i : ℕ) t => if (i : ℤ) = t then 1 else 0) best targets))

end Verif
