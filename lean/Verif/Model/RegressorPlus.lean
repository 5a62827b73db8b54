import Verif.Model.Training
import Verif.Model.Standardize
import Verif.Model.Errors

/-!
# `RegressorPlus` and `ClassifierPlus`, `Standardize` on batches

experiments/trainer/model_trainer.py, experiments/train_regression.py:20-45, emlp/nn/objax.py:230-252.
-/
namespace Verif
open List

/-- `X-s`, `X/s`, `s*X`, `X+s` for an array `X` of shape `(bs,n)`, with the broadcasting of NumPy. -/
noncomputable def Stat.opRows (f : ℝ → ℝ → ℝ) (X : DMat ℝ) : Stat → Py (DMat ℝ)
  | .num r => .ok (DMat.of X.rows X.cols fun i j => f (X.e i j) r)
  | .arr l =>
    if l.length = X.cols then .ok (DMat.of X.rows X.cols fun i j => f (X.e i j) (l.getD j 0))
    else if l.length = 1 then .ok (DMat.of X.rows X.cols fun i j => f (X.e i j) (l.getD 0 0))
    else if X.cols = 1 then .ok (DMat.of X.rows l.length fun i j => f (X.e i 0) (l.getD j 0))
    else .error .value

/-- `Standardize(model,ds_stats)(X,training)` on a batch, objax.py:244-252, for a model that takes `training`.  Division by zero is `0` here, as in
`standardize`. -/
noncomputable def standardizeBatch (model : DMat ℝ → Py (DMat ℝ)) (stats : List Stat) (X : DMat ℝ) : Py (DMat ℝ) :=
  match stats with
  | [muin, sin] => do
    let u ← muin.opRows (· - ·) X
    let v ← sin.opRows (· / ·) u
    model v
  | [muin, sin, muout, sout] => do
    let u ← muin.opRows (· - ·) X
    let v ← sin.opRows (· / ·) u
    let y ← model v
    let z ← sout.opRows (· * ·) y
    muout.opRows (· + ·) z
  | _ => .error .value

section
variable {Θ σ γ β : Type}

/-- `islice(loader,0,None,5)`, model_trainer.py:50, 70. -/
def everyFifth : List β → List β
  | [] => []
  | b :: bs => b :: everyFifth (bs.drop 4)
termination_by l => l.length
decreasing_by simp

/-- What `logStuff` of `RegressorPlus` (model_trainer.py:48-52) and of `ClassifierPlus` (68-72) logs first.  The iterator has no `batch_size`.  `predict` is
`model.predict` (model_trainer.py:37, 64), the model with `training=False`.  `samples k i n` are the `n` elements that `group.samples` returns for the `i`-th of the
minibatches used, when the log has `k` rows.  Without a loader `test` it raises `KeyError`. -/
noncomputable def equivarLog {γ' : Type} (predict : Θ → DMat ℝ → Py (DMat ℝ)) (rin rout : DMat ℝ → DMat ℝ) (samples : ℕ → ℕ → ℕ → List (DMat ℝ))
    (loaders : List (String × Option ℕ × List (DMat ℝ × γ'))) (k : ℕ) (t : Θ) : Py (List (List (String × Fl))) :=
  match loaders.find? (fun x => x.1 = "test") with
  | none => .error .key
  | some x => do
    let v ← averageMetric none (everyFifth x.2.2).zipIdx fun b => equivarianceErr (predict t) rin rout b.1.1 (samples k b.2 b.1.1.rows)
    pure [[("test_equivar_err", v)]]

/-- `RegressorPlus` from `Regressor` and `ClassifierPlus` from `Classifier`: only `logStuff` differs (the loss of `RegressorPlus`, model_trainer.py:39-43, is that of
`Regressor`). -/
noncomputable def TrainerObj.plus {γ' : Type} (T : TrainerObj Θ σ γ (DMat ℝ × γ')) (predict : Θ → DMat ℝ → Py (DMat ℝ)) (rin rout : DMat ℝ → DMat ℝ)
    (samples : ℕ → ℕ → ℕ → List (DMat ℝ)) : TrainerObj Θ σ γ (DMat ℝ × γ') :=
  { T with first := equivarLog predict rin rout samples T.loaders }

end

end Verif
