import Verif.Model.Trainer
import Verif.Model.Losses
import Verif.Model.Augment
import Verif.Model.HamDataset
import Mathlib.Data.Real.Basic
import Mathlib.Data.Real.Archimedean

/-!
# Training runs

`Trainer.step`, `Trainer.train` and `Trainer.logStuff` of `experiments/trainer/trainer.py` with everything they change: the parameters of
the model, the state of the optimizer, the epoch and the logged metrics.  The order of the steps and of the log entries is that of
`Verif.train` (`Model/Trainer.lean`).  Automatic differentiation and the optimizer are libraries (`objax`) and parameters of the model: they
see the loss as a function of the parameters, and the gradient, and nothing else.  `Θ` are the parameters, `σ` the state of the optimizer,
`γ` gradients, `β` minibatches.
-/
namespace Verif
open List

/-- `objax.GradValues(loss,vars)` and `optimizer(lr,grads)`, trainer.py:33, 42, 69-70. -/
structure Learner (Θ σ γ : Type) where
  /-- The gradient and the value at the current parameters of a loss that is a function of the parameters. -/
  gradvals : (Θ → Py Fl) → Θ → Py (γ × Fl)
  /-- The update of the optimizer's state and of the parameters, given the learning rate and the gradient. -/
  update : ℝ → γ → σ × Θ → σ × Θ

/-- A trainer: `__init__` of trainer.py:18-43 with the loss and the metrics of a subclass.  `batches e i` is minibatch number `i` of the
training loader when it is iterated in epoch `e` (a loader that shuffles gives others in each epoch); `loaders` are the other entries of
`dataloaders`, in their order, each with the attribute `batch_size` if it has one.  `first k` are the rows that the `logStuff` of a subclass adds to
the log before it calls that of `Trainer`; `k` is the number of rows in the log so far, for what is drawn at random in each call. -/
structure TrainerObj (Θ σ γ β : Type) where
  learner : Learner Θ σ γ
  lrSched : ℝ → ℝ
  loss : Θ → β → Py Fl
  metrics : List (String × (Θ → β → Py Fl))
  trainLen : ℕ
  batches : ℕ → ℕ → β
  loaders : List (String × Option ℕ × List β)
  first : ℕ → Θ → Py (List (List (String × Fl)))

/-- What training changes: the state of the optimizer, the parameters, and the rows `(step, metrics)` added to the log. -/
structure RunSt (Θ σ : Type) where
  opt : σ
  params : Θ
  log : List (ℕ × List (String × Fl))

section
variable {Θ σ γ β : Type}

/-- `Trainer.step(epoch,minibatch)`, trainer.py:68-71. -/
def TrainerObj.step (T : TrainerObj Θ σ γ β) (epoch : ℝ) (mb : β) (s : RunSt Θ σ) : Py (RunSt Θ σ) := do
  let g ← T.learner.gradvals (fun t => T.loss t mb) s.params
  let r := T.learner.update (T.lrSched epoch) g.1 (s.opt, s.params)
  pure { s with opt := r.1, params := r.2 }

/-- `self.evalAverageMetrics(loader,metric)`, trainer.py:96-104, for a metric that may raise or be NaN (compare `evalAverageMetrics`). -/
noncomputable def averageMetric (batchSize : Option ℕ) (loader : List β) (metric : β → Py Fl) : Py Fl := do
  let mb : ℕ := batchSize.getD 1
  let r ← loader.foldlM (fun (a : Fl × ℕ) b => do
    let v ← metric b
    pure (do let x ← a.1; let y ← v; pure (x + mb * y), a.2 + mb)) ((some 0 : Fl), 0)
  if r.2 = 0 then .error .key else .ok (r.1.map (· / r.2))

/-- The metrics of all loaders that are not skipped, trainer.py:73-81.  `loader_name[0]` of the empty name raises. -/
noncomputable def TrainerObj.allMetrics (T : TrainerObj Θ σ γ β) (t : Θ) : List (String × Option ℕ × List β) → Py (List (String × Fl))
  | [] => .ok []
  | (name, bs, l) :: ls => do
    let here ← if name = "train" ∨ l.length = 0 then pure [] else match name.toList with
      | [] => .error .index
      | '_' :: _ => pure []
      | _ => T.metrics.mapM fun m => do
          let v ← averageMetric bs l (m.2 t)
          pure (name ++ "_" ++ m.1, v)
    let rest ← T.allMetrics t ls
    pure (here ++ rest)

/-- One event of a training run: a step on a minibatch, at the epoch `epoch+i/steps_per_epoch` (trainer.py:62), or `logStuff` (trainer.py:73-82; the
checkpoint, which is computed from the log, is treated in `logStuff`). -/
noncomputable def TrainerObj.exec (T : TrainerObj Θ σ γ β) (s : RunSt Θ σ) : Ev → Py (RunSt Θ σ)
  | .step epoch i _ => T.step (epoch + (i : ℝ) / T.trainLen) (T.batches epoch i) s
  | .log step => do
    let rows ← T.first s.log.length s.params
    let m ← T.allMetrics s.params T.loaders
    pure { s with log := s.log ++ rows.map (fun r => (step, r)) ++ [(step, m)] }

/-- A call of the user. -/
inductive TrainCall
  | train (num : ℕ)
  | trainTo (final : ℕ)

/-- `trainer.train(num)` (trainer.py:55-66) or `trainer.train_to(final)` (trainer.py:51-53) on a trainer at the given epoch; `doLog` are the
answers of the logger.  Returns the new epoch and state, or what was raised. -/
noncomputable def TrainerObj.call (T : TrainerObj Θ σ γ β) (doLog : ℕ → Bool) (s : ℕ × RunSt Θ σ) (c : TrainCall) : Py (ℕ × RunSt Θ σ) := do
  let tr ← match c with
    | .train num => (.ok (train doLog T.trainLen num ⟨s.1, []⟩) : Py TrainSt)
    | .trainTo final => trainTo doLog T.trainLen final ⟨s.1, []⟩
  let r ← tr.ev.foldlM T.exec s.2
  pure (tr.epoch, r)

/-- A sequence of calls; the logger answers differently in each. -/
noncomputable def TrainerObj.run (T : TrainerObj Θ σ γ β) (s : ℕ × RunSt Θ σ) : List (TrainCall × (ℕ → Bool)) → Py (ℕ × RunSt Θ σ)
  | [] => .ok s
  | c :: cs => do
    let s' ← T.call c.2 s c.1
    T.run s' cs

end

/-- The loss of `Regressor` (classifier.py:35-39) for a model with parameters `t`, on the pair of inputs and labels; also its metric `MSE`
(classifier.py:45).  The model is applied to the whole batch. -/
noncomputable def regressorLoss {Θ : Type} (model : Θ → DMat ℝ → Py (DMat ℝ)) (t : Θ) (mb : DMat ℝ × DMat ℝ) : Py Fl := do
  let P ← model t mb.1
  mse P (.d2 mb.2)

/-- A `Regressor` trainer; the metric is computed by `model.predict`, the same function. -/
noncomputable def regressor {Θ σ γ : Type} (learner : Learner Θ σ γ) (lrSched : ℝ → ℝ) (model : Θ → DMat ℝ → Py (DMat ℝ)) (trainLen : ℕ)
    (batches : ℕ → ℕ → DMat ℝ × DMat ℝ) (loaders : List (String × Option ℕ × List (DMat ℝ × DMat ℝ))) : TrainerObj Θ σ γ (DMat ℝ × DMat ℝ) :=
  ⟨learner, lrSched, regressorLoss model, [("MSE", regressorLoss model)], trainLen, batches, loaders, fun _ _ => .ok []⟩

/-- The loss of `Regressor` for a network wrapped in `GroupAugmentation` (train_regression.py:37 with datasets.py:114-120) on the inputs `X` (rows)
with labels `Y`; `gs` are the group elements drawn for the rows of this minibatch.  `n` is the number of outputs. -/
noncomputable def augmentedLoss {Θ : Type} (n : ℕ) (model : Θ → Bool → List (List ℝ) → Py (List (List ℝ))) (repIn repOut : Rep) (training : Bool) (t : Θ)
    (mb : List (Interp ℝ) × List (List ℝ) × DMat ℝ) : Py Fl := do
  let P ← groupAugmentation (model t) repIn repOut mb.1 mb.2.1 training
  mse (DMat.of P.length n fun i j => (P.getD i []).getD j 0) (.d2 mb.2.2)

/-- The loss of `Regressor` for the same network without the wrapper. -/
noncomputable def plainLoss {Θ : Type} (n : ℕ) (model : Θ → Bool → List (List ℝ) → Py (List (List ℝ))) (training : Bool) (t : Θ)
    (mb : List (Interp ℝ) × List (List ℝ) × DMat ℝ) : Py Fl := do
  let P ← model t training mb.2.1
  mse (DMat.of P.length n fun i j => (P.getD i []).getD j 0) (.d2 mb.2.2)

/-- A `Classifier` trainer, classifier.py:17-30, for a model with logits as rows; the loss gives NaN or a value where a label is not a class (`oob`). -/
noncomputable def classifier {Θ σ γ : Type} (learner : Learner Θ σ γ) (lrSched : ℝ → ℝ) (oob : List ℝ → ℤ → Fl) (model : Θ → DMat ℝ → Py (DMat ℝ)) (trainLen : ℕ)
    (batches : ℕ → ℕ → DMat ℝ × List ℤ) (loaders : List (String × Option ℕ × List (DMat ℝ × List ℤ))) : TrainerObj Θ σ γ (DMat ℝ × List ℤ) where
  learner := learner
  lrSched := lrSched
  loss := fun t mb => do
    let P ← model t mb.1
    pure (classifierLoss oob ((range P.rows).map P.row) mb.2)
  metrics := [("Acc", fun t mb => do
    let P ← model t mb.1
    accuracy ((range P.rows).map P.row) mb.2)]
  trainLen := trainLen
  batches := batches
  loaders := loaders
  first := fun _ _ => .ok []

/-- A minibatch of trajectories: for each the initial state, the times and the states, as `HamDataset.getItem` returns them. -/
abbrev TrajBatch := List ((List ℝ × List ℝ) × List (List ℝ))

/-- `loss(minibatch)` of `IntegratedDynamicsTrainer` and `IntegratedODETrainer`, hamiltonian_dynamics.py:206-210, 230-234, for the field with parameters `t`. -/
noncomputable def trajectoryLoss {Θ : Type} (odeint : Odeint) (field : Θ → List ℝ → ℝ → Py (List ℝ)) (n : ℕ) (t : Θ) (mb : TrajBatch) : Py Fl :=
  rolloutLoss odeint (field t) n (mb.map fun x => x.1.1) (mb.map fun x => x.1.2) (mb.map fun x => x.2)

/-- `log_rollout_error(ds,model,minibatch)` and `log_rollout_error_ode`, hamiltonian_dynamics.py:251-261, 270-280: `truth` is the field of `ds.H` and
`long` is `ds.T_long`. -/
noncomputable def rolloutMetric {Θ : Type} (odeint : Odeint) (field : Θ → List ℝ → ℝ → Py (List ℝ)) (truth : List ℝ → ℝ → Py (List ℝ)) (n : ℕ) (long : List ℝ) (t : Θ)
    (mb : TrajBatch) : Py Fl := do
  let pred ← bOdeFlow odeint (field t) n (mb.map fun x => x.1.1) long
  let gt ← bOdeFlow odeint truth n (mb.map fun x => x.1.1) long
  pure (logRolloutError pred gt)

/-- An `IntegratedDynamicsTrainer` (hamiltonian_dynamics.py:199-219), with the Hamiltonian field of the model, or an `IntegratedODETrainer` (221-245),
with the model as field.  `logStuff` first logs `test_Rollout` and then the metric `MSE`, which is the loss. -/
noncomputable def dynamicsTrainer {Θ σ γ : Type} (learner : Learner Θ σ γ) (lrSched : ℝ → ℝ) (odeint : Odeint) (field : Θ → List ℝ → ℝ → Py (List ℝ))
    (truth : List ℝ → ℝ → Py (List ℝ)) (n : ℕ) (long : List ℝ) (trainLen : ℕ) (batches : ℕ → ℕ → TrajBatch)
    (loaders : List (String × Option ℕ × List TrajBatch)) : TrainerObj Θ σ γ TrajBatch where
  learner := learner
  lrSched := lrSched
  loss := trajectoryLoss odeint field n
  metrics := [("MSE", trajectoryLoss odeint field n)]
  trainLen := trainLen
  batches := batches
  loaders := loaders
  first := fun _ t => match loaders.find? (fun x => x.1 = "test") with
    | none => .error .key
    | some x => do
      let m ← averageMetric x.2.1 x.2.2 (rolloutMetric odeint field truth n long t)
      pure [[("test_Rollout", m.map Real.exp)]]

end Verif
