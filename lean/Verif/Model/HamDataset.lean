import Verif.Model.Dynamics
import Verif.Model.Errors

/-!
# Trajectory datasets and the losses of their trainers

`HamiltonianDataset`, `IntegratedDynamicsTrainer.loss` and `IntegratedODETrainer.loss` of
`experiments/trainer/hamiltonian_dynamics.py`.  Exact arithmetic.
-/
namespace Verif
open List

/-- `jnp.arange(0,stop,dt)`, in exact arithmetic. -/
noncomputable def timeGrid (stop dt : ℝ) : List ℝ := (range (arangeLen stop dt)).map fun k : ℕ => (k : ℝ) * dt

/-- The attributes of a `HamiltonianDataset`. -/
structure HamDataset where
  Zs : List (List (List ℝ))
  T : List ℝ
  Tlong : List ℝ

/-- The trajectories and their chunks, hamiltonian_dynamics.py:95-96: `n` is `state_dim`, `grad` is `jax.grad(self.H)`, `sample b` the
initial conditions of batch `b` and `idx` the random chunk numbers. -/
noncomputable def makeChunks (odeint : Odeint) (grad : List ℝ → List ℝ) (n : ℕ) (sample : ℕ → List (List ℝ)) (idx : List ℕ) (nSystems chunkLen : ℕ)
    (dt time : ℝ) : Py (List (List (List ℝ))) := do
  let zs ← generateData (fun b => bHamiltonianFlow odeint grad n (sample b) (timeGrid time dt)) nSystems
  chunkTrainingData zs (timeGrid time dt).length chunkLen idx

/-- `HamiltonianDataset(n_systems,chunk_len,dt,integration_time)`, hamiltonian_dynamics.py:88-104, without the cache. -/
noncomputable def hamDataset (odeint : Odeint) (grad : List ℝ → List ℝ) (n : ℕ) (sample : ℕ → List (List ℝ)) (idx : List ℕ) (nSystems chunkLen : ℕ)
    (dt time : ℝ) : Py HamDataset := do
  let Zs ← makeChunks odeint grad n sample idx nSystems chunkLen dt time
  pure ⟨Zs, timeGrid (chunkLen * dt) dt, timeGrid time dt⟩

/-- `ds[i]`, hamiltonian_dynamics.py:108-109, for `i ≥ 0`. -/
def HamDataset.getItem (ds : HamDataset) (i : ℕ) : Py ((List ℝ × List ℝ) × List (List ℝ)) :=
  match ds.Zs[i]? with
  | some (z :: zs) => .ok ((z, ds.T), z :: zs)
  | _ => .error .index

/-- `loss(minibatch)` of `IntegratedODETrainer` and (with the Hamiltonian field) of `IntegratedDynamicsTrainer`,
hamiltonian_dynamics.py:206-210, 231-235, for a batch that is not empty: `z0` of shape `(bs,n)`, `ts` of shape `(bs,t)`, of which
only the first row is used, `true` of shape `(bs,t,n)`.  Arrays of different shapes are refused here (numpy would broadcast axes of
length one). -/
noncomputable def rolloutLoss (odeint : Odeint) (dynamics : List ℝ → ℝ → Py (List ℝ)) (n : ℕ) (z0 : List (List ℝ)) (ts : List (List ℝ))
    (true : List (List (List ℝ))) : Py (Option ℝ) := do
  let pred ← bOdeFlow odeint dynamics n z0 (ts.headD [])
  if pred.map (map length) ≠ true.map (map length) then throw .type
  pure (meanOf ((zipWith (fun a b => (a - b) ^ 2) pred.flatten.flatten true.flatten.flatten)))

end Verif
