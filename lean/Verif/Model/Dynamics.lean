import Mathlib.Analysis.SpecialFunctions.Log.Basic
import Verif.Model.Datasets
import Verif.Model.RepCall
import Verif.Model.Layers
import Verif.Spec.Flat

/-!
# Hamiltonian networks, neural ODEs and their rollouts

`experiments/trainer/hamiltonian_dynamics.py` and the networks for dynamics of `emlp/nn/objax.py`.  `jax.grad` and
`jax.experimental.ode.odeint` are parameters; their contracts are in `Verif/Spec/Dynamics.lean`.  Real arithmetic is exact.
-/
namespace Verif

section
variable {R : Type} [CommRing R]

/-- `EMLPH.H(x)`, nn/objax.py:321-328 (`MLPH.H`, 301-318, is alike): `self.network(x).sum()`. -/
def hamiltonianNet (network : List R → Py (List R)) (x : List R) : Py R := do
  let y ← network x
  pure y.sum

/-- `EMLPH.H` on a batch: `.sum()` adds over the batch as well. -/
def hamiltonianNetBatch (network : DMat R → Py (DMat R)) (X : DMat R) : Py R := do
  let Y ← network X
  pure ((List.range Y.rows).map fun i => (Y.row i).sum).sum

/-- `EMLPode.__call__(z,t)`, nn/objax.py:275-297 (`MLPode`, 256-273, is alike): `self.network(z)`; the time is ignored.  The constructor
is line for line that of `EMLP`, so that `network` is the network of `Emlp.init`. -/
def odeNet (network : List R → Py (List R)) (z : List R) (_t : R) : Py (List R) := network z

end

/-- `odeint(func,y0,ts)` on flat states: the external integrator. -/
abbrev Odeint := (List ℝ → ℝ → List ℝ) → List ℝ → List ℝ → List (List ℝ)

/-- `jax.experimental.ode.odeint` on a batch `y0` of shape `(bs,n)`: it flattens the state (`ravel_pytree`) and gives the function the
reshaped array (`rowsOf`). -/
def odeint2 (odeint : Odeint) (n : ℕ) (func : List (List ℝ) → ℝ → List (List ℝ)) (y0 : List (List ℝ)) (ts : List ℝ) : List (List (List ℝ)) :=
  (odeint (fun y t => (func (rowsOf n y0.length y) t).flatten) y0.flatten ts).map (rowsOf n y0.length)

/-- `a.transpose((1,0,2))` of an array of shape `(t,bs,n)`: entry `(b,k)` of the result is entry `(k,b)`. -/
def transpose102 (bs : ℕ) (a : List (List (List ℝ))) : List (List (List ℝ)) :=
  (List.range bs).map fun b => a.map fun row => row.getD b []

/-- `dynamics` as a total function, once tracing has succeeded (whether it raises depends on the length of the state only). -/
def total (dynamics : List ℝ → ℝ → Py (List ℝ)) (z : List ℝ) (t : ℝ) : List ℝ := (dynamics z t).toOption.getD []

/-- `HamiltonianFlow(H,z0,T)`, hamiltonian_dynamics.py:51-56.  `grad` is `jax.grad(H)`.  An exception of the dynamics is raised when
`odeint` traces it. -/
def hamiltonianFlow (odeint : Odeint) (grad : List ℝ → List ℝ) (z0 ts : List ℝ) : Py (List (List ℝ)) := do
  let _ ← hamiltonianDynamics grad z0
  pure (odeint (total fun z _ => hamiltonianDynamics grad z) z0 ts)

/-- `BOdeFlow(dynamics,z0,T)`, hamiltonian_dynamics.py:65-70: `vmap(dynamics,(0,None))`, `odeint`, `transpose((1,0,2))`.  `n` is the
length of the rows of `z0`. -/
def bOdeFlow (odeint : Odeint) (dynamics : List ℝ → ℝ → Py (List ℝ)) (n : ℕ) (z0 : List (List ℝ)) (ts : List ℝ) : Py (List (List (List ℝ))) := do
  let _ ← z0.mapM fun z => dynamics z 0
  pure (transpose102 z0.length (odeint2 odeint n (fun Z t => Z.map fun z => total dynamics z t) z0 ts))

/-- `BHamiltonianFlow(H,z0,T)`, hamiltonian_dynamics.py:58-63. -/
def bHamiltonianFlow (odeint : Odeint) (grad : List ℝ → List ℝ) (n : ℕ) (z0 : List (List ℝ)) (ts : List ℝ) : Py (List (List (List ℝ))) :=
  bOdeFlow odeint (fun z _ => hamiltonianDynamics grad z) n z0 ts

end Verif
