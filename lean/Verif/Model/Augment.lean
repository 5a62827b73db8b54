import Mathlib.LinearAlgebra.Matrix.NonsingularInverse
import Mathlib.Data.Real.Basic
import Verif.Model.RepCall
import Verif.Spec.RepWF

/-!
# Group augmentation of a network

`GroupAugmentation` of `emlp/datasets.py` (105-120), and the representations the datasets hand to it.
-/
namespace Verif
open List

/-- `jnp.linalg.inv` of a square array; what it returns on a singular one is unspecified. -/
noncomputable def DMat.inverse (A : DMat ℝ) : DMat ℝ :=
  let B : Matrix (Fin A.rows) (Fin A.rows) ℝ := (Matrix.of fun i j => A.e i j)⁻¹
  DMat.of A.rows A.rows fun i j => if h : i < A.rows ∧ j < A.rows then B ⟨i, h.1⟩ ⟨j, h.2⟩ else 0

/-- One slice of `jit(vmap(rep.rho))(gs)`, datasets.py:111-112.  `vmap` accepts only functions that return arrays:
`rho` of `Scalar`, of `V`, of its dual and of user-defined representations does (for these we assume so); that of sums and
products returns a `LinearOperator`, which is not a jax type (`TypeError`); that of the deferred representations raises. -/
def Rep.rhoArray (I : Interp ℝ) : Rep → Py (DMat ℝ)
  | .key .scalar => .ok (DMat.one 1)
  | .key (.fac (.atom a)) => .ok (a.rho I).sem
  | .key _ => .error .type
  | .sum _ => .error .type
  | _ => .error .notImplemented

/-- `GroupAugmentation(network,rep_in,rep_out,G)(x,training)`, datasets.py:114-120; `X` are the rows of the batch, `gs` the
elements drawn by `G.samples` (one for each row), `model training X` the wrapped network. -/
noncomputable def groupAugmentation (model : Bool → List (List ℝ) → Py (List (List ℝ))) (repIn repOut : Rep) (gs : List (Interp ℝ))
    (X : List (List ℝ)) (training : Bool) : Py (List (List ℝ)) :=
  if training then do
    let rout ← gs.mapM fun I => Rep.rhoArray I repOut
    let rin ← gs.mapM fun I => Rep.rhoArray I repIn
    let Y ← model training (zipWith DMat.mulVec rin X)
    .ok (zipWith (fun A y => A.inverse.mulVec y) rout Y)
  else model false X

/-- `k*Scalar+k*Vector`, the attribute `rep_in` of `Inertia`, datasets.py:25. -/
def inertiaRepIn (W : World) (k : ℕ) : Py Val := do
  let a ← Rep.mulInt W (.key .scalar) k
  let b ← Rep.mulInt W Rep.V k
  match a, b with
  | .rep a, .rep b => do
    let r ← Rep.add W a b
    .ok (.rep r)
  | _, _ => .ok (.int 0)

/-- `n*Vector`, the attribute `rep_in` of `O5Synthetic` (`n = 2`) and `ParticleInteraction` (`n = 4`), datasets.py:57 and 81. -/
def vectorsRepIn (W : World) (n : ℕ) : Py Val := Rep.mulInt W Rep.V n

/-- `T(2)`, the attribute `rep_out` of `Inertia`, datasets.py:26. -/
def inertiaRepOut (W : World) : Py Rep := do
  let r ← tensorT W 2 0 none
  .ok r.1

end Verif
