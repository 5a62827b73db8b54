import Verif.Spec.Dynamics
import Verif.Model.Training

/-!
# Specification for training on trajectories
-/
namespace Verif

/-- The minibatch `mb'` of trajectories is `mb` with each trajectory moved by a matrix in `G`, another one for each: initial state and all later states.
The times stay.  States have length `n` and the times are not before the first one. -/
def MovedTrajs (G : DMat ℝ → Prop) (n : ℕ) (mb mb' : TrajBatch) : Prop :=
  (∀ x ∈ mb, x.1.1.length = n ∧ (∀ t ∈ x.1.2, x.1.2.headD 0 ≤ t) ∧ ∀ z ∈ x.2, z.length = n) ∧
  List.Forall₂ (fun x x' => ∃ M, G M ∧ x' = ((M.mulVec x.1.1, x.1.2), x.2.map M.mulVec)) mb mb'

/-- The batched rollouts of a field at the times `ts` move with the initial states: the rollouts of the states `M z` are those of the states `z`,
moved by `M`, where the matrix in `G` is another one for each row. -/
def FlowMoves (odeint : Odeint) (field : List ℝ → ℝ → Py (List ℝ)) (n : ℕ) (G : DMat ℝ → Prop) (ts : List ℝ) : Prop :=
  ∀ L : List (DMat ℝ × List ℝ), (∀ p ∈ L, G p.1 ∧ p.2.length = n) → ∃ zs, bOdeFlow odeint field n (L.map fun p => p.2) ts = .ok zs ∧
    zs.length = L.length ∧ (∀ traj ∈ zs, ∀ z ∈ traj, z.length = n) ∧
    bOdeFlow odeint field n (L.map fun p => p.1.mulVec p.2) ts = .ok (List.zipWith (fun p traj => traj.map p.1.mulVec) L zs)

/-- The integrator returns states of the right size and commutes with the orthogonal matrices that commute with the field; for fields that do not depend on the time and are
locally Lipschitz, and times not before the first one.  An exact integrator does, and one that steps with fixed step sizes. -/
def Odeint.Natural (odeint : Odeint) : Prop :=
  ∀ (n : ℕ) (f : List ℝ → ℝ → List ℝ) (ts : List ℝ), (∀ t ∈ ts, ts.headD 0 ≤ t) → (∀ z : List ℝ, z.length = n → ∀ t, f z t = f z 0) →
    LocallyLipschitz (asMap n fun z => f z 0) → (∀ z : List ℝ, z.length = n → (f z 0).length = n) →
    ∀ z0 : List ℝ, z0.length = n → (∀ z ∈ odeint f z0 ts, z.length = n) ∧
      ∀ M : DMat ℝ, M.IsSq n → M.transpose.mul M = DMat.one n → (∀ z : List ℝ, z.length = n → f (M.mulVec z) 0 = M.mulVec (f z 0)) →
        odeint f (M.mulVec z0) ts = (odeint f z0 ts).map M.mulVec

end Verif
