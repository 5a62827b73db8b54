import Mathlib.Analysis.Calculus.FDeriv.Basic
import Mathlib.Analysis.Calculus.Deriv.Basic
import Verif.Model.Dynamics
import Verif.Spec.Dense

/-!
# Specification of gradients, solutions and integrators
-/
namespace Verif
open Set

/-- A function on lists as a map of `ℝⁿ`. -/
def asMap (n : ℕ) (f : List ℝ → List ℝ) (v : Fin n → ℝ) : Fin n → ℝ := fun i => (f (List.ofFn v)).getD i 0

/-- `grad` returns the gradient of `H` at `x`: the contract of `jax.grad` where `H` is differentiable. -/
def IsGradAt (n : ℕ) (H : List ℝ → ℝ) (grad : List ℝ → List ℝ) (x : List ℝ) : Prop :=
  (grad x).length = n ∧ ∃ L : (Fin n → ℝ) →L[ℝ] ℝ,
    HasFDerivAt (fun v => H (List.ofFn v)) L (fun i : Fin n => x.getD i 0) ∧ ∀ v, L v = ∑ i : Fin n, (grad x).getD i 0 * v i

/-- `grad` is the gradient of `H` at all vectors of length `n`. -/
def IsGrad (n : ℕ) (H : List ℝ → ℝ) (grad : List ℝ → List ℝ) : Prop := ∀ x : List ℝ, x.length = n → IsGradAt n H grad x

/-- `z` solves `z' = f(z)` on `[a,b]`. -/
def Solves {n : ℕ} (f : List ℝ → List ℝ) (z : ℝ → Fin n → ℝ) (a b : ℝ) : Prop :=
  ∀ t ∈ Icc a b, HasDerivWithinAt z (asMap n f (z t)) (Icc a b) t

/-- The rollout of `f` from `z0` at the times `ts` is `zs`: the values at `ts` of a solution that starts at `z0` at the first time. -/
def Rollout (n : ℕ) (f : List ℝ → List ℝ) (z0 ts : List ℝ) (zs : List (List ℝ)) : Prop :=
  ∃ z : ℝ → Fin n → ℝ, List.ofFn (z (ts.headD 0)) = z0 ∧ (∀ b ∈ ts, Solves f z (ts.headD 0) b) ∧ zs = ts.map fun t => List.ofFn (z t)

/-- The matrix `[[0,1],[-1,0]]` with blocks of size `d`. -/
def sympMat (d : ℕ) : DMat ℝ :=
  DMat.of (d + d) (d + d) fun i j => if i < d then (if j = i + d then 1 else 0) else (if i = j + d then -1 else 0)

/-- `M` preserves the symplectic form. -/
def Symplectic (d : ℕ) (M : DMat ℝ) : Prop := M.IsSq (d + d) ∧ (M.mul (sympMat d)).mul M.transpose = sympMat d

/-- The integrator is exact for the field `f` on states of length `n` and the times `ts`: the contract of `odeint`, which is only given
for fields that do not depend on the time. -/
def Odeint.Exact (odeint : Odeint) (n : ℕ) (f : List ℝ → ℝ → List ℝ) (ts : List ℝ) : Prop :=
  (∀ z : List ℝ, z.length = n → ∀ t, f z t = f z 0) → ∀ z0 : List ℝ, z0.length = n → Rollout n (fun z => f z 0) z0 ts (odeint f z0 ts)

/-- The integrator returns the rollout of the field `f` whenever there is one: a contract that can be met by a field whose solutions do
not all live long enough. -/
def Odeint.Sound (odeint : Odeint) (n : ℕ) (f : List ℝ → ℝ → List ℝ) (ts : List ℝ) : Prop :=
  (∀ z : List ℝ, z.length = n → ∀ t, f z t = f z 0) → ∀ (z0 : List ℝ) (zs : List (List ℝ)), Rollout n (fun z => f z 0) z0 ts zs → odeint f z0 ts = zs

end Verif
