import Mathlib.Analysis.Calculus.ContDiff.Operations
import Verif.Spec.Dense
import Verif.Model.Rep

/-!
# Specification of smooth dependence

`T` is a normed space of parameters (inputs, trainable parameters, or both).
-/
namespace Verif

section
variable {T : Type*} [NormedAddCommGroup T] [NormedSpace ℝ T] (k : WithTop ℕ∞)

/-- A vector that depends smoothly on a parameter: its length is constant, its entries are `k` times continuously differentiable. -/
def SmoothVec (n : ℕ) (f : T → List ℝ) : Prop := (∀ t, (f t).length = n) ∧ ∀ i, ContDiff ℝ k fun t => (f t).getD i 0

/-- A matrix that depends smoothly on a parameter. -/
def SmoothMat (m n : ℕ) (f : T → DMat ℝ) : Prop := (∀ t, (f t).rows = m ∧ (f t).cols = n) ∧ ∀ i j, ContDiff ℝ k fun t => (f t).e i j

/-- A call that either returns for all parameters, with a result that depends smoothly on them, or raises the same exception for all. -/
def SmoothCall (f : T → Py (List ℝ)) : Prop := (∃ n y, SmoothVec k n y ∧ ∀ t, f t = .ok (y t)) ∨ ∃ err, ∀ t, f t = .error err

end
end Verif
