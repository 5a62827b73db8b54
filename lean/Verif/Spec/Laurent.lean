import Verif.Spec.Elements
import Verif.Model.Groups
import Mathlib.Algebra.Polynomial.Roots

/-!
# Functions that are Laurent polynomials (specification)
-/
namespace Verif

/-- `f` is a Laurent polynomial away from zero: `tᴺ f(t)` is a polynomial for some `N`. -/
def Laurent (f : ℝ → ℝ) : Prop := ∃ (N : ℕ) (p : Polynomial ℝ), ∀ t, t ≠ 0 → t ^ N * f t = p.eval t

/-- A user-defined representation is a Laurent polynomial along a family of matrices: so are the entries of `rho` and of its inverse.
Representations built from polynomials in the entries of the matrix and of its inverse are, along the families used here. -/
structure AtomRep.LaurentOn {n m : ℕ} (a : AtomRep ℝ n m) (γ : ℝ → Matrix (Fin n) (Fin n) ℝ) : Prop where
  rho : ∀ i j, Laurent fun t => a.rho (γ t) i j
  inv : ∀ i j, Laurent fun t => (a.rho (γ t))⁻¹ i j

/-- A user-defined representation of all invertible matrices: multiplicative, and a Laurent polynomial along every family of matrices
which is one (as is its inverse). -/
structure AtomRep.Algebraic {n m : ℕ} (a : AtomRep ℝ n m) : Prop where
  mul : ∀ x y, IsUnit x.det → IsUnit y.det → a.rho (x * y) = a.rho x * a.rho y
  laurent : ∀ γ, (∀ i j, Laurent fun t => γ t i j) → (∀ i j, Laurent fun t => (γ t)⁻¹ i j) → a.LaurentOn γ

/-- The Lie algebra generators of a class of the library, and the matrices of the whole group of which that class generates only a
part: `GL(n)`, `Scaling(n)`, `SO13p()`, `SO11p()`. -/
inductive WholeGroup (n : ℕ) : List (Matrix (Fin n) (Fin n) ℝ) → (Matrix (Fin n) (Fin n) ℝ → Prop) → Prop
  | gl {a : Arr3 ℝ} : 0 < n → glLie n = .ok a → WholeGroup n (a.mats n) fun h => IsUnit h.det
  | scaling : 0 < n → WholeGroup n ((scalingLie n : Arr3 ℝ).mats n) fun h => ∃ c : ℝ, c ≠ 0 ∧ h = c • 1
  | so13p {a : Arr3 ℝ} : n = 4 → so13pLie = .ok a →
      WholeGroup n (a.mats n) fun h => h.transpose * minkowski n * h = minkowski n ∧ h.det = 1
  | so11p : n = 2 → WholeGroup n ((so11pLie : Arr3 ℝ).mats n) fun h => h.transpose * minkowski n * h = minkowski n ∧ h.det = 1

end Verif
