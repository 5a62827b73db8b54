import Verif.Spec.Expr
import Verif.Spec.Multi
import Verif.Spec.Solver
import Verif.Model.Solver

/-! # The number of elements of a basis (specification) -/
namespace Verif

/-- `e.equivariant_basis()` returns `c` basis elements, whatever was called before. -/
def Columns {R : Type} [CommRing R] (W : World) (g : Gid) (gens : Gid → GenSet R) (solve : ℕ → LinOp R → Py (DMat R)) (e : Expr) (c : ℕ) : Prop :=
  ∀ calls : List SolveCall, ∃ r L, e.eval W g = .ok r ∧ (r.equivariantBasis W gens solve (session W gens solve calls freshSt)).1 = .ok L ∧ L.sem.cols = c

/-- The same for a product of representations of several groups. -/
def MColumns {R : Type} [CommRing R] (W : World) (κ : Gid → ℕ) (gens : Gid → GenSet R) (solve : ℕ → LinOp R → Py (DMat R)) (m : Mono) (c : ℕ) : Prop :=
  ∀ calls : List SolveCall, ∃ r L, m.eval W κ = .ok r ∧ (r.equivariantBasis W gens solve (session W gens solve calls freshSt)).1 = .ok L ∧ L.sem.cols = c

end Verif
