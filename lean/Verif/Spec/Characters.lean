import Verif.Spec.Expr
import Mathlib.GroupTheory.GroupAction.Quotient
import Mathlib.SetTheory.Cardinal.Finite
import Mathlib.Algebra.Group.Action.End
import Mathlib.Algebra.Group.Action.Pi
import Mathlib.Algebra.Group.Subgroup.Actions

/-!
# Characters (specification)
-/
namespace Verif

/-- The trace of a square matrix. -/
def DMat.tr {R : Type} [CommRing R] (A : DMat R) : R := ∑ i ∈ Finset.range A.rows, A.e i i

namespace Expr
variable {R : Type} [CommRing R]

/-- The characters of a representation and of its dual at one group element, by the rules of the textbook: sums add, products and powers multiply, the
dual exchanges the two, `a >> b` is `b * a.T`, an integer `n` is `n` times the trivial representation.  `χ k` and `χ' k` are the traces of the
representation of kind `k` at the element and at its inverse. -/
def char (χ χ' : ℕ → R) : Expr → R × R
  | scalar => (1, 1)
  | rep k => (χ k, χ' k)
  | add a b => ((a.char χ χ').1 + (b.char χ χ').1, (a.char χ χ').2 + (b.char χ χ').2)
  | mul a b => ((a.char χ χ').1 * (b.char χ χ').1, (a.char χ χ').2 * (b.char χ χ').2)
  | dual a => ((a.char χ χ').2, (a.char χ χ').1)
  | nsmul n a => (n * (a.char χ χ').1, n * (a.char χ χ').2)
  | addNat a n => ((a.char χ χ').1 + n, (a.char χ χ').2 + n)
  | natAdd n a => ((a.char χ χ').1 + n, (a.char χ χ').2 + n)
  | pow a n => ((a.char χ χ').1 ^ n, (a.char χ χ').2 ^ n)
  | rshift a b => ((b.char χ χ').1 * (a.char χ χ').2, (b.char χ χ').2 * (a.char χ χ').1)
  | lshift a b => ((a.char χ χ').1 * (b.char χ χ').2, (a.char χ χ').2 * (b.char χ χ').1)

end Expr

/-- The number of orbits of a group of permutations on tuples of `k` indices, `σ` moving `(i₁,…,i_k)` to `(σ i₁,…,σ i_k)`. -/
noncomputable def tupleOrbits {n : ℕ} (Γ : Subgroup (Equiv.Perm (Fin n))) (k : ℕ) : ℕ :=
  Nat.card (MulAction.orbitRel.Quotient Γ (Fin k → Fin n))

end Verif
