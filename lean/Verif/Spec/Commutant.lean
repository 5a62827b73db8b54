import Mathlib.Algebra.Algebra.Basic
import Mathlib.LinearAlgebra.Matrix.Defs
import Mathlib.Data.Matrix.Mul
import Mathlib.Analysis.RCLike.Basic

/-!
# Matrices that commute with the generators of a group (specification)
-/
namespace Verif

/-- The matrices that commute with all generators: the equivariant linear maps from `V` to `V`. -/
def commutant {𝕜 : Type} [RCLike 𝕜] {n : ℕ} (lie disc : List (Matrix (Fin n) (Fin n) 𝕜)) : Submodule 𝕜 (Matrix (Fin n) (Fin n) 𝕜) where
  carrier := {M | ∀ A ∈ lie ++ disc, M * A = A * M}
  add_mem' hM hN A hA := by rw [add_mul, mul_add, hM A hA, hN A hA]
  zero_mem' A _ := by rw [zero_mul, mul_zero]
  smul_mem' c M hM A hA := by rw [smul_mul_assoc, mul_smul_comm, hM A hA]

end Verif
