import Mathlib.Analysis.Normed.Algebra.MatrixExponential
import Mathlib.Analysis.RCLike.Basic

/-! # Matrix groups (specification) -/
namespace Verif
open Matrix

/-- The group generated by the exponentials of all real combinations of `lie` and the matrices
`disc` together with their inverses. -/
inductive Generated {𝕜 : Type*} [RCLike 𝕜] {n : Type*} [Fintype n] [DecidableEq n] (lie disc : List (Matrix n n 𝕜)) :
    Matrix n n 𝕜 → Prop
  | one : Generated lie disc 1
  | exp {A : Matrix n n 𝕜} : A ∈ Submodule.span ℝ {B | B ∈ lie} → Generated lie disc (NormedSpace.exp A)
  | gen {h : Matrix n n 𝕜} : h ∈ disc → Generated lie disc h
  | inv {h : Matrix n n 𝕜} : h ∈ disc → Generated lie disc h⁻¹
  | mul {g h : Matrix n n 𝕜} : Generated lie disc g → Generated lie disc h → Generated lie disc (g * h)

/-- The Minkowski form `diag(1,-1,...,-1)`. -/
def minkowski (n : ℕ) : Matrix (Fin n) (Fin n) ℝ := Matrix.diagonal fun i => if i.val = 0 then 1 else -1

/-- The symplectic form `[[0,1],[-1,0]]` on `2m` coordinates. -/
def symplJ (m : ℕ) : Matrix (Fin (2 * m)) (Fin (2 * m)) ℝ := fun i j =>
  if i.val + m = j.val then 1 else if j.val + m = i.val then -1 else 0

end Verif
