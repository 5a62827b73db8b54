import Verif.Spec.Approx
import Verif.Spec.Layers

/-!
# Bounded parameters (specification)
-/
namespace Verif
open List

/-- The weight (Frobenius norm), the bias and the bilinear weights of a block have length at most `P`. -/
structure BlockParams.Within (P : ℝ) (p : BlockParams ℝ) : Prop where
  w : nrm p.w.flat ≤ P
  b : nrm p.b ≤ P
  bw : nrm p.bw ≤ P

end Verif
