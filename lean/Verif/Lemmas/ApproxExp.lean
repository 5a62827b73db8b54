import Verif.Lemmas.Approx
import Verif.Lemmas.MatExp
import Mathlib.Analysis.InnerProductSpace.PiL2
import Mathlib.Analysis.Calculus.MeanValue
import Mathlib.Analysis.SpecialFunctions.Exponential

/-! How far an exponential moves a vector. -/
namespace Verif
open List DMat
variable {𝕜 : Type} [RCLike 𝕜]

/-- A list as a vector of Euclidean space. -/
noncomputable def toEu (n : ℕ) (v : List 𝕜) : EuclideanSpace 𝕜 (Fin n) := WithLp.toLp 2 fun i => v.getD i 0

theorem toEu_norm {n : ℕ} {v : List 𝕜} (hv : v.length = n) : ‖toEu n v‖ ^ 2 = nrm2 v := by
  rw [EuclideanSpace.norm_sq_eq, nrm2, hv, Finset.sum_range]
  rfl

theorem toEu_dist {n : ℕ} {x y : List 𝕜} (hx : x.length = n) : ‖toEu n x - toEu n y‖ ^ 2 = dist2 x y := by
  rw [EuclideanSpace.norm_sq_eq, dist2, hx, Finset.sum_range]
  rfl

theorem toEu_mulVec {n : ℕ} {A : DMat 𝕜} (hA : A.IsSq n) (v : List 𝕜) :
    toEu n (A.mulVec v) = WithLp.toLp 2 ((A.toMatrix n n).mulVec fun i => v.getD i 0) := by
  ext i
  show (A.mulVec v).getD i 0 = ∑ j : Fin n, A.e i j * v.getD j 0
  rw [getD_mulVec (by rw [hA.1]; exact i.2), hA.2, Finset.sum_range]

set_option backward.isDefEq.respectTransparency false in
open scoped Matrix.Norms.Operator in
theorem exp_move {n : ℕ} (X : Matrix (Fin n) (Fin n) 𝕜) (w : Fin n → 𝕜)
    (hiso : ∀ (t : ℝ) (u : Fin n → 𝕜), ‖WithLp.toLp 2 ((NormedSpace.exp (t • X)).mulVec u)‖ = ‖WithLp.toLp 2 u‖) :
    ‖WithLp.toLp 2 ((NormedSpace.exp X).mulVec w) - WithLp.toLp 2 w‖ ≤ ‖WithLp.toLp 2 (X.mulVec w)‖ := by
  have hE : ∀ s : ℝ, HasDerivAt (fun t : ℝ => NormedSpace.exp (t • X)) (NormedSpace.exp (s • X) * X) s := fun s =>
    hasDerivAt_exp_smul_const (𝕂 := ℝ) X s
  have hf : ∀ s : ℝ, HasDerivAt (fun t : ℝ => WithLp.toLp 2 ((NormedSpace.exp (t • X)).mulVec w))
      (WithLp.toLp 2 ((NormedSpace.exp (s • X)).mulVec (X.mulVec w))) s := by
    intro s
    have h1 : HasDerivAt (fun t : ℝ => (NormedSpace.exp (t • X)).mulVec w) ((NormedSpace.exp (s • X)).mulVec (X.mulVec w)) s := by
      rw [hasDerivAt_pi]
      intro i
      rw [Matrix.mulVec_mulVec]
      show HasDerivAt (fun t : ℝ => ∑ j, (NormedSpace.exp (t • X)) i j * w j) (∑ j, (NormedSpace.exp (s • X) * X) i j * w j) s
      refine HasDerivAt.fun_sum fun j _ => ?_
      have := hE s
      rw [hasDerivAt_pi] at this
      have := this i
      rw [hasDerivAt_pi] at this
      exact (this j).mul_const _
    exact ((PiLp.continuousLinearEquiv 2 ℝ (fun _ : Fin n => 𝕜)).symm.hasFDerivAt).comp_hasDerivAt s h1
  have := norm_image_sub_le_of_norm_deriv_le_segment_01' (f := fun t : ℝ => WithLp.toLp 2 ((NormedSpace.exp (t • X)).mulVec w))
    (C := ‖WithLp.toLp 2 (X.mulVec w)‖) (fun s _ => (hf s).hasDerivWithinAt) fun s _ => (hiso s _).le
  simpa using this

end Verif
