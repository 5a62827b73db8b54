import Verif.Lemmas.MatExp
import Mathlib.Analysis.SpecialFunctions.Trigonometric.Deriv
import Mathlib.Analysis.SpecialFunctions.Trigonometric.DerivHyp

/-! # Closed forms of some matrix exponentials -/
namespace Verif
open Matrix NormedSpace

variable {𝕜 : Type*} [RCLike 𝕜] {n : Type*} [Fintype n] [DecidableEq n]

set_option backward.isDefEq.respectTransparency false in
open scoped Matrix.Norms.Operator in
/-- A solution `1+aX+bX²` of the equation of the exponential is the exponential. -/
theorem exp_of_ode (X : Matrix n n 𝕜) {a b a' b' : ℝ → ℝ} (ha : ∀ t, HasDerivAt a (a' t) t) (hb : ∀ t, HasDerivAt b (b' t) t)
    (h0 : a 0 = 0 ∧ b 0 = 0) (he : ∀ t, a' t • X + b' t • (X * X) = X + a t • (X * X) + b t • (X * X * X)) (t : ℝ) :
    exp (t • X) = 1 + a t • X + b t • (X * X) := by
  have hf : ∀ s, HasDerivAt (fun t => 1 + a t • X + b t • (X * X)) (X * (1 + a s • X + b s • (X * X))) s := by
    intro s
    have h1 : HasDerivAt (fun t => a t • X) (a' s • X) s := (ha s).smul_const X
    have h2 : HasDerivAt (fun t => b t • (X * X)) (b' s • (X * X)) s := (hb s).smul_const (X * X)
    have h3 := (h1.const_add (1 : Matrix n n 𝕜)).add h2
    rw [he s] at h3
    have e : X * (1 + a s • X + b s • (X * X)) = X + a s • (X * X) + b s • (X * X * X) := by
      simp only [Matrix.mul_add, Matrix.mul_one, Matrix.mul_smul, Matrix.mul_assoc]
    rw [e]
    exact h3
  have hE : ∀ s : ℝ, HasDerivAt (fun t : ℝ => exp (t • (-X))) (exp (s • (-X)) * (-X)) s := fun s =>
    hasDerivAt_exp_smul_const (𝕂 := ℝ) (-X) s
  have hP : ∀ s, HasDerivAt (fun t => exp (t • (-X)) * (1 + a t • X + b t • (X * X))) 0 s := fun s => by
    have := (hE s).mul (hf s)
    have e : exp (s • (-X)) * (-X) * (1 + a s • X + b s • (X * X)) + exp (s • (-X)) * (X * (1 + a s • X + b s • (X * X))) = 0 := by
      rw [Matrix.mul_assoc, ← Matrix.mul_add, ← Matrix.add_mul, neg_add_cancel, Matrix.zero_mul, Matrix.mul_zero]
    rw [e] at this
    exact this
  have hc := is_const_of_deriv_eq_zero (f := fun t : ℝ => exp (t • (-X)) * (1 + a t • X + b t • (X * X)))
    (fun s => (hP s).differentiableAt) (fun s => (hP s).deriv) t 0
  simp only [zero_smul, exp_zero, h0.1, h0.2, add_zero, Matrix.mul_one] at hc
  rw [smul_neg, Matrix.exp_neg] at hc
  have hu : IsUnit (exp (t • X)).det := (Matrix.isUnit_iff_isUnit_det _).1 (Matrix.isUnit_exp _)
  calc exp (t • X) = exp (t • X) * ((exp (t • X))⁻¹ * (1 + a t • X + b t • (X * X))) := by rw [hc, Matrix.mul_one]
    _ = _ := by rw [← Matrix.mul_assoc, Matrix.mul_nonsing_inv _ hu, Matrix.one_mul]

theorem exp_rotation {X : Matrix n n 𝕜} (hX : X * X * X = -X) (t : ℝ) :
    exp (t • X) = 1 + Real.sin t • X + (1 - Real.cos t) • (X * X) := by
  refine exp_of_ode X (a := Real.sin) (b := fun t => 1 - Real.cos t) (a' := Real.cos) (b' := Real.sin) Real.hasDerivAt_sin (fun t => ?_) (by simp) (fun t => ?_) t
  · simpa using (Real.hasDerivAt_cos t).const_sub 1
  · rw [hX, smul_neg, sub_smul, one_smul]
    abel

theorem exp_boost {X : Matrix n n 𝕜} (hX : X * X * X = X) (t : ℝ) :
    exp (t • X) = 1 + Real.sinh t • X + (Real.cosh t - 1) • (X * X) := by
  refine exp_of_ode X (a := Real.sinh) (b := fun t => Real.cosh t - 1) (a' := Real.cosh) (b' := Real.sinh) Real.hasDerivAt_sinh (fun t => ?_) (by simp) (fun t => ?_) t
  · simpa using (Real.hasDerivAt_cosh t).sub_const 1
  · rw [hX, sub_smul, one_smul]
    abel

theorem exp_shear {X : Matrix n n 𝕜} (hX : X * X = 0) (t : ℝ) : exp (t • X) = 1 + t • X := by
  have := exp_of_ode X (a := fun t => t) (b := fun _ => 0) (a' := fun _ => 1) (b' := fun _ => 0) (fun t => hasDerivAt_id t) (fun t => hasDerivAt_const _ _) (by simp)
    (fun t => by simp [hX]) t
  rw [this, hX, smul_zero, add_zero]

end Verif
