import Verif.Lemmas.MatExp

/-! A differentiable one-parameter group of matrices is an exponential. -/
namespace Verif
open Matrix NormedSpace

variable {𝕜 : Type*} [RCLike 𝕜] {n : Type*} [Fintype n] [DecidableEq n]

set_option backward.isDefEq.respectTransparency false in
open scoped Matrix.Norms.Operator in
theorem oneParam_eq_exp (f : ℝ → Matrix n n 𝕜) (D : Matrix n n 𝕜) (h0 : f 0 = 1) (hadd : ∀ s t, f (s + t) = f s * f t)
    (hd : ∀ i j, HasDerivAt (fun t => f t i j) (D i j) 0) : f 1 = exp D := by
  have hf0 : HasDerivAt f D 0 := by
    rw [hasDerivAt_pi]
    intro i
    rw [hasDerivAt_pi]
    exact hd i
  have hf : ∀ s, HasDerivAt f (f s * D) s := by
    intro s
    have hs : HasDerivAt (fun t : ℝ => t - s) 1 s := (hasDerivAt_id s).sub_const s
    have h0' : HasDerivAt f D (s - s) := by simpa using hf0
    have h1 : HasDerivAt (fun t => f (t - s)) D s := by
      have := HasDerivAt.scomp (h := fun t => t - s) s h0' hs
      simpa [Function.comp_def] using this
    have h2 : HasDerivAt (fun t => f s * f (t - s)) (f s * D) s := h1.const_mul (f s)
    have e : f = fun t => f s * f (t - s) := funext fun t => by rw [← hadd, add_sub_cancel]
    rw [e]
    have e2 : (fun t => f s * f (t - s)) s = f s := by simp [h0]
    rw [e2]
    exact h2
  have hE : ∀ s : ℝ, HasDerivAt (fun t : ℝ => exp (t • (-D))) ((-D) * exp (s • (-D))) s := fun s => by
    have := hasDerivAt_exp_smul_const' (𝕂 := ℝ) (-D) s
    exact this
  have hP : ∀ s, HasDerivAt (fun t => f t * exp (t • (-D))) 0 s := fun s => by
    have := (hf s).mul (hE s)
    have e : f s * D * exp (s • (-D)) + f s * ((-D) * exp (s • (-D))) = 0 := by
      rw [Matrix.mul_assoc, ← Matrix.mul_add, ← Matrix.add_mul, add_neg_cancel, Matrix.zero_mul, Matrix.mul_zero]
    rw [e] at this
    exact this
  have hc := is_const_of_deriv_eq_zero (f := fun t : ℝ => f t * exp (t • (-D)))
    (fun s => (hP s).differentiableAt) (fun s => (hP s).deriv) 1 0
  simp only [one_smul, zero_smul, exp_zero, h0, Matrix.mul_one] at hc
  rw [Matrix.exp_neg] at hc
  have hu : IsUnit (exp D).det := (Matrix.isUnit_iff_isUnit_det _).1 (Matrix.isUnit_exp D)
  calc f 1 = f 1 * ((exp D)⁻¹ * exp D) := by rw [Matrix.nonsing_inv_mul _ hu, Matrix.mul_one]
    _ = exp D := by rw [← Matrix.mul_assoc, hc, Matrix.one_mul]

end Verif
