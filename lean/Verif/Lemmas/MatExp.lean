import Mathlib.Analysis.Normed.Algebra.MatrixExponential
import Mathlib.Analysis.SpecialFunctions.Exponential
import Mathlib.Analysis.Calculus.MeanValue
import Mathlib.Analysis.RCLike.Basic
import Mathlib.Analysis.Calculus.Deriv.Mul
import Mathlib.Analysis.Calculus.Deriv.Prod
import Mathlib.LinearAlgebra.Matrix.Trace

/-! # Facts about the matrix exponential -/
namespace Verif
open Matrix NormedSpace

variable {𝕜 : Type*} [RCLike 𝕜]

section
variable {m n : Type*} [Fintype m] [DecidableEq m] [Fintype n] [DecidableEq n]

set_option backward.isDefEq.respectTransparency false in
open scoped Matrix.Norms.Operator in
/-- If `X` intertwines `A` and `B` then it intertwines their exponentials. -/
theorem exp_intertwine (X : Matrix m n 𝕜) (A : Matrix n n 𝕜) (B : Matrix m m 𝕜) (h : X * A = B * X) :
    X * exp A = exp B * X := by
  have hp : ∀ k : ℕ, X * A ^ k = B ^ k * X := by
    intro k
    induction k with
    | zero => simp
    | succ k ih => rw [pow_succ, ← Matrix.mul_assoc, ih, Matrix.mul_assoc, h, ← Matrix.mul_assoc, ← pow_succ]
  have hA := exp_series_hasSum_exp' (𝕂 := 𝕜) A
  have hB := exp_series_hasSum_exp' (𝕂 := 𝕜) B
  have hA' : HasSum (fun k : ℕ => X * ((k.factorial⁻¹ : 𝕜) • A ^ k)) (X * exp A) := by
    refine hA.map (AddMonoidHom.mk' (fun M => X * M) (fun a b => Matrix.mul_add X a b)) ?_
    exact continuous_const.matrix_mul continuous_id
  have hB' : HasSum (fun k : ℕ => ((k.factorial⁻¹ : 𝕜) • B ^ k) * X) (exp B * X) := by
    refine hB.map (AddMonoidHom.mk' (fun M => M * X) (fun a b => Matrix.add_mul a b X)) ?_
    exact continuous_id.matrix_mul continuous_const
  refine hA'.unique ?_
  convert hB' using 2 with k
  rw [Matrix.mul_smul, Matrix.smul_mul, hp]

/-- Derivative of the determinant along a curve through the identity. -/
theorem hasDerivAt_det (M : 𝕜 → Matrix n n 𝕜) (A : Matrix n n 𝕜) (h0 : M 0 = 1)
    (h : ∀ i j, HasDerivAt (fun t => M t i j) (A i j) 0) : HasDerivAt (fun t => (M t).det) A.trace 0 := by
  have h1 : ∀ σ : Equiv.Perm n, HasDerivAt (fun t => ((Equiv.Perm.sign σ : ℤ) : 𝕜) * ∏ i, M t (σ i) i)
      (((Equiv.Perm.sign σ : ℤ) : 𝕜) * ∑ i, (∏ j ∈ Finset.univ.erase i, M 0 (σ j) j) • A (σ i) i) 0 := by
    intro σ
    exact (HasDerivAt.fun_finset_prod (fun i _ => h (σ i) i)).const_mul _
  have h2 := HasDerivAt.fun_sum (u := Finset.univ) (fun σ _ => h1 σ)
  have e : (fun t => (M t).det) = fun t => ∑ σ : Equiv.Perm n, ((Equiv.Perm.sign σ : ℤ) : 𝕜) * ∏ i, M t (σ i) i := by
    funext t; rw [Matrix.det_apply']
  rw [e]
  refine h2.congr_deriv ?_
  rw [Finset.sum_eq_single (1 : Equiv.Perm n)]
  · simp only [Equiv.Perm.sign_one, Units.val_one, Int.cast_one, one_mul, h0, Equiv.Perm.one_apply, Matrix.one_apply_eq,
      Finset.prod_const_one, one_smul, Matrix.trace, Matrix.diag]
  · intro σ _ hσ
    rw [Finset.sum_eq_zero, mul_zero]
    intro i _
    have : ∃ j, j ≠ i ∧ σ j ≠ j := by
      by_contra hc
      push Not at hc
      apply hσ
      ext j
      by_cases hj : j = i
      · by_contra hne
        have h3 : σ (σ j) = σ j := hc (σ j) (by rw [hj] at hne ⊢; exact hne)
        exact hne (σ.injective h3)
      · exact hc j hj
    obtain ⟨j, hj, hs⟩ := this
    rw [Finset.prod_eq_zero (i := j) (by simp [hj]), zero_smul]
    rw [h0, Matrix.one_apply_ne hs]
  · simp

set_option backward.isDefEq.respectTransparency false in
open scoped Matrix.Norms.Operator in
/-- A traceless matrix has an exponential of determinant one. -/
theorem det_exp_of_trace_zero (A : Matrix n n 𝕜) (hA : A.trace = 0) : (exp A).det = 1 := by
  have hd0 : HasDerivAt (fun t : 𝕜 => (exp (t • A)).det) 0 0 := by
    have key := hasDerivAt_det (fun t : 𝕜 => exp (t • A)) A ?_ ?_
    · rwa [hA] at key
    · simp
    · intro i j
      have h := hasDerivAt_exp_smul_const (𝕂 := 𝕜) A (0 : 𝕜)
      have h2 : HasDerivAt (fun t : 𝕜 => exp (t • A)) A 0 := by simpa using h
      rw [hasDerivAt_pi] at h2
      have h3 := h2 i
      rw [hasDerivAt_pi] at h3
      exact h3 j
  have hadd : ∀ s t : 𝕜, (exp ((s + t) • A)).det = (exp (s • A)).det * (exp (t • A)).det := by
    intro s t
    rw [add_smul, Matrix.exp_add_of_commute _ _ (((Commute.refl A).smul_left s).smul_right t), Matrix.det_mul]
  have hd : ∀ s : 𝕜, HasDerivAt (fun t : 𝕜 => (exp (t • A)).det) 0 s := by
    intro s
    have h1 : HasDerivAt (fun t : 𝕜 => (exp ((t - s) • A)).det) 0 s := by
      have hs : HasDerivAt (fun t : 𝕜 => t - s) 1 s := (hasDerivAt_id s).sub_const s
      have h0 : HasDerivAt (fun t : 𝕜 => (exp (t • A)).det) 0 (s - s) := by simpa using hd0
      have := HasDerivAt.comp (h := fun t => t - s) s h0 hs
      simpa [Function.comp_def] using this
    have h2 := h1.const_mul (exp (s • A)).det
    rw [mul_zero] at h2
    have e : (fun t : 𝕜 => (exp (t • A)).det) = fun y => (exp (s • A)).det * (exp ((y - s) • A)).det := by
      funext t
      rw [← hadd, add_sub_cancel]
    rw [e]
    exact h2
  have hc := is_const_of_deriv_eq_zero (f := fun t : 𝕜 => (exp (t • A)).det)
    (fun s => (hd s).differentiableAt) (fun s => (hd s).deriv) 1 0
  simpa using hc

set_option backward.isDefEq.respectTransparency false in
open scoped Matrix.Norms.Operator in
/-- The entries of `exp (t A)` depend continuously on `t`. -/
theorem exp_smul_continuous (A : Matrix n n 𝕜) (i j : n) : Continuous fun t : 𝕜 => exp (t • A) i j := by
  have h1 : Continuous fun t : 𝕜 => exp (t • A) :=
    continuous_iff_continuousAt.2 fun t => (hasDerivAt_exp_smul_const (𝕂 := 𝕜) A t).continuousAt
  exact (continuous_apply j).comp ((continuous_apply i).comp h1)

end
end Verif
