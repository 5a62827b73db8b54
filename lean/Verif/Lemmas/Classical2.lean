import Verif.Lemmas.Classical
import Mathlib.LinearAlgebra.Matrix.Transvection
import Mathlib.Analysis.SpecialFunctions.Pow.Real
import Mathlib.Analysis.SpecialFunctions.Complex.Arg

/-! # The classical groups are generated by exponentials: unitary, linear and symplectic groups -/
namespace Verif
open Matrix NormedSpace RCLike

theorem Generated.mono {𝕜 : Type*} [RCLike 𝕜] {n : Type*} [Fintype n] [DecidableEq n] {lie disc lie' disc' : List (Matrix n n 𝕜)}
    (hl : ∀ A ∈ Submodule.span ℝ {B | B ∈ lie}, A ∈ Submodule.span ℝ {B | B ∈ lie'}) (hd : ∀ A ∈ disc, A ∈ disc') {h : Matrix n n 𝕜}
    (hh : Generated lie disc h) : Generated lie' disc' h := by
  induction hh with
  | one => exact .one
  | exp hA => exact .exp (hl _ hA)
  | gen h => exact .gen (hd _ h)
  | inv h => exact .inv (hd _ h)
  | mul _ _ h1 h2 => exact .mul h1 h2

/-- The exponential of a multiple of the identity. -/
theorem exp_scalar {𝕜 : Type*} [RCLike 𝕜] {n : Type*} [Fintype n] [DecidableEq n] (z : 𝕜) : exp (z • (1 : Matrix n n 𝕜)) = exp z • 1 := by
  rw [← diagonal_one, ← diagonal_smul, exp_diagonal, ← diagonal_smul]
  congr 1
  funext i
  rw [Pi.coe_exp]
  simp

/-- Generated by the exponentials of the anti-Hermitian matrices: all unitary matrices. -/
theorem unitary_generated {n : ℕ} {lie disc : List (Matrix (Fin n) (Fin n) ℂ)}
    (hL : ∀ A : Matrix (Fin n) (Fin n) ℂ, Aᴴ = -A → A ∈ Submodule.span ℝ {B | B ∈ lie})
    {h : Matrix (Fin n) (Fin n) ℂ} (hu : hᴴ * h = 1) : Generated lie disc h := by
  rcases Nat.eq_zero_or_pos n with rfl | hn
  · rw [Subsingleton.elim h 1]
    exact .one
  have hdet : star h.det * h.det = 1 := by
    rw [← det_conjTranspose, ← det_mul, hu, det_one]
  have hn1 : ‖h.det‖ = 1 := by
    have : ‖star h.det * h.det‖ = 1 := by rw [hdet, norm_one]
    rw [norm_mul, norm_star] at this
    nlinarith [norm_nonneg h.det]
  obtain ⟨θ, hθ⟩ : ∃ θ : ℝ, h.det = Complex.exp (θ * Complex.I) := ⟨h.det.arg, by
    have := Complex.norm_mul_exp_arg_mul_I h.det
    rw [hn1, Complex.ofReal_one, one_mul] at this
    exact this.symm⟩
  obtain ⟨z, hz⟩ : ∃ z : ℂ, z = (θ / n : ℝ) * Complex.I := ⟨_, rfl⟩
  have hzs : star z = -z := by rw [hz]; simp
  have hn0 : (n : ℂ) ≠ 0 := by exact_mod_cast hn.ne'
  have hdz : Complex.exp z ^ n = h.det := by
    rw [← Complex.exp_nat_mul, hθ, hz]
    congr 1
    push_cast
    field_simp
  have hez : Complex.exp (-z) * Complex.exp z = 1 := by rw [← Complex.exp_add, neg_add_cancel, Complex.exp_zero]
  have hg : Generated lie disc (Complex.exp (-z) • h) := by
    refine specialUnitary_generated (fun A h1 _ => hL A h1) ?_ ?_
    · rw [conjTranspose_smul, Matrix.smul_mul, Matrix.mul_smul, hu, smul_smul, Complex.star_def, ← Complex.exp_conj]
      have : (starRingEnd ℂ) (-z) = z := by rw [map_neg, ← Complex.star_def, hzs, neg_neg]
      rw [this, mul_comm, hez, one_smul]
    · rw [det_smul, Fintype.card_fin, ← hdz, ← mul_pow, hez, one_pow]
  have e : h = exp (z • (1 : Matrix (Fin n) (Fin n) ℂ)) * (Complex.exp (-z) • h) := by
    rw [exp_scalar, ← Complex.exp_eq_exp_ℂ, Matrix.smul_mul, Matrix.one_mul, smul_smul, mul_comm, hez, one_smul]
  rw [e]
  exact .mul (.exp (hL _ (by rw [conjTranspose_smul, hzs, conjTranspose_one, neg_smul]))) hg

/-- Generated by the exponentials of the traceless matrices: all matrices of determinant one. -/
theorem specialLinear_generated {n : ℕ} {lie disc : List (Matrix (Fin n) (Fin n) ℝ)}
    (hL : ∀ A : Matrix (Fin n) (Fin n) ℝ, A.trace = 0 → A ∈ Submodule.span ℝ {B | B ∈ lie})
    {h : Matrix (Fin n) (Fin n) ℝ} (hd : h.det = 1) : Generated lie disc h := by
  have ht : ∀ L : List (TransvectionStruct (Fin n) ℝ), Generated lie disc (L.map TransvectionStruct.toMatrix).prod := by
    intro L
    induction L with
    | nil => exact .one
    | cons t L ih =>
      rw [List.map_cons, List.prod_cons]
      refine .mul ?_ ih
      obtain ⟨i, j, hij, c⟩ := t
      have h2 : (Matrix.single i j (1 : ℝ)) * Matrix.single i j 1 = 0 := by
        rw [single_mul_single_of_ne]
        exact hij.symm
      have := exp_shear h2 c
      rw [smul_single, smul_eq_mul, mul_one] at this
      show Generated lie disc (transvection i j c)
      rw [transvection, ← this]
      exact .exp (hL _ (by rw [trace_single_eq_of_ne _ _ _ hij]))
  obtain ⟨L, L', D, hD⟩ := Pivot.exists_list_transvec_mul_diagonal_mul_list_transvec h
  have hdt : ∀ L : List (TransvectionStruct (Fin n) ℝ), (L.map TransvectionStruct.toMatrix).prod.det = 1 := fun L => TransvectionStruct.det_toMatrix_prod L
  have hprod : ∏ i, D i = 1 := by
    rw [hD, det_mul, det_mul, hdt, hdt, det_diagonal, one_mul, mul_one] at hd
    exact hd
  have hne : ∀ i, D i ≠ 0 := fun i h0 => by
    rw [Finset.prod_eq_zero (Finset.mem_univ i) h0] at hprod
    exact zero_ne_one hprod
  have habs : ∏ i, |D i| = 1 := by rw [← Finset.abs_prod, hprod, abs_one]
  have e1 : diagonal D = diagonal (fun i => D i / |D i|) * diagonal fun i => |D i| := by
    rw [diagonal_mul_diagonal]
    congr 1
    funext i
    rw [div_mul_cancel₀ _ (abs_ne_zero.2 (hne i))]
  have hs : ∀ i, (D i / |D i|) * (D i / |D i|) = 1 := fun i => by
    rw [div_mul_div_comm, abs_mul_abs_self, div_self (mul_self_ne_zero.2 (hne i))]
  have hg1 : Generated lie disc (diagonal fun i => D i / |D i|) := by
    refine specialUnitary_generated (fun A _ h2 => hL A h2) ?_ ?_
    · rw [conjTranspose_eq_transpose_of_trivial, diagonal_transpose, diagonal_mul_diagonal]
      simp only [hs, diagonal_one]
    · rw [det_diagonal, Finset.prod_div_distrib, hprod, habs, div_one]
  have hg2 : Generated lie disc (diagonal fun i => |D i|) := by
    have : (diagonal fun i => |D i|) = exp (diagonal fun i => Real.log |D i|) := by
      rw [exp_diagonal]
      congr 1
      funext i
      rw [Pi.coe_exp, ← Real.exp_eq_exp_ℝ, Real.exp_log (abs_pos.2 (hne i))]
    rw [this]
    refine .exp (hL _ ?_)
    rw [trace_diagonal, ← Real.log_prod (fun i _ => abs_ne_zero.2 (hne i)), habs, Real.log_one]
  rw [hD, e1]
  exact .mul (.mul (ht L) (.mul hg1 hg2)) (ht L')

/-- Generated by the exponentials of all matrices: the matrices of positive determinant. -/
theorem linear_generated {n : ℕ} {lie disc : List (Matrix (Fin n) (Fin n) ℝ)}
    (hL : ∀ A : Matrix (Fin n) (Fin n) ℝ, A ∈ Submodule.span ℝ {B | B ∈ lie})
    {h : Matrix (Fin n) (Fin n) ℝ} (hd : 0 < h.det) : Generated lie disc h := by
  rcases Nat.eq_zero_or_pos n with rfl | hn
  · rw [Subsingleton.elim h 1]
    exact .one
  have hn0 : (n : ℝ) ≠ 0 := by exact_mod_cast hn.ne'
  obtain ⟨z, hz⟩ : ∃ z : ℝ, z = Real.log h.det / n := ⟨_, rfl⟩
  have hdz : Real.exp z ^ n = h.det := by
    rw [← Real.exp_nat_mul, hz, mul_div_cancel₀ _ hn0, Real.exp_log hd]
  have hez : Real.exp (-z) * Real.exp z = 1 := by rw [← Real.exp_add, neg_add_cancel, Real.exp_zero]
  have hg : Generated lie disc (Real.exp (-z) • h) := by
    refine specialLinear_generated (fun A _ => hL A) ?_
    rw [det_smul, Fintype.card_fin, ← hdz, ← mul_pow, hez, one_pow]
  have e : h = exp (z • (1 : Matrix (Fin n) (Fin n) ℝ)) * (Real.exp (-z) • h) := by
    rw [exp_scalar, ← Real.exp_eq_exp_ℝ, Matrix.smul_mul, Matrix.one_mul, smul_smul, mul_comm, hez, one_smul]
  rw [e]
  exact .mul (.exp (hL _)) hg

end Verif
