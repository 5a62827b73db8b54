import Verif.Lemmas.Classical2
import Verif.Spec.Group
import Mathlib.Analysis.SpecialFunctions.Arsinh

/-! # The Lorentz groups are generated by exponentials -/
namespace Verif
open Matrix NormedSpace

variable {n : ℕ}

/-- The time axis. -/
def timeAxis (n : ℕ) : Fin (n + 1) → ℝ := Pi.single 0 1

theorem minkowski_eq : minkowski (n + 1) = (2 : ℝ) • vecMulVec (timeAxis n) (timeAxis n) - 1 := by
  ext i j
  rw [minkowski, diagonal_apply, Matrix.sub_apply, Matrix.smul_apply, vecMulVec_apply, timeAxis, one_apply, Pi.single_apply, Pi.single_apply]
  by_cases h0 : i = 0
  · subst h0
    by_cases h : (0 : Fin (n + 1)) = j
    · subst h
      norm_num
    · have h' : j ≠ 0 := fun e => h e.symm
      simp [h, h']
  · have : i.val ≠ 0 := fun e => h0 (Fin.ext e)
    by_cases h : i = j
    · subst h
      simp [h0, this]
    · simp [h0, h]

theorem time_unit : timeAxis n ⬝ᵥ timeAxis n = 1 := by
  rw [timeAxis, dotProduct_single_one, Pi.single_eq_same]

theorem minkowski_time : minkowski (n + 1) *ᵥ timeAxis n = timeAxis n := by
  rw [minkowski_eq, sub_mulVec, smul_mulVec, one_mulVec, vecMulVec_mulVec, time_unit]
  ext i
  simp
  ring

/-- A boost along a unit vector `w` of space. -/
theorem exists_boost {w : Fin (n + 1) → ℝ} (hw : w ⬝ᵥ w = 1) (hew : timeAxis n ⬝ᵥ w = 0) (r : ℝ) :
    ∃ A : Matrix (Fin (n + 1)) (Fin (n + 1)) ℝ, Aᵀ * minkowski (n + 1) + minkowski (n + 1) * A = 0 ∧ A.trace = 0 ∧
      exp A *ᵥ timeAxis n = √(1 + r ^ 2) • timeAxis n + r • w ∧ 0 < exp A 0 0 := by
  have he := time_unit (n := n)
  have hwe : w ⬝ᵥ timeAxis n = 0 := by rw [dotProduct_comm]; exact hew
  have hw0 : w 0 = 0 := by
    rw [timeAxis, single_one_dotProduct] at hew
    exact hew
  have he0 : timeAxis n 0 = 1 := by rw [timeAxis, Pi.single_eq_same]
  rw [minkowski_eq]
  generalize timeAxis n = e at *
  obtain ⟨X, hX⟩ : ∃ X, X = vecMulVec e w + vecMulVec w e := ⟨_, rfl⟩
  have hXX : X * X = vecMulVec e e + vecMulVec w w := by
    rw [hX]
    simp [Matrix.add_mul, Matrix.mul_add, vecMulVec_mul_vecMulVec, hw, he, hew, hwe, add_comm]
  have hX3 : X * X * X = X := by
    rw [hXX, hX]
    simp [Matrix.add_mul, Matrix.mul_add, vecMulVec_mul_vecMulVec, hw, he, hew, hwe]
  have hXt : Xᵀ = X := by rw [hX, transpose_add, transpose_vecMulVec, transpose_vecMulVec, add_comm (vecMulVec w e)]
  have hE := exp_boost hX3 (Real.arsinh r)
  rw [Real.sinh_arsinh, Real.cosh_arsinh, hXX] at hE
  have hv : ∀ u v x : Fin (n + 1) → ℝ, vecMulVec u v *ᵥ x = (v ⬝ᵥ x) • u := fun u v x => by
    ext i
    simp [vecMulVec_mulVec, mul_comm]
  refine ⟨Real.arsinh r • X, ?_, ?_, ?_, ?_⟩
  · rw [transpose_smul, hXt, Matrix.smul_mul, Matrix.mul_smul, ← smul_add, hX]
    have : (vecMulVec e w + vecMulVec w e) * ((2 : ℝ) • vecMulVec e e - 1) + ((2 : ℝ) • vecMulVec e e - 1) * (vecMulVec e w + vecMulVec w e) = 0 := by
      simp only [Matrix.add_mul, Matrix.mul_add, Matrix.sub_mul, Matrix.mul_sub, Matrix.smul_mul, Matrix.mul_smul, vecMulVec_mul_vecMulVec, Matrix.mul_one, Matrix.one_mul, he, hew,
        hwe, one_smul, zero_smul, smul_zero, MulOpposite.op_one, MulOpposite.op_zero, vecMulVec_zero, zero_vecMulVec]
      module
    rw [this, smul_zero]
  · rw [trace_smul, hX, trace_add, trace_vecMulVec, trace_vecMulVec, hew, hwe]
    simp
  · rw [hE, hX]
    simp only [add_mulVec, smul_mulVec, hv, one_mulVec, he, hw, hew, hwe, one_smul, zero_smul, add_zero, zero_add]
    module
  · rw [hE, hX]
    simp [vecMulVec_apply, hw0, he0]
    positivity

/-- A Lorentz matrix that fixes the time axis is orthogonal. -/
theorem orth_of_fix {h : Matrix (Fin (n + 1)) (Fin (n + 1)) ℝ} (hh : hᵀ * minkowski (n + 1) * h = minkowski (n + 1)) (h0 : h *ᵥ timeAxis n = timeAxis n) :
    hᵀ * h = 1 := by
  have h1 : hᵀ *ᵥ timeAxis n = timeAxis n := by
    have := congrArg (fun M => M *ᵥ timeAxis n) hh
    simp only [← mulVec_mulVec] at this
    rwa [h0, minkowski_time] at this
  rw [minkowski_eq, Matrix.mul_sub, Matrix.sub_mul, Matrix.mul_smul, Matrix.smul_mul, mul_vecMulVec, vecMulVec_mul, h1, Matrix.mul_one, ← mulVec_transpose, h1] at hh
  exact sub_right_inj.1 hh

/-- Generated by the exponentials of the infinitesimal Lorentz transformations: the Lorentz matrices of determinant one that keep the direction of time. -/
theorem lorentz_generated {lie disc : List (Matrix (Fin (n + 1)) (Fin (n + 1)) ℝ)}
    (hL : ∀ A : Matrix (Fin (n + 1)) (Fin (n + 1)) ℝ, Aᵀ * minkowski (n + 1) + minkowski (n + 1) * A = 0 → A ∈ Submodule.span ℝ {B | B ∈ lie})
    {h : Matrix (Fin (n + 1)) (Fin (n + 1)) ℝ} (hh : hᵀ * minkowski (n + 1) * h = minkowski (n + 1)) (hd : h.det = 1) (h0 : 0 < h 0 0) : Generated lie disc h := by
  -- the case where the time axis is fixed
  have hfix : ∀ h : Matrix (Fin (n + 1)) (Fin (n + 1)) ℝ, hᵀ * minkowski (n + 1) * h = minkowski (n + 1) → h.det = 1 → h *ᵥ timeAxis n = timeAxis n → Generated lie disc h := by
    intro h hh hd h0
    refine specialUnitary_generated_fix (k0 := 1) (by omega) ?_ (by rw [conjTranspose_eq_transpose_of_trivial]; exact orth_of_fix hh h0) hd ?_
    · intro A hA _ hAe
      have hAe := hAe 0 (by simp)
      rw [conjTranspose_eq_transpose_of_trivial] at hA
      refine hL A ?_
      have e1 : A *ᵥ timeAxis n = 0 := hAe
      have e2 : timeAxis n ᵥ* A = 0 := by rw [← mulVec_transpose, hA, neg_mulVec, e1, neg_zero]
      rw [hA, minkowski_eq, Matrix.neg_mul, Matrix.mul_sub, Matrix.sub_mul, Matrix.mul_smul, Matrix.smul_mul, mul_vecMulVec, vecMulVec_mul, e1, e2]
      simp
    · intro i hi
      have : i = 0 := Fin.ext (by simpa using hi)
      subst this
      exact h0
  obtain ⟨v, hv⟩ : ∃ v, v = h *ᵥ timeAxis n := ⟨_, rfl⟩
  have hv0 : v 0 = h 0 0 := by rw [hv, timeAxis, mulVec_single_one]; rfl
  obtain ⟨u, hu⟩ : ∃ u, u = v - h 0 0 • timeAxis n := ⟨_, rfl⟩
  have heu : timeAxis n ⬝ᵥ u = 0 := by
    rw [hu, dotProduct_sub, dotProduct_smul, time_unit, timeAxis, single_one_dotProduct, hv0]
    simp
  have hvv : v = h 0 0 • timeAxis n + u := by rw [hu]; abel
  have huu : u ⬝ᵥ u = h 0 0 ^ 2 - 1 := by
    have h1 : v ⬝ᵥ (minkowski (n + 1) *ᵥ v) = 1 := by
      have := congrArg (fun M => timeAxis n ⬝ᵥ (M *ᵥ timeAxis n)) hh
      simp only [← mulVec_mulVec] at this
      rw [minkowski_time, time_unit, dotProduct_mulVec, vecMul_transpose, ← hv] at this
      exact this
    have h2 : minkowski (n + 1) *ᵥ v = h 0 0 • timeAxis n - u := by
      conv_lhs => rw [hvv]
      have hmu : minkowski (n + 1) *ᵥ u = -u := by
        rw [minkowski_eq, sub_mulVec, smul_mulVec, vecMulVec_mulVec, one_mulVec, heu]
        simp
      rw [mulVec_add, mulVec_smul, minkowski_time, hmu, sub_eq_add_neg]
    rw [h2, hvv, add_dotProduct, dotProduct_sub, dotProduct_sub, smul_dotProduct, smul_dotProduct, dotProduct_smul, dotProduct_smul, time_unit, heu, dotProduct_comm u, heu] at h1
    simp only [smul_eq_mul] at h1
    linarith
  have huu0 : 0 ≤ u ⬝ᵥ u := by
    rw [dotProduct]
    exact Finset.sum_nonneg fun i _ => mul_self_nonneg _
  rcases huu0.eq_or_lt with hz | hpos
  · have hu0 : u = 0 := by
      funext i
      rw [dotProduct] at hz
      exact mul_self_eq_zero.1 ((Finset.sum_eq_zero_iff_of_nonneg fun i _ => mul_self_nonneg (u i)).1 hz.symm i (Finset.mem_univ i))
    have h1 : h 0 0 = 1 := by
      have : h 0 0 ^ 2 = 1 := by linarith
      nlinarith
    refine hfix h hh hd ?_
    rw [← hv, hvv, hu0, h1, one_smul, add_zero]
  · have hs := Real.sqrt_pos.2 hpos
    have hss := Real.mul_self_sqrt hpos.le
    obtain ⟨A, hA, hAt, hAe, hA0⟩ := exists_boost (w := (√(u ⬝ᵥ u))⁻¹ • u) (by
      rw [smul_dotProduct, dotProduct_smul, smul_smul, ← mul_inv, hss, smul_eq_mul, inv_mul_cancel₀ hpos.ne']) (by rw [dotProduct_smul, heu, smul_zero]) (√(u ⬝ᵥ u))
    have hR : (exp A)ᵀ * minkowski (n + 1) * exp A = minkowski (n + 1) := by
      have := exp_form (minkowski (n + 1)) A (by rw [conjTranspose_eq_transpose_of_trivial]; exact eq_neg_of_add_eq_zero_left hA)
      rwa [conjTranspose_eq_transpose_of_trivial] at this
    have hAv : exp A *ᵥ timeAxis n = v := by
      rw [hAe, smul_smul, mul_inv_cancel₀ hs.ne', one_smul, Real.sq_sqrt hpos.le, huu, add_sub_cancel, Real.sqrt_sq h0.le, ← hvv]
    have hsq : minkowski (n + 1) * minkowski (n + 1) = 1 := by
      rw [minkowski, diagonal_mul_diagonal, ← diagonal_one]
      congr 1
      funext i
      split_ifs <;> norm_num
    obtain ⟨Q, hQ⟩ : ∃ Q, Q = minkowski (n + 1) * ((exp A)ᵀ * minkowski (n + 1)) := ⟨_, rfl⟩
    have hQR : Q * exp A = 1 := by rw [hQ, Matrix.mul_assoc, hR, hsq]
    have hRQ : exp A * Q = 1 := mul_eq_one_comm.1 hQR
    have hQs : Qᵀ * minkowski (n + 1) * Q = minkowski (n + 1) := by
      calc Qᵀ * minkowski (n + 1) * Q = Qᵀ * ((exp A)ᵀ * minkowski (n + 1) * exp A) * Q := by rw [hR]
        _ = (exp A * Q)ᵀ * minkowski (n + 1) * (exp A * Q) := by simp only [transpose_mul, Matrix.mul_assoc]
        _ = minkowski (n + 1) := by rw [hRQ]; simp
    have hQd : Q.det = 1 := by
      have := congrArg Matrix.det hQR
      rw [det_mul, det_exp_of_trace_zero A hAt, mul_one, det_one] at this
      exact this
    have hg : Generated lie disc (Q * h) := by
      refine hfix _ ?_ (by rw [det_mul, hQd, hd, one_mul]) ?_
      · calc (Q * h)ᵀ * minkowski (n + 1) * (Q * h) = hᵀ * (Qᵀ * minkowski (n + 1) * Q) * h := by simp only [transpose_mul, Matrix.mul_assoc]
          _ = minkowski (n + 1) := by rw [hQs, hh]
      · rw [← mulVec_mulVec, ← hv, ← hAv, mulVec_mulVec, hQR, one_mulVec]
    have e : h = exp A * (Q * h) := by rw [← Matrix.mul_assoc, hRQ, Matrix.one_mul]
    rw [e]
    exact .mul (.exp (hL A hA)) hg

end Verif
