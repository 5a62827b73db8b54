import Mathlib.LinearAlgebra.Matrix.NonsingularInverse
import Mathlib.Tactic.FinCases
import Mathlib.Tactic.NormNum
import Verif.Model.Datasets

/-!
# Equivariance of the dataset labels
-/
namespace Verif
open Finset Matrix

/-- The action used by the datasets: the first `off` coordinates fixed, every following block of `d` multiplied by `g`. -/
def blockAct (off : ℕ) {d : ℕ} [NeZero d] (g : Matrix (Fin d) (Fin d) ℝ) (X : ℕ → ℝ) : ℕ → ℝ := fun n =>
  if n < off then X n else ∑ b, g (Fin.ofNat d (n - off)) b * X (off + (n - off) / d * d + b)

theorem block_act {off d : ℕ} [NeZero d] (g : Matrix (Fin d) (Fin d) ℝ) (X : ℕ → ℝ) (i : ℕ) :
    block off d i (blockAct off g X) = g.mulVec (block off d i X) := by
  ext a
  have hd : 0 < d := Nat.pos_of_ne_zero (NeZero.ne d)
  have e1 : off + i * d + a.val - off = i * d + a := by omega
  have e2 : Fin.ofNat d (i * d + a.val) = a := by
    ext
    simp [Fin.ofNat, Nat.mod_eq_of_lt a.2]
  have e3 : (i * d + a.val) / d = i := by
    rw [mul_comm, Nat.mul_add_div hd, Nat.div_eq_of_lt a.2, add_zero]
  simp only [block, blockAct]
  rw [if_neg (by omega), e1, e2, e3]
  rfl

theorem dot_eq {d : ℕ} (v w : Fin d → ℝ) : dot v w = v ⬝ᵥ w := rfl

theorem dot_orth {d : ℕ} {g : Matrix (Fin d) (Fin d) ℝ} (hg : gᵀ * g = 1) (v w : Fin d → ℝ) : dot (g.mulVec v) (g.mulVec w) = dot v w := by
  rw [dot_eq, dot_eq, dotProduct_mulVec, ← mulVec_transpose, mulVec_mulVec, hg, one_mulVec]

/-- C80: rotating or reflecting all positions multiplies the label, as a matrix, by `R` and `Rᵀ`: it transforms by
`R ⊗ R` in row-major order. -/
theorem C80_inertia (k : ℕ) (R : Matrix (Fin 3) (Fin 3) ℝ) (hR : Rᵀ * R = 1) (X : ℕ → ℝ) :
    ∀ a b : Fin 3, inertiaLabel k (blockAct k R X) (a * 3 + b) = ∑ c : Fin 3, ∑ d : Fin 3, R a c * R b d * inertiaLabel k X (c * 3 + d) := by
  have hR' : R * Rᵀ = 1 := mul_eq_one_comm.1 hR
  have hidx : ∀ (X : ℕ → ℝ) (a b : Fin 3), inertiaLabel k X (a * 3 + b) = inertiaMat k X a b := by
    intro X a b
    unfold inertiaLabel
    congr 1 <;> ext <;> simp [Fin.ofNat] <;> omega
  have hm : inertiaMat k (blockAct k R X) = R * inertiaMat k X * Rᵀ := by
    have e : ∀ Y, inertiaMat k Y = ∑ i : Fin k, Y i • (dot (block k 3 i Y) (block k 3 i Y) • (1 : Matrix (Fin 3) (Fin 3) ℝ) - vecMulVec (block k 3 i Y) (block k 3 i Y)) := by
      intro Y
      ext a b
      simp [inertiaMat, Matrix.sum_apply, vecMulVec_apply, one_apply]
    rw [e, e, Matrix.mul_sum, Matrix.sum_mul]
    refine Finset.sum_congr rfl fun i _ => ?_
    have hX : blockAct k R X i = X i := by simp [blockAct]
    rw [block_act, dot_orth hR, hX, Matrix.mul_smul, Matrix.smul_mul, Matrix.mul_sub, Matrix.sub_mul, Matrix.mul_smul, Matrix.smul_mul,
      Matrix.mul_one, hR']
    congr 2
    rw [mul_vecMulVec, vecMulVec_mul, vecMul_transpose]
  intro a b
  simp only [hidx, hm, Matrix.mul_apply, transpose_apply, Finset.sum_mul]
  rw [Finset.sum_comm]
  refine Finset.sum_congr rfl fun c _ => Finset.sum_congr rfl fun d _ => ?_
  ring

/-- The hypotheses are met by a non-trivial rotation, and the label is not constant. -/
example : ∃ R : Matrix (Fin 3) (Fin 3) ℝ, Rᵀ * R = 1 ∧ R ≠ 1 := by
  refine ⟨!![0, -1, 0; 1, 0, 0; 0, 0, -1], ?_, ?_⟩
  · ext i j
    fin_cases i <;> fin_cases j <;> simp [Matrix.mul_apply, Fin.sum_univ_three]
  · intro h
    have := congrFun (congrFun h 0) 0
    simp at this

/-- C81 -/
theorem C81_o5 (R : Matrix (Fin 5) (Fin 5) ℝ) (hR : Rᵀ * R = 1) (X : ℕ → ℝ) : o5Label (blockAct 0 R X) = o5Label X := by
  simp only [o5Label, block_act, dot_orth hR]

/-- C82 -/
theorem C82_particle (g : Matrix (Fin 4) (Fin 4) ℝ) (hg : gᵀ * etaMat * g = etaMat) (X : ℕ → ℝ) :
    particleLabel (blockAct 0 g X) = particleLabel X := by
  have hee : etaMat * etaMat = 1 := by
    ext i j
    fin_cases i <;> fin_cases j <;> simp [etaMat, Matrix.diagonal, Matrix.mul_apply, Fin.sum_univ_four]
  have het : etaMatᵀ = etaMat := diagonal_transpose _
  -- the inverse of g
  have hi : etaMat * gᵀ * etaMat * g = 1 := by rw [Matrix.mul_assoc, Matrix.mul_assoc, ← Matrix.mul_assoc gᵀ, hg, hee]
  have hi' : g * (etaMat * gᵀ * etaMat) = 1 := mul_eq_one_comm.1 hi
  have hg' : g * etaMat * gᵀ = etaMat := by
    have := congrArg (· * etaMat) hi'
    simp only [one_mul] at this
    simpa only [Matrix.mul_assoc, hee, Matrix.mul_one] using this
  have hdot : ∀ v w, etaDot (g.mulVec v) (g.mulVec w) = etaDot v w := by
    intro v w
    simp only [etaDot, dot_eq]
    rw [dotProduct_mulVec, vecMul_vecMul, ← vecMul_transpose g, vecMul_vecMul, ← Matrix.mul_assoc, hg]
  have hlow : ∀ v, vecMul (g.mulVec v) etaMat = vecMul (vecMul v etaMat) (etaMat * gᵀ * etaMat) := by
    intro v
    rw [vecMul_vecMul, ← vecMul_transpose, vecMul_vecMul, ← Matrix.mul_assoc, ← Matrix.mul_assoc, hee, Matrix.one_mul]
  obtain ⟨p1, h1⟩ : ∃ p, p = block 0 4 0 X := ⟨_, rfl⟩
  obtain ⟨p2, h2⟩ : ∃ p, p = block 0 4 1 X := ⟨_, rfl⟩
  obtain ⟨p3, h3⟩ : ∃ p, p = block 0 4 2 X := ⟨_, rfl⟩
  obtain ⟨p4, h4⟩ : ∃ p, p = block 0 4 3 X := ⟨_, rfl⟩
  simp only [particleLabel, block_act, hdot, hlow, ← h1, ← h2, ← h3, ← h4]
  congr 1
  -- the contraction as a trace
  have key : ∀ (u v w z : Fin 4 → ℝ) (c d : ℝ), ∑ a, ∑ b, (u a * v b - c * etaMat a b) * (w a * z b - d * etaMat a b) =
      trace ((vecMulVec u v - c • etaMat) * (vecMulVec w z - d • etaMat)ᵀ) := by
    intro u v w z c d
    simp [trace, Matrix.mul_apply, vecMulVec_apply, mul_comm (z _)]
  have hh : (etaMat * gᵀ * etaMat) = g⁻¹ := (inv_eq_left_inv hi).symm
  rw [key, key]
  have e1 : vecMulVec (g.mulVec p1) (g.mulVec p3) - (etaDot p1 p3 - etaDot p1 p1) • etaMat =
      g * (vecMulVec p1 p3 - (etaDot p1 p3 - etaDot p1 p1) • etaMat) * gᵀ := by
    rw [Matrix.mul_sub, Matrix.sub_mul, Matrix.mul_smul, Matrix.smul_mul, hg', mul_vecMulVec, vecMulVec_mul, vecMul_transpose]
  obtain ⟨h, hh⟩ : ∃ h, h = etaMat * gᵀ * etaMat := ⟨_, rfl⟩
  rw [← hh] at hi hi' ⊢
  have hhe : hᵀ * etaMat * h = etaMat := by
    have : hᵀ = etaMat * g * etaMat := by
      rw [hh]
      simp only [transpose_mul, transpose_transpose, het, Matrix.mul_assoc]
    rw [this, Matrix.mul_assoc (etaMat * g), hee, Matrix.mul_one, Matrix.mul_assoc, hi', Matrix.mul_one]
  have e2 : vecMulVec (vecMul (vecMul p2 etaMat) h) (vecMul (vecMul p4 etaMat) h) - (etaDot p2 p4 - etaDot p2 p2) • etaMat =
      hᵀ * (vecMulVec (vecMul p2 etaMat) (vecMul p4 etaMat) - (etaDot p2 p4 - etaDot p2 p2) • etaMat) * h := by
    rw [Matrix.mul_sub, Matrix.sub_mul, Matrix.mul_smul, Matrix.smul_mul, hhe, mul_vecMulVec, vecMulVec_mul, mulVec_transpose]
  rw [e1, e2]
  simp only [transpose_mul, transpose_transpose]
  have hig : h * g = 1 := hi
  have hgt : gᵀ * hᵀ = 1 := by rw [← transpose_mul, hig, transpose_one]
  obtain ⟨L, hL⟩ : ∃ L, L = vecMulVec p1 p3 - (etaDot p1 p3 - etaDot p1 p1) • etaMat := ⟨_, rfl⟩
  obtain ⟨M, hM⟩ : ∃ M, M = vecMulVec (vecMul p2 etaMat) (vecMul p4 etaMat) - (etaDot p2 p4 - etaDot p2 p2) • etaMat := ⟨_, rfl⟩
  rw [← hL, ← hM]
  calc trace (g * L * gᵀ * (hᵀ * (Mᵀ * h))) = trace (g * (L * ((gᵀ * hᵀ) * (Mᵀ * h)))) := by simp only [Matrix.mul_assoc]
    _ = trace (g * (L * (Mᵀ * h))) := by rw [hgt, Matrix.one_mul]
    _ = trace ((L * (Mᵀ * h)) * g) := trace_mul_comm _ _
    _ = trace (L * Mᵀ * (h * g)) := by simp only [Matrix.mul_assoc]
    _ = trace (L * Mᵀ) := by rw [hig, Matrix.mul_one]

/-- A boost satisfies the hypothesis. -/
example : ∃ g : Matrix (Fin 4) (Fin 4) ℝ, gᵀ * etaMat * g = etaMat ∧ gᵀ * g ≠ 1 := by
  refine ⟨!![5/4, 3/4, 0, 0; 3/4, 5/4, 0, 0; 0, 0, 1, 0; 0, 0, 0, 1], ?_, ?_⟩
  · ext i j
    fin_cases i <;> fin_cases j <;> simp [etaMat, Matrix.mul_apply, Fin.sum_univ_four, Matrix.diagonal] <;> norm_num
  · intro h
    have := congrFun (congrFun h 0) 0
    simp [Matrix.mul_apply, Fin.sum_univ_four] at this
    norm_num at this

end Verif
