import Mathlib.Analysis.Matrix.Spectrum
import Mathlib.Analysis.SpecialFunctions.Sqrt
import Mathlib.Analysis.Matrix.PosDef
import Mathlib.Tactic.Linarith
import Mathlib.Tactic.Ring
import Mathlib.Tactic.Positivity

/-!
# Scalar recursions of gradient descent with momentum
-/
namespace Verif

/-- `x(t+1) = r x(t) + e(t)` with `|r|` and the decay rate of `e` below one. -/
theorem geom_forced {x : ℕ → ℝ} {r K ρ : ℝ} (hr : |r| ≤ ρ) (hρ : ρ < 1) (h : ∀ t, |x (t + 1) - r * x t| ≤ K * ρ ^ t) :
    ∃ K' ρ', 0 ≤ ρ' ∧ ρ' < 1 ∧ ∀ t, |x t| ≤ K' * ρ' ^ t := by
  have h0 : 0 ≤ ρ := (abs_nonneg r).trans hr
  have hK : 0 ≤ K := by simpa using (abs_nonneg _).trans (h 0)
  obtain ⟨σ, hσ⟩ : ∃ σ, σ = (1 + ρ) / 2 := ⟨_, rfl⟩
  have hd : 0 < σ - ρ := by rw [hσ]; linarith
  have hσ0 : 0 ≤ σ := by linarith
  refine ⟨|x 0| + K / (σ - ρ), σ, hσ0, by rw [hσ]; linarith, fun t => ?_⟩
  have hK' : 0 ≤ |x 0| + K / (σ - ρ) := by positivity
  induction t with
  | zero => simp only [pow_zero, mul_one]; have := div_nonneg hK hd.le; linarith
  | succ t ih =>
    have h1 : |x (t + 1)| ≤ |x (t + 1) - r * x t| + |r * x t| := by
      have := abs_add_le (x (t + 1) - r * x t) (r * x t)
      simpa using this
    have h2 : |r * x t| ≤ ρ * ((|x 0| + K / (σ - ρ)) * σ ^ t) := by
      rw [abs_mul]
      exact mul_le_mul hr ih (abs_nonneg _) h0
    have h3 : K * ρ ^ t ≤ K * σ ^ t := mul_le_mul_of_nonneg_left (pow_le_pow_left₀ h0 (by linarith) t) hK
    have h4 : K ≤ (|x 0| + K / (σ - ρ)) * (σ - ρ) := by
      rw [add_mul, div_mul_cancel₀ _ hd.ne']
      have := mul_nonneg (abs_nonneg (x 0)) hd.le
      linarith
    have h5 : K * σ ^ t ≤ (|x 0| + K / (σ - ρ)) * (σ - ρ) * σ ^ t := mul_le_mul_of_nonneg_right h4 (pow_nonneg hσ0 t)
    calc |x (t + 1)| ≤ (|x 0| + K / (σ - ρ)) * (σ - ρ) * σ ^ t + ρ * ((|x 0| + K / (σ - ρ)) * σ ^ t) := by linarith [h t]
      _ = (|x 0| + K / (σ - ρ)) * σ ^ (t + 1) := by rw [pow_succ]; ring

/-- The characteristic roots when they are real. -/
theorem real_roots {a β : ℝ} (hD : 0 ≤ a ^ 2 - 4 * β) : ∃ r₁ r₂ : ℝ, r₁ + r₂ = a ∧ r₁ * r₂ = β ∧ r₂ ≤ r₁ := by
  refine ⟨(a + √(a ^ 2 - 4 * β)) / 2, (a - √(a ^ 2 - 4 * β)) / 2, by ring, ?_, ?_⟩
  · have := Real.mul_self_sqrt hD
    linear_combination (-1 / 4) * this
  · have := Real.sqrt_nonneg (a ^ 2 - 4 * β)
    linarith

theorem root_factor {x : ℕ → ℝ} {a β r₁ r₂ : ℝ} (h1 : r₁ + r₂ = a) (h2 : r₁ * r₂ = β) (h : ∀ t, x (t + 2) = a * x (t + 1) - β * x t) (t : ℕ) :
    x (t + 1) - r₁ * x t = r₂ ^ t * (x 1 - r₁ * x 0) := by
  induction t with
  | zero => simp
  | succ t ih =>
    rw [h, pow_succ, mul_right_comm, ← ih, ← h1, ← h2]
    ring

/-- Momentum `β` and curvature `η` below `2(1+β)`: exponential decay. -/
theorem heavy_ball {x : ℕ → ℝ} {β η : ℝ} (hβ : 0 < β) (hβ' : β < 1) (hη : 0 < η) (hη' : η < 2 * (1 + β))
    (h : ∀ t, x (t + 2) = (1 + β - η) * x (t + 1) - β * x t) : ∃ K ρ, 0 ≤ ρ ∧ ρ < 1 ∧ ∀ t, |x t| ≤ K * ρ ^ t := by
  obtain ⟨a, ha⟩ : ∃ a, a = 1 + β - η := ⟨_, rfl⟩
  rw [← ha] at h
  by_cases hD : 0 ≤ a ^ 2 - 4 * β
  · obtain ⟨r₁, r₂, e1, e2, -⟩ := real_roots hD
    have p1 : 0 < (1 - r₁) * (1 - r₂) := by nlinarith
    have p2 : 0 < (1 + r₁) * (1 + r₂) := by nlinarith
    have b : ∀ r s : ℝ, r * s = β → 0 < (1 - r) * (1 - s) → 0 < (1 + r) * (1 + s) → |r| < 1 := by
      intro r s e p1 p2
      rw [abs_lt]
      constructor
      · by_contra hc
        push Not at hc
        rcases pos_and_pos_or_neg_and_neg_of_mul_pos p2 with ⟨q1, q2⟩ | ⟨q1, q2⟩ <;> nlinarith
      · by_contra hc
        push Not at hc
        rcases pos_and_pos_or_neg_and_neg_of_mul_pos p1 with ⟨q1, q2⟩ | ⟨q1, q2⟩ <;> nlinarith
    have b1 := b r₁ r₂ e2 p1 p2
    have b2 := b r₂ r₁ (by rw [mul_comm]; exact e2) (by rw [mul_comm]; exact p1) (by rw [mul_comm]; exact p2)
    refine geom_forced (r := r₁) (K := |x 1 - r₁ * x 0|) (ρ := max |r₁| |r₂|) (le_max_left _ _) (max_lt b1 b2) fun t => ?_
    rw [root_factor e1 e2 h, abs_mul, abs_pow, mul_comm]
    exact mul_le_mul_of_nonneg_left (pow_le_pow_left₀ (abs_nonneg _) (le_max_right _ _) t) (abs_nonneg _)
  · push Not at hD
    obtain ⟨q, hq⟩ : ∃ q : ℕ → ℝ, q = fun t => x (t + 1) ^ 2 - a * x (t + 1) * x t + β * x t ^ 2 := ⟨_, rfl⟩
    have hstep : ∀ t, q t = β ^ t * q 0 := by
      intro t
      induction t with
      | zero => simp
      | succ t ih =>
        rw [pow_succ, mul_right_comm, ← ih, hq]
        simp only
        rw [h]
        ring
    obtain ⟨δ, hδ⟩ : ∃ δ, δ = β - a ^ 2 / 4 := ⟨_, rfl⟩
    have hδ0 : 0 < δ := by rw [hδ]; linarith
    have hlow : ∀ t, δ * x t ^ 2 ≤ q t := by
      intro t
      rw [hq, hδ]
      simp only
      nlinarith [sq_nonneg (x (t + 1) - a / 2 * x t)]
    refine ⟨√(q 0 / δ), √β, Real.sqrt_nonneg _, by rw [← Real.sqrt_one]; exact Real.sqrt_lt_sqrt hβ.le hβ', fun t => ?_⟩
    have h1 : x t ^ 2 ≤ q 0 / δ * β ^ t := by
      rw [div_mul_eq_mul_div, le_div_iff₀ hδ0, mul_comm, mul_comm (q 0), ← hstep]
      exact hlow t
    rw [← Real.sqrt_sq_eq_abs]
    refine (Real.sqrt_le_sqrt h1).trans ?_
    have hq0 : 0 ≤ q 0 / δ := div_nonneg ((mul_nonneg hδ0.le (sq_nonneg _)).trans (hlow 0)) hδ0.le
    rw [Real.sqrt_mul hq0]
    refine mul_le_mul_of_nonneg_left (le_of_eq ?_) (Real.sqrt_nonneg _)
    rw [Real.sqrt_eq_iff_mul_self_eq (by positivity) (by positivity), ← mul_pow, Real.mul_self_sqrt hβ.le]

/-- Curvature above `2(1+β)`: the iterates started at rest are unbounded. -/
theorem heavy_ball_diverges {x : ℕ → ℝ} {β η : ℝ} (hβ : 0 < β) (hη' : 2 * (1 + β) < η) (hx : x 0 ≠ 0) (h0 : x 1 = (1 - η) * x 0)
    (h : ∀ t, x (t + 2) = (1 + β - η) * x (t + 1) - β * x t) (B : ℝ) : ∃ t, B < |x t| := by
  obtain ⟨a, ha⟩ : ∃ a, a = 1 + β - η := ⟨_, rfl⟩
  rw [← ha] at h
  have ha' : a < -(1 + β) := by rw [ha]; linarith
  have hD : 0 ≤ a ^ 2 - 4 * β := by nlinarith [sq_nonneg (1 - β)]
  obtain ⟨r₁, r₂, e1, e2, hle⟩ := real_roots hD
  have hneg : (1 + r₁) * (1 + r₂) < 0 := by nlinarith
  have hr2 : r₂ < -1 := by
    rcases mul_neg_iff.1 hneg with ⟨q1, q2⟩ | ⟨q1, q2⟩ <;> linarith
  have hr1 : r₁ < 0 := by nlinarith
  have key : ∀ t, x (t + 1) - r₁ * x t = r₂ ^ (t + 1) * ((1 - r₁) * x 0) := by
    intro t
    have e : 1 - η = r₁ + r₂ - r₁ * r₂ := by rw [e1, e2, ha]; ring
    rw [root_factor e1 e2 h, h0, e, pow_succ]
    ring
  by_contra hc
  push Not at hc
  have hB : 0 ≤ B := (abs_nonneg _).trans (hc 0)
  have hpos : 0 < |(1 - r₁) * x 0| := by
    rw [abs_pos]
    exact mul_ne_zero (by linarith) hx
  obtain ⟨t, ht⟩ := pow_unbounded_of_one_lt (((1 + |r₁|) * B) / |(1 - r₁) * x 0|) (y := |r₂|) (by rw [abs_of_neg (by linarith)]; linarith)
  have h1 : |x (t + 1) - r₁ * x t| ≤ (1 + |r₁|) * B := by
    refine (abs_sub _ _).trans ?_
    rw [abs_mul, add_mul, one_mul]
    exact add_le_add (hc _) (mul_le_mul_of_nonneg_left (hc t) (abs_nonneg _))
  rw [key, abs_mul, abs_pow] at h1
  rw [div_lt_iff₀ hpos] at ht
  have h2 : |r₂| ^ t ≤ |r₂| ^ (t + 1) := pow_le_pow_right₀ (by rw [abs_of_neg (by linarith)]; linarith) (by omega)
  nlinarith

/-- A basis of eigenvectors of `CᵀC`. -/
theorem gram_diag {c n : ℕ} (C : Matrix (Fin c) (Fin n) ℝ) : ∃ (U : Matrix (Fin n) (Fin n) ℝ) (l : Fin n → ℝ),
    U.transpose * U = 1 ∧ U * U.transpose = 1 ∧ U.transpose * (C.transpose * C) = Matrix.diagonal l * U.transpose := by
  have hA : (C.transpose * C).IsHermitian := by
    rw [Matrix.IsHermitian, Matrix.conjTranspose_eq_transpose_of_trivial, Matrix.transpose_mul, Matrix.transpose_transpose]
  have h1 := (Unitary.mem_iff.1 hA.eigenvectorUnitary.2)
  have e : star (hA.eigenvectorUnitary : Matrix (Fin n) (Fin n) ℝ) = (hA.eigenvectorUnitary : Matrix (Fin n) (Fin n) ℝ).transpose := by
    rw [Matrix.star_eq_conjTranspose, Matrix.conjTranspose_eq_transpose_of_trivial]
  rw [e] at h1
  refine ⟨hA.eigenvectorUnitary, hA.eigenvalues, h1.1, h1.2, ?_⟩
  have h2 := hA.spectral_theorem
  rw [Unitary.conjStarAlgAut_apply, e] at h2
  refine (congrArg (fun X => (hA.eigenvectorUnitary : Matrix (Fin n) (Fin n) ℝ).transpose * X) h2).trans ?_
  show (hA.eigenvectorUnitary : Matrix (Fin n) (Fin n) ℝ).transpose * _ = _
  rw [← mul_assoc, ← mul_assoc, h1.1, one_mul]
  rfl

end Verif
