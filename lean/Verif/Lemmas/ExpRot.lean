import Mathlib.Analysis.Matrix.Spectrum
import Mathlib.Analysis.Normed.Algebra.MatrixExponential
import Mathlib.Analysis.SpecialFunctions.Trigonometric.Series
import Mathlib.Analysis.SpecialFunctions.Trigonometric.Inverse
import Verif.Lemmas.MatExp

/-!
# Every rotation is an exponential

`exp` maps the antisymmetric matrices onto the orthogonal matrices of determinant one, and the anti-Hermitian matrices onto the unitary
matrices.
-/
namespace Verif
open Matrix NormedSpace

section
variable {𝕜 : Type*} [RCLike 𝕜] {ι : Type*} [Fintype ι] [DecidableEq ι]

/-- The diagonal matrix with these real entries. -/
def rdiag (𝕜 : Type*) [RCLike 𝕜] (f : ι → ℝ) : Matrix ι ι 𝕜 := diagonal fun i => (f i : 𝕜)

theorem rdiag_mul (f g : ι → ℝ) : rdiag 𝕜 f * rdiag 𝕜 g = rdiag 𝕜 fun i => f i * g i := by
  simp [rdiag, diagonal_mul_diagonal]

theorem rdiag_comm {f : ι → ℝ} {J : Matrix ι ι 𝕜} (h : ∀ i j, f i ≠ f j → J i j = 0) : rdiag 𝕜 f * J = J * rdiag 𝕜 f := by
  ext i j
  simp only [rdiag, diagonal_mul, mul_diagonal]
  by_cases e : f i = f j
  · rw [e, mul_comm]
  · rw [h i j e]; simp

set_option backward.isDefEq.respectTransparency false in
open scoped Matrix.Norms.Operator in
/-- `exp(ΘJ) = cos Θ + sin Θ J` if `J` commutes with the diagonal `Θ` and squares to `-1` where `Θ` does not vanish. -/
theorem exp_rot {θ : ι → ℝ} {J : Matrix ι ι 𝕜} (hc : rdiag 𝕜 θ * J = J * rdiag 𝕜 θ) (hJ : rdiag 𝕜 θ * (J * J) = -rdiag 𝕜 θ) :
    exp (rdiag 𝕜 θ * J) = rdiag 𝕜 (fun i => Real.cos (θ i)) + rdiag 𝕜 (fun i => Real.sin (θ i)) * J := by
  have h2 : (rdiag 𝕜 θ * J) * (rdiag 𝕜 θ * J) = -(rdiag 𝕜 θ * rdiag 𝕜 θ) := by
    calc (rdiag 𝕜 θ * J) * (rdiag 𝕜 θ * J) = rdiag 𝕜 θ * ((J * rdiag 𝕜 θ) * J) := by simp only [Matrix.mul_assoc]
      _ = rdiag 𝕜 θ * (rdiag 𝕜 θ * (J * J)) := by rw [← hc]; simp only [Matrix.mul_assoc]
      _ = -(rdiag 𝕜 θ * rdiag 𝕜 θ) := by rw [hJ, Matrix.mul_neg]
  have he : ∀ k : ℕ, (rdiag 𝕜 θ * J) ^ (2 * k) = rdiag 𝕜 fun i => (-1) ^ k * θ i ^ (2 * k) := by
    intro k
    induction k with
    | zero => simp [rdiag]
    | succ k ih =>
      rw [show 2 * (k + 1) = 2 * k + 2 by ring, pow_add, ih, pow_two, h2, Matrix.mul_neg, rdiag_mul, rdiag_mul]
      ext i j
      simp only [rdiag, Matrix.neg_apply, diagonal_apply]
      split_ifs <;> push_cast <;> ring
  have ho : ∀ k : ℕ, (rdiag 𝕜 θ * J) ^ (2 * k + 1) = (rdiag 𝕜 fun i => (-1) ^ k * θ i ^ (2 * k + 1)) * J := by
    intro k
    rw [pow_succ, he, ← Matrix.mul_assoc, rdiag_mul]
    congr 2
    funext i
    ring
  have hs := exp_series_hasSum_exp' (𝕂 := 𝕜) (rdiag 𝕜 θ * J)
  refine hs.unique (HasSum.even_add_odd ?_ ?_)
  · have : HasSum (fun k : ℕ => diagonal fun i => (((-1) ^ k * θ i ^ (2 * k) / (2 * k).factorial : ℝ) : 𝕜)) (rdiag 𝕜 fun i => Real.cos (θ i)) :=
      HasSum.matrix_diagonal (Pi.hasSum.2 fun i => (RCLike.hasSum_ofReal (𝕜 := 𝕜)).2 (Real.hasSum_cos (θ i)))
    refine Eq.mp (congrArg (fun f => HasSum f _) (funext fun k => Eq.symm ?_)) this
    rw [he, rdiag, ← diagonal_smul]
    congr 1
    funext i
    simp only [Pi.smul_apply, smul_eq_mul]
    push_cast
    ring
  · have : HasSum (fun k : ℕ => diagonal fun i => (((-1) ^ k * θ i ^ (2 * k + 1) / (2 * k + 1).factorial : ℝ) : 𝕜)) (rdiag 𝕜 fun i => Real.sin (θ i)) :=
      HasSum.matrix_diagonal (Pi.hasSum.2 fun i => (RCLike.hasSum_ofReal (𝕜 := 𝕜)).2 (Real.hasSum_sin (θ i)))
    have := this.mul_right J
    refine Eq.mp (congrArg (fun f => HasSum f _) (funext fun k => Eq.symm ?_)) this
    rw [ho, rdiag, ← Matrix.smul_mul, ← diagonal_smul]
    congr 2
    funext i
    simp only [Pi.smul_apply, smul_eq_mul]
    push_cast
    ring

/-- A unitary matrix whose Hermitian part is diagonal, with what is needed of its anti-Hermitian part `K`. -/
structure DiagPart (Q : Matrix ι ι 𝕜) (c : ι → ℝ) (K : Matrix ι ι 𝕜) : Prop where
  split : Q = rdiag 𝕜 c + K
  anti : Kᴴ = -K
  comm : ∀ i j, c i ≠ c j → K i j = 0
  sq : K * K = rdiag 𝕜 fun i => c i ^ 2 - 1
  norm : ∀ i, ∑ j, ‖K i j‖ ^ 2 = 1 - c i ^ 2

theorem DiagPart.of_unitary {Q : Matrix ι ι 𝕜} {c : ι → ℝ} (hQ : Qᴴ * Q = 1) (hd : Q + Qᴴ = rdiag 𝕜 fun i => 2 * c i) :
    ∃ K, DiagPart Q c K := by
  have hQ' : Q * Qᴴ = 1 := mul_eq_one_comm.1 hQ
  have hsum : rdiag 𝕜 (fun i => 2 * c i) = (2 : 𝕜) • rdiag 𝕜 c := by
    rw [rdiag, rdiag, ← diagonal_smul]; congr 1; funext i; simp only [RCLike.ofReal_mul, RCLike.ofReal_ofNat, Pi.smul_apply, smul_eq_mul]
  have hrs : (rdiag 𝕜 c)ᴴ = rdiag 𝕜 c := by
    rw [rdiag, diagonal_conjTranspose]; congr 1; funext i; simp
  obtain ⟨K, hK⟩ : ∃ K, K = Q - rdiag 𝕜 c := ⟨_, rfl⟩
  have hQK : Q = rdiag 𝕜 c + K := by rw [hK]; abel
  have hQH : Qᴴ = rdiag 𝕜 c - K := by
    have : Qᴴ = (2 : 𝕜) • rdiag 𝕜 c - Q := by rw [← hsum, ← hd]; abel
    rw [this, hQK, two_smul]; abel
  have hanti : Kᴴ = -K := by rw [hK, conjTranspose_sub, hrs, hQH, hK]; rw [hQK]; abel
  have e1 : (rdiag 𝕜 c - K) * (rdiag 𝕜 c + K) = 1 := by rw [← hQK, ← hQH, hQ]
  have e2 : (rdiag 𝕜 c + K) * (rdiag 𝕜 c - K) = 1 := by rw [← hQK, ← hQH, hQ']
  have hcomm : rdiag 𝕜 c * K = K * rdiag 𝕜 c := by
    have h3 := e1.trans e2.symm
    rw [sub_mul, mul_add, mul_add, add_mul, mul_sub, mul_sub] at h3
    have : (2 : 𝕜) • (rdiag 𝕜 c * K - K * rdiag 𝕜 c) = 0 := by
      have := sub_eq_zero.2 h3
      rw [two_smul]; rw [← this]; abel
    have := (smul_eq_zero.1 this).resolve_left two_ne_zero
    exact sub_eq_zero.1 this
  have hsq : K * K = rdiag 𝕜 fun i => c i ^ 2 - 1 := by
    have h4 : rdiag 𝕜 c * rdiag 𝕜 c - K * K = 1 := by
      rw [← e1, sub_mul, mul_add, mul_add, hcomm]; abel
    have : K * K = rdiag 𝕜 c * rdiag 𝕜 c - 1 := by rw [← h4]; abel
    rw [this, rdiag_mul, rdiag, rdiag, ← diagonal_one, diagonal_sub]
    congr 1; funext i; push_cast; ring
  refine ⟨K, hQK, hanti, fun i j hij => ?_, hsq, fun i => ?_⟩
  · have := congrFun (congrFun hcomm i) j
    simp only [rdiag, diagonal_mul, mul_diagonal] at this
    rw [mul_comm, ← sub_eq_zero, ← mul_sub] at this
    exact (mul_eq_zero.1 this).resolve_right fun h => hij (RCLike.ofReal_injective (sub_eq_zero.1 h))
  · have h5 := congrFun (congrFun hsq i) i
    simp only [rdiag, diagonal_apply_eq, Matrix.mul_apply] at h5
    have h6 : ∀ j, K i j * K j i = ((-‖K i j‖ ^ 2 : ℝ) : 𝕜) := fun j => by
      have h7 := congrFun (congrFun hanti j) i
      rw [conjTranspose_apply, Matrix.neg_apply] at h7
      have h8 : K j i = -star (K i j) := by rw [h7, neg_neg]
      rw [h8, mul_neg, RCLike.star_def, RCLike.mul_conj]; push_cast; ring
    simp only [h6] at h5
    rw [← RCLike.ofReal_sum] at h5
    have h9 := RCLike.ofReal_injective h5
    simp only [Finset.sum_neg_distrib] at h9
    linarith

namespace DiagPart
variable {Q K : Matrix ι ι 𝕜} {c : ι → ℝ}

theorem bound (h : DiagPart Q c K) (i : ι) : c i ^ 2 ≤ 1 := by
  have := h.norm i
  have h0 : 0 ≤ ∑ j, ‖K i j‖ ^ 2 := Finset.sum_nonneg fun j _ => sq_nonneg _
  linarith

theorem row (h : DiagPart Q c K) {i : ι} (hi : c i ^ 2 = 1) (j : ι) : K i j = 0 := by
  have := h.norm i
  rw [hi, sub_self] at this
  have := (Finset.sum_eq_zero_iff_of_nonneg fun j _ => sq_nonneg ‖K i j‖).1 this j (Finset.mem_univ j)
  simpa using this

/-- The logarithm, given a square root `J₀` of `-1` on the eigenspace of `-1`; `e` tells whether to use it. -/
theorem log (h : DiagPart Q c K) {J₀ : Matrix ι ι 𝕜} (h0 : J₀ᴴ = -J₀) (hs : ∀ i j, J₀ i j ≠ 0 → c i = -1 ∧ c j = -1)
    (e : Bool)
    (hsq : J₀ * J₀ = -rdiag 𝕜 fun i => if c i = -1 ∧ e = true then 1 else 0) :
    ∃ A : Matrix ι ι 𝕜, Aᴴ = -A ∧ exp A = (rdiag 𝕜 fun i => if c i = -1 ∧ e = false then 1 else c i) + K := by
  obtain ⟨θ, hθ⟩ : ∃ θ : ι → ℝ, θ = fun i => if c i = -1 ∧ e = false then 0 else Real.arccos (c i) := ⟨_, rfl⟩
  obtain ⟨r, hr⟩ : ∃ r : ι → ℝ, r = fun i => (Real.sqrt (1 - c i ^ 2))⁻¹ := ⟨_, rfl⟩
  obtain ⟨J, hJ⟩ : ∃ J, J = rdiag 𝕜 r * K + J₀ := ⟨_, rfl⟩
  have hθc : ∀ i j, c i = c j → θ i = θ j := fun i j hij => by rw [hθ]; simp only [hij]
  have hrc : ∀ i j, c i = c j → r i = r j := fun i j hij => by rw [hr]; simp only [hij]
  have hJc : ∀ i j, c i ≠ c j → J i j = 0 := fun i j hij => by
    rw [hJ, Matrix.add_apply, rdiag, diagonal_mul, h.comm i j hij, mul_zero, zero_add]
    by_contra h1
    obtain ⟨a, b⟩ := hs i j h1
    exact hij (a.trans b.symm)
  have hθJ : rdiag 𝕜 θ * J = J * rdiag 𝕜 θ := rdiag_comm fun i j hij => hJc i j fun h1 => hij (hθc i j h1)
  have hrK : rdiag 𝕜 r * K = K * rdiag 𝕜 r := rdiag_comm fun i j hij => h.comm i j fun h1 => hij (hrc i j h1)
  have hKJ : K * J₀ = 0 := by
    ext i k
    rw [Matrix.mul_apply, Matrix.zero_apply]
    refine Finset.sum_eq_zero fun j _ => ?_
    by_cases h1 : J₀ j k = 0
    · rw [h1, mul_zero]
    · have hj := (hs j k h1).1
      by_cases h2 : c i = c j
      · rw [h.row (by rw [h2, hj]; norm_num), zero_mul]
      · rw [h.comm i j h2, zero_mul]
  have hJK : J₀ * K = 0 := by
    have := congrArg conjTranspose hKJ
    rw [conjTranspose_mul, h.anti, h0, neg_mul_neg, conjTranspose_zero] at this
    exact this
  have hJJ : J * J = rdiag 𝕜 (fun i => r i * r i * (c i ^ 2 - 1)) - rdiag 𝕜 fun i => if c i = -1 ∧ e = true then 1 else 0 := by
    rw [hJ, add_mul, mul_add, mul_add, Matrix.mul_assoc _ K J₀, hKJ, hrK, ← Matrix.mul_assoc J₀, hJK, ← hrK, hsq]
    have : rdiag 𝕜 r * K * (rdiag 𝕜 r * K) = rdiag 𝕜 fun i => r i * r i * (c i ^ 2 - 1) := by
      calc rdiag 𝕜 r * K * (rdiag 𝕜 r * K) = rdiag 𝕜 r * (K * rdiag 𝕜 r) * K := by simp only [Matrix.mul_assoc]
        _ = rdiag 𝕜 r * rdiag 𝕜 r * (K * K) := by rw [← hrK]; simp only [Matrix.mul_assoc]
        _ = _ := by rw [h.sq, rdiag_mul, rdiag_mul]
    rw [this]; simp [sub_eq_add_neg]
  have hb : ∀ i, -1 ≤ c i ∧ c i ≤ 1 := fun i => abs_le.1 ((sq_le_one_iff_abs_le_one _).1 (h.bound i))
  have h2 : rdiag 𝕜 θ * (J * J) = -rdiag 𝕜 θ := by
    rw [hJJ, Matrix.mul_sub, rdiag_mul, rdiag_mul, rdiag, rdiag, rdiag, diagonal_sub, diagonal_neg]
    congr 1
    funext i
    rw [← RCLike.ofReal_sub]
    have : θ i * (r i * r i * (c i ^ 2 - 1)) - θ i * (if c i = -1 ∧ e = true then 1 else 0) = -θ i := by
      by_cases h1 : c i = -1
      · cases e with
        | true => rw [h1]; norm_num
        | false => rw [show θ i = 0 by rw [hθ]; simp [h1]]; simp
      · rw [if_neg (fun h3 => h1 h3.1), mul_zero, sub_zero]
        by_cases h3 : c i = 1
        · have : θ i = 0 := by rw [hθ]; simp [h3]
          rw [this]; simp
        · have h4 : 0 < 1 - c i ^ 2 := by
            obtain ⟨a, b⟩ := hb i
            have := lt_of_le_of_ne a (Ne.symm h1)
            have := lt_of_le_of_ne b h3
            nlinarith
          have h5 : r i * r i = (1 - c i ^ 2)⁻¹ := by
            rw [hr]; simp only; rw [← mul_inv, Real.mul_self_sqrt h4.le]
          rw [h5, show c i ^ 2 - 1 = -(1 - c i ^ 2) by ring, mul_neg, inv_mul_cancel₀ h4.ne']; ring
    rw [this]; simp
  refine ⟨rdiag 𝕜 θ * J, ?_, ?_⟩
  · have hd : ∀ f : ι → ℝ, (rdiag 𝕜 f)ᴴ = rdiag 𝕜 f := fun f => by
      rw [rdiag, diagonal_conjTranspose]; congr 1; funext i; simp
    have hJa : Jᴴ = -J := by
      rw [hJ, conjTranspose_add, conjTranspose_mul, hd, h.anti, h0, Matrix.neg_mul, ← hrK]; abel
    rw [conjTranspose_mul, hd, hJa, Matrix.neg_mul, hθJ]
  · rw [exp_rot hθJ h2]
    congr 1
    · rw [rdiag, rdiag]; congr 1; funext i
      rw [hθ]; simp only
      by_cases h1 : c i = -1 ∧ e = false
      · rw [if_pos h1, if_pos h1, Real.cos_zero]
      · rw [if_neg h1, if_neg h1, Real.cos_arccos (hb i).1 (hb i).2]
    · ext i j
      rw [rdiag, diagonal_mul, hJ, Matrix.add_apply, rdiag, diagonal_mul]
      by_cases h1 : c i ^ 2 = 1
      · have hsin : Real.sin (θ i) = 0 := by
          rw [hθ]; simp only
          split_ifs
          · exact Real.sin_zero
          · rw [Real.sin_arccos, h1]; simp
        rw [h.row h1, hsin]; simp
      · have hne : c i ≠ -1 := fun h3 => h1 (by rw [h3]; norm_num)
        have hz : J₀ i j = 0 := by
          by_contra h3; exact hne (hs i j h3).1
        have hsin : Real.sin (θ i) = Real.sqrt (1 - c i ^ 2) := by
          rw [hθ]; simp only; rw [if_neg (fun h3 => hne h3.1), Real.sin_arccos]
        have h4 : 0 < 1 - c i ^ 2 := lt_of_le_of_ne (by linarith [h.bound i]) fun h3 => h1 (by linarith)
        rw [hz, add_zero, hsin, hr, ← mul_assoc, ← RCLike.ofReal_mul, mul_inv_cancel₀ (Real.sqrt_pos.2 h4).ne']; simp

end DiagPart

/-- Every unitary matrix is conjugate by a unitary one to a matrix with diagonal Hermitian part. -/
theorem unitary_diagPart {Q : Matrix ι ι 𝕜} (hQ : Qᴴ * Q = 1) : ∃ (U K : Matrix ι ι 𝕜) (c : ι → ℝ), Uᴴ * U = 1 ∧ DiagPart (Uᴴ * Q * U) c K := by
  have hH : ((2⁻¹ : 𝕜) • (Q + Qᴴ)).IsHermitian := by
    rw [IsHermitian, conjTranspose_smul, conjTranspose_add, conjTranspose_conjTranspose, add_comm]
    simp
  obtain ⟨U, hU⟩ : ∃ U : Matrix ι ι 𝕜, U = hH.eigenvectorUnitary := ⟨_, rfl⟩
  have h1 : Uᴴ * U = 1 := by rw [hU]; exact (Matrix.mem_unitaryGroup_iff'.1 hH.eigenvectorUnitary.2)
  have h2 : U * Uᴴ = 1 := mul_eq_one_comm.1 h1
  have hs : (2⁻¹ : 𝕜) • (Q + Qᴴ) = U * rdiag 𝕜 hH.eigenvalues * Uᴴ := by
    conv_lhs => rw [hH.spectral_theorem]
    rw [hU, Unitary.conjStarAlgAut_apply]
    rfl
  obtain ⟨K, hK⟩ := DiagPart.of_unitary (Q := Uᴴ * Q * U) (c := hH.eigenvalues) (by
    simp only [conjTranspose_mul, conjTranspose_conjTranspose]
    calc Uᴴ * (Qᴴ * U) * (Uᴴ * Q * U) = Uᴴ * (Qᴴ * (U * Uᴴ) * Q) * U := by simp only [Matrix.mul_assoc]
      _ = 1 := by rw [h2, Matrix.mul_one, hQ, Matrix.mul_one, h1]) (by
    simp only [conjTranspose_mul, conjTranspose_conjTranspose]
    calc Uᴴ * Q * U + Uᴴ * (Qᴴ * U) = (2 : 𝕜) • (Uᴴ * ((2⁻¹ : 𝕜) • (Q + Qᴴ)) * U) := by
          rw [Matrix.mul_smul, Matrix.smul_mul, smul_smul, mul_inv_cancel₀ two_ne_zero, one_smul]; simp only [Matrix.mul_add, Matrix.add_mul, Matrix.mul_assoc]
      _ = (2 : 𝕜) • rdiag 𝕜 hH.eigenvalues := by
          congr 1
          refine (congrArg (fun X => Uᴴ * X * U) hs).trans ?_
          calc Uᴴ * (U * rdiag 𝕜 hH.eigenvalues * Uᴴ) * U = (Uᴴ * U) * rdiag 𝕜 hH.eigenvalues * (Uᴴ * U) := by simp only [Matrix.mul_assoc]
            _ = _ := by rw [h1, Matrix.one_mul, Matrix.mul_one]
      _ = _ := by rw [rdiag, rdiag, ← diagonal_smul]; congr 1; funext i; simp only [RCLike.ofReal_mul, RCLike.ofReal_ofNat, Pi.smul_apply, smul_eq_mul])
  exact ⟨U, K, _, h1, hK⟩

theorem exp_unconj {Q U A : Matrix ι ι 𝕜} (hU : Uᴴ * U = 1) (hA : Aᴴ = -A) (h : exp A = Uᴴ * Q * U) : ∃ B : Matrix ι ι 𝕜, Bᴴ = -B ∧ exp B = Q := by
  have h2 : U * Uᴴ = 1 := mul_eq_one_comm.1 hU
  have hi : U⁻¹ = Uᴴ := inv_eq_left_inv hU
  refine ⟨U * A * Uᴴ, by simp only [conjTranspose_mul, conjTranspose_conjTranspose, hA]; simp [Matrix.mul_assoc], ?_⟩
  rw [← hi, Matrix.exp_conj U A ⟨⟨U, Uᴴ, h2, hU⟩, rfl⟩, hi, h]
  calc U * (Uᴴ * Q * U) * Uᴴ = (U * Uᴴ) * Q * (U * Uᴴ) := by simp only [Matrix.mul_assoc]
    _ = Q := by rw [h2, Matrix.one_mul, Matrix.mul_one]

end

variable {ι : Type*} [Fintype ι] [DecidableEq ι]

/-- Every unitary matrix is the exponential of an anti-Hermitian matrix. -/
theorem exp_unitary {Q : Matrix ι ι ℂ} (hQ : Qᴴ * Q = 1) : ∃ A : Matrix ι ι ℂ, Aᴴ = -A ∧ exp A = Q := by
  obtain ⟨U, K, c, hU, h⟩ := unitary_diagPart hQ
  obtain ⟨A, hA, he⟩ := h.log (J₀ := diagonal fun i => if c i = -1 then Complex.I else 0) (by
      rw [diagonal_conjTranspose, diagonal_neg]
      congr 1; funext i
      by_cases h1 : c i = -1 <;> simp [h1]) (fun i j hij => by
      rw [diagonal_apply] at hij
      split_ifs at hij with h1 h2
      · exact ⟨h2, h1 ▸ h2⟩
      · exact absurd rfl hij
      · exact absurd rfl hij) true (by
      rw [diagonal_mul_diagonal, rdiag, diagonal_neg]
      congr 1; funext i
      by_cases h1 : c i = -1 <;> simp [h1])
  refine exp_unconj hU hA (he.trans ?_)
  rw [h.split]
  simp

/-- A square root of `-1` on coordinates of even number. -/
theorem exists_pairing (E : Finset ι) (he : Even E.card) : ∃ J : Matrix ι ι ℝ, Jᵀ = -J ∧ (∀ i j, J i j ≠ 0 → i ∈ E ∧ j ∈ E) ∧
    J * J = -diagonal fun i => if i ∈ E then 1 else 0 := by
  obtain ⟨m, hm⟩ := he
  induction m generalizing E with
  | zero =>
    refine ⟨0, by simp, by simp, ?_⟩
    rw [Finset.card_eq_zero.1 (by omega : E.card = 0)]
    simp
  | succ m ih =>
    obtain ⟨a, ha⟩ : E.Nonempty := Finset.card_pos.1 (by omega)
    have h1 := Finset.card_erase_of_mem ha
    obtain ⟨b, hb⟩ : (E.erase a).Nonempty := Finset.card_pos.1 (by omega)
    have h2 := Finset.card_erase_of_mem hb
    obtain ⟨J, j1, j2, j3⟩ := ih ((E.erase a).erase b) (by omega)
    have hab : b ≠ a := Finset.ne_of_mem_erase hb
    have hbE : b ∈ E := Finset.mem_of_mem_erase hb
    have hJa : ∀ i, J i a = 0 ∧ J a i = 0 := fun i => by
      constructor <;> by_contra h <;> simpa using j2 _ _ h
    have hJb : ∀ i, J i b = 0 ∧ J b i = 0 := fun i => by
      constructor <;> by_contra h <;> simpa using j2 _ _ h
    refine ⟨J + (single a b 1 - single b a 1), ?_, fun i j hij => ?_, ?_⟩
    · rw [transpose_add, transpose_sub, transpose_single, transpose_single, j1]; abel
    · by_cases h3 : J i j = 0
      · rw [Matrix.add_apply, h3, zero_add, Matrix.sub_apply, single_apply, single_apply] at hij
        split_ifs at hij with h4 h5 h5
        · exact ⟨h4.1 ▸ ha, h4.2 ▸ hbE⟩
        · exact ⟨h4.1 ▸ ha, h4.2 ▸ hbE⟩
        · exact ⟨h5.1 ▸ hbE, h5.2 ▸ ha⟩
        · simp at hij
      · have := j2 i j h3
        simp only [Finset.mem_erase] at this
        exact ⟨this.1.2.2, this.2.2.2⟩
    · have e1 : J * (single a b 1 - single b a 1) = 0 := by
        ext i j
        rw [Matrix.mul_sub, Matrix.sub_apply, Matrix.mul_apply, Matrix.mul_apply]
        simp only [single_apply]
        rw [Finset.sum_eq_zero, Finset.sum_eq_zero] <;> simp
        · rintro rfl; exact (hJb i).1
        · rintro rfl; exact (hJa i).1
      have e2 : (single a b 1 - single b a 1) * J = 0 := by
        have := congrArg transpose e1
        rw [transpose_mul, transpose_sub, transpose_single, transpose_single, j1, Matrix.mul_neg, transpose_zero] at this
        rw [← neg_eq_zero, ← Matrix.neg_mul, ← neg_eq_zero]
        rw [← this, neg_sub]
      rw [Matrix.add_mul, Matrix.mul_add, Matrix.mul_add, e1, e2, j3, Matrix.sub_mul, Matrix.mul_sub, Matrix.mul_sub, single_mul_single_same,
        single_mul_single_same, single_mul_single_of_ne _ _ _ _ hab, single_mul_single_of_ne _ _ _ _ hab.symm]
      ext i j
      simp only [Matrix.add_apply, Matrix.sub_apply, Matrix.neg_apply, diagonal_apply, single_apply, Matrix.zero_apply, Finset.mem_erase]
      by_cases hij : i = j
      · subst hij
        by_cases h4 : i = a
        · subst h4; simp [ha, hab, hab.symm]
        · by_cases h5 : i = b
          · subst h5; simp [hbE, hab, hab.symm, h4]
          · simp [h4, h5, Ne.symm h4, Ne.symm h5, eq_comm]
      · have h6 : ¬ (a = i ∧ a = j) := fun h => hij (h.1.symm.trans h.2)
        have h7 : ¬ (b = i ∧ b = j) := fun h => hij (h.1.symm.trans h.2)
        simp [hij, h6, h7]

/-- Every orthogonal matrix of determinant one is the exponential of an antisymmetric matrix. -/
theorem exp_specialOrthogonal {Q : Matrix ι ι ℝ} (hQ : Qᵀ * Q = 1) (hd : Q.det = 1) : ∃ A : Matrix ι ι ℝ, Aᵀ = -A ∧ exp A = Q := by
  have hT : ∀ M : Matrix ι ι ℝ, Mᴴ = Mᵀ := fun M => conjTranspose_eq_transpose_of_trivial M
  obtain ⟨U, K, c, hU, h⟩ := unitary_diagPart (𝕜 := ℝ) (by rw [hT]; exact hQ)
  obtain ⟨E, hE⟩ : ∃ E : Finset ι, E = Finset.univ.filter fun i => c i = -1 := ⟨_, rfl⟩
  have hmem : ∀ i, i ∈ E ↔ c i = -1 := fun i => by rw [hE]; simp
  have hpar : Even E.card := by
    obtain ⟨A, hA, he⟩ := h.log (J₀ := 0) (by simp) (by simp) false (by simp [rdiag])
    have hsplit : Uᴴ * Q * U = exp A * diagonal fun i => if c i = -1 then -1 else 1 := by
      rw [he, h.split, Matrix.add_mul]
      congr 1
      · rw [rdiag, rdiag, diagonal_mul_diagonal]
        congr 1; funext i
        by_cases h1 : c i = -1 <;> simp [h1]
      · ext i j
        rw [mul_diagonal]
        by_cases h1 : c j = -1
        · have : K i j = 0 := by
            by_cases h2 : c i = c j
            · exact h.row (by rw [h2, h1]; norm_num) j
            · exact h.comm i j h2
          rw [this, zero_mul]
        · rw [if_neg h1, mul_one]
    have hdet := congrArg det hsplit
    have hUd : Uᴴ.det * U.det = 1 := by rw [← det_mul, hU, det_one]
    have htr : A.trace = 0 := by
      have := congrArg trace hA
      rw [hT, trace_transpose, trace_neg] at this
      linarith
    rw [det_mul, det_mul, hd, mul_one, hUd, det_mul, det_exp_of_trace_zero A htr, one_mul, det_diagonal, Finset.prod_ite, Finset.prod_const_one, mul_one,
      Finset.prod_const, ← hE] at hdet
    rcases Nat.even_or_odd E.card with h1 | h1
    · exact h1
    · rw [h1.neg_one_pow] at hdet; norm_num at hdet
  obtain ⟨J, j1, j2, j3⟩ := exists_pairing E hpar
  obtain ⟨A, hA, he⟩ := h.log (J₀ := J) (by rw [hT]; exact j1) (fun i j hij => ⟨(hmem i).1 (j2 i j hij).1, (hmem j).1 (j2 i j hij).2⟩) true (by
    rw [j3, rdiag]
    congr 2; funext i
    by_cases h1 : c i = -1 <;> simp [hmem, h1])
  obtain ⟨B, b1, b2⟩ := exp_unconj hU hA (he.trans (by rw [h.split]; simp))
  exact ⟨B, by rw [← hT]; exact b1, b2⟩

end Verif
