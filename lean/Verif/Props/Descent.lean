import Verif.Model.Descent
import Verif.Lemmas.HeavyBall
import Mathlib.Analysis.Calculus.Deriv.Add
import Mathlib.Analysis.Calculus.Deriv.Mul
import Mathlib.Analysis.Calculus.Deriv.Pow
import Mathlib.LinearAlgebra.Matrix.Rank

/-!
# C96: the descent of the iterative solver
-/
namespace Verif
open Matrix

section
variable {c n r : ℕ} {C : Matrix (Fin c) (Fin n) ℝ} {W₀ : Matrix (Fin n) (Fin r) ℝ} {lr : ℝ}

/-- The closed form used in the model is the gradient of the loss. -/
theorem descentLoss_deriv (C : Matrix (Fin c) (Fin n) ℝ) (W H : Matrix (Fin n) (Fin r) ℝ) :
    HasDerivAt (fun s : ℝ => descentLoss C (W + s • H)) (∑ i, ∑ j, descentGrad C W i j * H i j) 0 := by
  have e : ∑ i, ∑ j, descentGrad C W i j * H i j = (∑ i, ∑ j, 2 * ((C * W) i j * (C * H) i j)) / 2 := by
    have h1 : ∑ i, ∑ j, descentGrad C W i j * H i j = ((descentGrad C W).transpose * H).trace := by
      rw [Finset.sum_comm]
      simp [Matrix.trace, Matrix.mul_apply]
    have h2 : ∑ i, ∑ j, (C * W) i j * (C * H) i j = ((C * W).transpose * (C * H)).trace := by
      rw [Finset.sum_comm]
      refine Finset.sum_congr rfl fun i _ => ?_
      rw [Matrix.diag_apply, Matrix.mul_apply]
      rfl
    simp only [← Finset.mul_sum]
    rw [h1, h2, descentGrad, Matrix.transpose_mul, Matrix.transpose_transpose, Matrix.mul_assoc]
    ring
  rw [e]
  unfold descentLoss
  refine HasDerivAt.div_const (HasDerivAt.fun_sum fun i _ => HasDerivAt.fun_sum fun j _ => ?_) 2
  have e2 : (fun s : ℝ => |(C * (W + s • H)) i j| ^ 2) = fun s => ((C * W) i j + s * (C * H) i j) ^ 2 := by
    funext s
    rw [sq_abs, Matrix.mul_add, Matrix.mul_smul]
    simp
  rw [e2]
  have h := (((hasDerivAt_id (0 : ℝ)).mul_const ((C * H) i j)).const_add ((C * W) i j)).pow 2
  simp only [id] at h
  refine h.congr_deriv ?_
  simp
  ring

theorem descent_two (lr : ℝ) (C : Matrix (Fin c) (Fin n) ℝ) (W₀ : Matrix (Fin n) (Fin r) ℝ) (t : ℕ) :
    (descentRun lr C W₀ (t + 2)).W = (descentRun lr C W₀ (t + 1)).W - lr • (C.transpose * C * (descentRun lr C W₀ (t + 1)).W)
      + (0.9 : ℝ) • ((descentRun lr C W₀ (t + 1)).W - (descentRun lr C W₀ t).W) := by
  have h1 : (descentRun lr C W₀ (t + 1)).W - (descentRun lr C W₀ t).W = -(lr • (descentRun lr C W₀ (t + 1)).m) := by
    show (descentRun lr C W₀ t).W - lr • (descentRun lr C W₀ (t + 1)).m - (descentRun lr C W₀ t).W = _
    abel
  rw [h1]
  show (descentRun lr C W₀ (t + 1)).W - lr • (descentGrad C (descentRun lr C W₀ (t + 1)).W + (0.9 : ℝ) • (descentRun lr C W₀ (t + 1)).m) = _
  rw [descentGrad, ← Matrix.mul_assoc, smul_add, smul_comm lr (0.9 : ℝ), smul_neg]
  abel

theorem descent_one (lr : ℝ) (C : Matrix (Fin c) (Fin n) ℝ) (W₀ : Matrix (Fin n) (Fin r) ℝ) :
    (descentRun lr C W₀ 1).W = W₀ - lr • (C.transpose * C * W₀) := by
  show W₀ - lr • (descentGrad C W₀ + (0.9 : ℝ) • 0) = _
  rw [descentGrad, smul_zero, add_zero, Matrix.mul_assoc]

/-- **C96.** No solution is ever lost or gained: the products of the iterates with a solution of the constraint are those of the start. -/
theorem C96_keeps_solutions (lr : ℝ) (C : Matrix (Fin c) (Fin n) ℝ) (W₀ : Matrix (Fin n) (Fin r) ℝ) {x : Fin n → ℝ} (hx : C *ᵥ x = 0) (t : ℕ) :
    x ᵥ* (descentRun lr C W₀ t).W = x ᵥ* W₀ := by
  have hg : ∀ W : Matrix (Fin n) (Fin r) ℝ, x ᵥ* descentGrad C W = 0 := by
    intro W
    rw [descentGrad, ← Matrix.vecMul_vecMul, Matrix.vecMul_transpose, hx, Matrix.zero_vecMul]
  have hm : ∀ t, x ᵥ* (descentRun lr C W₀ t).m = 0 := by
    intro t
    induction t with
    | zero => exact Matrix.vecMul_zero _
    | succ t ih =>
      show x ᵥ* (descentGrad C (descentRun lr C W₀ t).W + (0.9 : ℝ) • (descentRun lr C W₀ t).m) = 0
      rw [Matrix.vecMul_add, hg, Matrix.vecMul_smul, ih, smul_zero, add_zero]
  induction t with
  | zero => rfl
  | succ t ih =>
    show x ᵥ* ((descentRun lr C W₀ t).W - lr • (descentRun lr C W₀ (t + 1)).m) = _
    rw [Matrix.vecMul_sub, Matrix.vecMul_smul, hm, smul_zero, sub_zero, ih]

/-- The coordinates of the iterates in a basis of eigenvectors of `CᵀC`. -/
theorem descent_coord {U : Matrix (Fin n) (Fin n) ℝ} {l : Fin n → ℝ} (hU : U.transpose * (C.transpose * C) = Matrix.diagonal l * U.transpose)
    (i : Fin n) (j : Fin r) :
    (U.transpose * (descentRun lr C W₀ 1).W) i j = (1 - lr * l i) * (U.transpose * W₀) i j ∧
    ∀ t, (U.transpose * (descentRun lr C W₀ (t + 2)).W) i j =
      (1 + 0.9 - lr * l i) * (U.transpose * (descentRun lr C W₀ (t + 1)).W) i j - 0.9 * (U.transpose * (descentRun lr C W₀ t).W) i j := by
  have e : ∀ W : Matrix (Fin n) (Fin r) ℝ, (U.transpose * (C.transpose * C * W)) i j = l i * (U.transpose * W) i j := by
    intro W
    rw [← Matrix.mul_assoc, hU, Matrix.mul_assoc, Matrix.diagonal_mul]
  constructor
  · rw [descent_one, Matrix.mul_sub, Matrix.mul_smul, Matrix.sub_apply, Matrix.smul_apply, e, smul_eq_mul]
    ring
  · intro t
    rw [descent_two, Matrix.mul_add, Matrix.mul_sub, Matrix.mul_smul, Matrix.mul_smul, Matrix.mul_sub, Matrix.add_apply, Matrix.sub_apply,
      Matrix.smul_apply, Matrix.smul_apply, Matrix.sub_apply, e, smul_eq_mul, smul_eq_mul]
    ring

theorem eigen_norm {U : Matrix (Fin n) (Fin n) ℝ} {l : Fin n → ℝ} (h1 : U.transpose * U = 1)
    (hU : U.transpose * (C.transpose * C) = Matrix.diagonal l * U.transpose) (i : Fin n) :
    (C *ᵥ (U.transpose i)) ⬝ᵥ (C *ᵥ (U.transpose i)) = l i ∧ (U.transpose i) ⬝ᵥ (U.transpose i) = 1 := by
  have e1 : (U.transpose i) ⬝ᵥ (U.transpose i) = 1 := by
    have := congrFun (congrFun h1 i) i
    rw [Matrix.mul_apply, Matrix.one_apply_eq] at this
    exact this
  refine ⟨?_, e1⟩
  have h2 : (U.transpose i) ᵥ* (C.transpose * C) = l i • U.transpose i := by
    funext k
    have := congrFun (congrFun hU i) k
    rw [Matrix.diagonal_mul] at this
    exact this
  rw [Matrix.dotProduct_mulVec, ← Matrix.vecMul_transpose, Matrix.vecMul_vecMul, h2, smul_dotProduct, e1, smul_eq_mul, mul_one]

/-- **C96.** If the learning rate times the square of the norm of `C` is below 3.8, the iterates converge, at an exponential rate, to the
orthogonal projection of the start to the solutions of the constraint: its columns are solutions and its products with solutions are those of the start. -/
theorem C96_converges (hlr : 0 < lr) (hC : ∀ x : Fin n → ℝ, x ≠ 0 → lr * ((C *ᵥ x) ⬝ᵥ (C *ᵥ x)) < 3.8 * (x ⬝ᵥ x)) (W₀ : Matrix (Fin n) (Fin r) ℝ) :
    ∃ L : Matrix (Fin n) (Fin r) ℝ, C * L = 0 ∧ (∀ x, C *ᵥ x = 0 → x ᵥ* L = x ᵥ* W₀) ∧
      ∃ K ρ, 0 ≤ ρ ∧ ρ < 1 ∧ ∀ t i j, |(descentRun lr C W₀ t).W i j - L i j| ≤ K * ρ ^ t := by
  classical
  obtain ⟨U, l, h1, h2, h3⟩ := gram_diag C
  have hl : ∀ i, 0 ≤ l i := fun i => by
    rw [← (eigen_norm h1 h3 i).1]
    exact Finset.sum_nonneg fun k _ => mul_self_nonneg _
  have hl' : ∀ i, lr * l i < 3.8 := fun i => by
    obtain ⟨e1, e2⟩ := eigen_norm h1 h3 i
    have := hC (U.transpose i) (fun h0 => by rw [h0] at e2; simp at e2)
    rw [e1, e2, mul_one] at this
    exact this
  have hz : ∀ i, l i = 0 → C *ᵥ (U.transpose i) = 0 := fun i hi => by
    have := (eigen_norm h1 h3 i).1
    rw [hi] at this
    exact dotProduct_self_eq_zero.1 this
  have hzz : ∀ x, C *ᵥ x = 0 → ∀ i, l i ≠ 0 → (U.transpose *ᵥ x) i = 0 := fun x hx i hi => by
    have : (U.transpose * (C.transpose * C)) *ᵥ x = 0 := by
      rw [← Matrix.mulVec_mulVec, ← Matrix.mulVec_mulVec, hx, Matrix.mulVec_zero, Matrix.mulVec_zero]
    rw [h3, ← Matrix.mulVec_mulVec] at this
    have := congrFun this i
    rw [Matrix.mulVec_diagonal] at this
    exact (mul_eq_zero.1 this).resolve_left hi
  obtain ⟨E, hE⟩ : ∃ E : Matrix (Fin n) (Fin r) ℝ, E = Matrix.of fun i j => if l i = 0 then (U.transpose * W₀) i j else 0 := ⟨_, rfl⟩
  have hCU : ∀ k i, l i = 0 → (C * U) k i = 0 := fun k i hi => congrFun (hz i hi) k
  refine ⟨U * E, ?_, ?_, ?_⟩
  · ext k j
    rw [← Matrix.mul_assoc, Matrix.mul_apply]
    refine Finset.sum_eq_zero fun i _ => ?_
    by_cases hi : l i = 0
    · rw [hCU k i hi, zero_mul]
    · rw [hE, Matrix.of_apply, if_neg hi, mul_zero]
  · intro x hx
    have e : x ᵥ* W₀ = (x ᵥ* U) ᵥ* (U.transpose * W₀) := by
      rw [Matrix.vecMul_vecMul, ← Matrix.mul_assoc, h2, Matrix.one_mul]
    rw [e, ← Matrix.vecMul_vecMul]
    funext j
    simp only [Matrix.vecMul, dotProduct]
    refine Finset.sum_congr rfl fun i _ => ?_
    by_cases hi : l i = 0
    · rw [hE, Matrix.of_apply, if_pos hi]
    · have := hzz x hx i hi
      rw [Matrix.mulVec_transpose] at this
      simp only [Matrix.vecMul, dotProduct] at this
      rw [this, zero_mul, zero_mul]
  · have hconv : ∀ i j, ∃ K ρ, 0 ≤ ρ ∧ ρ < 1 ∧ ∀ t, |(U.transpose * (descentRun lr C W₀ t).W) i j - E i j| ≤ K * ρ ^ t := by
      intro i j
      by_cases hi : l i = 0
      · refine ⟨0, 0, le_refl _, by norm_num, fun t => ?_⟩
        have : (U.transpose * (descentRun lr C W₀ t).W) i j = E i j := by
          rw [hE, Matrix.of_apply, if_pos hi]
          exact congrFun (C96_keeps_solutions lr C W₀ (hz i hi) t) j
        rw [this, sub_self, abs_zero, zero_mul]
      · obtain ⟨-, hrec⟩ := descent_coord (lr := lr) (W₀ := W₀) h3 i j
        obtain ⟨K, ρ, a1, a2, a3⟩ := heavy_ball (x := fun t => (U.transpose * (descentRun lr C W₀ t).W) i j) (β := 0.9) (η := lr * l i)
          (by norm_num) (by norm_num) (mul_pos hlr (lt_of_le_of_ne (hl i) (Ne.symm hi))) (by have := hl' i; norm_num at *; linarith) hrec
        refine ⟨K, ρ, a1, a2, fun t => ?_⟩
        rw [hE, Matrix.of_apply, if_neg hi, sub_zero]
        exact a3 t
    choose K ρ p1 p2 p3 using hconv
    obtain ⟨σ, s1, s2, s3⟩ : ∃ σ : ℝ, 0 ≤ σ ∧ σ < 1 ∧ ∀ i j, ρ i j ≤ σ := by
      obtain ⟨s, hs⟩ : ∃ s : Finset ℝ, s = insert 0 (Finset.univ.image fun p : Fin n × Fin r => ρ p.1 p.2) := ⟨_, rfl⟩
      have hne : s.Nonempty := ⟨0, by rw [hs]; exact Finset.mem_insert_self _ _⟩
      refine ⟨s.max' hne, s.le_max' _ (by rw [hs]; exact Finset.mem_insert_self _ _), ?_, fun i j => s.le_max' _ ?_⟩
      · have := s.max'_mem hne
        obtain ⟨m, hm⟩ : ∃ m, m = s.max' hne := ⟨_, rfl⟩
        rw [← hm] at this ⊢
        rw [hs, Finset.mem_insert, Finset.mem_image] at this
        rcases this with h | ⟨p, -, h⟩
        · rw [h]; norm_num
        · rw [← h]; exact p2 _ _
      · rw [hs]
        exact Finset.mem_insert_of_mem (Finset.mem_image.2 ⟨(i, j), Finset.mem_univ _, rfl⟩)
    have hK : ∀ i j, 0 ≤ K i j := fun i j => by simpa using (abs_nonneg _).trans (p3 i j 0)
    refine ⟨∑ k, ∑ i, ∑ j, |U k i| * K i j, σ, s1, s2, fun t k j => ?_⟩
    have e : (descentRun lr C W₀ t).W - U * E = U * (U.transpose * (descentRun lr C W₀ t).W - E) := by
      rw [Matrix.mul_sub, ← Matrix.mul_assoc, h2, Matrix.one_mul]
    rw [← Matrix.sub_apply, e, Matrix.mul_apply]
    calc |∑ i, U k i * (U.transpose * (descentRun lr C W₀ t).W - E) i j| ≤ ∑ i, |U k i * (U.transpose * (descentRun lr C W₀ t).W - E) i j| :=
          Finset.abs_sum_le_sum_abs _ _
      _ ≤ ∑ i, |U k i| * K i j * σ ^ t := by
          refine Finset.sum_le_sum fun i _ => ?_
          rw [abs_mul, mul_assoc]
          exact mul_le_mul_of_nonneg_left ((p3 i j t).trans (mul_le_mul_of_nonneg_left (pow_le_pow_left₀ (p1 i j) (s3 i j) t) (hK i j))) (abs_nonneg _)
      _ = (∑ i, |U k i| * K i j) * σ ^ t := by rw [Finset.sum_mul]
      _ ≤ (∑ k, ∑ i, ∑ j, |U k i| * K i j) * σ ^ t := by
          refine mul_le_mul_of_nonneg_right ?_ (pow_nonneg s1 t)
          refine le_trans ?_ (Finset.single_le_sum (f := fun k => ∑ i, ∑ j, |U k i| * K i j)
            (fun k _ => Finset.sum_nonneg fun i _ => Finset.sum_nonneg fun j _ => mul_nonneg (abs_nonneg _) (hK i j)) (Finset.mem_univ k))
          exact Finset.sum_le_sum fun i _ => Finset.single_le_sum (f := fun j => |U k i| * K i j)
            (fun j _ => mul_nonneg (abs_nonneg _) (hK i j)) (Finset.mem_univ j)

/-- The curvature condition says that `√(3.8/lr)` exceeds the norm of `C`; the loss then falls below every tolerance for good. -/
theorem C96_loss (hlr : 0 < lr) (hC : ∀ x : Fin n → ℝ, x ≠ 0 → lr * ((C *ᵥ x) ⬝ᵥ (C *ᵥ x)) < 3.8 * (x ⬝ᵥ x)) (W₀ : Matrix (Fin n) (Fin r) ℝ) :
    ∃ K ρ, 0 ≤ ρ ∧ ρ < 1 ∧ ∀ t, descentLoss C (descentRun lr C W₀ t).W ≤ K * ρ ^ t := by
  obtain ⟨L, hL, -, K, ρ, h0, h1, h⟩ := C96_converges hlr hC W₀
  have hent : ∀ t i j, |(C * (descentRun lr C W₀ t).W) i j| ≤ (∑ k, |C i k|) * K * ρ ^ t := by
    intro t i j
    have e : C * (descentRun lr C W₀ t).W = C * ((descentRun lr C W₀ t).W - L) := by rw [Matrix.mul_sub, hL, sub_zero]
    rw [e, Matrix.mul_apply, mul_assoc, Finset.sum_mul]
    refine (Finset.abs_sum_le_sum_abs _ _).trans (Finset.sum_le_sum fun k _ => ?_)
    rw [abs_mul]
    exact mul_le_mul_of_nonneg_left (h t k j) (abs_nonneg _)
  refine ⟨∑ i : Fin c, ∑ _j : Fin r, ((∑ k, |C i k|) * K) ^ 2, ρ ^ 2, by positivity, by nlinarith, fun t => ?_⟩
  have hle : ∑ i, ∑ j, |(C * (descentRun lr C W₀ t).W) i j| ^ 2 ≤ (∑ i : Fin c, ∑ _j : Fin r, ((∑ k, |C i k|) * K) ^ 2) * (ρ ^ 2) ^ t := by
    rw [Finset.sum_mul]
    refine Finset.sum_le_sum fun i _ => ?_
    rw [Finset.sum_mul]
    refine Finset.sum_le_sum fun j _ => ?_
    rw [← pow_mul, mul_comm 2 t, pow_mul, ← mul_pow]
    exact pow_le_pow_left₀ (abs_nonneg _) (hent t i j) 2
  have hn : 0 ≤ ∑ i, ∑ j, |(C * (descentRun lr C W₀ t).W) i j| ^ 2 := Finset.sum_nonneg fun i _ => Finset.sum_nonneg fun j _ => by positivity
  rw [descentLoss]
  linarith

/-- **C96.** So the test `jnp.sqrt(lossval) < tol` of the loop is met from some iteration on, for every start and every positive tolerance, in
every attempt whose learning rate is small enough (20000 iterations may come first: then the code raises, C27). -/
theorem C96_test (hC : ∀ x : Fin n → ℝ, x ≠ 0 → 0.01 / 3 ^ a * ((C *ᵥ x) ⬝ᵥ (C *ᵥ x)) < 3.8 * (x ⬝ᵥ x)) (W₀ : ℕ → Matrix (Fin n) (Fin r) ℝ)
    {tol : ℝ} (htol : 0 < tol) : ∃ T, ∀ t ≥ T, ∃ l, descentLosses C W₀ a t = some l ∧ √l < tol := by
  obtain ⟨K, ρ, h0, h1, h⟩ := C96_loss (lr := 0.01 / 3 ^ a) (by positivity) hC (W₀ a)
  have ht : Filter.Tendsto (fun t : ℕ => K * ρ ^ t) Filter.atTop (nhds 0) := by
    have := (tendsto_pow_atTop_nhds_zero_of_lt_one h0 h1).const_mul K
    rwa [mul_zero] at this
  obtain ⟨T, hT⟩ := Filter.eventually_atTop.1 (ht.eventually (gt_mem_nhds (show (0 : ℝ) < tol ^ 2 by positivity)))
  refine ⟨T, fun t htT => ⟨_, rfl, ?_⟩⟩
  rw [Real.sqrt_lt' htol]
  exact (h t).trans_lt (hT t htT)

/-- **C96, the bound is sharp.** If `CᵀC` has an eigenvalue above `3.8/lr`, the losses are unbounded for every start with a component along its
eigenvector. -/
theorem C96_diverges {v : Fin n → ℝ} {l : ℝ} (hlr : 0 < lr) (hv : C.transpose *ᵥ (C *ᵥ v) = l • v) (hl : 3.8 < lr * l) (W₀ : Matrix (Fin n) (Fin r) ℝ)
    (hW : v ᵥ* W₀ ≠ 0) (B : ℝ) : ∃ t, B < descentLoss C (descentRun lr C W₀ t).W := by
  obtain ⟨j, hj⟩ : ∃ j, (v ᵥ* W₀) j ≠ 0 := by
    by_contra hc
    push Not at hc
    exact hW (funext hc)
  have hl0 : 0 < l := by
    by_contra hc
    push Not at hc
    nlinarith
  have hvv : v ᵥ* (C.transpose * C) = l • v := by
    rw [← hv, ← Matrix.vecMul_vecMul, Matrix.vecMul_transpose, ← Matrix.mulVec_transpose]
  have e : ∀ W : Matrix (Fin n) (Fin r) ℝ, v ᵥ* (C.transpose * C * W) = l • (v ᵥ* W) := by
    intro W
    rw [← Matrix.vecMul_vecMul, hvv, Matrix.smul_vecMul]
  have hunb : ∀ B, ∃ t, B < |(v ᵥ* (descentRun lr C W₀ t).W) j| := by
    refine heavy_ball_diverges (x := fun t => (v ᵥ* (descentRun lr C W₀ t).W) j) (β := 0.9) (η := lr * l) (by norm_num) (by norm_num at *; linarith)
      hj ?_ fun t => ?_
    · show (v ᵥ* (descentRun lr C W₀ 1).W) j = (1 - lr * l) * (v ᵥ* W₀) j
      rw [descent_one, Matrix.vecMul_sub, Matrix.vecMul_smul, e]
      simp only [Pi.sub_apply, Pi.smul_apply, smul_eq_mul]
      ring
    · show (v ᵥ* (descentRun lr C W₀ (t + 2)).W) j = _
      rw [descent_two, Matrix.vecMul_add, Matrix.vecMul_sub, Matrix.vecMul_smul, Matrix.vecMul_smul, Matrix.vecMul_sub, e]
      simp only [Pi.sub_apply, Pi.add_apply, Pi.smul_apply, smul_eq_mul]
      ring
  -- the loss is at least a multiple of the square of this coordinate
  have hcs : ∀ W : Matrix (Fin n) (Fin r) ℝ, (l * (v ᵥ* W) j) ^ 2 ≤ ((C *ᵥ v) ⬝ᵥ (C *ᵥ v)) * (2 * descentLoss C W) := by
    intro W
    have e1 : l * (v ᵥ* W) j = ∑ i, (C *ᵥ v) i * (C * W) i j := by
      have := congrFun (e W) j
      rw [Pi.smul_apply, smul_eq_mul] at this
      rw [← this, Matrix.mul_assoc, ← Matrix.vecMul_vecMul, Matrix.vecMul_transpose]
      rfl
    rw [e1]
    refine (Finset.sum_mul_sq_le_sq_mul_sq _ _ _).trans ?_
    have e2 : ∑ i, (C *ᵥ v) i ^ 2 = (C *ᵥ v) ⬝ᵥ (C *ᵥ v) := Finset.sum_congr rfl fun i _ => pow_two _
    rw [e2]
    refine mul_le_mul_of_nonneg_left ?_ (by rw [← e2]; exact Finset.sum_nonneg fun i _ => sq_nonneg _)
    rw [descentLoss, mul_div_cancel₀ _ (two_ne_zero)]
    refine Finset.sum_le_sum fun i _ => ?_
    simp only [sq_abs]
    exact Finset.single_le_sum (f := fun j => (C * W) i j ^ 2) (fun j _ => sq_nonneg _) (Finset.mem_univ j)
  obtain ⟨D, hD⟩ : ∃ D, D = (C *ᵥ v) ⬝ᵥ (C *ᵥ v) := ⟨_, rfl⟩
  have hD0 : 0 ≤ D := by rw [hD]; exact Finset.sum_nonneg fun i _ => mul_self_nonneg _
  obtain ⟨t, ht⟩ := hunb (max 1 ((D * (2 * |B|) + 1) / l ^ 2))
  refine ⟨t, ?_⟩
  by_contra hc
  push Not at hc
  have h1 := hcs (descentRun lr C W₀ t).W
  rw [← hD] at h1
  obtain ⟨y, hy⟩ : ∃ y, y = |(v ᵥ* (descentRun lr C W₀ t).W) j| := ⟨_, rfl⟩
  rw [← hy] at ht
  have hy1 : 1 < y := (le_max_left _ _).trans_lt ht
  have hy2 : D * (2 * |B|) + 1 < l ^ 2 * y := by
    have := (le_max_right _ _).trans_lt ht
    rw [div_lt_iff₀ (by positivity)] at this
    linarith
  have h2 : l ^ 2 * y ^ 2 ≤ D * (2 * |B|) := by
    have e3 : (l * (v ᵥ* (descentRun lr C W₀ t).W) j) ^ 2 = l ^ 2 * y ^ 2 := by rw [hy, sq_abs, mul_pow]
    rw [e3] at h1
    refine h1.trans (mul_le_mul_of_nonneg_left ?_ hD0)
    have := le_abs_self B
    linarith
  nlinarith [sq_nonneg l, mul_pos (pow_pos hl0 2) (by linarith : (0:ℝ) < y)]

/-- **C96, completeness.** If no solution is orthogonal to all columns of the start (possible as soon as the rank limit `r` is at least the number of
independent solutions), the limit has exactly the solutions as its column space. -/
theorem C96_complete {L : Matrix (Fin n) (Fin r) ℝ} (hL : C * L = 0) (hp : ∀ x, C *ᵥ x = 0 → x ᵥ* L = x ᵥ* W₀)
    (hgen : ∀ x, C *ᵥ x = 0 → x ᵥ* W₀ = 0 → x = 0) (x : Fin n → ℝ) : C *ᵥ x = 0 ↔ ∃ y, L *ᵥ y = x := by
  constructor
  · intro hx
    -- the residual of the least squares problem is a solution orthogonal to `L`
    obtain ⟨y, hy⟩ : ∃ y, L.transpose *ᵥ (L *ᵥ y) = L.transpose *ᵥ x := by
      have h1 : LinearMap.range (L.transpose * L).mulVecLin = LinearMap.range L.transpose.mulVecLin := by
        refine Submodule.eq_of_le_of_finrank_eq ?_ ?_
        · rintro _ ⟨y, rfl⟩
          exact ⟨L *ᵥ y, by simp [Matrix.mulVec_mulVec]⟩
        · have := Matrix.rank_transpose_mul_self L
          rw [← Matrix.rank_transpose L] at this
          exact this
      have : L.transpose *ᵥ x ∈ LinearMap.range (L.transpose * L).mulVecLin := by rw [h1]; exact ⟨x, rfl⟩
      obtain ⟨y, hy⟩ := this
      exact ⟨y, by rw [Matrix.mulVec_mulVec]; exact hy⟩
    have hz : C *ᵥ (x - L *ᵥ y) = 0 := by rw [Matrix.mulVec_sub, hx, Matrix.mulVec_mulVec, hL, Matrix.zero_mulVec, sub_zero]
    have hz' : (x - L *ᵥ y) ᵥ* W₀ = 0 := by
      rw [← hp _ hz, ← Matrix.mulVec_transpose, Matrix.mulVec_sub, hy, sub_self]
    exact ⟨y, (sub_eq_zero.1 (hgen _ hz hz')).symm⟩
  · rintro ⟨y, rfl⟩
    rw [Matrix.mulVec_mulVec, hL, Matrix.zero_mulVec]

end
end Verif
