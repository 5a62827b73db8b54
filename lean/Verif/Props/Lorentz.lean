import Verif.Props.MatrixGroups
import Mathlib.Topology.Order.IntermediateValue

/-!
# Lorentz groups

Every sample of `SO11p`, `O11`, `SO13p`, `SO13`, `O13`, `Lorentz` preserves the Minkowski form; samples of
the proper groups have determinant one; samples of the orthochronous ones keep the direction of time.
-/
namespace Verif
open Matrix List

theorem minkowski_unit (n : ℕ) : IsUnit (minkowski n).det := by
  rw [minkowski, det_diagonal, isUnit_iff_ne_zero, Finset.prod_ne_zero_iff]
  intro i _
  split_ifs <;> norm_num

theorem so13p_form : ∃ a : Arr3 ℝ, so13pLie = .ok a ∧ a.n0 = 6 ∧ ∀ A ∈ a.mats 4, Aᵀ * minkowski 4 = -(minkowski 4 * A) := by
  unfold so13pLie
  rw [soLie_eq, show lowPairs 3 = [(1, 0), (2, 0), (2, 1)] from rfl]
  refine ⟨_, rfl, rfl, ?_⟩
  simp only [Arr3.mats, mem_map, mem_range]
  rintro A ⟨k, hk, rfl⟩
  ext i j
  simp only [minkowski, Matrix.mul_diagonal, Matrix.diagonal_mul, Matrix.neg_apply, Matrix.transpose_apply, Matrix.of_apply]
  change k < 6 at hk
  interval_cases k <;> fin_cases i <;> fin_cases j <;> simp [tab, soSl, upd]

theorem so11p_form : ∀ A ∈ (so11pLie : Arr3 ℝ).mats 2, Aᵀ * minkowski 2 = -(minkowski 2 * A) := by
  simp only [Arr3.mats, mem_map, mem_range]
  rintro A ⟨k, _, rfl⟩
  ext i j
  simp only [minkowski, Matrix.mul_diagonal, Matrix.diagonal_mul, Matrix.neg_apply, Matrix.transpose_apply, Matrix.of_apply]
  fin_cases i <;> fin_cases j <;> simp [so11pLie]

/-- A matrix with the given diagonal signs preserves the Minkowski form. -/
theorem form_of_diag {n : ℕ} {B : Matrix (Fin n) (Fin n) ℝ} (s : Fin n → ℝ) (h : B = Matrix.diagonal s) (hs : ∀ i, s i * s i = 1) :
    Bᵀ * minkowski n * B = minkowski n := by
  rw [h, minkowski, diagonal_transpose, diagonal_mul_diagonal, diagonal_mul_diagonal]
  congr 1
  funext i
  rw [mul_right_comm, hs, one_mul]

theorem so13_disc_form : ∀ B ∈ (so13Disc : Arr3 ℝ).mats 4, Bᵀ * minkowski 4 * B = minkowski 4 := by
  simp only [Arr3.mats, mem_map, mem_range]
  rintro A ⟨k, _, rfl⟩
  refine form_of_diag (fun _ => -1) ?_ (by norm_num)
  ext i j
  simp [so13Disc, diagonal_apply, Fin.ext_iff]

theorem o13_disc_form (b : Arr3 ℝ) (hb : o13Disc = .ok b) : ∀ B ∈ b.mats 4, Bᵀ * minkowski 4 * B = minkowski 4 := by
  unfold o13Disc Arr3.set at hb
  rw [if_pos (by decide)] at hb
  cases hb
  simp only [Arr3.mats, mem_map, mem_range]
  rintro A ⟨k, hk, rfl⟩
  refine form_of_diag (fun i => if k = 0 then -1 else if i = 0 then -1 else 1) ?_ (fun i => by split_ifs <;> norm_num)
  ext i j
  interval_cases k <;> fin_cases i <;> fin_cases j <;> simp [diagonal_apply]

theorem o11_disc_form (b : Arr3 ℝ) (hb : o11Disc = .ok b) : ∀ B ∈ b.mats 2, Bᵀ * minkowski 2 * B = minkowski 2 := by
  unfold o11Disc Arr3.set at hb
  rw [if_pos (by decide)] at hb
  cases hb
  simp only [Arr3.mats, mem_map, mem_range]
  rintro A ⟨k, hk, rfl⟩
  refine form_of_diag (fun i => if k = 0 then -1 else if i = 0 then -1 else 1) ?_ (fun i => by split_ifs <;> norm_num)
  ext i j
  interval_cases k <;> fin_cases i <;> fin_cases j <;> simp [diagonal_apply]

theorem trace_form {n : ℕ} {A : Matrix (Fin n) (Fin n) ℝ} (h : Aᵀ * minkowski n = -(minkowski n * A)) : A.trace = 0 := by
  have h1 : ∀ i, A i i = 0 := fun i => by
    have := congrFun (congrFun h i) i
    simp only [minkowski, Matrix.mul_diagonal, Matrix.diagonal_mul, Matrix.neg_apply, Matrix.transpose_apply] at this
    split_ifs at this <;> linarith
  simp [Matrix.trace, h1]

/-- A preserved Minkowski form keeps the time-time entry away from zero. -/
theorem time_sq {n : ℕ} {g : Matrix (Fin (n + 1)) (Fin (n + 1)) ℝ} (h : gᵀ * minkowski (n + 1) * g = minkowski (n + 1)) :
    1 ≤ g 0 0 ^ 2 := by
  have h0 := congrFun (congrFun h 0) 0
  rw [Matrix.mul_apply, Fin.sum_univ_succ] at h0
  simp only [minkowski, Matrix.mul_diagonal, Matrix.transpose_apply, diagonal_apply_eq, Fin.val_zero, if_true, Fin.val_succ] at h0
  have : ∑ x : Fin n, g x.succ 0 * (if x.val + 1 = 0 then (1 : ℝ) else -1) * g x.succ 0 ≤ 0 :=
    Finset.sum_nonpos fun i _ => by
      rw [if_neg (by omega)]
      nlinarith [mul_self_nonneg (g i.succ 0)]
  nlinarith

/-- The exponential of an infinitesimal Lorentz transformation keeps the direction of time. -/
theorem exp_time {n : ℕ} {A : Matrix (Fin (n + 1)) (Fin (n + 1)) ℝ}
    (h : ∀ t : ℝ, (NormedSpace.exp (t • A))ᵀ * minkowski (n + 1) * NormedSpace.exp (t • A) = minkowski (n + 1)) :
    1 ≤ NormedSpace.exp A 0 0 := by
  have hc := exp_smul_continuous A 0 0
  have hsq := fun t => time_sq (h t)
  have h1 := hsq 1
  rw [one_smul] at h1
  by_contra hlt
  rw [not_le] at hlt
  have hneg : NormedSpace.exp A 0 0 < 0 := by nlinarith
  obtain ⟨t, -, ht⟩ := intermediate_value_Icc' (a := (0 : ℝ)) (b := 1) zero_le_one hc.continuousOn
    (show (0 : ℝ) ∈ Set.Icc _ _ from ⟨by simpa using hneg.le, by simp⟩)
  have := hsq t
  simp only at ht
  rw [ht] at this
  norm_num at this

/-- C51: every sample of `SO13p` preserves the Minkowski form, has determinant one and keeps the direction
of time. -/
theorem C51_so13p (a : Arr3 ℝ) (ha : so13pLie = .ok a) (z : List ℝ) :
    (noise2sample z [] (a.mats 4) [] [])ᵀ * minkowski 4 * noise2sample z [] (a.mats 4) [] [] = minkowski 4 ∧
      (noise2sample z [] (a.mats 4) [] []).det = 1 ∧ 1 ≤ noise2sample z [] (a.mats 4) [] [] 0 0 := by
  obtain ⟨a', h1, h6, h⟩ := so13p_form
  rw [ha] at h1
  cases h1
  have hg := sample_generated (lie := a.mats 4) (disc := []) z [] [] (by simp)
  refine ⟨transpose_form _ (minkowski_unit 4) h (by simp) hg, hg.det_one (fun A hA => trace_form (h A hA)) (by simp), ?_⟩
  have hl : (a.mats 4).length ≠ 0 := by simp [Arr3.mats, h6]
  simp only [noise2sample, hl, if_false, length_nil, if_true, one_mul]
  refine exp_time fun t => transpose_form (lie := a.mats 4) (disc := []) _ (minkowski_unit 4) h (by simp) (.exp ?_)
  exact Submodule.smul_mem _ _ (lieComb_mem z _)

/-- C51: every sample of `SO13` preserves the Minkowski form and has determinant one. -/
theorem C51_so13 (a : Arr3 ℝ) (ha : so13pLie = .ok a) (z : List ℝ) (ks : List (List ℤ)) (orders : List (List ℕ))
    (ho : ∀ o ∈ orders, ∀ i ∈ o, i < (so13Disc.mats 4 : List (Matrix (Fin 4) (Fin 4) ℝ)).length) :
    (noise2sample z ks (a.mats 4) (so13Disc.mats 4) orders)ᵀ * minkowski 4 * noise2sample z ks (a.mats 4) (so13Disc.mats 4) orders =
      minkowski 4 ∧ (noise2sample z ks (a.mats 4) (so13Disc.mats 4) orders).det = 1 := by
  obtain ⟨a', h1, _, h⟩ := so13p_form
  rw [ha] at h1
  cases h1
  have hg := sample_generated (lie := a.mats 4) (disc := so13Disc.mats 4) z ks orders ho
  refine ⟨transpose_form _ (minkowski_unit 4) h so13_disc_form hg, hg.det_one (fun A hA => trace_form (h A hA)) ?_⟩
  simp only [Arr3.mats, mem_map, mem_range]
  rintro A ⟨k, _, rfl⟩
  have : (Matrix.of fun i j : Fin 4 => (so13Disc : Arr3 ℝ).e k i j) = Matrix.diagonal fun _ => -1 := by
    ext i j
    simp [so13Disc, diagonal_apply, Fin.ext_iff]
  rw [this, det_diagonal]
  norm_num [Fin.prod_univ_four]

/-- C51: every sample of `O13` (`Lorentz`) preserves the Minkowski form. -/
theorem C51_o13 (a b : Arr3 ℝ) (ha : so13pLie = .ok a) (hb : o13Disc = .ok b) (z : List ℝ) (ks : List (List ℤ))
    (orders : List (List ℕ)) (ho : ∀ o ∈ orders, ∀ i ∈ o, i < (b.mats 4).length) :
    (noise2sample z ks (a.mats 4) (b.mats 4) orders)ᵀ * minkowski 4 * noise2sample z ks (a.mats 4) (b.mats 4) orders = minkowski 4 := by
  obtain ⟨a', h1, _, h⟩ := so13p_form
  rw [ha] at h1
  cases h1
  exact transpose_form _ (minkowski_unit 4) h (o13_disc_form b hb) (sample_generated z ks orders ho)

/-- C51: every sample of `SO11p` preserves the Minkowski form, has determinant one and keeps the direction
of time. -/
theorem C51_so11p (z : List ℝ) :
    (noise2sample z [] (so11pLie.mats 2) [] [])ᵀ * minkowski 2 * noise2sample z [] (so11pLie.mats 2) [] [] = minkowski 2 ∧
      (noise2sample z [] (so11pLie.mats 2) [] [] : Matrix (Fin 2) (Fin 2) ℝ).det = 1 ∧
      (1 : ℝ) ≤ noise2sample z [] (so11pLie.mats 2) [] [] 0 0 := by
  have hg := sample_generated (lie := (so11pLie : Arr3 ℝ).mats 2) (disc := []) z [] [] (by simp)
  refine ⟨transpose_form _ (minkowski_unit 2) so11p_form (by simp) hg, hg.det_one (fun A hA => trace_form (so11p_form A hA)) (by simp), ?_⟩
  have hl : ((so11pLie : Arr3 ℝ).mats 2).length ≠ 0 := by simp [Arr3.mats, so11pLie]
  simp only [noise2sample, hl, if_false, length_nil, if_true, one_mul]
  refine exp_time fun t => transpose_form (lie := (so11pLie : Arr3 ℝ).mats 2) (disc := []) _ (minkowski_unit 2) so11p_form (by simp) (.exp ?_)
  exact Submodule.smul_mem _ _ (lieComb_mem z _)

/-- C51: every sample of `O11` preserves the Minkowski form. -/
theorem C51_o11 (b : Arr3 ℝ) (hb : o11Disc = .ok b) (z : List ℝ) (ks : List (List ℤ))
    (orders : List (List ℕ)) (ho : ∀ o ∈ orders, ∀ i ∈ o, i < (b.mats 2).length) :
    (noise2sample z ks (so11pLie.mats 2) (b.mats 2) orders)ᵀ * minkowski 2 * noise2sample z ks (so11pLie.mats 2) (b.mats 2) orders = minkowski 2 :=
  transpose_form _ (minkowski_unit 2) so11p_form (o11_disc_form b hb) (sample_generated z ks orders ho)

example : ∃ a b c : Arr3 ℝ, so13pLie = .ok a ∧ o13Disc = .ok b ∧ o11Disc = .ok c ∧
    ∀ o ∈ [[1, 0], [0, 1], [0, 1]], ∀ i ∈ o, i < (b.mats 4).length ∧ i < (c.mats 2).length := by
  obtain ⟨a, h, _⟩ := so13p_form
  refine ⟨a, _, _, h, rfl, rfl, ?_⟩
  simp [Arr3.mats]

end Verif
