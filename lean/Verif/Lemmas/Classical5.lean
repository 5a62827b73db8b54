import Verif.Lemmas.Classical4
import Verif.Props.Lorentz

/-! # Orthochronous Lorentz matrices are closed under products; the larger Lorentz groups -/
namespace Verif
open Matrix NormedSpace

variable {n : ℕ} {lie disc : List (Matrix (Fin (n + 1)) (Fin (n + 1)) ℝ)}

theorem minkowski_sq : minkowski (n + 1) * minkowski (n + 1) = 1 := by
  rw [minkowski, diagonal_mul_diagonal, ← diagonal_one]
  congr 1
  ext i
  split_ifs <;> norm_num

theorem lorentz_flip {g : Matrix (Fin (n + 1)) (Fin (n + 1)) ℝ} (hg : gᵀ * minkowski (n + 1) * g = minkowski (n + 1)) :
    g * minkowski (n + 1) * gᵀ = minkowski (n + 1) := by
  have h1 : (minkowski (n + 1) * gᵀ * minkowski (n + 1)) * g = 1 := by
    rw [Matrix.mul_assoc, Matrix.mul_assoc, ← Matrix.mul_assoc gᵀ, hg, minkowski_sq]
  have h2 := mul_eq_one_comm.1 h1
  calc g * minkowski (n + 1) * gᵀ = g * (minkowski (n + 1) * gᵀ * minkowski (n + 1)) * minkowski (n + 1) := by
        simp only [Matrix.mul_assoc, minkowski_sq, Matrix.mul_one]
    _ = minkowski (n + 1) := by rw [h2, Matrix.one_mul]

theorem lorentz_mul {g h : Matrix (Fin (n + 1)) (Fin (n + 1)) ℝ} (hg : gᵀ * minkowski (n + 1) * g = minkowski (n + 1))
    (hh : hᵀ * minkowski (n + 1) * h = minkowski (n + 1)) : (g * h)ᵀ * minkowski (n + 1) * (g * h) = minkowski (n + 1) := by
  rw [transpose_mul]
  calc hᵀ * gᵀ * minkowski (n + 1) * (g * h) = hᵀ * (gᵀ * minkowski (n + 1) * g) * h := by simp only [Matrix.mul_assoc]
    _ = minkowski (n + 1) := by rw [hg, hh]

/-- the squares in the first column -/
theorem lorentz_col {h : Matrix (Fin (n + 1)) (Fin (n + 1)) ℝ} (hh : hᵀ * minkowski (n + 1) * h = minkowski (n + 1)) :
    h 0 0 ^ 2 = 1 + ∑ i : Fin n, h i.succ 0 ^ 2 := by
  have := congrFun (congrFun hh 0) 0
  rw [Matrix.mul_apply, Fin.sum_univ_succ] at this
  simp only [minkowski, mul_diagonal, transpose_apply, diagonal_apply, if_true, Fin.succ_ne_zero, if_false] at this
  have e : ∀ i : Fin n, h i.succ 0 * -1 * h i.succ 0 = -(h i.succ 0 ^ 2) := fun i => by ring
  simp only [Fin.val_succ, Nat.add_eq_zero_iff, one_ne_zero, and_false, if_false, Fin.val_zero, if_true, e, Finset.sum_neg_distrib] at this
  linarith

theorem lorentz_row {h : Matrix (Fin (n + 1)) (Fin (n + 1)) ℝ} (hh : hᵀ * minkowski (n + 1) * h = minkowski (n + 1)) :
    h 0 0 ^ 2 = 1 + ∑ i : Fin n, h 0 i.succ ^ 2 :=
  lorentz_col (h := hᵀ) (by rw [transpose_transpose]; exact lorentz_flip hh)

theorem lorentz_time_ne {h : Matrix (Fin (n + 1)) (Fin (n + 1)) ℝ} (hh : hᵀ * minkowski (n + 1) * h = minkowski (n + 1)) : h 0 0 ≠ 0 := by
  intro h0
  have := lorentz_col hh
  rw [h0] at this
  have h2 : 0 ≤ ∑ i : Fin n, h i.succ 0 ^ 2 := Finset.sum_nonneg fun i _ => sq_nonneg _
  nlinarith

theorem orthochronous_mul {g h : Matrix (Fin (n + 1)) (Fin (n + 1)) ℝ} (hg : gᵀ * minkowski (n + 1) * g = minkowski (n + 1))
    (hh : hᵀ * minkowski (n + 1) * h = minkowski (n + 1)) (g0 : 0 < g 0 0) (h0 : 0 < h 0 0) : 0 < (g * h) 0 0 := by
  have hr := lorentz_row hg
  have hc := lorentz_col hh
  have cs := Finset.sum_mul_sq_le_sq_mul_sq Finset.univ (fun i : Fin n => g 0 i.succ) fun i => h i.succ 0
  rw [Matrix.mul_apply, Fin.sum_univ_succ]
  set s := ∑ i : Fin n, g 0 i.succ * h i.succ 0
  by_contra hn
  push Not at hn
  have h1 : g 0 0 * h 0 0 ≤ -s := by linarith
  have h2 : (g 0 0 * h 0 0) ^ 2 ≤ s ^ 2 := by
    rw [← neg_sq s]
    exact pow_le_pow_left₀ (by positivity) h1 2
  have e1 : ∑ i : Fin n, g 0 i.succ ^ 2 = g 0 0 ^ 2 - 1 := by linarith
  have e2 : ∑ i : Fin n, h i.succ 0 ^ 2 = h 0 0 ^ 2 - 1 := by linarith
  rw [e1, e2] at cs
  have p1 : 0 ≤ ∑ i : Fin n, g 0 i.succ ^ 2 := Finset.sum_nonneg fun i _ => sq_nonneg _
  have p2 : 0 ≤ ∑ i : Fin n, h i.succ 0 ^ 2 := Finset.sum_nonneg fun i _ => sq_nonneg _
  nlinarith

theorem lorentz_det {h : Matrix (Fin (n + 1)) (Fin (n + 1)) ℝ} (hh : hᵀ * minkowski (n + 1) * h = minkowski (n + 1)) :
    h.det = 1 ∨ h.det = -1 := by
  have := congrArg det hh
  rw [det_mul, det_mul, det_transpose] at this
  have hu := (minkowski_unit (n + 1)).ne_zero
  have e : h.det * h.det = 1 := mul_right_cancel₀ hu (by linarith)
  exact mul_self_eq_one_iff.1 e

theorem minkowski_trace {A : Matrix (Fin n) (Fin n) ℝ} (hA : Aᵀ * minkowski n = -(minkowski n * A)) : A.trace = 0 := by
  have h : ∀ i, A i i = 0 := fun i => by
    have := congrFun (congrFun hA i) i
    rw [minkowski, mul_diagonal, Matrix.neg_apply, diagonal_mul, transpose_apply] at this
    have hne : (if i.val = 0 then (1 : ℝ) else -1) ≠ 0 := by split_ifs <;> norm_num
    have : A i i * (if i.val = 0 then (1 : ℝ) else -1) = 0 := by linarith
    exact (mul_eq_zero.1 this).resolve_right hne
  simp [trace, h]

/-- What infinitesimal Lorentz transformations generate without discrete generators. -/
theorem lorentz_of_generated (hf : ∀ A ∈ lie, Aᵀ * minkowski (n + 1) = -(minkowski (n + 1) * A))
    {h : Matrix (Fin (n + 1)) (Fin (n + 1)) ℝ} (hg : Generated lie [] h) :
    hᵀ * minkowski (n + 1) * h = minkowski (n + 1) ∧ h.det = 1 ∧ 0 < h 0 0 := by
  have form : ∀ {k}, Generated lie [] k → kᵀ * minkowski (n + 1) * k = minkowski (n + 1) := fun hk =>
    transpose_form _ (minkowski_unit _) hf (by simp) hk
  refine ⟨form hg, Generated.det_one (fun A hA => minkowski_trace (hf A hA)) (by simp) hg, ?_⟩
  induction hg with
  | one => simp
  | exp hA => exact lt_of_lt_of_le one_pos (exp_time fun t => form (.exp (Submodule.smul_mem _ t hA)))
  | gen h => simp at h
  | inv h => simp at h
  | mul h1 h2 i1 i2 => exact orthochronous_mul (form h1) (form h2) i1 i2

/-- With `-1` in even dimension, all Lorentz matrices of determinant one. -/
theorem lorentz_special_generated
    (hL : ∀ A : Matrix (Fin (n + 1)) (Fin (n + 1)) ℝ, Aᵀ * minkowski (n + 1) + minkowski (n + 1) * A = 0 → A ∈ Submodule.span ℝ {B | B ∈ lie})
    (he : Even (n + 1)) (hm : -1 ∈ disc) {h : Matrix (Fin (n + 1)) (Fin (n + 1)) ℝ}
    (hh : hᵀ * minkowski (n + 1) * h = minkowski (n + 1)) (hd : h.det = 1) : Generated lie disc h := by
  rcases lt_or_gt_of_ne (lorentz_time_ne hh) with h0 | h0
  · have : Generated lie disc (-h) := lorentz_generated hL (by simpa using hh) (by rw [det_neg, Fintype.card_fin, he.neg_one_pow, hd, one_mul])
      (by simpa using h0)
    have := (Generated.gen (lie := lie) hm).mul this
    rwa [neg_mul_neg, Matrix.one_mul] at this
  · exact lorentz_generated hL hh hd h0

/-- With `-1` in even dimension and a Lorentz involution of determinant `-1`, all Lorentz matrices. -/
theorem lorentz_full_generated
    (hL : ∀ A : Matrix (Fin (n + 1)) (Fin (n + 1)) ℝ, Aᵀ * minkowski (n + 1) + minkowski (n + 1) * A = 0 → A ∈ Submodule.span ℝ {B | B ∈ lie})
    (he : Even (n + 1)) (hm : -1 ∈ disc) {T : Matrix (Fin (n + 1)) (Fin (n + 1)) ℝ} (hT : T ∈ disc) (hTf : Tᵀ * minkowski (n + 1) * T = minkowski (n + 1))
    (hTT : T * T = 1) (hTd : T.det = -1) {h : Matrix (Fin (n + 1)) (Fin (n + 1)) ℝ}
    (hh : hᵀ * minkowski (n + 1) * h = minkowski (n + 1)) : Generated lie disc h := by
  rcases lorentz_det hh with hd | hd
  · exact lorentz_special_generated hL he hm hh hd
  · have : Generated lie disc (T * h) := lorentz_special_generated hL he hm (lorentz_mul hTf hh) (by rw [det_mul, hTd, hd]; norm_num)
    have := (Generated.gen (lie := lie) hT).mul this
    rwa [← Matrix.mul_assoc, hTT, Matrix.one_mul] at this

end Verif
