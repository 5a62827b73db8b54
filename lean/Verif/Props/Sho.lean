import Mathlib.Analysis.SpecialFunctions.Trigonometric.Deriv
import Mathlib.Analysis.Calculus.Deriv.Pi
import Verif.Props.Hamiltonian

/-! # The harmonic oscillator -/
namespace Verif
open List

/-- The gradient of `SHO.H` at `(q,p)` is `(q,p)`. -/
theorem sho_grad (x : Fin 2 → ℝ) : ∃ L : (Fin 2 → ℝ) →L[ℝ] ℝ, HasFDerivAt (fun x : Fin 2 → ℝ => shoH (ofFn x)) L x ∧
    ∀ v, L v = ∑ i, x i * v i := by
  have e : (fun x : Fin 2 → ℝ => shoH (ofFn x)) = fun x => (1 / 2) * x 1 ^ 2 + (1 / 2) * x 0 ^ 2 := by
    funext x
    simp [shoH, ofFn_succ]
    ring
  rw [e]
  have h0 : HasFDerivAt (fun x : Fin 2 → ℝ => x 0) (ContinuousLinearMap.proj (R := ℝ) (φ := fun _ : Fin 2 => ℝ) 0) x := hasFDerivAt_apply 0 x
  have h1 : HasFDerivAt (fun x : Fin 2 → ℝ => x 1) (ContinuousLinearMap.proj (R := ℝ) (φ := fun _ : Fin 2 => ℝ) 1) x := hasFDerivAt_apply 1 x
  refine ⟨_, ((h1.pow 2).const_mul (1 / 2)).add ((h0.pow 2).const_mul (1 / 2)), fun v => ?_⟩
  simp [Fin.sum_univ_two]
  ring

/-- C84: the dynamics of `SHO` is rotation in phase space: any curve that follows `hamiltonian_dynamics` with the gradient of
`SHO.H` is `(q cos t + p sin t, p cos t - q sin t)`, where `(q,p)` is its state at time zero, and has the same energy at all
times. -/
theorem C84_sho (grad : (Fin 2 → ℝ) → Fin 2 → ℝ)
    (hH : ∀ x, ∃ L : (Fin 2 → ℝ) →L[ℝ] ℝ, HasFDerivAt (fun x : Fin 2 → ℝ => shoH (ofFn x)) L x ∧ ∀ v, L v = ∑ i, grad x i * v i)
    (z dz : ℝ → Fin 2 → ℝ) (hz : ∀ t, HasDerivAt z (dz t) t)
    (heq : ∀ t, hamiltonianDynamics (fun _ => List.ofFn (grad (z t))) (List.ofFn (z t)) = .ok (List.ofFn (dz t))) (t : ℝ) :
    z t = ![z 0 0 * Real.cos t + z 0 1 * Real.sin t, z 0 1 * Real.cos t - z 0 0 * Real.sin t] ∧
      shoH (ofFn (z t)) = shoH (ofFn (z 0)) := by
  refine ⟨?_, C84_energy rfl _ grad hH z dz hz heq t 0⟩
  have hg : ∀ x, grad x = x := by
    intro x
    obtain ⟨L, h1, h2⟩ := hH x
    obtain ⟨L', h1', h2'⟩ := sho_grad x
    have e := h1.unique h1'
    subst e
    funext i
    have := (h2 (Pi.single i 1)).symm.trans (h2' (Pi.single i 1))
    simpa [Pi.single_apply] using this
  have hd : ∀ t, dz t 0 = z t 1 ∧ dz t 1 = - z t 0 := by
    intro t
    have := heq t
    rw [hg, hamiltonianDynamics, show ofFn (z t) = [z t 0] ++ [z t 1] by simp [ofFn_succ], symplectic_pack [_] [_] (by rw [length_singleton, length_singleton])] at this
    have := Except.ok.inj this
    simp [ofFn_succ] at this
    exact ⟨this.1.symm, this.2.symm⟩
  have hz0 : ∀ t, HasDerivAt (fun t => z t 0) (z t 1) t := fun t => (hd t).1 ▸ (hasDerivAt_pi.1 (hz t) 0)
  have hz1 : ∀ t, HasDerivAt (fun t => z t 1) (- z t 0) t := fun t => (hd t).2 ▸ (hasDerivAt_pi.1 (hz t) 1)
  have ha : ∀ t, HasDerivAt (fun t => z t 0 * Real.cos t - z t 1 * Real.sin t) 0 t := by
    intro t
    have := ((hz0 t).mul (Real.hasDerivAt_cos t)).sub ((hz1 t).mul (Real.hasDerivAt_sin t))
    exact this.congr_deriv (by ring)
  have hb : ∀ t, HasDerivAt (fun t => z t 0 * Real.sin t + z t 1 * Real.cos t) 0 t := by
    intro t
    have := ((hz0 t).mul (Real.hasDerivAt_sin t)).add ((hz1 t).mul (Real.hasDerivAt_cos t))
    exact this.congr_deriv (by ring)
  have e1 := is_const_of_deriv_eq_zero (fun t => (ha t).differentiableAt) (fun t => (ha t).deriv) t 0
  have e2 := is_const_of_deriv_eq_zero (fun t => (hb t).differentiableAt) (fun t => (hb t).deriv) t 0
  simp at e1 e2
  have hsc := Real.sin_sq_add_cos_sq t
  funext i
  fin_cases i
  · simp
    rw [← e1, ← e2]
    linear_combination (- z t 0) * hsc
  · simp
    rw [← e1, ← e2]
    linear_combination (- z t 1) * hsc

/-- There are such curves: the rotation itself, from any state. -/
example (q p : ℝ) : ∃ (z dz : ℝ → Fin 2 → ℝ), (∀ t, HasDerivAt z (dz t) t) ∧ z 0 = ![q, p] ∧
    ∀ t, hamiltonianDynamics (fun _ => List.ofFn (z t)) (List.ofFn (z t)) = .ok (List.ofFn (dz t)) := by
  refine ⟨fun t => ![q * Real.cos t + p * Real.sin t, p * Real.cos t - q * Real.sin t],
    fun t => ![p * Real.cos t - q * Real.sin t, -(q * Real.cos t + p * Real.sin t)], fun t => ?_, by simp, fun t => ?_⟩
  · rw [hasDerivAt_pi]
    intro i
    fin_cases i
    · have := ((Real.hasDerivAt_cos t).const_mul q).add ((Real.hasDerivAt_sin t).const_mul p)
      exact this.congr_deriv (by simp; ring)
    · have := ((Real.hasDerivAt_cos t).const_mul p).sub ((Real.hasDerivAt_sin t).const_mul q)
      exact this.congr_deriv (by simp; ring)
  · rw [hamiltonianDynamics, show ∀ a b : ℝ, ofFn ![a, b] = [a] ++ [b] by intro a b; simp [ofFn_succ], symplectic_pack [_] [_] (by rw [length_singleton, length_singleton])]
    simp [ofFn_succ]

end Verif
