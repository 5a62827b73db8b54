import Verif.Lemmas.Rollouts

/-!
# Fields of linear growth have solutions for all times
-/
namespace Verif
open List Set Metric
open scoped NNReal

section
variable {E : Type*} [NormedAddCommGroup E] [NormedSpace ℝ E] [FiniteDimensional ℝ E] {F : E → E}

/-- On a ball a continuously differentiable map is Lipschitz. -/
theorem lipschitzOn_ball (hF : ContDiff ℝ 1 F) (x : E) (a : ℝ) : ∃ K : ℝ≥0, LipschitzOnWith K F (closedBall x a) := by
  have : ProperSpace E := FiniteDimensional.proper_real E
  have hc : ContinuousOn (fun y => ‖fderiv ℝ F y‖₊) (closedBall x a) := (hF.continuous_fderiv (by norm_num)).nnnorm.continuousOn
  obtain ⟨K, hK⟩ := (isCompact_closedBall x a).bddAbove_image hc
  exact ⟨K, (convex_closedBall x a).lipschitzOnWith_of_nnnorm_fderiv_le (𝕜 := ℝ) (fun y _ => hF.differentiable (by norm_num) y) fun y hy => hK ⟨y, hy, rfl⟩⟩

/-- A step whose length does not depend on the state. -/
theorem exists_step (hF : ContDiff ℝ 1 F) {A B : ℝ} (hA : 0 ≤ A) (hB : 0 ≤ B) (hg : ∀ v, ‖F v‖ ≤ A + B * ‖v‖) (x : E) (t0 : ℝ) :
    ∃ z : ℝ → E, z t0 = x ∧ ∀ t ∈ Icc t0 (t0 + (A + 2 * B + 1)⁻¹), HasDerivWithinAt z (F (z t)) (Icc t0 (t0 + (A + 2 * B + 1)⁻¹)) t := by
  have : CompleteSpace E := FiniteDimensional.complete ℝ E
  obtain ⟨a, ha⟩ : ∃ a : ℝ≥0, (a : ℝ) = 1 + ‖x‖ := ⟨⟨1 + ‖x‖, by positivity⟩, rfl⟩
  obtain ⟨M, hM⟩ : ∃ M : ℝ≥0, (M : ℝ) = (A + 2 * B + 1) * (1 + ‖x‖) := ⟨⟨(A + 2 * B + 1) * (1 + ‖x‖), by positivity⟩, rfl⟩
  obtain ⟨K, hK⟩ := lipschitzOn_ball hF x a
  have hT : 0 < (A + 2 * B + 1)⁻¹ := by positivity
  have hP : IsPicardLindelof (fun _ => F) (tmin := t0) (tmax := t0 + (A + 2 * B + 1)⁻¹) ⟨t0, by simp [hT.le]⟩ x a 0 M K := by
    refine ⟨fun t _ => hK, fun y _ => continuousOn_const, fun t _ y hy => ?_, ?_⟩
    · have h1 : ‖y‖ ≤ ‖x‖ + (1 + ‖x‖) := by
        have := mem_closedBall_iff_norm.1 hy
        rw [ha] at this
        linarith [norm_le_norm_add_norm_sub' y x]
      have h2 := hg y
      have h3 : B * ‖y‖ ≤ B * (‖x‖ + (1 + ‖x‖)) := mul_le_mul_of_nonneg_left h1 hB
      rw [hM]
      nlinarith [norm_nonneg x, mul_nonneg hA (norm_nonneg x)]
    · simp only [add_sub_cancel_left, sub_self, NNReal.coe_zero, sub_zero]
      rw [max_eq_left hT.le, hM, ha, mul_comm, ← mul_assoc, inv_mul_cancel₀ (by positivity), one_mul]
  obtain ⟨z, h1, h2⟩ := hP.exists_eq_forall_mem_Icc_hasDerivWithinAt₀
  exact ⟨z, h1, h2⟩

/-- Two solutions on adjacent intervals make one. -/
theorem glue_solutions {a b c : ℝ} (hab : a ≤ b) (hbc : b ≤ c) {y z : ℝ → E} (hy : ∀ t ∈ Icc a b, HasDerivWithinAt y (F (y t)) (Icc a b) t)
    (hz : ∀ t ∈ Icc b c, HasDerivWithinAt z (F (z t)) (Icc b c) t) (e : y b = z b) :
    ∃ w : ℝ → E, w a = y a ∧ ∀ t ∈ Icc a c, HasDerivWithinAt w (F (w t)) (Icc a c) t := by
  classical
  obtain ⟨w, hw⟩ : ∃ w : ℝ → E, w = fun t => if t ≤ b then y t else z t := ⟨_, rfl⟩
  have w1 : ∀ t ≤ b, w t = y t := fun t ht => by simp [hw, ht]
  have w2 : ∀ t, b ≤ t → w t = z t := fun t ht => by
    rcases ht.eq_or_lt with rfl | h
    · rw [w1 _ le_rfl, e]
    · simp [hw, not_le.2 h]
  have d1 : ∀ t ∈ Icc a b, HasDerivWithinAt w (F (w t)) (Icc a b) t := fun t ht => by
    rw [w1 t ht.2]
    exact (hy t ht).congr (fun s hs => w1 s hs.2) (w1 t ht.2)
  have d2 : ∀ t ∈ Icc b c, HasDerivWithinAt w (F (w t)) (Icc b c) t := fun t ht => by
    rw [w2 t ht.1]
    exact (hz t ht).congr (fun s hs => w2 s hs.1) (w2 t ht.1)
  have hu : Icc a b ∪ Icc b c = Icc a c := Icc_union_Icc_eq_Icc hab hbc
  refine ⟨w, w1 a hab, fun t ht => ?_⟩
  rcases lt_trichotomy t b with h | h | h
  · refine (d1 t ⟨ht.1, h.le⟩).mono_of_mem_nhdsWithin ?_
    refine mem_nhdsWithin.2 ⟨Iio b, isOpen_Iio, h, fun s hs => ⟨hs.2.1, (show s < b from hs.1).le⟩⟩
  · subst h
    rw [← hu]
    exact (d1 t ⟨hab, le_rfl⟩).union (d2 t ⟨le_rfl, hbc⟩)
  · refine (d2 t ⟨h.le, ht.2⟩).mono_of_mem_nhdsWithin ?_
    refine mem_nhdsWithin.2 ⟨Ioi b, isOpen_Ioi, h, fun s hs => ⟨(show b < s from hs.1).le, hs.2.2⟩⟩

/-- A continuously differentiable field of linear growth has a solution on every interval. -/
theorem exists_solution (hF : ContDiff ℝ 1 F) {A B : ℝ} (hA : 0 ≤ A) (hB : 0 ≤ B) (hg : ∀ v, ‖F v‖ ≤ A + B * ‖v‖) (x : E) (t0 T : ℝ) :
    ∃ z : ℝ → E, z t0 = x ∧ ∀ t ∈ Icc t0 T, HasDerivWithinAt z (F (z t)) (Icc t0 T) t := by
  obtain ⟨δ, hδ, hs⟩ : ∃ δ : ℝ, 0 < δ ∧ ∀ (x : E) (t0 : ℝ), ∃ z : ℝ → E, z t0 = x ∧ ∀ t ∈ Icc t0 (t0 + δ), HasDerivWithinAt z (F (z t)) (Icc t0 (t0 + δ)) t :=
    ⟨(A + 2 * B + 1)⁻¹, by positivity, fun x t0 => exists_step hF hA hB hg x t0⟩
  have hk : ∀ k : ℕ, ∃ z : ℝ → E, z t0 = x ∧ ∀ t ∈ Icc t0 (t0 + (k + 1) * δ), HasDerivWithinAt z (F (z t)) (Icc t0 (t0 + (k + 1) * δ)) t := by
    intro k
    induction k with
    | zero => simpa using hs x t0
    | succ k ih =>
      obtain ⟨y, y0, hy⟩ := ih
      obtain ⟨z, z0, hz⟩ := hs (y (t0 + (k + 1) * δ)) (t0 + (k + 1) * δ)
      obtain ⟨w, w0, hw⟩ := glue_solutions (by nlinarith [Nat.cast_nonneg (α := ℝ) k]) (by linarith) hy hz z0.symm
      refine ⟨w, w0.trans y0, ?_⟩
      have : t0 + (((k + 1 : ℕ) : ℝ) + 1) * δ = t0 + (k + 1) * δ + δ := by push_cast; ring
      rw [this]
      exact hw
  obtain ⟨k, h⟩ := exists_nat_ge ((T - t0) / δ)
  obtain ⟨z, z0, hz⟩ := hk k
  have hT : T ≤ t0 + (k + 1) * δ := by
    have := (div_le_iff₀ hδ).1 h
    nlinarith
  exact ⟨z, z0, fun t ht => (hz t ⟨ht.1, ht.2.trans hT⟩).mono (Icc_subset_Icc_right hT)⟩

end

/-- A continuously differentiable field of linear growth has a rollout from every state at all times. -/
theorem exists_rollout_global {n : ℕ} {f : List ℝ → List ℝ} (hf : ContDiff ℝ 1 (asMap n f)) {A B : ℝ} (hA : 0 ≤ A) (hB : 0 ≤ B)
    (hg : ∀ v, ‖asMap n f v‖ ≤ A + B * ‖v‖) {z0 : List ℝ} (hz : z0.length = n) (ts : List ℝ) : ∃ zs, Rollout n f z0 ts zs := by
  obtain ⟨T, hT⟩ : ∃ T, ∀ t ∈ ts, t ≤ T := by
    induction ts with
    | nil => exact ⟨0, by simp⟩
    | cons t ts ih =>
      obtain ⟨T, hT⟩ := ih
      exact ⟨max t T, fun s hs => by
        rcases mem_cons.1 hs with rfl | h
        · exact le_max_left _ _
        · exact (hT s h).trans (le_max_right _ _)⟩
  obtain ⟨z, h0, h⟩ := exists_solution hf hA hB hg (fun i : Fin n => z0.getD i 0) (ts.headD 0) T
  exact ⟨_, z, by rw [h0, ofFn_getD hz], fun b hb t ht => (h t ⟨ht.1, ht.2.trans (hT b hb)⟩).mono (Icc_subset_Icc_right (hT b hb)), rfl⟩

end Verif
