import Verif.Props.Layers

/-! # The generators of groups that satisfy `GroupsOK` act on duals as they should -/
namespace Verif
open List NormedSpace

set_option backward.isDefEq.respectTransparency false in
open scoped Matrix.Norms.Operator in
/-- A one-parameter group of orthogonal matrices has an antisymmetric generator. -/
theorem anti_of_exp {n : ℕ} {X : Matrix (Fin n) (Fin n) ℝ} (h : ∀ t : ℝ, (exp (t • X)).transpose * exp (t • X) = 1) : X.transpose = -X := by
  have h1 : HasDerivAt (fun t : ℝ => exp (t • X.transpose)) (exp ((0 : ℝ) • X.transpose) * X.transpose) 0 := hasDerivAt_exp_smul_const X.transpose (0 : ℝ)
  have h2 : HasDerivAt (fun t : ℝ => exp (t • -X)) (exp ((0 : ℝ) • -X) * -X) 0 := hasDerivAt_exp_smul_const (-X) (0 : ℝ)
  rw [zero_smul, exp_zero, one_mul] at h1 h2
  have h3 : (fun t : ℝ => exp (t • X.transpose)) = fun t : ℝ => exp (t • -X) := by
    funext t
    rw [smul_neg, Matrix.exp_neg, ← Matrix.transpose_smul, Matrix.exp_transpose]
    exact (Matrix.inv_eq_left_inv (h t)).symm
  rw [h3] at h1
  exact h1.unique h2

theorem ofMatrix_neg_transpose {n : ℕ} (X : Matrix (Fin n) (Fin n) ℝ) : DMat.ofMatrix (-X.transpose) = (DMat.ofMatrix X).transpose.neg := by
  refine DMat.ext rfl rfl fun i j hi hj => ?_
  have hi : i < n := hi
  have hj : j < n := hj
  unfold DMat.neg
  rw [DMat.of_e (by exact hi) (by exact hj), DMat.ofMatrix_e _ hi hj]
  show _ = -(DMat.ofMatrix X).transpose.e i j
  unfold DMat.transpose
  rw [DMat.of_e (by exact hi) (by exact hj), DMat.ofMatrix_e _ hj hi]
  rfl

variable {W : World} {custom : ∀ k g, AtomRep ℝ (W.d g) (W.usize k g)} {lie disc : ∀ g, List (Matrix (Fin (W.d g)) (Fin (W.d g)) ℝ)}

theorem gensOf_dual (ok : GroupsOK W custom lie disc) : GenSet.Dual W (gensOf W (stdAtoms W custom) lie disc) := by
  intro g
  refine ⟨fun x hx => ?_, fun x hx => ?_⟩
  · obtain ⟨h, hh, rfl⟩ := mem_map.1 hx
    exact elem_dual ok (.gen hh)
  · obtain ⟨A, hA, rfl⟩ := mem_map.1 hx
    have hz : ∀ g', zeroAt W g A g' ∈ Submodule.span ℝ {B | B ∈ lie g'} := by
      intro g'
      by_cases e : g' = g
      · subst e; rw [zeroAt_same]; exact Submodule.subset_span hA
      · rw [zeroAt_ne e]; exact Submodule.zero_mem _
    refine ⟨fun k g' => ⟨rfl, rfl⟩, fun k g' => ?_, fun k g' ho => ?_⟩
    · exact ofMatrix_neg_transpose _
    · have hX : ((stdAtoms W custom k g').drho (zeroAt W g A g')).transpose = -(stdAtoms W custom k g').drho (zeroAt W g A g') := by
        refine anti_of_exp fun t => ?_
        have ht := Submodule.smul_mem _ t (hz g')
        rw [← map_smul, ← ((stdAtoms_hom ok.hom k g').exp _ ht)]
        have hM := ok.orthogonal ho (.exp ht)
        cases k with
        | zero => exact hM
        | succ k => exact ok.user (k + 1) g' ho _ (.exp ht)
      show (DMat.ofMatrix ((stdAtoms W custom k g').drho (zeroAt W g A g'))).transpose.neg = DMat.ofMatrix _
      rw [← ofMatrix_neg_transpose, hX, neg_neg]

end Verif
