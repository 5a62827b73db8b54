import Mathlib.Analysis.InnerProductSpace.SingularValues
import Verif.Lemmas.NullSpace
import Verif.Lemmas.SolverExists

/-!
# Every matrix has a singular value decomposition
-/
namespace Verif
open List DMat

variable {𝕜 : Type} [RCLike 𝕜]

/-- Singular vectors of a linear map: orthonormal bases with `T v_j = σ_j u_j`. -/
theorem exists_singular_bases {m n : ℕ} (T : EuclideanSpace 𝕜 (Fin n) →ₗ[𝕜] EuclideanSpace 𝕜 (Fin m)) :
    ∃ (u : OrthonormalBasis (Fin m) 𝕜 (EuclideanSpace 𝕜 (Fin m))) (v : OrthonormalBasis (Fin n) 𝕜 (EuclideanSpace 𝕜 (Fin n))),
      ∀ j : Fin n, T (v j) = if h : j.1 < m then ((T.singularValues j : ℝ) : 𝕜) • u ⟨j, h⟩ else 0 := by
  have hn : Module.finrank 𝕜 (EuclideanSpace 𝕜 (Fin n)) = n := finrank_euclideanSpace_fin
  obtain ⟨v, hv⟩ : ∃ v, v = T.isSymmetric_adjoint_comp_self.eigenvectorBasis hn := ⟨_, rfl⟩
  have hin : ∀ i j, inner 𝕜 (T (v i)) (T (v j)) = if i = j then ((T.singularValues j ^ 2 : ℝ) : 𝕜) else 0 := by
    intro i j
    rw [← LinearMap.adjoint_inner_right]
    have e : T.adjoint (T (v j)) = ((T.isSymmetric_adjoint_comp_self.eigenvalues hn j : ℝ) : 𝕜) • v j := by
      rw [hv]
      exact T.isSymmetric_adjoint_comp_self.apply_eigenvectorBasis hn j
    rw [e, inner_smul_right, orthonormal_iff_ite.1 v.orthonormal, T.sq_singularValues_fin hn]
    split_ifs <;> simp
  have hr : Module.finrank 𝕜 T.range ≤ m := (Submodule.finrank_le _).trans_eq finrank_euclideanSpace_fin
  have hrn : Module.finrank 𝕜 T.range ≤ n := (LinearMap.finrank_range_le T).trans_eq hn
  obtain ⟨u, hu⟩ := Orthonormal.exists_orthonormalBasis_extension_of_card_eq (𝕜 := 𝕜) (E := EuclideanSpace 𝕜 (Fin m)) (ι := Fin m)
    (by simp) (v := fun j : Fin m => if h : j.1 < n then ((T.singularValues j : ℝ) : 𝕜)⁻¹ • T (v ⟨j, h⟩) else 0)
    (s := {j | j.1 < Module.finrank 𝕜 T.range}) (by
      rw [orthonormal_iff_ite]
      rintro ⟨i, hi⟩ ⟨j, hj⟩
      simp only [Set.mem_setOf_eq] at hi hj
      have p := T.singularValues_pos_iff_lt_finrank_range.2 hj
      simp only [Set.restrict_apply, dif_pos (hi.trans_le hrn), dif_pos (hj.trans_le hrn), inner_smul_left, inner_smul_right, hin, Fin.mk.injEq, Subtype.mk.injEq,
        Fin.ext_iff]
      by_cases e : i.1 = j.1
      · have hp : ((T.singularValues j.1 : ℝ) : 𝕜) ≠ 0 := by exact_mod_cast p.ne'
        rw [if_pos e, if_pos e, e]
        simp
        field_simp
      · rw [if_neg e, if_neg e]; simp)
  refine ⟨u, v, fun j => ?_⟩
  by_cases hj : j.1 < Module.finrank 𝕜 T.range
  · have p := T.singularValues_pos_iff_lt_finrank_range.2 hj
    have hp : ((T.singularValues j.1 : ℝ) : 𝕜) ≠ 0 := by exact_mod_cast p.ne'
    rw [dif_pos (hj.trans_le hr), hu ⟨j, hj.trans_le hr⟩ hj]
    simp [smul_smul, mul_inv_cancel₀ hp]
  · have z : T.singularValues j = 0 := by
      by_contra h
      exact hj (T.singularValues_pos_iff_lt_finrank_range.1 ((T.singularValues_pos_iff_ne_zero _).2 h))
    have : T (v j) = 0 := by
      rw [← inner_self_eq_zero (𝕜 := 𝕜), hin]
      simp [z]
    rw [this, z]
    simp

/-- Columns of a square matrix read off an orthonormal basis. -/
noncomputable def basisMat {n : ℕ} (b : OrthonormalBasis (Fin n) 𝕜 (EuclideanSpace 𝕜 (Fin n))) : DMat 𝕜 :=
  DMat.of n n fun i j => if h : i < n ∧ j < n then b ⟨j, h.2⟩ ⟨i, h.1⟩ else 0

theorem basisMat_e {n : ℕ} (b : OrthonormalBasis (Fin n) 𝕜 (EuclideanSpace 𝕜 (Fin n))) {i j : ℕ} (hi : i < n) (hj : j < n) :
    (basisMat b).e i j = b ⟨j, hj⟩ ⟨i, hi⟩ := by
  unfold basisMat
  rw [DMat.of_e hi hj, dif_pos ⟨hi, hj⟩]

theorem basisMat_sq {n : ℕ} (b : OrthonormalBasis (Fin n) 𝕜 (EuclideanSpace 𝕜 (Fin n))) : (basisMat b).IsSq n := ⟨rfl, rfl⟩

theorem basisMat_unitary {n : ℕ} (b : OrthonormalBasis (Fin n) 𝕜 (EuclideanSpace 𝕜 (Fin n))) :
    (basisMat b).conjTranspose.mul (basisMat b) = DMat.one n := by
  refine DMat.ext rfl rfl fun i j hi hj => ?_
  change i < n at hi
  change j < n at hj
  rw [DMat.mul_e (A := (basisMat b).conjTranspose) (B := basisMat b) hi hj, DMat.one_e hi hj]
  change ∑ k ∈ Finset.range n, _ = _
  rw [Finset.sum_range]
  have h1 : ∀ k : Fin n, (basisMat b).conjTranspose.e i k * (basisMat b).e k j = inner 𝕜 (b ⟨i, hi⟩ k) (b ⟨j, hj⟩ k) := by
    intro k
    rw [DMat.conjTranspose_e, basisMat_e b k.2 hi, basisMat_e b k.2 hj, RCLike.inner_apply, mul_comm]; rfl
  rw [Finset.sum_congr rfl fun k _ => h1 k, ← PiLp.inner_apply, orthonormal_iff_ite.1 b.orthonormal]
  simp

/-- Every matrix has a singular value decomposition: the contract of `svd` can be met. -/
theorem exists_svd (C : DMat 𝕜) : ∃ d, IsSVD C d := by
  obtain ⟨T, hT⟩ : ∃ T, T = Matrix.toEuclideanLin (C.toMatrix C.rows C.cols) := ⟨_, rfl⟩
  obtain ⟨u, v, huv⟩ := exists_singular_bases T
  have hV : (basisMat v).mul (basisMat v).conjTranspose = DMat.one C.cols :=
    mul_eq_one_comm ⟨rfl, rfl⟩ (basisMat_sq v) (basisMat_unitary v)
  refine ⟨⟨basisMat u, (List.range (min C.rows C.cols)).map fun i => T.singularValues i, (basisMat v).conjTranspose⟩, ⟨rfl, rfl⟩, ⟨rfl, rfl⟩, basisMat_unitary u, ?_, by simp, ?_, ?_, ?_⟩
  · rw [DMat.conjTranspose_conjTranspose]
    exact hV
  · intro s hs
    obtain ⟨i, -, rfl⟩ := List.mem_map.1 hs
    exact T.singularValues_nonneg i
  · rw [List.pairwise_map]
    exact (List.pairwise_lt_range).imp fun h => T.singularValues_antitone h.le
  · have key : C.mul (basisMat v) = (basisMat u).mul (sigmaMat C.rows C.cols ((List.range (min C.rows C.cols)).map fun i => T.singularValues i)) := by
      refine DMat.ext rfl rfl fun i j hi hj => ?_
      change i < C.rows at hi
      change j < C.cols at hj
      rw [DMat.mul_e (A := C) (B := basisMat v) hi hj, DMat.mul_e (A := basisMat u) (B := sigmaMat C.rows C.cols _) hi hj]
      have e := congrArg (fun x : EuclideanSpace 𝕜 (Fin C.rows) => x ⟨i, hi⟩) (huv ⟨j, hj⟩)
      beta_reduce at e
      have l : (T (v ⟨j, hj⟩)) ⟨i, hi⟩ = ∑ k ∈ Finset.range C.cols, C.e i k * (basisMat v).e k j := by
        rw [hT, Finset.sum_range]
        change (Matrix.mulVec (C.toMatrix C.rows C.cols) (v ⟨j, hj⟩).ofLp) ⟨i, hi⟩ = _
        rw [Matrix.mulVec, dotProduct]
        exact Finset.sum_congr rfl fun k _ => by rw [basisMat_e v k.2 hj]; rfl
      rw [← l, e]
      change _ = ∑ k ∈ Finset.range C.rows, (basisMat u).e i k * _
      have hs : ∀ k < C.rows, (sigmaMat (𝕜 := 𝕜) C.rows C.cols ((List.range (min C.rows C.cols)).map fun i => T.singularValues i)).e k j =
          if k = j then ((T.singularValues j : ℝ) : 𝕜) else 0 := by
        intro k hk
        rw [sigmaMat, DMat.of_e hk hj]
        split_ifs with h
        · subst h
          simp [getD_eq_getElem?_getD, hk, hj]
        · rfl
      rw [Finset.sum_congr rfl fun k hk => by rw [hs k (Finset.mem_range.1 hk)]]
      by_cases h : j < C.rows
      · rw [dif_pos h]
        simp [h, basisMat_e u hi h, mul_comm, RCLike.real_smul_eq_coe_mul]
      · rw [dif_neg h]
        refine (Finset.sum_eq_zero fun k hk => ?_).symm
        rw [if_neg (by have := Finset.mem_range.1 hk; omega), mul_zero]
    rw [← key, DMat.mul_assoc' _ _ _ rfl, hV, DMat.mul_one' _ rfl]

end Verif
