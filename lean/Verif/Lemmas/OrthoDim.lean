import Verif.Lemmas.Ortho
import Verif.Lemmas.DenseRing
import Mathlib.LinearAlgebra.FiniteDimensional.Lemmas
import Mathlib.LinearAlgebra.Dimension.Constructions

/-!
# The number of columns of an orthonormal basis
-/
namespace Verif
open List
variable {K : Type} [Field K] [StarRing K]

/-- The function `a ↦ Q a`. -/
def DMat.lin' (Q : DMat K) : (Fin Q.cols → K) →ₗ[K] (Fin Q.rows → K) where
  toFun a i := ∑ j : Fin Q.cols, Q.e i j * a j
  map_add' a b := by funext i; simp [mul_add, Finset.sum_add_distrib]
  map_smul' c a := by funext i; simp only [Pi.smul_apply, smul_eq_mul, RingHom.id_apply, Finset.mul_sum]; exact Finset.sum_congr rfl fun j _ => by ring

theorem DMat.lin'_ofFn (Q : DMat K) (a : Fin Q.cols → K) : Q.mulVec (List.ofFn a) = List.ofFn (Q.lin' a) := by
  refine DMat.vec_ext (by simp) fun i hi => ?_
  have hi : i < Q.rows := by simpa using hi
  rw [DMat.getD_mulVec hi, getD_eq_getElem _ _ (by simpa using hi), List.getElem_ofFn, Finset.sum_range]
  refine Finset.sum_congr rfl fun j _ => ?_
  rw [getD_eq_getElem _ _ (by simp), List.getElem_ofFn]

/-- `equivariant_basis()` has as many columns as the space it spans has dimensions. -/
theorem OrthoBasis.cols_eq {n c : ℕ} {Q : DMat K} {F : List K → Prop} (h : OrthoBasis n Q F) (L : (Fin c → K) →ₗ[K] (Fin n → K))
    (hL : Function.Injective L) (hF : ∀ v : Fin n → K, F (List.ofFn v) ↔ ∃ b, L b = v) : Q.cols = c := by
  obtain rfl := h.rows
  have inj : Function.Injective Q.lin' := by
    intro a b hab
    have h1 : ∀ a : Fin Q.cols → K, Q.conjTranspose.mulVec (Q.mulVec (List.ofFn a)) = List.ofFn a := fun a => by
      rw [← DMat.mulVec_mul _ _ _ rfl, h.orth, DMat.mulVec_one _ (by simp)]
    have h2 := h1 a
    rw [DMat.lin'_ofFn, hab, ← DMat.lin'_ofFn, h1 b] at h2
    exact (List.ofFn_injective h2).symm
  have e : LinearMap.range Q.lin' = LinearMap.range L := by
    ext v
    rw [LinearMap.mem_range, LinearMap.mem_range, ← hF, h.span _ (by simp)]
    constructor
    · rintro ⟨a, rfl⟩
      exact ⟨List.ofFn a, by simp, Q.lin'_ofFn a⟩
    · rintro ⟨a, ha, hv⟩
      refine ⟨fun j => a.getD j 0, List.ofFn_injective ?_⟩
      rw [← Q.lin'_ofFn, ← hv]
      congr 1
      exact List.ext_getElem (by simp [ha]) fun i h1 h2 => by simp [h2]
  have h3 := LinearMap.finrank_range_of_inj inj
  have h4 := LinearMap.finrank_range_of_inj hL
  rw [e, h4] at h3
  simpa using h3.symm

end Verif
