import Verif.Lemmas.DenseRing
import Mathlib.LinearAlgebra.Matrix.SemiringInverse
import Mathlib.Algebra.BigOperators.Fin

/-! A one-sided inverse of a square matrix is two-sided. -/
namespace Verif
open List

namespace DMat
variable {R : Type*} [CommRing R]

/-- As a Mathlib matrix. -/
def toMatrix (A : DMat R) (m n : ℕ) : Matrix (Fin m) (Fin n) R := fun i j => A.e i j

theorem toMatrix_mul (A B : DMat R) {m n p : ℕ} (hA : A.rows = m) (hA' : A.cols = n) (hB' : B.cols = p) :
    (A.mul B).toMatrix m p = A.toMatrix m n * B.toMatrix n p := by
  ext i j
  rw [Matrix.mul_apply]
  simp only [toMatrix]
  rw [mul_e (by rw [hA]; exact i.2) (by rw [hB']; exact j.2), hA', Finset.sum_range]

theorem toMatrix_one (n : ℕ) : (one n : DMat R).toMatrix n n = 1 := by
  ext i j
  simp only [toMatrix]
  rw [one_e i.2 j.2, Matrix.one_apply]
  simp [Fin.ext_iff]

theorem toMatrix_inj {A B : DMat R} {m n : ℕ} (hA : A.rows = m) (hA' : A.cols = n) (hB : B.rows = m) (hB' : B.cols = n)
    (h : A.toMatrix m n = B.toMatrix m n) : A = B := by
  refine ext (hA.trans hB.symm) (hA'.trans hB'.symm) fun i j hi hj => ?_
  exact congrFun (congrFun h ⟨i, by omega⟩) ⟨j, by omega⟩

theorem mul_eq_one_comm {A B : DMat R} {n : ℕ} (hA : A.IsSq n) (hB : B.IsSq n) (h : A.mul B = one n) : B.mul A = one n := by
  apply toMatrix_inj (m := n) (n := n) (by simpa using hB.1) (by simpa using hA.2) rfl rfl
  rw [toMatrix_mul B A hB.1 hB.2 hA.2, toMatrix_one]
  rw [_root_.mul_eq_one_comm, ← toMatrix_mul A B hA.1 hA.2 hB.2, h, toMatrix_one]

/-- The transposed inverse is unique. -/
theorem invT_unique {A B M : DMat R} {n : ℕ} (hA : A.IsSq n) (hB : B.IsSq n) (hM : M.IsSq n)
    (h1 : A.transpose.mul M = one n) (h2 : B.transpose.mul M = one n) : A = B := by
  have hBt : B.transpose.IsSq n := ⟨hB.2, hB.1⟩
  have h3 := mul_eq_one_comm hBt hM h2
  have h4 : A.transpose = B.transpose := by
    rw [← mul_one' A.transpose (n := n) (by simpa using hA.1), ← h3, ← mul_assoc' _ _ _ (by simp [hA.1, hM.1]), h1,
      one_mul' _ (by simpa using hB.2)]
  rw [← transpose_transpose A, h4, transpose_transpose]

end DMat
end Verif
