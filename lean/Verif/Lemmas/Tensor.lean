import Verif.Lemmas.OrthoDim
import Verif.Lemmas.LayerComplete
import Mathlib.LinearAlgebra.Matrix.Determinant.Basic
import Mathlib.LinearAlgebra.Multilinear.Basic
import Mathlib.Algebra.BigOperators.Fin

/-! # Entries of tensor powers; the determinant tensor -/
namespace Verif
open List

namespace DMat
variable {R : Type} [CommRing R]

theorem kronL_replicate_sq {A : DMat R} {m : ℕ} (hA : A.IsSq m) : ∀ k : ℕ, (kronL (replicate k A)).IsSq (m ^ k)
  | 0 => ⟨rfl, rfl⟩
  | k + 1 => by
    obtain ⟨h1, h2⟩ := kronL_replicate_sq hA k
    rw [replicate_succ, kronL]
    exact ⟨by rw [kron_rows, hA.1, h1, pow_succ, mul_comm], by rw [kron_cols, hA.2, h2, pow_succ, mul_comm]⟩

theorem digit_mod (i : ℕ) {m s k : ℕ} (h : s < k) : i % m ^ k / m ^ s % m = i / m ^ s % m := by
  obtain ⟨t, rfl⟩ : ∃ t, k = s + (t + 1) := ⟨k - s - 1, by omega⟩
  rw [pow_add, Nat.mod_mul_right_div_self, pow_succ', Nat.mod_mul_right_mod]

/-- An entry of `A ⊗ ⋯ ⊗ A`: the product of the entries of `A` at the digits of the indices. -/
theorem kronL_replicate_e {A : DMat R} {m : ℕ} (hA : A.IsSq m) : ∀ (k : ℕ) {i j : ℕ}, i < m ^ k → j < m ^ k →
    (kronL (replicate k A)).e i j = ∏ s : Fin k, A.e (i / m ^ s.val % m) (j / m ^ s.val % m)
  | 0, i, j, hi, hj => by
    rw [pow_zero, Nat.lt_one_iff] at hi hj
    subst hi hj
    simp [kronL, one, of]
  | k + 1, i, j, hi, hj => by
    obtain ⟨h1, h2⟩ := kronL_replicate_sq hA k
    have hm : 0 < m ^ k := Nat.pos_of_ne_zero fun h => by rw [pow_succ, h, zero_mul] at hi; omega
    have hi' : i / m ^ k < m := Nat.div_lt_of_lt_mul (by rwa [pow_succ] at hi)
    have hj' : j / m ^ k < m := Nat.div_lt_of_lt_mul (by rwa [pow_succ] at hj)
    rw [replicate_succ, kronL, kron, of_e (by rw [hA.1, h1, mul_comm, ← pow_succ]; exact hi) (by rw [hA.2, h2, mul_comm, ← pow_succ]; exact hj), h1, h2,
      kronL_replicate_e hA k (Nat.mod_lt _ hm) (Nat.mod_lt _ hm), Fin.prod_univ_castSucc, mul_comm]
    congr 1
    · refine Finset.prod_congr rfl fun s _ => ?_
      rw [Fin.val_castSucc, digit_mod i s.2, digit_mod j s.2]
    · rw [Fin.val_last, Nat.mod_eq_of_lt hi', Nat.mod_eq_of_lt hj']

end DMat

section
variable {n : ℕ}

theorem digit_eq {k : ℕ} (f : Fin k → Fin n) (s : Fin k) : (finFunctionFinEquiv f : ℕ) / n ^ s.val % n = f s := by
  have : (finFunctionFinEquiv.symm (finFunctionFinEquiv f)) s = f s := by rw [Equiv.symm_apply_apply]
  exact congrArg Fin.val this

/-- How `A ⊗ ⋯ ⊗ A` acts on a tensor. -/
theorem kronL_apply (A : Matrix (Fin n) (Fin n) ℝ) {k : ℕ} (v : List ℝ) (f : Fin k → Fin n) :
    ((DMat.kronL (replicate k (DMat.ofMatrix A))).mulVec v).getD (finFunctionFinEquiv f : ℕ) 0 =
      ∑ f' : Fin k → Fin n, (∏ s, A (f s) (f' s)) * v.getD (finFunctionFinEquiv f' : ℕ) 0 := by
  have hsq := DMat.kronL_replicate_sq (A := DMat.ofMatrix A) (m := n) ⟨rfl, rfl⟩ k
  rw [DMat.getD_mulVec (by rw [hsq.1]; exact (finFunctionFinEquiv f).2), hsq.2, Finset.sum_range,
    ← Equiv.sum_comp (finFunctionFinEquiv (m := n) (n := k))]
  refine Finset.sum_congr rfl fun f' _ => ?_
  rw [DMat.kronL_replicate_e (m := n) ⟨rfl, rfl⟩ k (finFunctionFinEquiv f).2 (finFunctionFinEquiv f').2]
  congr 1
  refine Finset.prod_congr rfl fun s _ => ?_
  rw [digit_eq, digit_eq, DMat.ofMatrix_e A (f s).2 (f' s).2]

/-- Tensors with equal entries are equal. -/
theorem tensor_ext {k : ℕ} {v w : List ℝ} (hv : v.length = n ^ k) (hw : w.length = n ^ k)
    (h : ∀ f : Fin k → Fin n, v.getD (finFunctionFinEquiv f : ℕ) 0 = w.getD (finFunctionFinEquiv f : ℕ) 0) : v = w := by
  refine DMat.vec_ext (hv.trans hw.symm) fun i hi => ?_
  rw [hv] at hi
  have := h (finFunctionFinEquiv.symm ⟨i, hi⟩)
  rwa [Equiv.apply_symm_apply] at this

/-- A tensor with given entries. -/
noncomputable def mkTensor {k : ℕ} (φ : (Fin k → Fin n) → ℝ) : List ℝ := List.ofFn fun i : Fin (n ^ k) => φ (finFunctionFinEquiv.symm i)

theorem mkTensor_length {k : ℕ} (φ : (Fin k → Fin n) → ℝ) : (mkTensor φ).length = n ^ k := by simp [mkTensor]

theorem mkTensor_get {k : ℕ} (φ : (Fin k → Fin n) → ℝ) (f : Fin k → Fin n) : (mkTensor φ).getD (finFunctionFinEquiv f : ℕ) 0 = φ f := by
  rw [getD_eq_getElem _ _ (by rw [mkTensor_length]; exact (finFunctionFinEquiv f).2)]
  simp only [mkTensor, List.getElem_ofFn]
  exact congrArg φ (Equiv.symm_apply_apply finFunctionFinEquiv f)

/-- The determinant tensor: at `(i₁, …, iₙ)` the determinant with rows `e_{i₁}, …, e_{iₙ}`. -/
noncomputable def detTensor (n : ℕ) : List ℝ := mkTensor fun f : Fin n → Fin n => (Matrix.of fun s t => if f s = t then (1 : ℝ) else 0).det

theorem detTensor_length (n : ℕ) : (detTensor n).length = n ^ n := mkTensor_length _

theorem detTensor_id (n : ℕ) : (detTensor n).getD (finFunctionFinEquiv (id : Fin n → Fin n) : ℕ) 0 = 1 := by
  rw [detTensor, mkTensor_get]
  have : (Matrix.of fun s t : Fin n => if id s = t then (1 : ℝ) else 0) = 1 := by
    ext s t; simp [Matrix.one_apply]
  rw [this, Matrix.det_one]

theorem detTensor_act (A : Matrix (Fin n) (Fin n) ℝ) : (DMat.kronL (replicate n (DMat.ofMatrix A))).mulVec (detTensor n) = (detTensor n).map (A.det * ·) := by
  have hsq := DMat.kronL_replicate_sq (A := DMat.ofMatrix A) (m := n) ⟨rfl, rfl⟩ n
  refine tensor_ext (k := n) (by rw [DMat.length_mulVec, hsq.1]) (by rw [length_map, detTensor_length]) fun f => ?_
  have hlen : (finFunctionFinEquiv f : ℕ) < (detTensor n).length := by rw [detTensor_length]; exact (finFunctionFinEquiv f).2
  rw [kronL_apply, getD_eq_getElem _ _ (by rw [length_map]; exact hlen), getElem_map, ← getD_eq_getElem _ 0 hlen]
  simp only [detTensor, mkTensor_get]
  have h1 := (Matrix.detRowAlternating (n := Fin n) (R := ℝ)).toMultilinearMap.map_sum
    (α := fun _ => Fin n) (g := fun s t => A (f s) t • fun u : Fin n => if t = u then (1 : ℝ) else 0)
  have h2 : (Matrix.of fun s t => if f s = t then (1 : ℝ) else 0) * A = fun s => ∑ t, A (f s) t • fun u : Fin n => if t = u then (1 : ℝ) else 0 := by
    ext s u
    rw [Matrix.mul_apply, Finset.sum_apply, Finset.sum_eq_single (f s), Finset.sum_eq_single u]
    · simp
    · intro t _ ht; simp [ht]
    · simp
    · intro t _ ht; simp [Ne.symm ht]
    · simp
  rw [mul_comm, ← Matrix.det_mul, h2]
  refine Eq.symm (h1.trans (Finset.sum_congr rfl fun f' _ => ?_))
  exact (MultilinearMap.map_smul_univ _ _ _).trans rfl

end
end Verif
