import Mathlib.LinearAlgebra.Matrix.Kronecker
import Verif.Lemmas.Sample

/-! # Exponentials of Kronecker sums and embedded blocks -/
namespace Verif
open Matrix List NormedSpace
open scoped Kronecker

variable {𝕜 : Type*} [RCLike 𝕜] {m n : Type*} [Fintype m] [DecidableEq m] [Fintype n] [DecidableEq n]

/-- Renaming indices commutes with the exponential. -/
theorem exp_submatrix (e : m ≃ n) (A : Matrix n n 𝕜) : exp (A.submatrix e e) = (exp A).submatrix e e := by
  have h := exp_intertwine (𝕜 := 𝕜) ((1 : Matrix n n 𝕜).submatrix e id) A (A.submatrix e e) (by
    ext i j
    simp only [Matrix.mul_apply, submatrix_apply, id, one_apply, ite_mul, one_mul, zero_mul, Finset.sum_ite_eq, Finset.mem_univ, if_true, mul_ite, mul_one, mul_zero]
    rw [Finset.sum_eq_single (e.symm j)]
    · simp
    · intro b _ hb
      rw [if_neg]
      rintro rfl
      simp at hb
    · simp)
  ext i j
  have h2 := congrFun (congrFun h i) (e j)
  simp only [Matrix.mul_apply, submatrix_apply, id, one_apply, ite_mul, one_mul, zero_mul, Finset.sum_ite_eq, Finset.mem_univ, if_true, mul_ite, mul_one, mul_zero,
    e.apply_eq_iff_eq, Finset.sum_ite_eq'] at h2
  exact h2.symm

/-- `exp (A ⊗ 1) = exp A ⊗ 1` -/
theorem exp_kron_one (A : Matrix m m 𝕜) : exp (A ⊗ₖ (1 : Matrix n n 𝕜)) = exp A ⊗ₖ (1 : Matrix n n 𝕜) := by
  ext ⟨i, j⟩ ⟨k, l⟩
  have h := exp_intertwine (𝕜 := 𝕜) (Matrix.of fun (a : m) (b : m × n) => if b = (a, j) then (1 : 𝕜) else 0) (A ⊗ₖ (1 : Matrix n n 𝕜)) A (by
    ext a ⟨b, c⟩
    simp only [Matrix.mul_apply, of_apply, Finset.sum_ite_eq', ite_mul, one_mul, zero_mul, Finset.mem_univ, if_true]
    simp only [kroneckerMap_apply, Prod.mk.injEq, mul_ite, mul_one, mul_zero, one_apply]
    by_cases hc : j = c
    · subst hc; simp
    · simp [hc, Ne.symm hc])
  have h2 := congrFun (congrFun h i) (k, l)
  simp only [Matrix.mul_apply, of_apply, Finset.sum_ite_eq', ite_mul, one_mul, zero_mul, Finset.mem_univ, if_true,
      Prod.mk.injEq, mul_ite, mul_one, mul_zero] at h2
  rw [h2, kroneckerMap_apply, one_apply]
  by_cases hc : j = l
  · subst hc; simp
  · simp [hc, Ne.symm hc]

/-- `exp (1 ⊗ B) = 1 ⊗ exp B` -/
theorem exp_one_kron (B : Matrix n n 𝕜) : exp ((1 : Matrix m m 𝕜) ⊗ₖ B) = (1 : Matrix m m 𝕜) ⊗ₖ exp B := by
  ext ⟨i, j⟩ ⟨k, l⟩
  have h := exp_intertwine (𝕜 := 𝕜) (Matrix.of fun (a : n) (b : m × n) => if b = (i, a) then (1 : 𝕜) else 0) ((1 : Matrix m m 𝕜) ⊗ₖ B) B (by
    ext a ⟨b, c⟩
    simp only [Matrix.mul_apply, of_apply, Finset.sum_ite_eq', ite_mul, one_mul, zero_mul, Finset.mem_univ, if_true]
    simp only [kroneckerMap_apply, Prod.mk.injEq, mul_ite, mul_one, mul_zero, one_apply]
    by_cases hc : i = b
    · subst hc; simp
    · simp [hc, Ne.symm hc])
  have h2 := congrFun (congrFun h j) (k, l)
  simp only [Matrix.mul_apply, of_apply, Finset.sum_ite_eq', ite_mul, one_mul, zero_mul, Finset.mem_univ, if_true,
      Prod.mk.injEq, mul_ite, mul_one, mul_zero] at h2
  rw [h2, kroneckerMap_apply, one_apply]
  by_cases hc : i = k
  · subst hc; simp
  · simp [hc, Ne.symm hc]

/-- The exponential of a Kronecker sum is the Kronecker product of the exponentials. -/
theorem exp_kronsum (A : Matrix m m 𝕜) (B : Matrix n n 𝕜) :
    exp (A ⊗ₖ (1 : Matrix n n 𝕜) + (1 : Matrix m m 𝕜) ⊗ₖ B) = exp A ⊗ₖ exp B := by
  rw [Matrix.exp_add_of_commute, exp_kron_one, exp_one_kron, ← mul_kronecker_mul, Matrix.mul_one, Matrix.one_mul]
  rw [Commute, SemiconjBy, ← mul_kronecker_mul, ← mul_kronecker_mul, Matrix.mul_one, Matrix.one_mul, Matrix.mul_one, Matrix.one_mul]

/-- The block of `A` placed on the indices `f`, `c` times the identity elsewhere. -/
def blockAt (f : m → n) [DecidableEq m] [DecidableEq n] (c : 𝕜) (A : Matrix m m 𝕜) : Matrix n n 𝕜 := fun i j =>
  ∑ a, ∑ b, (if f a = i ∧ f b = j then A a b else 0) + if i = j ∧ ∀ a, f a ≠ i then c else 0

theorem blockAt_in {f : m → n} (hf : Function.Injective f) (c : 𝕜) (A : Matrix m m 𝕜) (a b : m) : blockAt f c A (f a) (f b) = A a b := by
  unfold blockAt
  rw [Finset.sum_eq_single a, Finset.sum_eq_single b]
  · simp
  · intro b' _ hb; simp [hf.ne hb]
  · simp
  · intro a' _ ha; simp [hf.ne ha]
  · simp

theorem blockAt_off {f : m → n} (c : 𝕜) (A : Matrix m m 𝕜) {i : n} (hi : ∀ a, f a ≠ i) (j : n) :
    blockAt f c A i j = if i = j then c else 0 := by
  unfold blockAt
  rw [Finset.sum_eq_zero]
  · simp [hi]
  · intro a _; simp [hi a]

theorem blockAt_off' {f : m → n} (c : 𝕜) (A : Matrix m m 𝕜) {j : n} (hj : ∀ a, f a ≠ j) (i : n) :
    blockAt f c A i j = if i = j then c else 0 := by
  unfold blockAt
  rw [Finset.sum_eq_zero]
  · by_cases h : i = j
    · subst h; simp [hj]
    · simp [h]
  · intro a _; simp [hj]

theorem blockAt_ext {f : m → n} (hf : Function.Injective f) {c : 𝕜} {A : Matrix m m 𝕜} {M : Matrix n n 𝕜} (h1 : ∀ a b, M (f a) (f b) = A a b)
    (h2 : ∀ i, (∀ a, f a ≠ i) → ∀ j, M i j = if i = j then c else 0) (h3 : ∀ j, (∀ a, f a ≠ j) → ∀ i, M i j = if i = j then c else 0) :
    M = blockAt f c A := by
  ext i j
  by_cases hi : ∃ a, f a = i
  · obtain ⟨a, rfl⟩ := hi
    by_cases hj : ∃ b, f b = j
    · obtain ⟨b, rfl⟩ := hj
      rw [h1, blockAt_in hf]
    · push Not at hj
      rw [h3 j hj, blockAt_off' c A hj]
  · push Not at hi
    rw [h2 i hi, blockAt_off c A hi]

theorem blockAt_one {f : m → n} (hf : Function.Injective f) : (1 : Matrix n n 𝕜) = blockAt f 1 1 :=
  blockAt_ext hf (fun a b => by simp [one_apply, hf.eq_iff]) (fun i _ j => one_apply) (fun j _ i => one_apply)

theorem blockAt_mul {f : m → n} (hf : Function.Injective f) (c d : 𝕜) (A B : Matrix m m 𝕜) : blockAt f c A * blockAt f d B = blockAt f (c * d) (A * B) := by
  refine blockAt_ext hf (fun a b => ?_) (fun i hi j => ?_) (fun j hj i => ?_)
  · rw [Matrix.mul_apply, Matrix.mul_apply]
    rw [← Finset.sum_subset (Finset.subset_univ (Finset.univ.map ⟨f, hf⟩)), Finset.sum_map]
    · simp only [Function.Embedding.coeFn_mk, blockAt_in hf]
    · intro x _ hx
      have hx' : ∀ a, f a ≠ x := by simpa using hx
      rw [blockAt_off' c A hx', if_neg (hx' a), zero_mul]
  · rw [Matrix.mul_apply]
    simp only [blockAt_off c A hi, ite_mul, zero_mul, Finset.sum_ite_eq, Finset.mem_univ, if_true]
    rw [blockAt_off d B hi]
    split_ifs <;> simp
  · rw [Matrix.mul_apply]
    simp only [blockAt_off' d B hj, mul_ite, mul_zero, Finset.sum_ite_eq', Finset.mem_univ, if_true]
    rw [blockAt_off' c A hj]
    split_ifs <;> simp

/-- Exponential of an embedded block. -/
theorem exp_blockAt {f : m → n} (hf : Function.Injective f) (A : Matrix m m 𝕜) : exp (blockAt f 0 A) = blockAt f 1 (exp A) := by
  have h1 := exp_intertwine (𝕜 := 𝕜) (Matrix.of fun (i : n) (a : m) => if f a = i then (1 : 𝕜) else 0) A (blockAt f 0 A) (by
    ext i a
    simp only [Matrix.mul_apply, of_apply, ite_mul, one_mul, zero_mul, mul_ite, mul_one, mul_zero, Finset.sum_ite_eq, Finset.mem_univ, if_true]
    by_cases hi : ∃ b, f b = i
    · obtain ⟨b, rfl⟩ := hi
      rw [blockAt_in hf]
      simp [hf.eq_iff]
    · push Not at hi
      rw [blockAt_off 0 A hi]
      simp [hi])
  refine blockAt_ext hf (fun a b => ?_) (fun i hi j => ?_) (fun j hj i => ?_)
  · have := congrFun (congrFun h1 (f a)) b
    simp only [Matrix.mul_apply, of_apply, ite_mul, one_mul, zero_mul, mul_ite, mul_one, mul_zero, Finset.sum_ite_eq, Finset.mem_univ, if_true, hf.eq_iff] at this
    simpa using this.symm
  · have h2 := exp_intertwine (𝕜 := 𝕜) (Matrix.of fun (_ : Unit) (k : n) => if i = k then (1 : 𝕜) else 0) (blockAt f 0 A) 0 (by
      ext u k
      simp [Matrix.mul_apply, blockAt_off 0 A hi])
    have := congrFun (congrFun h2 ()) j
    simpa [Matrix.mul_apply, Matrix.one_apply] using this
  · have h2 := exp_intertwine (𝕜 := 𝕜) (Matrix.of fun (k : n) (_ : Unit) => if j = k then (1 : 𝕜) else 0) 0 (blockAt f 0 A) (by
      ext k u
      simp [Matrix.mul_apply, blockAt_off' 0 A hj])
    have := congrFun (congrFun h2 i) ()
    simpa [Matrix.mul_apply, Matrix.one_apply, eq_comm] using this.symm

end Verif
