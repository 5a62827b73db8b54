import Mathlib.LinearAlgebra.Matrix.Permutation
import Mathlib.GroupTheory.Perm.Closure
import Verif.Model.GroupInit
import Verif.Lemmas.Sample

/-! # Permutation generators -/
namespace Verif
open Matrix List

/-- the matrix of `v ↦ v[σ]` -/
abbrev pm {n : ℕ} (σ : Equiv.Perm (Fin n)) : Matrix (Fin n) (Fin n) ℝ := σ.permMatrix ℝ

theorem pm_apply {n : ℕ} (σ : Equiv.Perm (Fin n)) (i j : Fin n) : pm σ i j = if σ i = j then 1 else 0 := by
  simp [pm, Equiv.Perm.permMatrix, PEquiv.toMatrix_apply, Equiv.toPEquiv_apply, eq_comm]

theorem pm_mul {n : ℕ} (σ τ : Equiv.Perm (Fin n)) : pm σ * pm τ = pm (τ * σ) := (Matrix.permMatrix_mul τ σ).symm

theorem pm_one {n : ℕ} : pm (1 : Equiv.Perm (Fin n)) = 1 := Matrix.permMatrix_one

theorem pm_inv {n : ℕ} (σ : Equiv.Perm (Fin n)) : (pm σ)⁻¹ = pm σ⁻¹ :=
  Matrix.inv_eq_left_inv (by rw [pm_mul, mul_inv_cancel, pm_one])

theorem pm_inj {n : ℕ} {σ τ : Equiv.Perm (Fin n)} (h : pm σ = pm τ) : σ = τ := by
  ext i
  have := congrFun (congrFun h i) (σ i)
  rw [pm_apply, pm_apply, if_pos rfl] at this
  by_contra hne
  rw [if_neg (fun h => hne (by rw [h]))] at this
  exact one_ne_zero this

theorem symGens_getD {n i k : ℕ} (hk : k < n) (hi : i + 1 < n) :
    (((range n).set 0 (i + 1)).set (i + 1) 0).getD k 0 = if k = i + 1 then 0 else if k = 0 then i + 1 else k := by
  rw [getD_eq_getElem?_getD, getElem?_set, getElem?_set]
  by_cases h1 : i + 1 = k
  · rw [if_pos h1, if_pos h1.symm, if_pos (by simpa [h1] using hk)]; rfl
  · rw [if_neg h1, if_neg (Ne.symm h1)]
    by_cases h0 : 0 = k
    · subst h0; simp [hk]
    · rw [if_neg h0, if_neg (Ne.symm h0), getElem?_range hk]; rfl

theorem dense_symGen {n i : ℕ} (hi : i + 1 < n) :
    denseGen n (.perm (((range n).set 0 (i + 1)).set (i + 1) 0)) = pm (Equiv.swap ⟨0, by omega⟩ ⟨i + 1, hi⟩) := by
  ext a b
  rw [pm_apply]
  simp only [denseGen, of_apply, LinOp.sem, DMat.permMat]
  rw [DMat.of_e (by simp) (by simp), symGens_getD a.2 hi]
  simp only [Equiv.swap_apply_def, Fin.ext_iff]
  congr 1
  split_ifs <;> simp_all

/-- A generated group of permutation matrices consists of permutation matrices. -/
theorem Generated.perm_of {n : ℕ} {disc : List (Matrix (Fin n) (Fin n) ℝ)} (hd : ∀ h ∈ disc, ∃ σ, h = pm σ)
    {g : Matrix (Fin n) (Fin n) ℝ} (hg : Generated [] disc g) : ∃ σ, g = pm σ := by
  induction hg with
  | one => exact ⟨1, pm_one.symm⟩
  | exp h =>
    refine ⟨1, ?_⟩
    have : {B : Matrix (Fin n) (Fin n) ℝ | B ∈ ([] : List _)} = ∅ := by ext; simp
    rw [this, Submodule.span_empty, Submodule.mem_bot] at h
    rw [h, NormedSpace.exp_zero, pm_one]
  | gen h => exact hd _ h
  | inv h =>
    obtain ⟨σ, rfl⟩ := hd _ h
    exact ⟨_, pm_inv σ⟩
  | mul _ _ ih1 ih2 =>
    obtain ⟨σ, rfl⟩ := ih1
    obtain ⟨τ, rfl⟩ := ih2
    exact ⟨_, pm_mul σ τ⟩

/-- The transpositions with one point generate all permutation matrices. -/
theorem Generated.sym {n : ℕ} (hn : 0 < n) {disc : List (Matrix (Fin n) (Fin n) ℝ)}
    (hd : ∀ i (hi : i + 1 < n), pm (Equiv.swap ⟨0, hn⟩ ⟨i + 1, hi⟩) ∈ disc) (σ : Equiv.Perm (Fin n)) :
    Generated [] disc (pm σ) := by
  have h0 : ∀ x, Generated [] disc (pm (Equiv.swap ⟨0, hn⟩ x)) := by
    intro ⟨x, hx⟩
    cases x with
    | zero => rw [Equiv.swap_self]; exact pm_one (n := n) ▸ Generated.one
    | succ i => exact .gen (hd i hx)
  have hs : ∀ x y, Generated [] disc (pm (Equiv.swap x y)) := by
    intro x y
    by_cases hxy : x = y
    · subst hxy; rw [Equiv.swap_self]; exact pm_one (n := n) ▸ Generated.one
    by_cases hx : x = ⟨0, hn⟩
    · rw [hx]; exact h0 y
    by_cases hy : y = ⟨0, hn⟩
    · rw [hy, Equiv.swap_comm]; exact h0 x
    have : Equiv.swap x y = Equiv.swap ⟨0, hn⟩ x * Equiv.swap ⟨0, hn⟩ y * Equiv.swap ⟨0, hn⟩ x := by
      rw [Equiv.swap_comm ⟨0, hn⟩ y, Equiv.swap_mul_swap_mul_swap (x := y) (y := ⟨0, hn⟩) (z := x) hy (Ne.symm hxy)]
    rw [this, ← pm_mul, ← pm_mul]
    exact (h0 x).mul ((h0 y).mul (h0 x))
  induction σ using Equiv.Perm.swap_induction_on with
  | one => exact pm_one (n := n) ▸ Generated.one
  | swap_mul f x y _ ih => rw [← pm_mul]; exact ih.mul (hs x y)

/-- Row `i` of an orthogonal matrix with an entry one has no other entry. -/
theorem perm_of_orth {n : ℕ} {h : Matrix (Fin n) (Fin n) ℝ} (ho : hᵀ * h = 1)
    (hr : ∀ i, (Finset.univ.filter fun j => h i j = 1).card = 1) : ∃ σ, h = pm σ := by
  have ho' : h * hᵀ = 1 := mul_eq_one_comm.1 ho
  have hex : ∀ i, ∃ j, h i j = 1 := by
    intro i
    obtain ⟨j, hj⟩ := Finset.card_eq_one.1 (hr i)
    exact ⟨j, by have : j ∈ Finset.univ.filter fun j => h i j = 1 := by rw [hj]; simp
                 simpa using this⟩
  choose f hf using hex
  have hz : ∀ i j, j ≠ f i → h i j = 0 := by
    intro i j hj
    have h1 := congrFun (congrFun ho' i) i
    rw [Matrix.mul_apply, Matrix.one_apply_eq] at h1
    simp only [transpose_apply] at h1
    rw [← Finset.add_sum_erase _ _ (Finset.mem_univ (f i)), hf i] at h1
    have h2 : ∑ x ∈ Finset.univ.erase (f i), h i x * h i x = 0 := by linarith
    have := (Finset.sum_eq_zero_iff_of_nonneg (fun x _ => mul_self_nonneg (h i x))).1 h2 j (by simp [hj])
    exact mul_self_eq_zero.1 this
  have hinj : Function.Injective f := by
    intro a b hab
    by_contra hne
    have h1 := congrFun (congrFun ho' a) b
    rw [Matrix.mul_apply, Matrix.one_apply_ne hne] at h1
    simp only [transpose_apply] at h1
    rw [Finset.sum_eq_single (f a), hf a, hab, hf b] at h1
    · norm_num at h1
    · intro x _ hx
      rw [hz a x hx, zero_mul]
    · simp
  refine ⟨Equiv.ofBijective f (Finite.injective_iff_bijective.1 hinj), ?_⟩
  ext i j
  rw [pm_apply, Equiv.ofBijective_apply]
  split_ifs with hj
  · rw [← hj, hf i]
  · exact hz i j (fun h => hj h.symm)

theorem pm_orth {n : ℕ} (σ : Equiv.Perm (Fin n)) : (pm σ)ᵀ * pm σ = 1 := by
  have : (pm σ)ᵀ = pm σ⁻¹ := by
    ext i j
    rw [transpose_apply, pm_apply, pm_apply]
    congr 1
    rw [Equiv.Perm.inv_eq_iff_eq]
    exact propext eq_comm
  rw [this, pm_mul, mul_inv_cancel, pm_one]

theorem pm_row {n : ℕ} (σ : Equiv.Perm (Fin n)) (i : Fin n) : (Finset.univ.filter fun j => pm σ i j = 1).card = 1 := by
  rw [Finset.card_eq_one]
  refine ⟨σ i, ?_⟩
  ext j
  simp only [Finset.mem_filter, Finset.mem_univ, true_and, Finset.mem_singleton, pm_apply]
  split_ifs with h
  · simp [h]
  · simpa using fun h' => h (Eq.symm h')

end Verif
