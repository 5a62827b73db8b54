import Verif.Lemmas.LieSpan
import Verif.Spec.Group

/-! # Span and independence of the generators of `Sp(m)` -/
namespace Verif
open Matrix List

/-- labels of the second half of the `Sp(m)` table -/
def spLab2 (m : ℕ) : List ((ℕ × ℕ) × Bool) := (lePairs m).flatMap fun p => [(p, false), (p, true)]

/-- labels of the `Sp(m)` table -/
def spLabels (m : ℕ) : List ((ℕ × ℕ) ⊕ ((ℕ × ℕ) × Bool)) := (allPairs m m).map .inl ++ (spLab2 m).map .inr

/-- the generator with a given label -/
noncomputable def spGen (m : ℕ) : (ℕ × ℕ) ⊕ ((ℕ × ℕ) × Bool) → Sl ℝ
  | .inl p => spA m p
  | .inr (p, false) => spC m p
  | .inr (p, true) => spB m p

theorem sp_list (m : ℕ) : ((allPairs m m).map (spA m) ++ (lePairs m).flatMap (spCB m) : List (Sl ℝ)) =
    (spLabels m).map (spGen m) := by
  simp only [spLabels, spLab2, map_append, List.map_map, map_flatMap, map_cons, map_nil]
  rfl

theorem mem_spLab2 {m : ℕ} {p : (ℕ × ℕ) × Bool} : p ∈ spLab2 m ↔ p.1.2 ≤ p.1.1 ∧ p.1.1 < m := by
  unfold spLab2
  rw [mem_flatMap]
  constructor
  · rintro ⟨q, hq, hp⟩
    simp only [mem_cons, not_mem_nil, or_false] at hp
    rcases hp with rfl | rfl <;> exact mem_lePairs.1 hq
  · intro h
    refine ⟨p.1, mem_lePairs.2 h, ?_⟩
    obtain ⟨q, b⟩ := p
    cases b <;> simp

theorem spLab2_nodup (m : ℕ) : (spLab2 m).Nodup := by
  unfold spLab2
  rw [nodup_flatMap]
  refine ⟨fun p _ => by simp, (lePairs_nodup m).imp ?_⟩
  intro a b hab
  simp only [Function.onFun, disjoint_left, mem_cons, not_mem_nil, or_false]
  rintro x (rfl | rfl) h <;> simp at h <;> exact hab h

theorem spLabels_nodup (m : ℕ) : (spLabels m).Nodup := nodup_inl_inr _ _ (allPairs_nodup m m) (spLab2_nodup m)

theorem sp_indep (m : ℕ) : LinearIndependent ℝ ((spLabels m).map fun x => (spGen m x).mat (2 * m)).get := by
  apply linIndep_map _ (spLabels_nodup m) _ fun x => match x with
    | .inl p => ent (2 * m) p.1 p.2
    | .inr (p, false) => ent (2 * m) (m + p.1) p.2
    | .inr (p, true) => ent (2 * m) p.1 (m + p.2)
  intro x hx y hy
  simp only [spLabels, mem_append, mem_map] at hx hy
  rcases hx with ⟨⟨i, j⟩, hp, rfl⟩ | ⟨⟨⟨i, j⟩, b⟩, hp, rfl⟩ <;> rcases hy with ⟨⟨k, l⟩, hq, rfl⟩ | ⟨⟨⟨k, l⟩, c⟩, hq, rfl⟩ <;>
    simp only [mem_allPairs, mem_spLab2] at hp hq <;> (try cases b) <;> (try cases c) <;>
    simp only [spGen] <;> rw [ent_mat _ _ (by omega) (by omega)] <;>
    simp only [spA, spB, spC, upd, Sum.inl.injEq, Sum.inr.injEq, Prod.mk.injEq, reduceCtorEq, if_false, and_true, and_false] <;>
    split_ifs <;> first | rfl | omega

/-- `(JA)_{ij}` and `(AᵀJ)_{ij}` read off the entries -/
theorem symplJ_mul (m : ℕ) (A : Matrix (Fin (2 * m)) (Fin (2 * m)) ℝ) (i j : Fin (2 * m)) :
    (symplJ m * A) i j = if h : i.val < m then A ⟨i + m, by omega⟩ j else -A ⟨i - m, by omega⟩ j := by
  rw [mul_apply]
  split
  · rename_i h
    rw [Finset.sum_eq_single ⟨i + m, by omega⟩]
    · simp [symplJ]
    · intro k _ hk
      have : k.val ≠ i + m := fun h => hk (Fin.ext h)
      rw [symplJ, if_neg (by omega), if_neg (by omega), zero_mul]
    · simp
  · rename_i h
    rw [Finset.sum_eq_single ⟨i - m, by omega⟩]
    · rw [symplJ, if_neg (by simp; omega), if_pos (by simp; omega), neg_one_mul]
    · intro k _ hk
      have : k.val ≠ i - m := fun h => hk (Fin.ext h)
      rw [symplJ, if_neg (by omega), if_neg (by omega), zero_mul]
    · simp

theorem mul_symplJ (m : ℕ) (A : Matrix (Fin (2 * m)) (Fin (2 * m)) ℝ) (i j : Fin (2 * m)) :
    (A * symplJ m) i j = if h : j.val < m then -A i ⟨j + m, by omega⟩ else A i ⟨j - m, by omega⟩ := by
  rw [mul_apply]
  split
  · rename_i h
    rw [Finset.sum_eq_single ⟨j + m, by omega⟩]
    · rw [symplJ, if_neg (by simp; omega), if_pos (by simp), mul_neg_one]
    · intro k _ hk
      have : k.val ≠ j + m := fun h => hk (Fin.ext h)
      rw [symplJ, if_neg (by omega), if_neg (by omega), mul_zero]
    · simp
  · rename_i h
    rw [Finset.sum_eq_single ⟨j - m, by omega⟩]
    · rw [symplJ, if_pos (by simp; omega), mul_one]
    · intro k _ hk
      have : k.val ≠ j - m := fun h => hk (Fin.ext h)
      rw [symplJ, if_neg (by omega), if_neg (by omega), mul_zero]
    · simp

theorem symplJ_sq (m : ℕ) : symplJ m * symplJ m = -1 := by
  ext i j
  rw [symplJ_mul, Matrix.neg_apply, one_apply]
  simp only [Fin.ext_iff]
  split
  · simp only [symplJ]
    split_ifs <;> first | (exfalso; omega) | simp
  · simp only [symplJ]
    split_ifs <;> first | (exfalso; omega) | simp

theorem symplJ_transpose (m : ℕ) : (symplJ m)ᵀ = -symplJ m := by
  ext i j
  simp only [transpose_apply, Matrix.neg_apply, symplJ]
  split_ifs <;> first | (exfalso; omega) | simp

theorem spGen_form (m : ℕ) (x : (ℕ × ℕ) ⊕ ((ℕ × ℕ) × Bool)) (hx : x ∈ spLabels m) :
    ((spGen m x).mat (2 * m))ᵀ * symplJ m + symplJ m * (spGen m x).mat (2 * m) = 0 := by
  ext i j
  rw [Matrix.add_apply, mul_symplJ, symplJ_mul]
  simp only [spLabels, mem_append, mem_map] at hx
  rcases hx with ⟨⟨k, l⟩, hp, rfl⟩ | ⟨⟨⟨k, l⟩, b⟩, hp, rfl⟩ <;>
    simp only [mem_allPairs, mem_spLab2] at hp <;> (try cases b) <;>
    split <;> split <;>
    simp only [spGen, transpose_apply, Sl.mat_apply, spA, spB, spC, upd, Matrix.zero_apply] <;>
    split_ifs <;> first | (exfalso; omega) | simp

/-- partner index -/
def spσ (m : ℕ) (i : Fin (2 * m)) : Fin (2 * m) := if h : i.val < m then ⟨i + m, by omega⟩ else ⟨i - m, by omega⟩
/-- sign -/
noncomputable def spS (m : ℕ) (i : Fin (2 * m)) : ℝ := if i.val < m then 1 else -1

theorem sp_span (m : ℕ) (A : Matrix (Fin (2 * m)) (Fin (2 * m)) ℝ) :
    A ∈ Submodule.span ℝ {B | B ∈ (spLabels m).map fun x => (spGen m x).mat (2 * m)} ↔
      Aᵀ * symplJ m + symplJ m * A = 0 := by
  constructor
  · intro h
    induction h using Submodule.span_induction with
    | mem B h =>
      simp only [Set.mem_setOf_eq, mem_map] at h
      obtain ⟨x, hx, rfl⟩ := h
      exact spGen_form m x hx
    | zero => simp
    | add B C _ _ h1 h2 =>
      rw [transpose_add, Matrix.add_mul, Matrix.mul_add, add_add_add_comm, h1, h2, add_zero]
    | smul c B _ h => rw [transpose_smul, Matrix.smul_mul, Matrix.mul_smul, ← smul_add, h, smul_zero]
  · intro hA
    set S := Submodule.span ℝ {B | B ∈ (spLabels m).map fun x => (spGen m x).mat (2 * m)} with hS
    have hmem : ∀ x ∈ spLabels m, (spGen m x).mat (2 * m) ∈ S := fun x hx =>
      Submodule.subset_span (mem_map.2 ⟨x, hx, rfl⟩)
    have hinl : ∀ i j : ℕ, i < m → j < m → (spA m (i, j) : Sl ℝ).mat (2 * m) ∈ S := fun i j hi hj =>
      hmem (.inl (i, j)) (by simp [spLabels, mem_allPairs, hi, hj])
    have hC : ∀ i j : ℕ, j ≤ i → i < m → (spC m (i, j) : Sl ℝ).mat (2 * m) ∈ S := fun i j hi hj =>
      hmem (.inr ((i, j), false)) (by simp [spLabels, mem_spLab2, hi, hj])
    have hB : ∀ i j : ℕ, j ≤ i → i < m → (spB m (i, j) : Sl ℝ).mat (2 * m) ∈ S := fun i j hi hj =>
      hmem (.inr ((i, j), true)) (by simp [spLabels, mem_spLab2, hi, hj])
    have hK : ∀ i j : Fin (2 * m), (single i j (1 : ℝ) - single (spσ m j) (spσ m i) (spS m i * spS m j)) ∈ S := by
      intro i j
      by_cases hi : i.val < m <;> by_cases hj : j.val < m
      · have : (single i j (1 : ℝ) - single (spσ m j) (spσ m i) (spS m i * spS m j)) = (spA m (i.val, j.val) : Sl ℝ).mat (2 * m) := by
          ext a b
          simp only [spσ, spS, hi, hj, if_true, dif_pos, Matrix.sub_apply, single_apply, Fin.ext_iff, Sl.mat_apply, spA, upd]
          split_ifs <;> first | (exfalso; omega) | simp
        rw [this]; exact hinl _ _ hi hj
      · obtain ⟨k, hk, hkm⟩ : ∃ k, j.val = m + k ∧ k < m := ⟨j - m, by omega, by omega⟩
        rcases lt_trichotomy i.val k with h | h | h
        · have : (single i j (1 : ℝ) - single (spσ m j) (spσ m i) (spS m i * spS m j)) = (spB m (k, i.val) : Sl ℝ).mat (2 * m) := by
            ext a b
            simp only [spσ, spS, hi, hj, if_true, if_false, dif_pos, dif_neg, not_false_eq_true, Matrix.sub_apply, single_apply, Fin.ext_iff, Sl.mat_apply, spB, upd]
            split_ifs <;> first | (exfalso; omega) | simp
          rw [this]; exact hB _ _ h.le hkm
        · have : (single i j (1 : ℝ) - single (spσ m j) (spσ m i) (spS m i * spS m j)) = (2 : ℝ) • (spB m (k, i.val) : Sl ℝ).mat (2 * m) := by
            ext a b
            simp only [spσ, spS, hi, hj, if_true, if_false, dif_pos, dif_neg, not_false_eq_true, Matrix.sub_apply, single_apply, Fin.ext_iff, Sl.mat_apply, spB, upd,
              Matrix.smul_apply, smul_eq_mul]
            split_ifs <;> first | (exfalso; omega) | norm_num
          rw [this]; exact Submodule.smul_mem _ _ (hB _ _ h.le hkm)
        · have : (single i j (1 : ℝ) - single (spσ m j) (spσ m i) (spS m i * spS m j)) = (spB m (i.val, k) : Sl ℝ).mat (2 * m) := by
            ext a b
            simp only [spσ, spS, hi, hj, if_true, if_false, dif_pos, dif_neg, not_false_eq_true, Matrix.sub_apply, single_apply, Fin.ext_iff, Sl.mat_apply, spB, upd]
            split_ifs <;> first | (exfalso; omega) | simp
          rw [this]; exact hB _ _ h.le hi
      · obtain ⟨k, hk, hkm⟩ : ∃ k, i.val = m + k ∧ k < m := ⟨i - m, by omega, by omega⟩
        rcases lt_trichotomy j.val k with h | h | h
        · have : (single i j (1 : ℝ) - single (spσ m j) (spσ m i) (spS m i * spS m j)) = (spC m (k, j.val) : Sl ℝ).mat (2 * m) := by
            ext a b
            simp only [spσ, spS, hi, hj, if_true, if_false, dif_pos, dif_neg, not_false_eq_true, Matrix.sub_apply, single_apply, Fin.ext_iff, Sl.mat_apply, spC, upd]
            split_ifs <;> first | (exfalso; omega) | simp
          rw [this]; exact hC _ _ h.le hkm
        · have : (single i j (1 : ℝ) - single (spσ m j) (spσ m i) (spS m i * spS m j)) = (2 : ℝ) • (spC m (k, j.val) : Sl ℝ).mat (2 * m) := by
            ext a b
            simp only [spσ, spS, hi, hj, if_true, if_false, dif_pos, dif_neg, not_false_eq_true, Matrix.sub_apply, single_apply, Fin.ext_iff, Sl.mat_apply, spC, upd,
              Matrix.smul_apply, smul_eq_mul]
            split_ifs <;> first | (exfalso; omega) | norm_num
          rw [this]; exact Submodule.smul_mem _ _ (hC _ _ h.le hkm)
        · have : (single i j (1 : ℝ) - single (spσ m j) (spσ m i) (spS m i * spS m j)) = (spC m (j.val, k) : Sl ℝ).mat (2 * m) := by
            ext a b
            simp only [spσ, spS, hi, hj, if_true, if_false, dif_pos, dif_neg, not_false_eq_true, Matrix.sub_apply, single_apply, Fin.ext_iff, Sl.mat_apply, spC, upd]
            split_ifs <;> first | (exfalso; omega) | simp
          rw [this]; exact hC _ _ h.le hj
      · have : (single i j (1 : ℝ) - single (spσ m j) (spσ m i) (spS m i * spS m j)) = -(spA m (j.val - m, i.val - m) : Sl ℝ).mat (2 * m) := by
          ext a b
          simp only [spσ, spS, hi, hj, if_false, dif_neg, not_false_eq_true, Matrix.sub_apply, Matrix.neg_apply, single_apply, Fin.ext_iff, Sl.mat_apply, spA, upd]
          split_ifs <;> first | (exfalso; omega) | simp
        rw [this]; exact Submodule.neg_mem _ (hinl _ _ (by omega) (by omega))
    have hsym : ∀ i j, A i j = -(spS m i * spS m j * A (spσ m j) (spσ m i)) := by
      intro i j
      have h := congrFun (congrFun hA (spσ m i)) j
      rw [Matrix.add_apply, mul_symplJ, symplJ_mul] at h
      simp only [transpose_apply, Matrix.zero_apply] at h
      unfold spS spσ at *
      have h3 : ¬ i.val < m → i.val - m < m := by omega
      have h4 : ¬ i.val < m → i.val - m + m = i.val := by omega
      by_cases hi : i.val < m <;> by_cases hj : j.val < m <;> simp [hi, hj, h3, h4] at h ⊢ <;> linarith
    have hinj : Function.Involutive (spσ m) := by
      intro x
      unfold spσ
      ext
      by_cases hx : x.val < m
      · simp [hx]
      · have : x.val - m < m := by omega
        simp only [hx, this, dif_pos, dif_neg, not_false_eq_true]
        omega
    have hsσ : ∀ x, spS m (spσ m x) = - spS m x := by
      intro x
      unfold spS spσ
      by_cases hx : x.val < m
      · simp [hx]
      · have : x.val - m < m := by omega
        simp [hx, this]
    have e : A = ∑ i, ∑ j, (A i j / 2) • (single i j (1 : ℝ) - single (spσ m j) (spσ m i) (spS m i * spS m j)) := by
      simp only [smul_sub, Finset.sum_sub_distrib, smul_single, smul_eq_mul, mul_one]
      have h1 : ∑ i, ∑ j, single i j (A i j / 2) = Matrix.of fun i j => A i j / 2 :=
        (matrix_eq_sum_single (Matrix.of fun i j => A i j / 2)).symm
      have h2 : ∑ i, ∑ j, single (spσ m j) (spσ m i) (A i j / 2 * (spS m i * spS m j)) =
          Matrix.of fun j i => A (spσ m i) (spσ m j) / 2 * (spS m i * spS m j) := by
        rw [matrix_eq_sum_single (Matrix.of fun j i => A (spσ m i) (spσ m j) / 2 * (spS m i * spS m j)),
          Finset.sum_comm, ← Equiv.sum_comp hinj.toPerm]
        refine Finset.sum_congr rfl fun j _ => ?_
        rw [← Equiv.sum_comp hinj.toPerm]
        refine Finset.sum_congr rfl fun i _ => ?_
        simp only [Function.Involutive.coe_toPerm, hinj _, hsσ, Matrix.of_apply]
        congr 1; ring
      rw [h1, h2]
      ext a b
      rw [Matrix.sub_apply, Matrix.of_apply, Matrix.of_apply]
      have := hsym a b
      linarith
    rw [e]
    exact Submodule.sum_mem _ fun i _ => Submodule.sum_mem _ fun j _ => Submodule.smul_mem _ _ (hK i j)

end Verif
