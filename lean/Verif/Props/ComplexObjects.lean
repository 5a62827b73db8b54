import Verif.Model.ComplexGroups
import Verif.Props.Classical

/-! # C116: the unitary groups as objects -/
namespace Verif
open Matrix List

theorem dense_cplxGens (n : ℕ) (re im : Arr3 ℝ) : (cplxGens re im n).map (denseC n) = cplxMats re im n := by
  rw [cplxGens, List.map_map]
  conv_rhs => rw [← List.map_id (cplxMats re im n)]
  refine List.map_congr_left fun A _ => ?_
  ext i j
  simp only [Function.comp, denseC, Matrix.of_apply, id]
  rw [DMat.of_e i.2 j.2, dif_pos ⟨i.2, j.2⟩]

/-- the sum of the absolute values of the entries -/
noncomputable def absSum {n : ℕ} (A : Matrix (Fin n) (Fin n) ℂ) : ℝ := ∑ i, ∑ j, ‖A i j‖

theorem absSum_nonneg {n : ℕ} (A : Matrix (Fin n) (Fin n) ℂ) : 0 ≤ absSum A :=
  Finset.sum_nonneg fun _ _ => Finset.sum_nonneg fun _ _ => norm_nonneg _

theorem one_le_absSum {n : ℕ} {A : Matrix (Fin n) (Fin n) ℂ} (i j : Fin n) (h : 1 ≤ ‖A i j‖) : 1 ≤ absSum A :=
  h.trans ((Finset.single_le_sum (f := fun j => ‖A i j‖) (fun _ _ => norm_nonneg _) (Finset.mem_univ j)).trans
    (Finset.single_le_sum (f := fun i => ∑ j, ‖A i j‖) (fun _ _ => Finset.sum_nonneg fun _ _ => norm_nonneg _) (Finset.mem_univ i)))

theorem absSum_neg_transpose {n : ℕ} (A : Matrix (Fin n) (Fin n) ℂ) : absSum (-Aᵀ) = absSum A := by
  unfold absSum
  rw [Finset.sum_comm]
  simp

/-- no cancellation in symmetric generators -/
theorem absSum_sym {n : ℕ} (f : Sl ℝ) (h : ∀ i j, f i j = f j i) :
    absSum (-(Sl.cmat n (zSl, f))ᵀ - Sl.cmat n (zSl, f)) = 2 * absSum (Sl.cmat n (zSl, f)) := by
  unfold absSum
  simp only [Finset.mul_sum]
  refine Finset.sum_congr rfl fun i _ => Finset.sum_congr rfl fun j _ => ?_
  simp only [Sl.cmat, zSl, Matrix.sub_apply, Matrix.neg_apply, transpose_apply, Matrix.of_apply, h j i]
  rw [show -(((0 : ℝ) : ℂ) + (f i j : ℂ) * Complex.I) - (((0 : ℝ) : ℂ) + (f i j : ℂ) * Complex.I) =
    -(2 * (((0 : ℝ) : ℂ) + (f i j : ℂ) * Complex.I)) by ring, norm_neg, norm_mul]
  norm_num

/-- The generators are, on average, far from antisymmetric. -/
def FarFromAnti {n : ℕ} (As : List (Matrix (Fin n) (Fin n) ℂ)) : Prop :=
  (As.length : ℝ) ≤ (As.map absSum).sum ∧ (As.map absSum).sum ≤ (As.map fun A => absSum (-Aᵀ - A)).sum

theorem FarFromAnti.append {n : ℕ} {As Bs : List (Matrix (Fin n) (Fin n) ℂ)} (h1 : FarFromAnti As) (h2 : FarFromAnti Bs) : FarFromAnti (As ++ Bs) := by
  unfold FarFromAnti at *
  simp only [List.length_append, List.map_append, List.sum_append]
  push_cast
  constructor <;> linarith [h1.1, h1.2, h2.1, h2.2]

theorem FarFromAnti.nil {n : ℕ} : FarFromAnti ([] : List (Matrix (Fin n) (Fin n) ℂ)) := by simp [FarFromAnti]

theorem FarFromAnti.single {n : ℕ} (f : Sl ℝ) (h : ∀ i j, f i j = f j i) (i j : ℕ) (hi : i < n) (hj : j < n) (h1 : 1 ≤ |f i j|) :
    FarFromAnti [Sl.cmat n (zSl, f)] := by
  have h2 : 1 ≤ absSum (Sl.cmat n (zSl, f)) := one_le_absSum ⟨i, hi⟩ ⟨j, hj⟩ (by simpa [Sl.cmat, zSl] using h1)
  constructor
  · simpa using h2
  · simp only [List.map_cons, List.map_nil, List.sum_cons, List.sum_nil, add_zero]
    rw [absSum_sym f h]
    linarith

theorem FarFromAnti.pair {n : ℕ} (p : ℕ × ℕ) (h1 : p.1 < n) (h2 : p.2 < n) : FarFromAnti ((uSl2 p : List (Sl ℝ × Sl ℝ)).map (Sl.cmat n)) := by
  have e : absSum (Sl.cmat n (soSl p, zSl)) = absSum (Sl.cmat n (zSl, usSl p)) := by
    unfold absSum
    refine Finset.sum_congr rfl fun i _ => Finset.sum_congr rfl fun j _ => ?_
    simp only [Sl.cmat, zSl, soSl, usSl, upd, Matrix.of_apply]
    split_ifs <;> simp
  have hs : ∀ i j, (usSl p : Sl ℝ) i j = usSl p j i := by
    intro i j
    simp only [usSl, upd]
    split_ifs <;> first | rfl | (exfalso; omega)
  have h3 : 1 ≤ absSum (Sl.cmat n (zSl, usSl p)) := one_le_absSum ⟨p.1, h1⟩ ⟨p.2, h2⟩ (by simp [Sl.cmat, zSl, usSl, upd])
  have h4 := absSum_nonneg (-(Sl.cmat n (soSl p, zSl))ᵀ - Sl.cmat n (soSl p, zSl))
  unfold FarFromAnti
  simp only [uSl2, List.map_cons, List.map_nil, List.sum_cons, List.sum_nil, add_zero, List.length_cons, List.length_nil]
  rw [absSum_sym _ hs, e]
  push_cast
  constructor <;> linarith

theorem FarFromAnti.flatMap {n : ℕ} {α : Type*} (l : List α) (f : α → List (Matrix (Fin n) (Fin n) ℂ)) (h : ∀ a ∈ l, FarFromAnti (f a)) :
    FarFromAnti (l.flatMap f) := by
  induction l with
  | nil => exact .nil
  | cons a l ih => rw [List.flatMap_cons]; exact (h a (by simp)).append (ih fun b hb => h b (by simp [hb]))

theorem FarFromAnti.table {n k : ℕ} (dg : ℕ → Sl ℝ) (hd : ∀ l < k, (∀ i j, dg l i j = dg l j i) ∧ ∃ i, i < n ∧ 1 ≤ |dg l i i|) :
    FarFromAnti (((lowPairs n).flatMap uSl2 ++ (range k).map fun l => ((zSl : Sl ℝ), dg l)).map (Sl.cmat n)) := by
  rw [List.map_append, List.map_flatMap, List.map_map]
  refine (FarFromAnti.flatMap _ _ fun p hp => ?_).append ?_
  · have := mem_lowPairs.1 hp
    exact .pair p this.2 (by omega)
  · have := FarFromAnti.flatMap (n := n) (range k) (fun l => [Sl.cmat n ((zSl : Sl ℝ), dg l)]) fun l hl => by
      obtain ⟨h1, i, hi, h2⟩ := hd l (List.mem_range.1 hl)
      exact .single _ h1 i i hi hi h2
    rwa [flatMap_single] at this

theorem relErr_far {n : ℕ} {As : List (Matrix (Fin n) (Fin n) ℂ)} (h : FarFromAnti As) (hne : As ≠ []) (hn : 0 < n) (hm : n ≤ 900000) :
    1e-6 ≤ relErrLieC As := by
  have hk : (0 : ℝ) < As.length := by exact_mod_cast List.length_pos_iff.2 hne
  have hnp : (0 : ℝ) < n := by exact_mod_cast hn
  have hnm : (n : ℝ) ≤ 900000 := by exact_mod_cast hm
  have e1 : ∀ B : List (Matrix (Fin n) (Fin n) ℂ), meanAbsC B = (B.map absSum).sum / (B.length * n * n) := fun _ => rfl
  unfold relErrLieC
  rw [e1, e1, e1, List.map_map, List.map_map, List.length_map, List.length_map]
  have e2 : (As.map (absSum ∘ fun A => -Aᵀ)) = As.map absSum := List.map_congr_left fun A _ => absSum_neg_transpose A
  have e3 : (As.map (absSum ∘ fun A => -Aᵀ - A)) = As.map fun A => absSum (-Aᵀ - A) := rfl
  rw [e2, e3]
  obtain ⟨h1, h2⟩ := h
  set S := (As.map absSum).sum
  set N := (As.map fun A => absSum (-Aᵀ - A)).sum
  obtain ⟨k, hkk⟩ : ∃ k : ℝ, k = As.length := ⟨_, rfl⟩
  rw [← hkk] at hk h1 ⊢
  have hD : 0 < k * n * n := by positivity
  have hS : 0 ≤ S / (k * n * n) := div_nonneg (hk.le.trans h1) hD.le
  rw [le_div_iff₀ (by positivity)]
  have h3 : S / (k * n * n) ≤ N / (k * n * n) := by gcongr
  have h4 : 1e-12 ≤ S / (k * n * n) * (1 - 2e-6) := by
    rw [div_mul_eq_mul_div, le_div_iff₀ hD]
    have : (n : ℝ) * n ≤ 900000 * 900000 := mul_le_mul hnm hnm hnp.le (by norm_num)
    calc (1e-12 : ℝ) * (k * n * n) = k * (1e-12 * (n * n)) := by ring
      _ ≤ k * (1 - 2e-6) := by gcongr; norm_num at this ⊢; linarith
      _ ≤ S * (1 - 2e-6) := by gcongr
  norm_num at h4 ⊢
  linarith

theorem initC_far {n : ℕ} {re im : Arr3 ℝ} (h : FarFromAnti (cplxMats re im n)) (hne : cplxMats re im n ≠ []) (hn : 0 < n) (hm : n ≤ 900000) :
    ∃ G, groupInitC (cplxGens re im n) = .ok G ∧ G.d = n ∧ G.isOrth = false ∧ G.isPerm = none ∧ G.lie.map (denseC n) = cplxMats re im n := by
  have hg : cplxGens re im n ≠ [] := by simpa [cplxGens] using hne
  obtain ⟨A, L, hA⟩ := List.exists_cons_of_ne_nil hg
  have hc : A.cols = n := by
    have : A ∈ cplxGens re im n := by rw [hA]; simp
    obtain ⟨M, -, rfl⟩ := List.mem_map.1 this
    rfl
  have hr := relErr_far h hne hn hm
  rw [← dense_cplxGens, hA] at hr
  rw [← dense_cplxGens]
  rw [hA, groupInitC]
  rw [← hc] at hr
  refine ⟨_, rfl, hc, ?_, ?_, rfl⟩
  · exact decide_eq_false (not_lt.2 hr)
  · rw [List.map_cons] at hr
    simp [not_lt.2 hr]

/-- C116: `U(n)` for `n ≥ 1`: dimension, flags, elements.  It is not taken for an orthogonal group, although every element is unitary: the
dual of `V` is a different representation. -/
theorem C116_u (n : ℕ) (hn : 0 < n) (hm : n ≤ 900000) : ∃ G, uGroup n = .ok G ∧ G.d = n ∧ G.isOrth = false ∧ G.isPerm = none ∧
    ∀ h, Generated (G.lie.map (denseC n)) [] h ↔ hᴴ * h = 1 := by
  obtain ⟨re, im, ha, hl, -⟩ := C53_u_generators n
  obtain ⟨re', im', ha', hg⟩ := C115_u n
  rw [ha] at ha'
  cases ha'
  have hne : cplxMats re im n ≠ [] := fun h => by
    rw [h, List.length_nil] at hl
    have : 0 < n ^ 2 := by positivity
    omega
  have hf : FarFromAnti (cplxMats re im n) := by
    rw [uLie_eq] at ha
    cases ha
    rw [cplxMats_tab]
    · refine FarFromAnti.table (fun i => upd (fun _ _ => 0) i i 1) fun l hl => ⟨fun i j => ?_, l, hl, by simp [upd]⟩
      simp only [upd]
      split_ifs <;> first | rfl | (exfalso; omega)
    · rw [u_list, length_map, uLabels_length]
      cases n with
      | zero => rfl
      | succ m => simp only [Nat.add_sub_cancel]; ring
  obtain ⟨G, h1, h2, h3, h4, h5⟩ := initC_far hf hne hn hm
  refine ⟨G, by rw [uGroup, ha]; exact h1, h2, h3, h4, ?_⟩
  rw [h5]
  exact hg

/-- C116: `SU(n)` for `n ≥ 2`. -/
theorem C116_su (n : ℕ) (hn : 2 ≤ n) (hm : n ≤ 900000) : ∃ G, suGroup n = .ok G ∧ G.d = n ∧ G.isOrth = false ∧ G.isPerm = none ∧
    ∀ h, Generated (G.lie.map (denseC n)) [] h ↔ hᴴ * h = 1 ∧ h.det = 1 := by
  obtain ⟨re, im, ha, hl, -⟩ := C53_su_generators n hn
  obtain ⟨re', im', ha', hg⟩ := C115_su n hn
  rw [ha] at ha'
  cases ha'
  have hne : cplxMats re im n ≠ [] := fun h => by
    rw [h, List.length_nil] at hl
    have : 2 ^ 2 ≤ n ^ 2 := Nat.pow_le_pow_left hn 2
    omega
  have hf : FarFromAnti (cplxMats re im n) := by
    rw [suLie_eq n hn] at ha
    cases ha
    rw [cplxMats_tab]
    · refine FarFromAnti.table (fun i => suDiagSl n i) fun l hl => ?_
      rw [suDiagSl_eq n l (by omega)]
      refine ⟨fun i j => ?_, l, by omega, ?_⟩
      · by_cases hij : i = j
        · rw [hij]
        · simp [hij, Ne.symm hij]
      · simp only
        rw [if_pos ⟨trivial, by omega⟩, if_pos trivial]
        simp
    · rw [u_list, length_map, uLabels_length]
      obtain ⟨m, rfl⟩ := Nat.exists_eq_succ_of_ne_zero (by omega : n ≠ 0)
      simp only [Nat.succ_eq_add_one, Nat.add_sub_cancel]
      rw [show (m + 1) ^ 2 = (m + 1) * m + m + 1 by ring]
      omega
  obtain ⟨G, h1, h2, h3, h4, h5⟩ := initC_far hf hne (by omega) hm
  refine ⟨G, by rw [suGroup, ha]; exact h1, h2, h3, h4, ?_⟩
  rw [h5]
  exact hg

/-- C116, limits: `U(0)` and `SU(1)` raise `TypeError` (the trivial group that `SU(1)` should be is returned from `__init__`), `SU(0)`
raises `ValueError`. -/
theorem C116_unitary_small : uGroup 0 = .error .type ∧ suGroup 1 = .error .type ∧ suGroup 0 = .error .value := by
  refine ⟨?_, ?_, ?_⟩
  · obtain ⟨re, im, ha, hl, -⟩ := C53_u_generators 0
    have : cplxGens re im 0 = [] := by
      rw [cplxGens, List.length_eq_zero_iff.1 hl, List.map_nil]
    rw [uGroup, ha]
    show groupInitC (cplxGens re im 0) = _
    rw [this]
    rfl
  · rfl
  · rfl

/-- a concrete case: `SU(2)` and `U(1)` -/
example : (∃ G, suGroup 2 = .ok G ∧ G.isOrth = false) ∧ ∃ G, uGroup 1 = .ok G ∧ G.isOrth = false := by
  obtain ⟨G, h1, -, h2, -⟩ := C116_su 2 le_rfl (by norm_num)
  obtain ⟨G', h1', -, h2', -⟩ := C116_u 1 one_pos (by norm_num)
  exact ⟨⟨G, h1, h2⟩, G', h1', h2'⟩

end Verif
