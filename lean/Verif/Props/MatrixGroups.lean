import Verif.Lemmas.Sample
import Verif.Lemmas.LieSpanSp
import Verif.Lemmas.LieSpanU
import Mathlib.Tactic.IntervalCases
import Mathlib.Tactic.FinCases

/-!
# Classical matrix groups

Generator tables of `SO`, `O`, `SL`, `GL`, `Sp`, `U`, `SU` and the Lorentz groups as built by the loops of
`groups.py`, and what every sample (`noise2sample`) of them satisfies.  `orders` are the generator orders
drawn at random, one per round; the hypothesis says that they contain valid generator indices.
-/
namespace Verif
open Matrix List

variable {d : ℕ}

/-- C62: `matrix_power_simple(M,n)` is the integer power. -/
theorem C62_matrix_power (M N : Matrix (Fin d) (Fin d) ℝ) (h : N * M = 1) (n : ℕ) :
    matrixPowerSimple M n = M ^ n ∧ matrixPowerSimple M (-n) = N ^ n := by
  rw [matrixPowerSimple_eq, matrixPowerSimple_eq, zpow_natCast, Matrix.zpow_neg_natCast, ← inv_pow', Matrix.inv_eq_left_inv h]
  exact ⟨rfl, rfl⟩

example : ∃ M N : Matrix (Fin 2) (Fin 2) ℝ, N * M = 1 ∧ M ≠ 1 :=
  ⟨!![1, 1; 0, 1], !![1, -1; 0, 1], by ext i j; fin_cases i <;> fin_cases j <;> simp [Matrix.mul_apply, Fin.sum_univ_two], by
    intro h
    have := congrFun (congrFun h 0) 1
    simp at this⟩

/-- C50: the generator table of `SO(n)` has `n(n-1)/2` entries and is a basis of the antisymmetric matrices. -/
theorem C50_so_generators (n : ℕ) : ∃ a : Arr3 ℝ, soLie n = .ok a ∧ (a.mats n).length = n * (n - 1) / 2 ∧
    LinearIndependent ℝ (a.mats n).get ∧ ∀ A, A ∈ Submodule.span ℝ {B | B ∈ a.mats n} ↔ Aᵀ = -A := by
  refine ⟨_, soLie_eq n, ?_⟩
  have h : (tab (n * (n - 1) / 2) n ((lowPairs n).map soSl) : Arr3 ℝ).mats n = (lowPairs n).map fun p => (soSl p : Sl ℝ).mat n := by
    have := mats_tab n ((lowPairs n).map (soSl (R := ℝ)))
    rw [length_map, lowPairs_length, List.map_map] at this
    exact this
  rw [h]
  exact ⟨by rw [length_map, lowPairs_length], so_indep n, so_span n⟩

theorem transpose_form {n : ℕ} {lie disc : List (Matrix (Fin n) (Fin n) ℝ)} (B : Matrix (Fin n) (Fin n) ℝ) (hB : IsUnit B.det)
    (hl : ∀ A ∈ lie, Aᵀ * B = -(B * A)) (hd : ∀ h ∈ disc, hᵀ * B * h = B) {g : Matrix (Fin n) (Fin n) ℝ}
    (hg : Generated lie disc g) : gᵀ * B * g = B := by
  have := Generated.form B hB (by simpa [conjTranspose_eq_transpose_of_trivial] using hl)
    (by simpa [conjTranspose_eq_transpose_of_trivial] using hd) hg
  rwa [conjTranspose_eq_transpose_of_trivial] at this

theorem so_mats_anti {n : ℕ} {a : Arr3 ℝ} (ha : soLie n = .ok a) : ∀ A ∈ a.mats n, Aᵀ = -A := by
  obtain ⟨a', h1, _, _, h⟩ := C50_so_generators n
  rw [ha] at h1
  cases h1
  exact fun A hA => (h A).1 (Submodule.subset_span hA)

theorem trace_anti {n : ℕ} {A : Matrix (Fin n) (Fin n) ℝ} (h : Aᵀ = -A) : A.trace = 0 := by
  have := congrArg Matrix.trace h
  rw [trace_transpose, trace_neg] at this
  linarith

/-- C50: every sample of `SO(n)` is orthogonal of determinant one. -/
theorem C50_so_samples (n : ℕ) (a : Arr3 ℝ) (ha : soLie n = .ok a) (z : List ℝ) :
    (noise2sample z [] (a.mats n) [] [])ᵀ * noise2sample z [] (a.mats n) [] [] = 1 ∧
      (noise2sample z [] (a.mats n) [] []).det = 1 := by
  have hg := sample_generated (lie := a.mats n) (disc := []) z [] [] (by simp)
  constructor
  · have := transpose_form 1 (by simp) (fun A hA => by rw [so_mats_anti ha A hA]; simp) (by simp) hg
    simpa using this
  · exact hg.det_one (fun A hA => trace_anti (so_mats_anti ha A hA)) (by simp)

theorem oDisc_mats (n : ℕ) (a : Arr3 ℝ) (ha : oDisc n = .ok a) :
    a.mats n = [Matrix.diagonal fun i => if i.val = 0 then -1 else 1] := by
  unfold oDisc Arr3.set at ha
  split at ha
  · cases ha
    simp only [Arr3.mats]
    rw [show (range 1) = [0] from rfl]
    simp only [map_cons, map_nil, true_and]
    congr 1
    ext i j
    simp only [Matrix.of_apply, diagonal_apply, Fin.ext_iff]
    split_ifs <;> first | rfl | omega
  · cases ha

/-- C50: every sample of `O(n)`, `n ≥ 1`, is orthogonal. -/
theorem C50_o_samples (n : ℕ) (a b : Arr3 ℝ) (ha : soLie n = .ok a) (hb : oDisc n = .ok b) (z : List ℝ) (ks : List (List ℤ))
    (orders : List (List ℕ)) (ho : ∀ o ∈ orders, ∀ i ∈ o, i < (b.mats n).length) :
    (noise2sample z ks (a.mats n) (b.mats n) orders)ᵀ * noise2sample z ks (a.mats n) (b.mats n) orders = 1 := by
  have hg := sample_generated (lie := a.mats n) (disc := b.mats n) z ks orders ho
  have := transpose_form 1 (by simp) (fun A hA => by rw [so_mats_anti ha A hA]; simp) (fun h hh => by
    rw [oDisc_mats n b hb, mem_singleton] at hh
    subst hh
    rw [diagonal_transpose, Matrix.mul_one, diagonal_mul_diagonal, ← diagonal_one]
    congr 1
    funext i
    split_ifs <;> norm_num) hg
  simpa using this

/-- C50: `O(n)` has elements of both determinants: the discrete generator has determinant `-1`. -/
theorem C50_o_reflection (n : ℕ) (hn : 0 < n) : ∃ b : Arr3 ℝ, oDisc n = .ok b ∧ ∃ h, b.mats n = [h] ∧ h.det = -1 := by
  refine ⟨_, by unfold oDisc Arr3.set; rw [if_pos (by exact ⟨Nat.one_pos, hn, hn⟩)], ?_⟩
  refine ⟨_, oDisc_mats n _ (by unfold oDisc Arr3.set; rw [if_pos (by exact ⟨Nat.one_pos, hn, hn⟩)]), ?_⟩
  rw [det_diagonal, Finset.prod_eq_single ⟨0, hn⟩]
  · simp
  · intro i _ hi
    rw [if_neg (fun h => hi (Fin.ext h))]
  · simp

example : ∃ a b : Arr3 ℝ, soLie 3 = .ok a ∧ oDisc 3 = .ok b ∧ (a.mats 3).length = 3 ∧
    ∀ o ∈ [[0], [0], [0]], ∀ i ∈ o, i < (b.mats 3).length := by
  obtain ⟨a, h1, h2, _⟩ := C50_so_generators 3
  obtain ⟨b, h3, h, h4, _⟩ := C50_o_reflection 3 (by norm_num)
  exact ⟨a, b, h1, h3, h2, by simp [h4]⟩

/-- C52: the generator table of `Sp(m)` has `m(2m+1)` entries and is a basis of the Hamiltonian matrices. -/
theorem C52_sp_generators (m : ℕ) : ∃ a : Arr3 ℝ, spLie m = .ok a ∧ (a.mats (2 * m)).length = m * (2 * m + 1) ∧
    LinearIndependent ℝ (a.mats (2 * m)).get ∧
    ∀ A, A ∈ Submodule.span ℝ {B | B ∈ a.mats (2 * m)} ↔ Aᵀ * symplJ m + symplJ m * A = 0 := by
  refine ⟨_, spLie_eq m, ?_⟩
  have hl : (spLabels m).length = m * (2 * m + 1) := by
    have h2 : (spLab2 m).length = 2 * (lePairs m).length := by
      unfold spLab2; rw [length_flatMap]; simp [mul_comm]
    rw [spLabels, length_append, length_map, length_map, allPairs_length, h2, lePairs_length]
    ring
  have h : (tab (m * (2 * m + 1)) (2 * m) ((allPairs m m).map (spA m) ++ (lePairs m).flatMap (spCB m)) : Arr3 ℝ).mats (2 * m) =
      (spLabels m).map fun x => (spGen m x).mat (2 * m) := by
    rw [sp_list]
    have := mats_tab (2 * m) ((spLabels m).map (spGen m))
    rw [length_map, hl, List.map_map] at this
    exact this
  rw [h]
  exact ⟨by rw [length_map, hl], sp_indep m, sp_span m⟩

theorem symplJ_unit (m : ℕ) : IsUnit (symplJ m).det := by
  have h := congrArg Matrix.det (symplJ_sq m)
  rw [det_mul] at h
  have h2 : (-1 : Matrix (Fin (2 * m)) (Fin (2 * m)) ℝ).det ≠ 0 := by
    rw [det_neg, det_one, mul_one]
    exact pow_ne_zero _ (by norm_num)
  rw [isUnit_iff_ne_zero]
  intro h0
  rw [h0, mul_zero] at h
  exact h2 h.symm

/-- C52: every sample of `Sp(m)` preserves the symplectic form. -/
theorem C52_sp_samples (m : ℕ) (a : Arr3 ℝ) (ha : spLie m = .ok a) (z : List ℝ) :
    (noise2sample z [] (a.mats (2 * m)) [] [])ᵀ * symplJ m * noise2sample z [] (a.mats (2 * m)) [] [] = symplJ m := by
  obtain ⟨a', h1, _, _, h⟩ := C52_sp_generators m
  rw [ha] at h1
  cases h1
  have hg := sample_generated (lie := a.mats (2 * m)) (disc := []) z [] [] (by simp)
  exact transpose_form _ (symplJ_unit m)
    (fun A hA => eq_neg_of_add_eq_zero_left ((h A).1 (Submodule.subset_span hA))) (by simp) hg

/-- C53: the generator table of `GL(n)` consists of `n²` independent matrices spanning everything. -/
theorem C53_gl_generators (n : ℕ) : ∃ a : Arr3 ℝ, glLie n = .ok a ∧ (a.mats n).length = n * n ∧
    LinearIndependent ℝ (a.mats n).get ∧ ∀ A, A ∈ Submodule.span ℝ {B | B ∈ a.mats n} := by
  refine ⟨_, glLie_eq n, ?_⟩
  have h : (tab (n * n) n ((allPairs n n).map glSl) : Arr3 ℝ).mats n = (allPairs n n).map fun p => (glSl p : Sl ℝ).mat n := by
    have := mats_tab n ((allPairs n n).map (glSl (R := ℝ)))
    rw [length_map, allPairs_length, List.map_map] at this
    exact this
  rw [h]
  exact ⟨by rw [length_map, allPairs_length], gl_indep n, gl_span n⟩

/-- C53: the generator table of `SL(n)` has `n²-1` entries and is a basis of the traceless matrices. -/
theorem C53_sl_generators (n : ℕ) (hn : n ≠ 0) : ∃ a : Arr3 ℝ, slLie n = .ok a ∧ (a.mats n).length = n * n - 1 ∧
    LinearIndependent ℝ (a.mats n).get ∧ ∀ A, A ∈ Submodule.span ℝ {B | B ∈ a.mats n} ↔ A.trace = 0 := by
  refine ⟨_, slLie_eq n hn, ?_⟩
  have hl : (slLabels n).length = n * n - 1 := by
    rw [slLabels, length_append, length_map, length_map, offPairs_length, length_range]
    obtain ⟨m, rfl⟩ := Nat.exists_eq_succ_of_ne_zero hn
    simp only [Nat.succ_eq_add_one, Nat.add_sub_cancel]
    rw [show (m + 1) * (m + 1) = (m + 1) * m + m + 1 by ring]
    omega
  have h : (tab (n * n - 1) n ((offPairs n).map glSl ++ (range (n - 1)).map (slDiag n)) : Arr3 ℝ).mats n =
      (slLabels n).map fun x => (slGen n x).mat n := by
    rw [sl_list]
    have := mats_tab n ((slLabels n).map (slGen n))
    rw [length_map, hl, List.map_map] at this
    exact this
  rw [h]
  exact ⟨by rw [length_map, hl], sl_indep n hn, sl_span n hn⟩

/-- C53: every sample of `SL(n)` has determinant one. -/
theorem C53_sl_samples (n : ℕ) (hn : n ≠ 0) (a : Arr3 ℝ) (ha : slLie n = .ok a) (z : List ℝ) :
    (noise2sample z [] (a.mats n) [] []).det = 1 := by
  obtain ⟨a', h1, _, _, h⟩ := C53_sl_generators n hn
  rw [ha] at h1
  cases h1
  have hg := sample_generated (lie := a.mats n) (disc := []) z [] [] (by simp)
  exact hg.det_one (fun A hA => (h A).1 (Submodule.subset_span hA)) (by simp)

theorem uLabels_length (n k : ℕ) : (uLabels n k).length = n * (n - 1) + k := by
  have := congrArg length (u_list n k uDiag)
  rw [length_append, uSl2_length, length_map, length_range, length_map] at this
  exact this.symm

/-- C53: the generators of `U(n)` are `n²` matrices, a (real) basis of the anti-Hermitian matrices. -/
theorem C53_u_generators (n : ℕ) : ∃ re im : Arr3 ℝ, uLie n = .ok (re, im) ∧ (cplxMats re im n).length = n ^ 2 ∧
    LinearIndependent ℝ (cplxMats re im n).get ∧ ∀ A, A ∈ Submodule.span ℝ {B | B ∈ cplxMats re im n} ↔ Aᴴ = -A := by
  refine ⟨_, _, uLie_eq n, ?_⟩
  have hl : (uLabels n n).length = n ^ 2 := by
    rw [uLabels_length]
    cases n with
    | zero => rfl
    | succ m => simp only [Nat.add_sub_cancel]; ring
  have h := cplxMats_tab n ((lowPairs n).flatMap uSl2 ++ (range n).map uDiag) (N := n ^ 2)
    (by rw [u_list, length_map, hl])
  rw [h, u_list, List.map_map]
  exact ⟨by rw [length_map, hl], u_indep n, u_span n⟩

/-- C53: every sample of `U(n)` is unitary. -/
theorem C53_u_samples (n : ℕ) (re im : Arr3 ℝ) (ha : uLie n = .ok (re, im)) (z : List ℝ) :
    (noise2sample z [] (cplxMats re im n) [] [])ᴴ * noise2sample z [] (cplxMats re im n) [] [] = 1 := by
  obtain ⟨re', im', h1, _, _, h⟩ := C53_u_generators n
  rw [ha] at h1
  cases h1
  have hg := sample_generated (lie := cplxMats re im n) (disc := []) z [] [] (by simp)
  have := hg.form 1 (by simp) (fun A hA => by rw [(h A).1 (Submodule.subset_span hA)]; simp) (by simp)
  simpa using this

/-- C53: the generators of `SU(n)`, `n ≥ 2`, are `n²-1` matrices, a (real) basis of the traceless
anti-Hermitian matrices. -/
theorem C53_su_generators (n : ℕ) (hn : 2 ≤ n) : ∃ re im : Arr3 ℝ, suLie n = .ok (re, im) ∧
    (cplxMats re im n).length = n ^ 2 - 1 ∧ LinearIndependent ℝ (cplxMats re im n).get ∧
    ∀ A, A ∈ Submodule.span ℝ {B | B ∈ cplxMats re im n} ↔ Aᴴ = -A ∧ A.trace = 0 := by
  refine ⟨_, _, suLie_eq n hn, ?_⟩
  have hl : (uLabels n (n - 1)).length = n ^ 2 - 1 := by
    rw [uLabels_length]
    obtain ⟨m, rfl⟩ := Nat.exists_eq_succ_of_ne_zero (by omega : n ≠ 0)
    simp only [Nat.succ_eq_add_one, Nat.add_sub_cancel]
    rw [show (m + 1) ^ 2 = (m + 1) * m + m + 1 by ring]
    omega
  have h := cplxMats_tab n ((lowPairs n).flatMap uSl2 ++ (range (n - 1)).map (suDiag n)) (N := n ^ 2 - 1)
    (by rw [u_list, length_map, hl])
  rw [h, u_list, List.map_map]
  exact ⟨by rw [length_map, hl], su_indep n hn, su_span n hn⟩

/-- C53: every sample of `SU(n)` is unitary of determinant one. -/
theorem C53_su_samples (n : ℕ) (hn : 2 ≤ n) (re im : Arr3 ℝ) (ha : suLie n = .ok (re, im)) (z : List ℝ) :
    (noise2sample z [] (cplxMats re im n) [] [])ᴴ * noise2sample z [] (cplxMats re im n) [] [] = 1 ∧
      (noise2sample z [] (cplxMats re im n) [] []).det = 1 := by
  obtain ⟨re', im', h1, _, _, h⟩ := C53_su_generators n hn
  rw [ha] at h1
  cases h1
  have hg := sample_generated (lie := cplxMats re im n) (disc := []) z [] [] (by simp)
  constructor
  · have := hg.form 1 (by simp) (fun A hA => by rw [((h A).1 (Submodule.subset_span hA)).1]; simp) (by simp)
    simpa using this
  · exact hg.det_one (fun A hA => ((h A).1 (Submodule.subset_span hA)).2) (by simp)

end Verif
