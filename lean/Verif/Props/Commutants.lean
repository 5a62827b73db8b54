import Verif.Props.Universal
import Verif.Props.MatrixGroups
import Verif.Props.Lorentz2
import Verif.Props.GroupObjects
import Verif.Props.SmallGroups
import Verif.Props.PlaneGroups
import Mathlib.LinearAlgebra.Matrix.Transvection
import Mathlib.LinearAlgebra.Matrix.Circulant

/-!
# C104: the equivariant linear maps `V → V` of the groups in the library, and their number of parameters
-/
namespace Verif
open List Matrix

section
variable {𝕜 : Type} [RCLike 𝕜] {n : ℕ} {lie disc : List (Matrix (Fin n) (Fin n) 𝕜)}

/-- A linear injective parametrisation of the commutant gives its dimension. -/
theorem commutant_finrank {c : ℕ} (F : (Fin c → 𝕜) →ₗ[𝕜] Matrix (Fin n) (Fin n) 𝕜) (hi : Function.Injective F)
    (hr : ∀ M, M ∈ commutant lie disc ↔ ∃ v, M = F v) : Module.finrank 𝕜 (commutant lie disc) = c := by
  have e : commutant lie disc = LinearMap.range F := by
    ext M
    rw [hr, LinearMap.mem_range]
    exact ⟨fun ⟨v, h⟩ => ⟨v, h.symm⟩, fun ⟨v, h⟩ => ⟨v, h.symm⟩⟩
  rw [e, LinearMap.finrank_range_of_inj hi, Module.finrank_fin_fun]

/-- If only multiples of the identity commute with the generators, there is one parameter. -/
theorem commutant_scalar (hn : 0 < n) (h : ∀ M ∈ commutant lie disc, ∃ c : 𝕜, M = c • 1) :
    (∀ M, M ∈ commutant lie disc ↔ ∃ c : 𝕜, M = c • 1) ∧ Module.finrank 𝕜 (commutant lie disc) = 1 := by
  have h1 : ∀ M, M ∈ commutant lie disc ↔ ∃ c : 𝕜, M = c • 1 := by
    refine fun M => ⟨h M, ?_⟩
    rintro ⟨c, rfl⟩ A -
    rw [smul_mul_assoc, one_mul, mul_smul_comm, mul_one]
  refine ⟨h1, commutant_finrank (c := 1) ((LinearMap.toSpanSingleton 𝕜 _ (1 : Matrix (Fin n) (Fin n) 𝕜)).comp (LinearMap.proj 0)) ?_ fun M => ?_⟩
  · intro u v huv
    have := congrFun (congrFun huv ⟨0, hn⟩) ⟨0, hn⟩
    simp only [LinearMap.comp_apply, LinearMap.proj_apply, LinearMap.toSpanSingleton_apply, Matrix.smul_apply, one_apply_eq, smul_eq_mul, mul_one] at this
    funext i
    rw [Subsingleton.elim i 0, this]
  · rw [h1]
    constructor
    · rintro ⟨c, rfl⟩
      exact ⟨fun _ => c, rfl⟩
    · rintro ⟨v, rfl⟩
      exact ⟨v 0, rfl⟩

theorem scalar_of_entries {M : Matrix (Fin n) (Fin n) 𝕜} (h1 : ∀ i j, i ≠ j → M i j = 0) (h2 : ∀ i j, M i i = M j j) : ∃ c : 𝕜, M = c • 1 := by
  rcases Nat.eq_zero_or_pos n with rfl | hn
  · exact ⟨0, by ext i; exact i.elim0⟩
  · refine ⟨M ⟨0, hn⟩ ⟨0, hn⟩, ?_⟩
    ext i j
    rw [Matrix.smul_apply, one_apply]
    split_ifs with h
    · subst h
      rw [smul_eq_mul, mul_one]
      exact h2 _ _
    · rw [smul_zero]
      exact h1 i j h

theorem mul_weighted (M : Matrix (Fin n) (Fin n) 𝕜) (g : Fin n → 𝕜) (i j a b : Fin n) :
    (M * (single i j (g i) - single j i (g j))) a b = (if j = b then M a i * g i else 0) - (if i = b then M a j * g j else 0) := by
  rw [mul_sub, Matrix.sub_apply, Matrix.mul_apply, Matrix.mul_apply, Finset.sum_eq_single i, Finset.sum_eq_single j]
  · simp only [single_apply, true_and, mul_ite, mul_zero]
  · intro k _ hk
    rw [single_apply, if_neg (fun h => hk h.1.symm), mul_zero]
  · simp
  · intro k _ hk
    rw [single_apply, if_neg (fun h => hk h.1.symm), mul_zero]
  · simp

theorem weighted_mul (M : Matrix (Fin n) (Fin n) 𝕜) (g : Fin n → 𝕜) (i j a b : Fin n) :
    ((single i j (g i) - single j i (g j)) * M) a b = (if i = a then g i * M j b else 0) - (if j = a then g j * M i b else 0) := by
  rw [sub_mul, Matrix.sub_apply, Matrix.mul_apply, Matrix.mul_apply, Finset.sum_eq_single j, Finset.sum_eq_single i]
  · simp only [single_apply, and_true, ite_mul, zero_mul]
  · intro k _ hk
    rw [single_apply, if_neg (fun h => hk h.2.symm), zero_mul]
  · simp
  · intro k _ hk
    rw [single_apply, if_neg (fun h => hk h.2.symm), zero_mul]
  · simp

/-- In dimension at least three only multiples of the identity commute with all (weighted) rotations of the coordinate planes. -/
theorem scalar_of_weighted (hn : 3 ≤ n) {M : Matrix (Fin n) (Fin n) 𝕜} {g : Fin n → 𝕜} (hg : ∀ i, g i ≠ 0)
    (h : ∀ i j, i ≠ j → M * (single i j (g i) - single j i (g j)) = (single i j (g i) - single j i (g j)) * M) : ∃ c : 𝕜, M = c • 1 := by
  refine scalar_of_entries (fun p q hpq => ?_) fun i j => ?_
  · obtain ⟨k, hk⟩ : ∃ k : Fin n, k ∉ ({p, q} : Finset (Fin n)) := by
      by_contra hc
      push Not at hc
      have h1 : (Finset.univ : Finset (Fin n)) ⊆ {p, q} := fun k _ => hc k
      have h2 := Finset.card_le_card h1
      have h3 := Finset.card_le_two (a := p) (b := q)
      rw [Finset.card_univ, Fintype.card_fin] at h2
      omega
    simp only [Finset.mem_insert, Finset.mem_singleton, not_or] at hk
    have := congrFun (congrFun (h q k (Ne.symm hk.2)) p) k
    rw [mul_weighted, weighted_mul, if_pos rfl, if_neg (Ne.symm hk.2), if_neg (Ne.symm hpq), if_neg hk.1, sub_zero, sub_zero] at this
    exact (mul_eq_zero.1 this).resolve_right (hg q)
  · by_cases hij : i = j
    · rw [hij]
    · have := congrFun (congrFun (h i j hij) i) j
      rw [mul_weighted, weighted_mul, if_pos rfl, if_neg hij, if_pos rfl, if_neg (Ne.symm hij), sub_zero, sub_zero, mul_comm] at this
      exact mul_left_cancel₀ (hg i) this

theorem scalar_of_single {M : Matrix (Fin n) (Fin n) 𝕜} (h : ∀ i j, i ≠ j → M * single i j 1 = single i j 1 * M) : ∃ c : 𝕜, M = c • 1 := by
  obtain ⟨c, hc⟩ := Matrix.mem_range_scalar_of_commute_single (M := M) fun i j hij => (h i j hij).symm
  exact ⟨c, by rw [← hc, Matrix.scalar_apply, Matrix.smul_one_eq_diagonal]⟩

/-- Only multiples of the identity commute with all symmetric matrices. -/
theorem scalar_of_symm {M : Matrix (Fin n) (Fin n) 𝕜} (h : ∀ S : Matrix (Fin n) (Fin n) 𝕜, Sᵀ = S → M * S = S * M) : ∃ c : 𝕜, M = c • 1 := by
  refine scalar_of_entries (fun p q hpq => ?_) fun i j => ?_
  · have := congrFun (congrFun (h (single q q 1) (by rw [transpose_single])) p) q
    rw [mul_single_apply_same, single_mul_apply_of_ne _ _ _ _ _ hpq, mul_one] at this
    exact this
  · by_cases hij : i = j
    · rw [hij]
    · have := congrFun (congrFun (h (single i j 1 + single j i 1) (by rw [transpose_add, transpose_single, transpose_single, add_comm])) i) j
      rw [mul_add, add_mul, Matrix.add_apply, Matrix.add_apply, mul_single_apply_same, mul_single_apply_of_ne _ _ _ _ _ (Ne.symm hij),
        single_mul_apply_same, single_mul_apply_of_ne _ _ _ _ _ hij, mul_one, one_mul, add_zero, add_zero] at this
      exact this

end

/-- **C104.** `SO(n)`, `n ≥ 3`: only the multiples of the identity. -/
theorem C104_so (n : ℕ) (hn : 3 ≤ n) : ∃ a : Arr3 ℝ, soLie n = .ok a ∧
    (∀ M, M ∈ commutant (a.mats n) [] ↔ ∃ c : ℝ, M = c • 1) ∧ Module.finrank ℝ (commutant (a.mats n) []) = 1 := by
  obtain ⟨a, ha, -, -, hs⟩ := C50_so_generators n
  refine ⟨a, ha, commutant_scalar (by omega) fun M hM => ?_⟩
  refine scalar_of_weighted hn (g := fun _ => 1) (fun _ => one_ne_zero) fun i j _ => commutes_span (mem_commutant.1 hM).1 ((hs _).2 ?_)
  rw [transpose_sub, transpose_single, transpose_single, neg_sub]

/-- **C104.** `SO(2)`: the matrices `[[a,-b],[b,a]]`, two parameters. -/
theorem C104_so2 : ∃ a : Arr3 ℝ, soLie 2 = .ok a ∧
    (∀ M, M ∈ commutant (a.mats 2) [] ↔ ∃ x y : ℝ, M = !![x, -y; y, x]) ∧ Module.finrank ℝ (commutant (a.mats 2) []) = 2 := by
  obtain ⟨a, ha, -, -, hs⟩ := C50_so_generators 2
  have h1 : ∀ M, M ∈ commutant (a.mats 2) [] ↔ ∃ x y : ℝ, M = !![x, -y; y, x] := by
    intro M
    rw [mem_commutant]
    constructor
    · intro h
      have h1 := commutes_span h.1 ((hs !![0, -1; 1, 0]).2 (by ext i j; fin_cases i <;> fin_cases j <;> simp))
      rw [Matrix.eta_fin_two M] at h1 ⊢
      have h2 := congrFun (congrFun h1 0) 0
      have h3 := congrFun (congrFun h1 0) 1
      simp [Matrix.mul_apply, Fin.sum_univ_two] at h2 h3
      refine ⟨M 0 0, M 1 0, ?_⟩
      ext i j
      fin_cases i <;> fin_cases j <;> simp <;> linarith
    · rintro ⟨x, y, rfl⟩
      refine ⟨fun A hA => ?_, by simp⟩
      have := (hs A).1 (Submodule.subset_span hA)
      have h00 := congrFun (congrFun this 0) 0
      have h11 := congrFun (congrFun this 1) 1
      have h01 := congrFun (congrFun this 0) 1
      simp only [transpose_apply, Matrix.neg_apply] at h00 h11 h01
      ext i j
      have h0 : A 0 0 = 0 := by linarith
      have h1 : A 1 1 = 0 := by linarith
      fin_cases i <;> fin_cases j <;> simp [Matrix.mul_apply, Fin.sum_univ_two, h01, h0, h1] <;> ring
  refine ⟨a, ha, h1, commutant_finrank (c := 2)
    { toFun := fun v => !![v 0, -v 1; v 1, v 0]
      map_add' := fun u v => by ext i j; fin_cases i <;> fin_cases j <;> simp; ring
      map_smul' := fun c v => by ext i j; fin_cases i <;> fin_cases j <;> simp } ?_ fun M => ?_⟩
  · intro u v huv
    have h2 := congrFun (congrFun huv 0) 0
    have h3 := congrFun (congrFun huv 1) 0
    simp at h2 h3
    funext i
    fin_cases i
    · exact h2
    · exact h3
  · rw [h1]
    exact ⟨fun ⟨x, y, h⟩ => ⟨![x, y], h⟩, fun ⟨v, h⟩ => ⟨v 0, v 1, h⟩⟩

/-- **C104.** `O(n)`, `n ≥ 1`: only the multiples of the identity. -/
theorem C104_o (n : ℕ) (hn : 1 ≤ n) : ∃ a b : Arr3 ℝ, soLie n = .ok a ∧ oDisc n = .ok b ∧
    (∀ M, M ∈ commutant (a.mats n) (b.mats n) ↔ ∃ c : ℝ, M = c • 1) ∧ Module.finrank ℝ (commutant (a.mats n) (b.mats n)) = 1 := by
  obtain ⟨a, ha, -, -, hs⟩ := C50_so_generators n
  obtain ⟨b, hb, -⟩ := C50_o_reflection n hn
  refine ⟨a, b, ha, hb, commutant_scalar hn fun M hM => ?_⟩
  have h1 : ∀ i j, M * (single i j 1 - single j i 1) = (single i j 1 - single j i 1) * M := fun i j =>
    commutes_span (mem_commutant.1 hM).1 ((hs _).2 (by rw [transpose_sub, transpose_single, transpose_single, neg_sub]))
  have h2 := (mem_commutant.1 hM).2 _ (by rw [oDisc_mats n b hb]; exact mem_singleton_self _)
  by_cases h3 : 3 ≤ n
  · exact scalar_of_weighted h3 (g := fun _ => 1) (fun _ => one_ne_zero) fun i j _ => h1 i j
  · refine scalar_of_entries (fun p q hpq => ?_) fun i j => ?_
    · have := congrFun (congrFun h2 p) q
      rw [mul_diagonal, diagonal_mul] at this
      have hp := p.2
      have hq := q.2
      have hv : p.val ≠ q.val := fun h => hpq (Fin.ext h)
      by_cases h0 : p.val = 0
      · rw [if_neg (by omega), if_pos h0] at this
        linarith
      · rw [if_pos (by omega), if_neg h0] at this
        linarith
    · by_cases hij : i = j
      · rw [hij]
      · have := congrFun (congrFun (h1 i j) i) j
        rw [mul_weighted M (fun _ => 1), weighted_mul M (fun _ => 1), if_pos rfl, if_neg hij, if_pos rfl, if_neg (Ne.symm hij), sub_zero, sub_zero, mul_comm] at this
        simpa using this

/-- **C104.** `Sp(m)`, `m ≥ 1`: only the multiples of the identity. -/
theorem C104_sp (m : ℕ) (hm : 1 ≤ m) : ∃ a : Arr3 ℝ, spLie m = .ok a ∧
    (∀ M, M ∈ commutant (a.mats (2 * m)) [] ↔ ∃ c : ℝ, M = c • 1) ∧ Module.finrank ℝ (commutant (a.mats (2 * m)) []) = 1 := by
  obtain ⟨a, ha, -, -, hs⟩ := C52_sp_generators m
  refine ⟨a, ha, commutant_scalar (by omega) fun M hM => ?_⟩
  have h1 : ∀ S : Matrix (Fin (2 * m)) (Fin (2 * m)) ℝ, Sᵀ = S → M * (S * symplJ m) = S * symplJ m * M := fun S hS =>
    commutes_span (mem_commutant.1 hM).1 ((hs _).2 (by
      rw [transpose_mul, hS, symplJ_transpose, neg_mul, neg_mul, ← Matrix.mul_assoc, neg_add_cancel]))
  have h2 : M * symplJ m = symplJ m * M := by simpa using h1 1 transpose_one
  refine scalar_of_symm fun S hS => ?_
  have h3 := congrArg (· * symplJ m) (h1 S hS)
  simp only [Matrix.mul_assoc, h2, symplJ_sq] at h3
  rw [← Matrix.mul_assoc (symplJ m) (symplJ m), symplJ_sq] at h3
  simpa using h3

/-- **C104.** `GL(n)`, `n ≥ 1`: only the multiples of the identity. -/
theorem C104_gl (n : ℕ) (hn : 1 ≤ n) : ∃ a : Arr3 ℝ, glLie n = .ok a ∧
    (∀ M, M ∈ commutant (a.mats n) [] ↔ ∃ c : ℝ, M = c • 1) ∧ Module.finrank ℝ (commutant (a.mats n) []) = 1 := by
  obtain ⟨a, ha, -, -, hs⟩ := C53_gl_generators n
  exact ⟨a, ha, commutant_scalar hn fun M hM => scalar_of_single fun i j _ => commutes_span (mem_commutant.1 hM).1 (hs _)⟩

/-- **C104.** `SL(n)`, `n ≥ 1`: only the multiples of the identity. -/
theorem C104_sl (n : ℕ) (hn : 1 ≤ n) : ∃ a : Arr3 ℝ, slLie n = .ok a ∧
    (∀ M, M ∈ commutant (a.mats n) [] ↔ ∃ c : ℝ, M = c • 1) ∧ Module.finrank ℝ (commutant (a.mats n) []) = 1 := by
  obtain ⟨a, ha, -, -, hs⟩ := C53_sl_generators n (by omega)
  exact ⟨a, ha, commutant_scalar hn fun M hM => scalar_of_single fun i j hij =>
    commutes_span (mem_commutant.1 hM).1 ((hs _).2 (trace_single_eq_of_ne i j 1 hij))⟩

theorem scalar_of_skewHermitian {n : ℕ} {M : Matrix (Fin n) (Fin n) ℂ} (h : ∀ A : Matrix (Fin n) (Fin n) ℂ, Aᴴ = -A → A.trace = 0 → M * A = A * M) :
    ∃ c : ℂ, M = c • 1 := by
  refine scalar_of_single fun i j hij => ?_
  have h1 := h (single i j 1 - single j i 1) (by rw [conjTranspose_sub, conjTranspose_single, conjTranspose_single, star_one, neg_sub])
    (by rw [trace_sub, trace_single_eq_of_ne i j 1 hij, trace_single_eq_of_ne j i 1 (Ne.symm hij), sub_zero])
  have h2 := h (Complex.I • (single i j 1 + single j i 1))
    (by rw [conjTranspose_smul, conjTranspose_add, conjTranspose_single, conjTranspose_single, star_one, ← neg_smul, add_comm (single j i (1 : ℂ))]; simp)
    (by rw [trace_smul, trace_add, trace_single_eq_of_ne i j 1 hij, trace_single_eq_of_ne j i 1 (Ne.symm hij), add_zero, smul_zero])
  rw [mul_smul_comm, smul_mul_assoc] at h2
  have h3 := smul_right_injective _ Complex.I_ne_zero h2
  have h4 : M * ((2 : ℂ) • single i j 1) = ((2 : ℂ) • single i j 1) * M := by
    have e : (2 : ℂ) • single i j (1 : ℂ) = (single i j 1 - single j i 1) + (single i j 1 + single j i 1) := by
      rw [two_smul]; abel
    rw [e, mul_add, add_mul, h1, h3]
  rw [mul_smul_comm, smul_mul_assoc] at h4
  exact smul_right_injective _ two_ne_zero h4

/-- **C104.** `U(n)`, `n ≥ 1`: only the (complex) multiples of the identity. -/
theorem C104_u (n : ℕ) (hn : 1 ≤ n) : ∃ re im : Arr3 ℝ, uLie n = .ok (re, im) ∧
    (∀ M, M ∈ commutant (cplxMats re im n) [] ↔ ∃ c : ℂ, M = c • 1) ∧ Module.finrank ℂ (commutant (cplxMats re im n) []) = 1 := by
  obtain ⟨re, im, ha, -, -, hs⟩ := C53_u_generators n
  exact ⟨re, im, ha, commutant_scalar hn fun M hM => scalar_of_skewHermitian fun A h1 _ =>
    commutes_span (mem_commutant.1 hM).1 ((hs _).2 h1)⟩

/-- **C104.** `SU(n)`, `n ≥ 2`: only the (complex) multiples of the identity. -/
theorem C104_su (n : ℕ) (hn : 2 ≤ n) : ∃ re im : Arr3 ℝ, suLie n = .ok (re, im) ∧
    (∀ M, M ∈ commutant (cplxMats re im n) [] ↔ ∃ c : ℂ, M = c • 1) ∧ Module.finrank ℂ (commutant (cplxMats re im n) []) = 1 := by
  obtain ⟨re, im, ha, -, -, hs⟩ := C53_su_generators n hn
  exact ⟨re, im, ha, commutant_scalar (by omega) fun M hM => scalar_of_skewHermitian fun A h1 h2 =>
    commutes_span (mem_commutant.1 hM).1 ((hs _).2 ⟨h1, h2⟩)⟩

/-- **C104.** `SO13p`, `SO13`, `O13`: only the multiples of the identity, whatever the discrete generators. -/
theorem C104_lorentz (disc : List (Matrix (Fin 4) (Fin 4) ℝ)) : ∃ a : Arr3 ℝ, so13pLie = .ok a ∧
    (∀ M, M ∈ commutant (a.mats 4) disc ↔ ∃ c : ℝ, M = c • 1) ∧ Module.finrank ℝ (commutant (a.mats 4) disc) = 1 := by
  obtain ⟨a, ha, -, -, hs⟩ := C51_so13p_generators
  refine ⟨a, ha, commutant_scalar (by omega) fun M hM => ?_⟩
  refine scalar_of_weighted (by omega) (g := fun i => if i.val = 0 then 1 else -1) (fun i => by split_ifs <;> norm_num) fun i j hij =>
    commutes_span (mem_commutant.1 hM).1 ((hs _).2 ?_)
  ext p q
  rw [minkowski, Matrix.add_apply, mul_diagonal, diagonal_mul, transpose_apply, Matrix.sub_apply, Matrix.sub_apply, single_apply, single_apply,
    single_apply, single_apply, Matrix.zero_apply]
  by_cases h1 : i = q ∧ j = p
  · obtain ⟨rfl, rfl⟩ := h1
    have h2 : ¬ (j = i ∧ i = j) := fun h => hij h.2
    have h3 : ¬ (i = j ∧ j = i) := fun h => hij h.1
    simp only [h2, h3, and_self, if_true, if_false]
    split_ifs <;> norm_num
  · by_cases h2 : j = q ∧ i = p
    · obtain ⟨rfl, rfl⟩ := h2
      have h2 : ¬ (j = i ∧ i = j) := fun h => hij h.2
      have h3 : ¬ (i = j ∧ j = i) := fun h => hij h.1
      simp only [h2, h3, and_self, if_true, if_false]
      split_ifs <;> norm_num
    · have h3 : ¬ (i = p ∧ j = q) := fun h => h2 ⟨h.2, h.1⟩
      have h4 : ¬ (j = p ∧ i = q) := fun h => h1 ⟨h.2, h.1⟩
      simp [h1, h2, h3, h4]

/-- Cases of `C104_so` and `C104_so2`: `[[0,-1],[1,0]]` commutes with the rotations of the plane, but with a third row and column of zeros
it does not commute with the rotations of space. -/
example : (∃ a : Arr3 ℝ, soLie 2 = .ok a ∧ !![0, -1; 1, 0] ∈ commutant (a.mats 2) []) ∧
    ∃ a : Arr3 ℝ, soLie 3 = .ok a ∧ !![0, -1, 0; 1, 0, 0; 0, 0, 0] ∉ commutant (a.mats 3) [] := by
  obtain ⟨a, ha, h, -⟩ := C104_so2
  obtain ⟨b, hb, k, -⟩ := C104_so 3 le_rfl
  refine ⟨⟨a, ha, (h _).2 ⟨0, 1, rfl⟩⟩, b, hb, fun hm => ?_⟩
  obtain ⟨c, hc⟩ := (k _).1 hm
  simpa using congrFun (congrFun hc 1) 0

/-- Cases of `C104_o`, `C104_sp`, `C104_gl`, `C104_sl`, `C104_u` and `C104_su`: no shear commutes with any of these groups. -/
example : (∃ a b : Arr3 ℝ, soLie 2 = .ok a ∧ oDisc 2 = .ok b ∧ !![1, 1; 0, 1] ∉ commutant (a.mats 2) (b.mats 2)) ∧
    (∃ a : Arr3 ℝ, spLie 1 = .ok a ∧ !![1, 1; 0, 1] ∉ commutant (a.mats (2 * 1)) []) ∧
    (∃ a : Arr3 ℝ, glLie 2 = .ok a ∧ !![1, 1; 0, 1] ∉ commutant (a.mats 2) []) ∧
    (∃ a : Arr3 ℝ, slLie 2 = .ok a ∧ !![1, 1; 0, 1] ∉ commutant (a.mats 2) []) ∧
    (∃ re im : Arr3 ℝ, uLie 2 = .ok (re, im) ∧ !![1, 1; 0, 1] ∉ commutant (cplxMats re im 2) []) ∧
    ∃ re im : Arr3 ℝ, suLie 2 = .ok (re, im) ∧ !![1, 1; 0, 1] ∉ commutant (cplxMats re im 2) [] := by
  have key : ∀ c : ℝ, !![1, 1; 0, 1] ≠ c • (1 : Matrix (Fin 2) (Fin 2) ℝ) := fun c hc => by simpa using congrFun (congrFun hc 0) 1
  have keyC : ∀ c : ℂ, !![1, 1; 0, 1] ≠ c • (1 : Matrix (Fin 2) (Fin 2) ℂ) := fun c hc => by simpa using congrFun (congrFun hc 0) 1
  obtain ⟨a1, b1, ha1, hb1, h1, -⟩ := C104_o 2 (by norm_num)
  obtain ⟨a2, ha2, h2, -⟩ := C104_sp 1 le_rfl
  obtain ⟨a3, ha3, h3, -⟩ := C104_gl 2 (by norm_num)
  obtain ⟨a4, ha4, h4, -⟩ := C104_sl 2 (by norm_num)
  obtain ⟨r5, i5, ha5, h5, -⟩ := C104_u 2 (by norm_num)
  obtain ⟨r6, i6, ha6, h6, -⟩ := C104_su 2 le_rfl
  exact ⟨⟨a1, b1, ha1, hb1, fun h => let ⟨c, hc⟩ := (h1 _).1 h; key c hc⟩, ⟨a2, ha2, fun h => let ⟨c, hc⟩ := (h2 _).1 h; key c hc⟩,
    ⟨a3, ha3, fun h => let ⟨c, hc⟩ := (h3 _).1 h; key c hc⟩, ⟨a4, ha4, fun h => let ⟨c, hc⟩ := (h4 _).1 h; key c hc⟩,
    ⟨r5, i5, ha5, fun h => let ⟨c, hc⟩ := (h5 _).1 h; keyC c hc⟩, r6, i6, ha6, fun h => let ⟨c, hc⟩ := (h6 _).1 h; keyC c hc⟩

end Verif
