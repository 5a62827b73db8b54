import Verif.Lemmas.Samples
import Mathlib.Data.Nat.Factorial.Basic
import Mathlib.Data.Fintype.Perm
import Mathlib.LinearAlgebra.Matrix.Permutation

/-! # Counting what can be sampled; special unitary matrices -/
namespace Verif
open Matrix List NormedSpace

/-- Every unitary matrix of determinant one is the exponential of a traceless anti-Hermitian matrix. -/
theorem exp_specialUnitary {n : ℕ} {Q : Matrix (Fin n) (Fin n) ℂ} (hQ : Qᴴ * Q = 1) (hd : Q.det = 1) :
    ∃ A : Matrix (Fin n) (Fin n) ℂ, (Aᴴ = -A ∧ A.trace = 0) ∧ exp A = Q := by
  rcases Nat.eq_zero_or_pos n with rfl | hn
  · exact ⟨0, ⟨by simp, by simp⟩, by ext i; exact i.elim0⟩
  obtain ⟨A, hA, rfl⟩ := exp_unitary hQ
  have hH : ((-Complex.I) • A).IsHermitian := by
    rw [IsHermitian, conjTranspose_smul, hA]
    simp
  obtain ⟨U, hU⟩ : ∃ U : Matrix (Fin n) (Fin n) ℂ, U = hH.eigenvectorUnitary := ⟨_, rfl⟩
  have h1 : Uᴴ * U = 1 := by rw [hU]; exact (Matrix.mem_unitaryGroup_iff'.1 hH.eigenvectorUnitary.2)
  have h2 : U * Uᴴ = 1 := mul_eq_one_comm.1 h1
  have hi : U⁻¹ = Uᴴ := inv_eq_left_inv h1
  obtain ⟨l, hl⟩ : ∃ l, l = hH.eigenvalues := ⟨_, rfl⟩
  have hs : (-Complex.I) • A = U * diagonal (fun i => (l i : ℂ)) * Uᴴ := by
    conv_lhs => rw [hH.spectral_theorem]
    rw [hU, Unitary.conjStarAlgAut_apply, hl]
    rfl
  have hs' : A = U * diagonal (fun i => Complex.I * (l i : ℂ)) * Uᴴ := by
    have e : A = Complex.I • ((-Complex.I) • A) := by
      rw [smul_smul, mul_neg, Complex.I_mul_I, neg_neg, one_smul]
    rw [e, hs, ← Matrix.smul_mul, ← Matrix.mul_smul, ← diagonal_smul]
    rfl
  have hexp : ∀ D : Fin n → ℂ, exp (U * diagonal D * Uᴴ) = U * diagonal (fun i => Complex.exp (D i)) * Uᴴ := by
    intro D
    rw [← hi, Matrix.exp_conj U _ ⟨⟨U, Uᴴ, h2, h1⟩, rfl⟩, Matrix.exp_diagonal]
    congr 2
    congr 1
    funext i
    rw [Pi.coe_exp, Complex.exp_eq_exp_ℂ]
  have hdet : ∏ i, Complex.exp (Complex.I * (l i : ℂ)) = 1 := by
    rw [hs', hexp, det_mul, det_mul, mul_right_comm, ← det_mul, h2, det_one, one_mul, det_diagonal] at hd
    exact hd
  rw [← Complex.exp_sum, Complex.exp_eq_one_iff] at hdet
  obtain ⟨m, hm⟩ := hdet
  obtain ⟨D, hD⟩ : ∃ D : Fin n → ℂ, D = fun i => Complex.I * (l i : ℂ) - if i = ⟨0, hn⟩ then m * (2 * Real.pi * Complex.I) else 0 := ⟨_, rfl⟩
  refine ⟨U * diagonal D * Uᴴ, ⟨?_, ?_⟩, ?_⟩
  · simp only [conjTranspose_mul, conjTranspose_conjTranspose, diagonal_conjTranspose]
    rw [← Matrix.mul_assoc, ← Matrix.neg_mul, ← Matrix.mul_neg, diagonal_neg]
    congr 3
    funext i
    rw [hD]
    by_cases h : i = ⟨0, hn⟩
    · simp [h]; ring
    · simp [h]
  · rw [trace_mul_comm, ← Matrix.mul_assoc, h1, Matrix.one_mul, trace_diagonal, hD, Finset.sum_sub_distrib, hm]
    simp
  · conv_rhs => rw [hs']
    rw [hexp, hexp]
    congr 3
    funext i
    rw [hD]
    by_cases h : i = ⟨0, hn⟩
    · simp only [h, if_true]
      rw [Complex.exp_sub, Complex.exp_int_mul_two_pi_mul_I, div_one]
    · simp [h]

variable {d : ℕ} {disc : List (Matrix (Fin d) (Fin d) ℝ)}

/-- Rounds of powers, written with `^`. -/
theorem noise2sample_disc (z : List ℝ) (ks : List (List ℤ)) (o : List (List ℕ)) (hd : disc.length ≠ 0) :
    noise2sample z ks [] disc o =
      (o.zipIdx).foldl (fun g p => p.1.foldl (fun g i => g * disc.getD i 1 ^ ((ks.getD i []).getD p.2 0)) g) 1 := by
  unfold noise2sample
  simp only [length_nil, if_true, if_neg hd, matrixPowerSimple_eq]

/-- Only the exponents modulo the order of the generators matter. -/
theorem noise2sample_congr {m : ℕ} (hu : ∀ h ∈ disc, IsUnit h.det) (hm : ∀ h ∈ disc, h ^ m = 1) {z z' : List ℝ} {ks ks' : List (List ℤ)} {o : List (List ℕ)}
    (ho : OrdersOK disc.length o) (h : ∀ i < disc.length, ∀ k < 3, (ks.getD i []).getD k 0 % m = (ks'.getD i []).getD k 0 % m) :
    noise2sample z ks [] disc o = noise2sample z' ks' [] disc o := by
  by_cases hd : disc.length = 0
  · unfold noise2sample
    simp [hd]
  rw [noise2sample_disc _ _ _ hd, noise2sample_disc _ _ _ hd]
  have hpow : ∀ g ∈ disc, ∀ a b : ℤ, a % m = b % m → g ^ a = g ^ b := by
    intro g hg a b hab
    have hz : ∀ c : ℤ, g ^ c = g ^ (c % m) := by
      intro c
      conv_lhs => rw [← Int.emod_add_mul_ediv c m]
      rw [Matrix.zpow_add (hu g hg), Matrix.zpow_mul g (hu g hg), zpow_natCast, hm g hg, Matrix.one_zpow, Matrix.mul_one]
    rw [hz a, hz b, hab]
  have gen : ∀ (L : List (List ℕ × ℕ)) (g : Matrix (Fin d) (Fin d) ℝ), (∀ p ∈ L, p.2 < 3 ∧ ∀ i ∈ p.1, i < disc.length) →
      L.foldl (fun g p => p.1.foldl (fun g i => g * disc.getD i 1 ^ ((ks.getD i []).getD p.2 0)) g) g =
      L.foldl (fun g p => p.1.foldl (fun g i => g * disc.getD i 1 ^ ((ks'.getD i []).getD p.2 0)) g) g := by
    intro L
    induction L with
    | nil => intro g _; rfl
    | cons p L ih =>
      intro g hL
      rw [foldl_cons, foldl_cons]
      have inner : ∀ (l : List ℕ) (g : Matrix (Fin d) (Fin d) ℝ), (∀ i ∈ l, i < disc.length) →
          l.foldl (fun g i => g * disc.getD i 1 ^ ((ks.getD i []).getD p.2 0)) g = l.foldl (fun g i => g * disc.getD i 1 ^ ((ks'.getD i []).getD p.2 0)) g := by
        intro l
        induction l with
        | nil => intro g _; rfl
        | cons i l ih2 =>
          intro g hl
          rw [foldl_cons, foldl_cons, ih2 _ fun j hj => hl j (by simp [hj])]
          have hi := hl i (by simp)
          rw [hpow (disc.getD i 1) (by rw [getD_eq_getElem _ _ hi]; exact getElem_mem _) _ _ (h i hi p.2 (hL p (by simp)).1)]
      rw [inner p.1 g (hL p (by simp)).2]
      exact ih _ fun q hq => hL q (by simp [hq])
  refine gen _ _ fun p hp => ?_
  obtain ⟨-, hp1, hp2⟩ := mem_zipIdx hp
  have h3 := ho.1
  refine ⟨by omega, fun i hi => ?_⟩
  have hx : p.1 ∈ o := by rw [hp2]; exact getElem_mem _
  exact mem_range.1 ((ho.2 p.1 hx).mem_iff.1 hi)

/-- The exponents of a table. -/
def expTable {M m : ℕ} (b : Fin M → Fin 3 → Fin m) : List (List ℤ) := List.ofFn fun i => List.ofFn fun k => ((b i k).val : ℤ)

theorem expTable_getD {M m : ℕ} (b : Fin M → Fin 3 → Fin m) {i k : ℕ} (hi : i < M) (hk : k < 3) :
    ((expTable b).getD i []).getD k 0 = ((b ⟨i, hi⟩ ⟨k, hk⟩).val : ℤ) := by
  unfold expTable
  have e : (List.ofFn fun i => List.ofFn fun k => ((b i k).val : ℤ)).getD i [] = List.ofFn fun k => ((b ⟨i, hi⟩ k).val : ℤ) := by
    rw [getD_eq_getElem _ _ (by simpa using hi), List.getElem_ofFn]
  rw [e, getD_eq_getElem _ _ (by rw [List.length_ofFn]; exact hk), List.getElem_ofFn]

/-- With 100 seeds and generators of order `m`, at most `100·m^(3M)` matrices come out. -/
theorem sampled_finite {m : ℕ} (hm0 : 0 < m) (hu : ∀ h ∈ disc, IsUnit h.det) (hm : ∀ h ∈ disc, h ^ m = 1) (seed : ℕ → List (List ℕ)) :
    ∃ S : Finset (Matrix (Fin d) (Fin d) ℝ), S.card ≤ 100 * m ^ (3 * disc.length) ∧ ∀ s < 100, ∀ (N : ℕ) (w : Draws), w.Meets N 0 disc.length →
      w.orders = seed s → ∀ h ∈ samplesOf none [] disc w, h ∈ S := by
  classical
  refine ⟨(Finset.univ : Finset (Fin 100 × (Fin disc.length → Fin 3 → Fin m))).image fun x => noise2sample [] (expTable x.2) [] disc (seed x.1), ?_, ?_⟩
  · refine (Finset.card_image_le).trans (le_of_eq ?_)
    rw [Finset.card_univ, Fintype.card_prod, Fintype.card_fin, Fintype.card_fun, Fintype.card_fun, Fintype.card_fin, Fintype.card_fin, Fintype.card_fin, ← pow_mul]
  · intro s hs N w hw ho h hh
    obtain ⟨z, -, k, -, rfl⟩ := mem_samplesOf hh
    rw [Finset.mem_image]
    refine ⟨(⟨s, hs⟩, fun i j => ⟨(((k.getD i []).getD j 0) % (m : ℤ)).toNat, ?_⟩), Finset.mem_univ _, ?_⟩
    · have h1 := Int.emod_nonneg ((k.getD i []).getD j 0) (by omega : (m : ℤ) ≠ 0)
      have h2 := Int.emod_lt_of_pos ((k.getD i []).getD j 0) (by omega : (0 : ℤ) < m)
      omega
    · rw [ho]
      refine noise2sample_congr hu hm (ho ▸ hw.orders) fun i hi j hj => ?_
      rw [expTable_getD _ hi hj]
      have h1 := Int.emod_nonneg ((k.getD i []).getD j 0) (by omega : (m : ℤ) ≠ 0)
      simp only [Int.toNat_of_nonneg h1, Int.emod_emod]

theorem factorial_lt (n : ℕ) (hn : 22 ≤ n) : 100 * 2 ^ (3 * (n - 1)) < n.factorial := by
  induction n, hn using Nat.le_induction with
  | base => decide
  | succ n hn ih =>
    rw [Nat.factorial_succ, show 3 * (n + 1 - 1) = 3 * (n - 1) + 3 by omega, pow_add]
    have : 8 * n.factorial ≤ (n + 1) * n.factorial := Nat.mul_le_mul_right _ (by omega)
    omega

end Verif
