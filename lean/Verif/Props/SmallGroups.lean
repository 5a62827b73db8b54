import Verif.Lemmas.Sample
import Verif.Props.Flags

/-! # `Trivial(n)` and `Scaling(n)` -/
namespace Verif
open List Matrix

/-- C101: `Trivial(n)` is constructed for every `n`, has no generators, counts as a permutation group, and the identity is
all it generates and all it samples; every weight matrix commutes with every generator. -/
theorem C101_trivial (n : ℕ) : ∃ G, trivialGroup n = .ok G ∧ G.d = some n ∧ G.lie = [] ∧ G.disc = [] ∧ G.isOrth = true ∧
    G.isPerm = some true ∧ (∀ M, Generated (G.lie.map (denseGen n)) (G.disc.map (denseGen n)) M ↔ M = 1) ∧
    ∀ (z : List ℝ) (ks : List (List ℤ)) (orders : List (List ℕ)), (∀ o ∈ orders, o = []) →
      noise2sample z ks (G.lie.map (denseGen n)) (G.disc.map (denseGen n)) orders = 1 := by
  have e : trivialGroup n = .ok ⟨some n, [], [], true, some true⟩ := by
    rw [trivialGroup, groupInit_eq, if_neg (by simp [groupDim])]
    simp [orthFlag, permFlag, groupDim]
  have key : ∀ M : Matrix (Fin n) (Fin n) ℝ, Generated ([] : List (Matrix (Fin n) (Fin n) ℝ)) [] M ↔ M = 1 := by
    intro M
    constructor
    · intro h
      induction h with
      | one => rfl
      | exp hA =>
        have : {B : Matrix (Fin n) (Fin n) ℝ | B ∈ ([] : List _)} = ∅ := by ext; simp
        rw [this, Submodule.span_empty, Submodule.mem_bot] at hA
        rw [hA, NormedSpace.exp_zero]
      | gen h => simp at h
      | inv h => simp at h
      | mul _ _ h1 h2 => rw [h1, h2, one_mul]
    · rintro rfl
      exact .one
  refine ⟨_, e, rfl, rfl, rfl, rfl, rfl, key, fun z ks orders ho => ?_⟩
  exact (key _).1 (sample_generated (lie := []) (disc := []) z ks orders fun o h i hi => by rw [ho o h] at hi; simp at hi)

theorem exp_smul_one {n : ℕ} (t : ℝ) : NormedSpace.exp (t • (1 : Matrix (Fin n) (Fin n) ℝ)) = Real.exp t • (1 : Matrix (Fin n) (Fin n) ℝ) := by
  rw [Matrix.smul_one_eq_diagonal, Matrix.exp_diagonal, Matrix.smul_one_eq_diagonal]
  congr 1
  funext i
  rw [Pi.exp_def, Real.exp_eq_exp_ℝ]

/-- C101: `Scaling(n)` is constructed for every `n`, has the identity as its only infinitesimal generator and no others, and
generates exactly the positive multiples of the identity; so does every sample. -/
theorem C101_scaling (n : ℕ) : ∃ G, scalingGroup n = .ok G ∧ G.d = some n ∧ G.disc = [] ∧ G.lie.map (denseGen n) = [1] ∧
    (∀ M, Generated (G.lie.map (denseGen n)) (G.disc.map (denseGen n)) M ↔ ∃ c : ℝ, 0 < c ∧ M = c • (1 : Matrix (Fin n) (Fin n) ℝ)) ∧
    ∀ (z : List ℝ) (ks : List (List ℤ)), ∃ c : ℝ, 0 < c ∧
      noise2sample z ks (G.lie.map (denseGen n)) (G.disc.map (denseGen n)) [] = c • (1 : Matrix (Fin n) (Fin n) ℝ) := by
  have e1 : ((scalingLie n : Arr3 ℝ).mats n) = [1] := by
    rw [Arr3.mats]
    show List.map _ (range 1) = _
    rw [range_one, map_singleton]
    congr 1
    ext i j
    simp [scalingLie, Matrix.one_apply, Fin.val_inj]
  have e : ∃ o p, scalingGroup n = .ok ⟨some n, [ofMatrix (1 : Matrix (Fin n) (Fin n) ℝ)], [], o, p⟩ := by
    rw [scalingGroup, e1, groupInit_eq, if_neg (by simp [groupDim])]
    exact ⟨_, _, rfl⟩
  obtain ⟨o, p, e⟩ := e
  have key : ∀ M, Generated [(1 : Matrix (Fin n) (Fin n) ℝ)] [] M ↔ ∃ c : ℝ, 0 < c ∧ M = c • (1 : Matrix (Fin n) (Fin n) ℝ) := by
    intro M
    constructor
    · intro h
      induction h with
      | one => exact ⟨1, one_pos, by simp⟩
      | exp hA =>
        have : {B : Matrix (Fin n) (Fin n) ℝ | B ∈ [(1 : Matrix (Fin n) (Fin n) ℝ)]} = {1} := by ext; simp
        rw [this, Submodule.mem_span_singleton] at hA
        obtain ⟨t, rfl⟩ := hA
        exact ⟨_, Real.exp_pos t, exp_smul_one t⟩
      | gen h => simp at h
      | inv h => simp at h
      | mul _ _ h1 h2 =>
        obtain ⟨a, ha, rfl⟩ := h1
        obtain ⟨b, hb, rfl⟩ := h2
        exact ⟨a * b, mul_pos ha hb, by rw [smul_mul_smul_comm, one_mul]⟩
    · rintro ⟨c, hc, rfl⟩
      have := Generated.exp (lie := [(1 : Matrix (Fin n) (Fin n) ℝ)]) (disc := []) (A := Real.log c • 1)
        (Submodule.smul_mem _ _ (Submodule.subset_span (by simp)))
      rwa [exp_smul_one, Real.exp_log hc] at this
  refine ⟨_, e, rfl, rfl, by simp [dense_ofMatrix], ?_, fun z ks => ?_⟩
  · simpa [dense_ofMatrix] using key
  · have := (key _).1 (sample_generated (lie := [(1 : Matrix (Fin n) (Fin n) ℝ)]) (disc := []) z ks [] (by simp))
    simpa [dense_ofMatrix] using this

/-- C101: `Scaling(n)` is not taken for an orthogonal group (sizes `1 ≤ n ≤ 10⁹`), so that representations of it keep vectors
and covectors apart. -/
theorem C101_scaling_not_orthogonal (n : ℕ) (hn : 1 ≤ n) (hn' : n ≤ 10 ^ 9) : ∃ G, scalingGroup n = .ok G ∧ G.isOrth = false ∧ G.isPerm = none := by
  have e1 : ((scalingLie n : Arr3 ℝ).mats n) = [1] := by
    rw [Arr3.mats]
    show List.map _ (range 1) = _
    rw [range_one, map_singleton]
    congr 1
    ext i j
    simp [scalingLie, Matrix.one_apply, Fin.val_inj]
  have ho : orthFlag n [ofMatrix (1 : Matrix (Fin n) (Fin n) ℝ)] [] = false := by
    rw [orthFlag]
    have hn0 : (0 : ℝ) < n := by exact_mod_cast hn
    have hn1 : (n : ℝ) ≤ 10 ^ 9 := by exact_mod_cast hn'
    have m1 : ∀ c : ℝ, meanAbs [c • (1 : Matrix (Fin n) (Fin n) ℝ)] = |c| / n := by
      intro c
      have : ∀ i j : Fin n, |(c • (1 : Matrix (Fin n) (Fin n) ℝ)) i j| = if i = j then |c| else 0 := by
        intro i j
        rw [Matrix.smul_apply, Matrix.one_apply]
        split_ifs <;> simp
      simp only [meanAbs, map_cons, map_nil, List.sum_cons, List.sum_nil, this, Finset.sum_ite_eq, Finset.mem_univ, if_true, add_zero,
        Finset.sum_const, Finset.card_univ, Fintype.card_fin, nsmul_eq_mul, length_cons, length_nil]
      field_simp
      simp
    have e2 : -(1 : Matrix (Fin n) (Fin n) ℝ)ᵀ - 1 = (-2 : ℝ) • 1 := by
      rw [Matrix.transpose_one]
      ext i j
      simp only [Matrix.sub_apply, Matrix.neg_apply, Matrix.smul_apply, smul_eq_mul]
      ring
    have e3 : -(1 : Matrix (Fin n) (Fin n) ℝ)ᵀ = (-1 : ℝ) • 1 := by simp
    have e4 : [(1 : Matrix (Fin n) (Fin n) ℝ)] = [(1 : ℝ) • 1] := by simp
    have : relErrLie ([ofMatrix (1 : Matrix (Fin n) (Fin n) ℝ)].map (denseGen n)) = (2 / n) / (2 / n + 1e-6) := by
      simp only [map_cons, map_nil, dense_ofMatrix, relErrLie]
      rw [e2, e3, m1, m1]
      conv_lhs => rw [e4, m1]
      norm_num
      ring_nf
    have h : ¬ relErrLie ([ofMatrix (1 : Matrix (Fin n) (Fin n) ℝ)].map (denseGen n)) < 1e-6 := by
      rw [this, not_lt, le_div_iff₀ (by positivity)]
      have h2 : (2 : ℝ) / 10 ^ 9 ≤ 2 / n := div_le_div_of_nonneg_left (by norm_num) hn0 hn1
      have h3 : (1e-6 : ℝ) * (2 / n) ≤ 1 / 2 * (2 / n) := mul_le_mul_of_nonneg_right (by norm_num) (by positivity)
      nlinarith
    rw [decide_eq_false h]
    rfl
  refine ⟨⟨some n, [ofMatrix (1 : Matrix (Fin n) (Fin n) ℝ)], [], false, none⟩, ?_, rfl, rfl⟩
  rw [scalingGroup, e1, groupInit_eq, if_neg (by simp [groupDim])]
  have hd : groupDim none (some ([(1 : Matrix (Fin n) (Fin n) ℝ)].map ofMatrix)) none = some n := rfl
  rw [hd]
  show Except.ok (⟨some n, [ofMatrix (1 : Matrix (Fin n) (Fin n) ℝ)], [], orthFlag n [ofMatrix (1 : Matrix (Fin n) (Fin n) ℝ)] [], if orthFlag n [ofMatrix (1 : Matrix (Fin n) (Fin n) ℝ)] [] then _ else none⟩ : Grp) = _
  rw [ho]
  rfl

end Verif
