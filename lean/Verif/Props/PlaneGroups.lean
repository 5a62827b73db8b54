import Mathlib.Analysis.SpecialFunctions.Trigonometric.Basic
import Mathlib.LinearAlgebra.Matrix.NonsingularInverse
import Verif.Props.GroupObjects

/-!
# Rotations and reflections of the plane, and the flags of the dihedral group
-/
namespace Verif
open Matrix List

/-- The rotation of the plane by `t` in the library's convention. -/
noncomputable def planeRot (t : ℝ) : Matrix (Fin 2) (Fin 2) ℝ := !![Real.cos t, Real.sin t; -Real.sin t, Real.cos t]

theorem planeRot_mul (s t : ℝ) : planeRot s * planeRot t = planeRot (s + t) := by
  ext i j
  fin_cases i <;> fin_cases j <;> simp [planeRot, Real.cos_add, Real.sin_add] <;> ring

theorem planeRot_zero : planeRot 0 = 1 := by
  ext i j
  fin_cases i <;> fin_cases j <;> simp [planeRot]

theorem planeRot_transpose (t : ℝ) : (planeRot t)ᵀ = planeRot (-t) := by
  ext i j
  fin_cases i <;> fin_cases j <;> simp [planeRot]

theorem planeRot_pow (t : ℝ) (j : ℕ) : planeRot t ^ j = planeRot (j * t) := by
  induction j with
  | zero => simp [planeRot_zero]
  | succ j ih => rw [pow_succ, ih, planeRot_mul]; congr 1; push_cast; ring

theorem rotGen_eq (k : ℕ) : rotGen k = planeRot (2 * Real.pi / k) := rfl

theorem rot_orth (k : ℕ) : (rotGen k)ᵀ * rotGen k = 1 := by
  rw [rotGen_eq, planeRot_transpose, planeRot_mul, neg_add_cancel, planeRot_zero]

theorem cyclicGroup_eq (k : ℕ) : ∃ p, cyclicGroup k = .ok ⟨some 2, [], [ofMatrix (rotGen k)], true, p⟩ ∧
    p = some (rowsOneOne [rotGen k]) := by
  have ho : orthFlag 2 [] [ofMatrix (rotGen k)] = true := C56_orthogonal_is_flagged 2 _ _ (by simp) (by
    simp only [mem_singleton, forall_eq, dense_ofMatrix]
    exact rot_orth k)
  refine ⟨_, ?_, rfl⟩
  rw [cyclicGroup, groupInit_disc]
  show Except.ok (Grp.mk (some 2) [] [ofMatrix (rotGen k)] (orthFlag 2 [] [ofMatrix (rotGen k)]) (if orthFlag 2 [] [ofMatrix (rotGen k)] then some (permFlag 2 [] [ofMatrix (rotGen k)]) else none)) = _
  rw [ho]
  simp [permFlag, dense_ofMatrix]

/-- C61, cyclic groups: `C(k)`, `k ≥ 1`, has one generator, the rotation by `2π/k`; its powers are the rotations by
multiples of `2π/k`, its order is exactly `k`, and it is orthogonal of determinant 1. -/
theorem C61_cyclic (k : ℕ) (hk : 0 < k) : ∃ G R, cyclicGroup k = .ok G ∧ G.d = some 2 ∧ G.lie = [] ∧
    G.disc.map (denseGen 2) = [R] ∧ R.det = 1 ∧ Rᵀ * R = 1 ∧
    (∀ j : ℕ, R ^ j = !![Real.cos (2 * Real.pi * j / k), Real.sin (2 * Real.pi * j / k);
      -Real.sin (2 * Real.pi * j / k), Real.cos (2 * Real.pi * j / k)]) ∧
    (∀ j : ℕ, R ^ j = 1 ↔ k ∣ j) ∧
    ∀ g, Generated [] (G.disc.map (denseGen 2)) g ↔ ∃ j < k, g = R ^ j := by
  obtain ⟨p, hG, -⟩ := cyclicGroup_eq k
  have hp : ∀ j : ℕ, rotGen k ^ j = planeRot (2 * Real.pi * j / k) := by
    intro j
    rw [rotGen_eq, planeRot_pow]
    congr 1
    ring
  have h1 : ∀ j : ℕ, rotGen k ^ j = 1 ↔ k ∣ j := by
    intro j
    have hk0 : (k : ℝ) ≠ 0 := by exact_mod_cast hk.ne'
    constructor
    · intro h
      rw [hp] at h
      have hc := congrFun (congrFun h 0) 0
      simp only [planeRot, one_apply, of_apply, cons_val', cons_val_zero, if_true] at hc
      rw [Real.cos_eq_one_iff] at hc
      obtain ⟨n, hn⟩ := hc
      have hpi := Real.pi_pos
      have e : (n : ℝ) * k = j := by
        field_simp at hn
        exact hn
      have e' : n * (k : ℤ) = j := by exact_mod_cast e
      exact Int.natCast_dvd_natCast.1 ⟨n, by rw [← e']; ring⟩
    · rintro ⟨m, rfl⟩
      rw [pow_mul]
      have : rotGen k ^ k = 1 := by
        rw [hp, mul_div_assoc, div_self hk0, mul_one]
        ext i j
        fin_cases i <;> fin_cases j <;> simp [planeRot]
      rw [this, one_pow]
  refine ⟨_, rotGen k, hG, rfl, rfl, by simp [dense_ofMatrix], ?_, rot_orth k, hp, h1, ?_⟩
  · rw [rotGen_eq, planeRot, det_fin_two_of]
    have := Real.sin_sq_add_cos_sq (2 * Real.pi / k)
    nlinarith
  · have hmod : ∀ j, ∃ i < k, rotGen k ^ j = rotGen k ^ i := fun j => ⟨j % k, Nat.mod_lt _ hk, by
      conv_lhs => rw [← Nat.div_add_mod j k, pow_add, (h1 _).2 ⟨_, rfl⟩, one_mul]⟩
    intro g
    simp only [map_cons, map_nil, dense_ofMatrix]
    constructor
    · intro hg
      induction hg with
      | one => exact ⟨0, hk, by simp⟩
      | exp hA =>
        simp only [not_mem_nil, Set.setOf_false, Submodule.span_empty, Submodule.mem_bot] at hA
        exact ⟨0, hk, by simp [hA]⟩
      | gen h =>
        rw [mem_singleton.1 h]
        obtain ⟨i, hi, e⟩ := hmod 1
        exact ⟨i, hi, by rw [← e, pow_one]⟩
      | inv h =>
        rw [mem_singleton.1 h]
        obtain ⟨i, hi, e⟩ := hmod (k - 1)
        refine ⟨i, hi, ?_⟩
        rw [← e]
        refine inv_eq_left_inv ?_
        rw [← pow_succ, show k - 1 + 1 = k by omega, h1]
      | mul _ _ ih1 ih2 =>
        obtain ⟨i, _, rfl⟩ := ih1
        obtain ⟨j, _, rfl⟩ := ih2
        rw [← pow_add]
        exact hmod _
    · rintro ⟨j, _, rfl⟩
      clear * -
      induction j with
      | zero => exact pow_zero (rotGen k) ▸ Generated.one
      | succ j ih => rw [pow_succ]; exact .mul ih (.gen (by simp))

theorem refl_sq : reflGen * reflGen = 1 := by
  ext i j
  fin_cases i <;> fin_cases j <;> simp [reflGen]

theorem refl_conj (t : ℝ) : reflGen * planeRot t * reflGen = planeRot (-t) := by
  ext i j
  fin_cases i <;> fin_cases j <;> simp [reflGen, planeRot]

/-- C61, dihedral groups: `D(k)` has the generators `R` (order `k`) and `F` (order 2) with `F R F = R⁻¹`; the generated
group consists of exactly the rotations `R^j` and the reflections `F R^j`, `j < k`. -/
theorem C61_dihedral (k : ℕ) (hk : 0 < k) : ∃ G R F, dihedralGroup k = .ok G ∧ G.d = some 2 ∧ G.lie = [] ∧
    G.disc.map (denseGen 2) = [R, F] ∧ R = !![Real.cos (2 * Real.pi / k), Real.sin (2 * Real.pi / k);
      -Real.sin (2 * Real.pi / k), Real.cos (2 * Real.pi / k)] ∧
    (∀ j : ℕ, R ^ j = 1 ↔ k ∣ j) ∧ F * F = 1 ∧ F ≠ 1 ∧ F.det = -1 ∧ F * R * F = R⁻¹ ∧
    ∀ g, Generated [] (G.disc.map (denseGen 2)) g ↔ ∃ j < k, g = R ^ j ∨ g = F * R ^ j := by
  obtain ⟨G, R, hG, h2, hl, hR, hdet, ho, hpow, hord, hgen⟩ := C61_cyclic k hk
  have hRe : R = planeRot (2 * Real.pi / k) := by
    have := hpow 1
    rw [pow_one] at this
    rw [this]
    simp [planeRot]
  have hRk : R ^ k = 1 := (hord k).2 dvd_rfl
  have hinv : ∀ j ≤ k, (R ^ j)⁻¹ = R ^ (k - j) := fun j hj => inv_eq_left_inv (by rw [← pow_add, Nat.sub_add_cancel hj, hRk])
  have hconj : reflGen * R * reflGen = R⁻¹ := by
    rw [hRe, refl_conj, ← planeRot_transpose, ← hRe]
    exact (inv_eq_left_inv ho).symm
  have hFR : ∀ j, R ^ j * reflGen = reflGen * (R⁻¹) ^ j := by
    intro j
    induction j with
    | zero => simp
    | succ j ih =>
      rw [pow_succ, pow_succ', Matrix.mul_assoc]
      have : R * reflGen = reflGen * R⁻¹ := by rw [← hconj, ← Matrix.mul_assoc, ← Matrix.mul_assoc, refl_sq, one_mul]
      rw [this, ← Matrix.mul_assoc, ih, Matrix.mul_assoc, ← pow_succ, ← pow_succ']
  have hRi : R⁻¹ = R ^ (k - 1) := by have := hinv 1 hk; rwa [pow_one] at this
  have hmod : ∀ j, ∃ i < k, R ^ j = R ^ i := fun j => ⟨j % k, Nat.mod_lt _ hk, by
      conv_lhs => rw [← Nat.div_add_mod j k, pow_add, (hord _).2 ⟨_, rfl⟩, one_mul]⟩
  have hd : dihedralGroup k = .ok { G with disc := G.disc ++ [ofMatrix reflGen] } := by
    rw [dihedralGroup, hG]
    rfl
  have hcl : ∀ g, (∃ j : ℕ, g = R ^ j ∨ g = reflGen * R ^ j) → ∃ j < k, g = R ^ j ∨ g = reflGen * R ^ j := by
    rintro g ⟨j, hj⟩
    obtain ⟨i, hi, e⟩ := hmod j
    exact ⟨i, hi, by rwa [← e]⟩
  refine ⟨_, R, reflGen, hd, h2, hl, by simp [hR, dense_ofMatrix], hRe, hord, refl_sq, ?_, ?_, hconj, ?_⟩
  · intro h
    have := congrFun (congrFun h 0) 0
    norm_num [reflGen] at this
  · simp [reflGen]
  · intro g
    rw [map_append, hR, map_cons, map_nil, dense_ofMatrix]
    constructor
    · intro hg
      apply hcl
      induction hg with
      | one => exact ⟨0, by simp⟩
      | exp hA =>
        simp only [not_mem_nil, Set.setOf_false, Submodule.span_empty, Submodule.mem_bot] at hA
        exact ⟨0, by simp [hA]⟩
      | gen h =>
        rcases (by simpa using h : _ = R ∨ _ = reflGen) with rfl | rfl
        · exact ⟨1, by simp⟩
        · exact ⟨0, by simp⟩
      | inv h =>
        rcases (by simpa using h : _ = R ∨ _ = reflGen) with rfl | rfl
        · exact ⟨k - 1, .inl hRi⟩
        · exact ⟨0, .inr (by rw [pow_zero, mul_one]; exact inv_eq_left_inv refl_sq)⟩
      | mul _ _ ih1 ih2 =>
        obtain ⟨i, rfl | rfl⟩ := ih1 <;> obtain ⟨j, rfl | rfl⟩ := ih2
        · exact ⟨i + j, .inl (pow_add _ _ _).symm⟩
        · exact ⟨(k - 1) * i + j, .inr (by rw [← Matrix.mul_assoc, hFR, hRi, ← pow_mul, Matrix.mul_assoc, pow_add])⟩
        · exact ⟨i + j, .inr (by rw [Matrix.mul_assoc, pow_add])⟩
        · exact ⟨(k - 1) * i + j, .inl (by
            rw [← Matrix.mul_assoc, Matrix.mul_assoc reflGen, hFR, ← Matrix.mul_assoc, refl_sq, one_mul, hRi, ← pow_mul, pow_add])⟩
    · have hr : ∀ j, Generated [] ([R] ++ [reflGen]) (R ^ j) := by
        intro j
        induction j with
        | zero => exact pow_zero R ▸ Generated.one
        | succ j ih => rw [pow_succ]; exact .mul ih (.gen (by simp))
      rintro ⟨j, _, rfl | rfl⟩
      · exact hr j
      · exact .mul (.gen (by simp)) (hr j)

/-- C57 is false for `D(1)`: the flag is computed from the single rotation (here the identity) before the reflection
`diag(-1,1)` is appended. -/
theorem C57_counterexample : ∃ G, dihedralGroup 1 = .ok G ∧ G.isPerm = some true ∧ ∃ h ∈ G.disc,
    ∀ σ : Equiv.Perm (Fin 2), denseGen 2 h ≠ σ.permMatrix ℝ := by
  obtain ⟨p, hG, rfl⟩ := cyclicGroup_eq 1
  refine ⟨_, by rw [dihedralGroup, hG]; rfl, ?_, ofMatrix reflGen, by simp, ?_⟩
  · have : rotGen 1 = pm 1 := by
      rw [pm_one]
      ext i j
      fin_cases i <;> fin_cases j <;> simp [rotGen]
    simp only [rowsOneOne, mem_singleton, forall_eq, this, pm_row, Option.some.injEq, decide_eq_true_eq, implies_true]
  · intro σ h
    rw [dense_ofMatrix] at h
    have := congrFun (congrFun h 0) 0
    have e := pm_apply σ 0 0
    rw [pm, ← this] at e
    revert e
    simp only [reflGen, of_apply, cons_val', cons_val_zero]
    split_ifs <;> norm_num

/-- C57 for `D(k)`, `k ≥ 2`: the flag is not set. -/
theorem C57_dihedral (k : ℕ) (hk : 2 ≤ k) : ∃ G, dihedralGroup k = .ok G ∧ G.isOrth = true ∧ G.isPerm = some false := by
  obtain ⟨p, hG, rfl⟩ := cyclicGroup_eq k
  refine ⟨_, by rw [dihedralGroup, hG]; rfl, rfl, ?_⟩
  simp only [rowsOneOne, mem_singleton, forall_eq, Option.some.injEq, decide_eq_false_iff_not]
  intro h
  obtain ⟨σ, hσ⟩ := perm_of_orth (rot_orth k) h
  have hc : ∀ i j, rotGen k i j = if σ i = j then 1 else 0 := fun i j => by rw [hσ, pm_apply]
  have h00 := hc 0 0
  have h01 := hc 0 1
  have h10 := hc 1 0
  simp only [rotGen, of_apply, cons_val', cons_val_zero, cons_val_one, empty_val', cons_val_fin_one] at h00 h01 h10
  have hs : Real.sin (2 * Real.pi / k) = 0 := by
    have h0 : 0 ≤ Real.sin (2 * Real.pi / k) := by rw [h01]; split_ifs <;> norm_num
    have h1 : 0 ≤ -Real.sin (2 * Real.pi / k) := by rw [h10]; split_ifs <;> norm_num
    linarith
  have hcos : Real.cos (2 * Real.pi / k) = 1 := by
    have h0 : 0 ≤ Real.cos (2 * Real.pi / k) := by rw [h00]; split_ifs <;> norm_num
    have := Real.sin_sq_add_cos_sq (2 * Real.pi / k)
    rw [hs] at this
    nlinarith
  obtain ⟨_, R, hR, -, -, hd, -, -, -, hord, -⟩ := C61_cyclic k (by omega)
  have hRe : R = rotGen k := by
    rw [hG] at hR
    cases hR
    simpa [dense_ofMatrix] using hd.symm
  have := (hord 1).1 (by
    rw [pow_one, hRe]
    ext i j
    fin_cases i <;> fin_cases j <;> simp [rotGen, hs, hcos])
  have := Nat.dvd_one.1 this
  omega

/-- C57, partial: for every group constructed without preset flags whose discrete generators are exactly orthogonal
(no change of the generators after construction), `is_permutation` implies that there are no infinitesimal
generators and every discrete generator is a permutation matrix.  Missing: `D(1)` (counterexample above), and groups
whose generators are orthogonal only up to the tolerance. -/
theorem C57_constructor_partial (d : Option ℕ) (lie disc : Option (List (LinOp ℝ))) (G : Grp) (n : ℕ)
    (hG : groupInit d lie disc none none = .ok G) (hd : G.d = some n)
    (ho : ∀ h ∈ G.disc, (denseGen n h)ᵀ * denseGen n h = 1) (hp : G.isPerm = some true) :
    G.lie = [] ∧ ∀ h ∈ G.disc, ∃ σ : Equiv.Perm (Fin n), denseGen n h = σ.permMatrix ℝ := by
  rw [groupInit_eq] at hG
  generalize groupDim d lie disc = d' at hG
  by_cases h1 : d' = none ∧ (lie = none ∨ disc = none)
  · rw [if_pos h1] at hG
    cases hG
  · rw [if_neg h1] at hG
    cases hG
    subst hd
    simp only [Option.getD_some] at hp ho ⊢
    split_ifs at hp with h2
    simp only [Option.some.injEq, permFlag, Bool.and_eq_true, beq_iff_eq, length_eq_zero_iff, Bool.or_eq_true] at hp
    refine ⟨hp.1, fun h hh => ?_⟩
    rcases hp.2 with h0 | h0
    · rw [h0] at hh; cases hh
    · rw [rowsOneOne, decide_eq_true_eq] at h0
      exact perm_of_orth (ho h hh) (fun i => by convert h0 _ (mem_map_of_mem hh) i)

example : ∃ G, groupInit none none (some [.shift 5 1]) none none = .ok G ∧ G.d = some 5 ∧ G.disc ≠ [] ∧
    (∀ h ∈ G.disc, (denseGen 5 h)ᵀ * denseGen 5 h = 1) ∧ G.isPerm = some true := by
  have hp : ∃ σ, denseGen 5 (.shift 5 1) = pm σ := by
    refine ⟨⟨fun i => i - 1, fun i => i + 1, fun i => by simp, fun i => by simp⟩, ?_⟩
    ext i j
    rw [pm_apply, ← pow_one (denseGen 5 _), shift_pow 5 (by norm_num)]
    congr 1
    refine propext ?_
    revert i j
    decide
  obtain ⟨σ, hσ⟩ := hp
  have ho : ∀ h ∈ [LinOp.shift (R := ℝ) 5 1], (denseGen 5 h)ᵀ * denseGen 5 h = 1 := by
    simp only [mem_singleton, forall_eq, hσ]
    exact pm_orth σ
  refine ⟨_, groupInit_disc _ _, rfl, by simp, ho, ?_⟩
  show (if orthFlag 5 [] [LinOp.shift (R := ℝ) 5 1] then some (permFlag 5 [] [LinOp.shift (R := ℝ) 5 1]) else none) = some true
  rw [C56_orthogonal_is_flagged 5 _ _ (by simp) ho]
  simp [permFlag, hσ, (C55_converse [pm σ] (by simpa using ⟨σ, rfl⟩)).2]

end Verif
