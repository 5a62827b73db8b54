import Verif.Lemmas.Classical2
import Verif.Props.MatrixGroups

/-! # The symplectic groups are generated by exponentials -/
namespace Verif
open Matrix NormedSpace

variable {m : ℕ}

/-- The symplectic form. -/
def sform (x y : Fin (2 * m) → ℝ) : ℝ := x ⬝ᵥ (symplJ m *ᵥ y)

theorem symplJ_anti : (symplJ m)ᵀ = -symplJ m := symplJ_transpose m

theorem sform_comm (x y : Fin (2 * m) → ℝ) : sform x y = -sform y x := by
  rw [sform, sform, dotProduct_mulVec, ← mulVec_transpose, symplJ_anti, neg_mulVec, neg_dotProduct, dotProduct_comm]

theorem sform_self (x : Fin (2 * m) → ℝ) : sform x x = 0 := by
  have := sform_comm x x
  linarith

theorem sform_add_right (x y z : Fin (2 * m) → ℝ) : sform x (y + z) = sform x y + sform x z := by
  rw [sform, mulVec_add, dotProduct_add]; rfl

theorem sform_add_left (x y z : Fin (2 * m) → ℝ) : sform (x + y) z = sform x z + sform y z := by
  rw [sform, add_dotProduct]; rfl

theorem sform_sub_right (x y z : Fin (2 * m) → ℝ) : sform x (y - z) = sform x y - sform x z := by
  rw [sform, mulVec_sub, dotProduct_sub]; rfl

theorem sform_map {R : Matrix (Fin (2 * m)) (Fin (2 * m)) ℝ} (hR : Rᵀ * symplJ m * R = symplJ m) (x y : Fin (2 * m) → ℝ) :
    sform (R *ᵥ x) (R *ᵥ y) = sform x y := by
  rw [sform, dotProduct_mulVec, ← vecMul_transpose, vecMul_vecMul, ← dotProduct_mulVec, mulVec_mulVec, hR]
  rfl

variable {lie disc : List (Matrix (Fin (2 * m)) (Fin (2 * m)) ℝ)}

/-- `R` takes `x` to `y` and fixes `Z`. -/
def Reach (lie disc : List (Matrix (Fin (2 * m)) (Fin (2 * m)) ℝ)) (Z : Set (Fin (2 * m) → ℝ)) (x y : Fin (2 * m) → ℝ) : Prop :=
  ∃ R, Generated lie disc R ∧ Rᵀ * symplJ m * R = symplJ m ∧ R *ᵥ x = y ∧ ∀ z ∈ Z, R *ᵥ z = z

theorem Reach.trans {Z : Set (Fin (2 * m) → ℝ)} {x y w : Fin (2 * m) → ℝ} (h1 : Reach lie disc Z x y) (h2 : Reach lie disc Z y w) : Reach lie disc Z x w := by
  obtain ⟨R, r1, r2, r3, r4⟩ := h1
  obtain ⟨Q, q1, q2, q3, q4⟩ := h2
  refine ⟨Q * R, .mul q1 r1, ?_, by rw [← mulVec_mulVec, r3, q3], fun z hz => by rw [← mulVec_mulVec, r4 z hz, q4 z hz]⟩
  calc (Q * R)ᵀ * symplJ m * (Q * R) = Rᵀ * (Qᵀ * symplJ m * Q) * R := by simp only [transpose_mul, Matrix.mul_assoc]
    _ = symplJ m := by rw [q2, r2]

/-- A symplectic transvection moves `x` to `y`. -/
theorem symp_move (hL : ∀ A : Matrix (Fin (2 * m)) (Fin (2 * m)) ℝ, Aᵀ * symplJ m + symplJ m * A = 0 → A ∈ Submodule.span ℝ {B | B ∈ lie})
    {x y : Fin (2 * m) → ℝ} (hxy : sform x y ≠ 0) {Z : Set (Fin (2 * m) → ℝ)} (hZ : ∀ z ∈ Z, sform z x = sform z y) : Reach lie disc Z x y := by
  obtain ⟨u, hu⟩ : ∃ u, u = y - x := ⟨_, rfl⟩
  obtain ⟨A, hA⟩ : ∃ A, A = vecMulVec u (symplJ m *ᵥ u) := ⟨_, rfl⟩
  have hAz : ∀ z, A *ᵥ z = sform z u • u := fun z => by
    rw [hA, vecMulVec_mulVec, sform, dotProduct_comm]
    simp
  have hAA : A * A = 0 := by
    rw [hA, vecMulVec_mul_vecMulVec, dotProduct_comm]
    have := sform_self u
    rw [sform] at this
    rw [this]
    simp
  have hAJ : Aᵀ * symplJ m + symplJ m * A = 0 := by
    rw [hA, transpose_vecMulVec, vecMulVec_mul, mul_vecMulVec, ← mulVec_transpose, symplJ_anti, neg_mulVec, vecMulVec_neg, neg_add_cancel]
  obtain ⟨c, hc⟩ : ∃ c, c = (sform x y)⁻¹ := ⟨_, rfl⟩
  have hE := exp_shear hAA c
  have hxu : sform x u = sform x y := by rw [hu, sform_sub_right, sform_self, sub_zero]
  refine ⟨exp (c • A), .exp (Submodule.smul_mem _ _ (hL A hAJ)), ?_, ?_, fun z hz => ?_⟩
  · have := exp_form (symplJ m) (c • A) (by
      rw [conjTranspose_eq_transpose_of_trivial, transpose_smul, Matrix.smul_mul, Matrix.mul_smul, ← smul_neg, eq_neg_of_add_eq_zero_left hAJ])
    rwa [conjTranspose_eq_transpose_of_trivial] at this
  · rw [hE, add_mulVec, one_mulVec, smul_mulVec, hAz, hxu, smul_smul, hc, inv_mul_cancel₀ hxy, one_smul, hu]
    abel
  · have : sform z u = 0 := by rw [hu, sform_sub_right, hZ z hz, sub_self]
    rw [hE, add_mulVec, one_mulVec, smul_mulVec, hAz, this, zero_smul, smul_zero, add_zero]

/-- Undoing a move. -/
theorem Reach.undo {Z : Set (Fin (2 * m) → ℝ)} {x : Fin (2 * m) → ℝ} {h : Matrix (Fin (2 * m)) (Fin (2 * m)) ℝ} (hh : hᵀ * symplJ m * h = symplJ m)
    (hr : Reach lie disc Z x (h *ᵥ x)) (hZ : ∀ z ∈ Z, h *ᵥ z = z) : ∃ R h', Generated lie disc R ∧ h = R * h' ∧ h'ᵀ * symplJ m * h' = symplJ m ∧
      h' *ᵥ x = x ∧ ∀ z ∈ Z, h' *ᵥ z = z := by
  obtain ⟨R, r1, r2, r3, r4⟩ := hr
  obtain ⟨Q, hQ⟩ : ∃ Q, Q = -(symplJ m * (Rᵀ * symplJ m)) := ⟨_, rfl⟩
  have hQR : Q * R = 1 := by
    rw [hQ, Matrix.neg_mul, Matrix.mul_assoc, r2, symplJ_sq, neg_neg]
  have hRQ : R * Q = 1 := mul_eq_one_comm.1 hQR
  have hQs : Qᵀ * symplJ m * Q = symplJ m := by
    calc Qᵀ * symplJ m * Q = Qᵀ * (Rᵀ * symplJ m * R) * Q := by rw [r2]
      _ = (R * Q)ᵀ * symplJ m * (R * Q) := by simp only [transpose_mul, Matrix.mul_assoc]
      _ = symplJ m := by rw [hRQ]; simp
  have hb : ∀ a b, R *ᵥ a = b → Q *ᵥ b = a := by
    rintro a b rfl
    rw [mulVec_mulVec, hQR, one_mulVec]
  refine ⟨R, Q * h, r1, by rw [← Matrix.mul_assoc, hRQ, Matrix.one_mul], ?_, by rw [← mulVec_mulVec]; exact hb _ _ r3,
    fun z hz => by rw [← mulVec_mulVec, hZ z hz]; exact hb _ _ (r4 z hz)⟩
  calc (Q * h)ᵀ * symplJ m * (Q * h) = hᵀ * (Qᵀ * symplJ m * Q) * h := by simp only [transpose_mul, Matrix.mul_assoc]
    _ = symplJ m := by rw [hQs, hh]

theorem sform_single (i j : Fin (2 * m)) : sform (Pi.single i 1) (Pi.single j 1) = symplJ m i j := by
  rw [sform, single_one_dotProduct, mulVec_single_one]
  rfl

/-- Generated by the exponentials of the Hamiltonian matrices: all symplectic matrices. -/
theorem symplectic_generated (hL : ∀ A : Matrix (Fin (2 * m)) (Fin (2 * m)) ℝ, Aᵀ * symplJ m + symplJ m * A = 0 → A ∈ Submodule.span ℝ {B | B ∈ lie})
    {h : Matrix (Fin (2 * m)) (Fin (2 * m)) ℝ} (hh : hᵀ * symplJ m * h = symplJ m) : Generated lie disc h := by
  suffices H : ∀ j ≤ m, ∀ h : Matrix (Fin (2 * m)) (Fin (2 * m)) ℝ, hᵀ * symplJ m * h = symplJ m →
      (∀ z ∈ {z : Fin (2 * m) → ℝ | ∃ i : Fin (2 * m), (i.val + j < m ∨ m ≤ i.val ∧ i.val + j < 2 * m) ∧ z = Pi.single i 1}, h *ᵥ z = z) → Generated lie disc h from
    H m le_rfl h hh (by rintro z ⟨i, hi, _⟩; omega)
  intro j
  induction j with
  | zero =>
    intro _ h _ hz
    have : h = 1 := by
      ext i j
      have := congrFun (hz (Pi.single j 1) ⟨j, by have := j.2; omega, rfl⟩) i
      rw [mulVec_single_one] at this
      rw [Matrix.one_apply, ← Pi.single_apply]
      exact this
    rw [this]
    exact .one
  | succ j ih =>
    intro hj h hh hz
    obtain ⟨k, hk⟩ : ∃ k : Fin (2 * m), k.val + j + 1 = m := ⟨⟨m - (j + 1), by omega⟩, by simp only; omega⟩
    obtain ⟨l, hl⟩ : ∃ l : Fin (2 * m), l.val = m + k.val := ⟨⟨m + k.val, by omega⟩, rfl⟩
    generalize hZ : {z : Fin (2 * m) → ℝ | ∃ i : Fin (2 * m), (i.val + (j + 1) < m ∨ m ≤ i.val ∧ i.val + (j + 1) < 2 * m) ∧ z = Pi.single i 1} = Z at hz
    have hZk : ∀ z ∈ Z, sform z (Pi.single k 1) = 0 := by
      rw [← hZ]
      rintro z ⟨i, hi, rfl⟩
      rw [sform_single, symplJ, if_neg (by omega), if_neg (by omega)]
    have hZl : ∀ z ∈ Z, sform z (Pi.single l 1) = 0 := by
      rw [← hZ]
      rintro z ⟨i, hi, rfl⟩
      rw [sform_single, symplJ, if_neg (by omega), if_neg (by omega)]
    have hkl : sform (Pi.single k 1 : Fin (2 * m) → ℝ) (Pi.single l 1) = 1 := by
      rw [sform_single, symplJ, if_pos (by omega)]
    -- first vector
    have r1 : Reach lie disc Z (Pi.single k 1) (h *ᵥ Pi.single k 1) := by
      have hv : ∀ z ∈ Z, sform z (h *ᵥ Pi.single k 1) = 0 := fun z hz' => by
        rw [← hz z hz', sform_map hh, hZk z hz']
      have hv' : ∀ z ∈ Z, sform z (h *ᵥ Pi.single l 1) = 0 := fun z hz' => by
        rw [← hz z hz', sform_map hh, hZl z hz']
      have hvv : sform (h *ᵥ Pi.single l 1) (h *ᵥ Pi.single k 1) = -1 := by
        rw [sform_map hh, sform_comm, hkl]
      obtain ⟨z0, a1, a2, a3⟩ : ∃ z0, sform (Pi.single k 1) z0 ≠ 0 ∧ sform z0 (h *ᵥ Pi.single k 1) ≠ 0 ∧ ∀ z ∈ Z, sform z z0 = 0 := by
        by_cases c1 : sform (Pi.single l 1) (h *ᵥ Pi.single k 1) = 0
        · by_cases c2 : sform (Pi.single k 1) (h *ᵥ Pi.single l 1) = 0
          · refine ⟨Pi.single l 1 + h *ᵥ Pi.single l 1, ?_, ?_, fun z hz' => ?_⟩
            · rw [sform_add_right, hkl, c2]; norm_num
            · rw [sform_add_left, c1, hvv]; norm_num
            · rw [sform_add_right, hZl z hz', hv' z hz', add_zero]
          · exact ⟨_, c2, by rw [hvv]; norm_num, hv'⟩
        · exact ⟨_, by rw [hkl]; norm_num, c1, hZl⟩
      exact (symp_move hL a1 fun z hz' => by rw [hZk z hz', a3 z hz']).trans (symp_move hL a2 fun z hz' => by rw [hv z hz', a3 z hz'])
    obtain ⟨R, h1, g1, e1, s1, f1, z1⟩ := r1.undo hh hz
    -- second vector
    have r2 : Reach lie disc (insert (Pi.single k 1) Z) (Pi.single l 1) (h1 *ᵥ Pi.single l 1) := by
      have hfix : ∀ z ∈ insert (Pi.single k 1) Z, h1 *ᵥ z = z := by
        rintro z (rfl | hz')
        · exact f1
        · exact z1 z hz'
      have hv : ∀ z ∈ insert (Pi.single k 1) Z, sform z (h1 *ᵥ Pi.single l 1) = sform z (Pi.single l 1) := fun z hz' => by
        conv_lhs => rw [← hfix z hz', sform_map s1]
      by_cases c1 : sform (Pi.single l 1) (h1 *ᵥ Pi.single l 1) = 0
      · have hk0 : ∀ z ∈ insert (Pi.single k 1) Z, sform z (Pi.single k 1) = 0 := by
          rintro z (rfl | hz')
          · exact sform_self _
          · exact hZk z hz'
        have b1 : Reach lie disc (insert (Pi.single k 1) Z) (Pi.single l 1) (Pi.single k 1 + Pi.single l 1) := by
          refine symp_move hL ?_ fun z hz' => ?_
          · rw [sform_add_right, sform_self, sform_comm, hkl]; norm_num
          · rw [sform_add_right, hk0 z hz', zero_add]
        refine b1.trans (symp_move hL ?_ fun z hz' => ?_)
        · rw [sform_add_left, c1, hv _ (Set.mem_insert _ _), hkl]; norm_num
        · rw [sform_add_right, hk0 z hz', zero_add, hv z hz']
      · exact symp_move hL c1 fun z hz' => (hv z hz').symm
    obtain ⟨R', h2, g2, e2, s2, f2, z2⟩ := r2.undo s1 (by
      rintro z (rfl | hz')
      · exact f1
      · exact z1 z hz')
    have g3 : Generated lie disc h2 := by
      refine ih (by omega) h2 s2 ?_
      rintro z ⟨i, hi, rfl⟩
      by_cases hik : i = k
      · subst hik
        exact z2 _ (Set.mem_insert _ _)
      · by_cases hil : i = l
        · subst hil
          exact f2
        · refine z2 _ (Set.mem_insert_of_mem _ ?_)
          rw [← hZ]
          have q1 : i.val ≠ k.val := fun e => hik (Fin.ext e)
          have q2 : i.val ≠ l.val := fun e => hil (Fin.ext e)
          exact ⟨i, by omega, rfl⟩
    rw [e1, e2]
    exact .mul g1 (.mul g2 g3)

end Verif
