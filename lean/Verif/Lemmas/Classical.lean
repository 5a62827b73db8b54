import Verif.Lemmas.ExpForms
import Verif.Lemmas.Sample
import Mathlib.LinearAlgebra.Matrix.NonsingularInverse
import Mathlib.Analysis.SpecialFunctions.Trigonometric.Inverse
import Mathlib.Tactic.Module

/-! # The classical groups are generated by exponentials of their Lie algebras -/
namespace Verif
open Matrix NormedSpace RCLike

variable {𝕜 : Type*} [RCLike 𝕜]

section plane
variable {n : Type*} [Fintype n] [DecidableEq n]

/-- The square of a generator of rotations in a plane. -/
theorem plane_sq {E F H H' : Matrix n n 𝕜} (EE : E * E = E) (EF : E * F = 0) (EH : E * H = 0) (EH' : E * H' = H') (FE : F * E = 0) (FF : F * F = F)
    (FH : F * H = H) (FH' : F * H' = 0) (HE : H * E = H) (HF : H * F = 0) (HH : H * H = 0) (HH' : H * H' = F) (H'E : H' * E = 0)
    (H'F : H' * F = H') (H'H : H' * H = E) (H'H' : H' * H' = 0) (α β : 𝕜) :
    (α • (E - F) + β • (H - H')) * (α • (E - F) + β • (H - H')) = (α * α - β * β) • (E + F) ∧
    (E + F) * (α • (E - F) + β • (H - H')) = α • (E - F) + β • (H - H') := by
  constructor
  · simp only [Matrix.add_mul, Matrix.mul_add, Matrix.sub_mul, Matrix.mul_sub, Matrix.smul_mul, Matrix.mul_smul, EE, EF, EH, EH', FE, FF, FH, FH', HE, HF, HH, HH', H'E,
      H'F, H'H, H'H']
    module
  · simp only [Matrix.add_mul, Matrix.mul_add, Matrix.sub_mul, Matrix.mul_sub, Matrix.smul_mul, Matrix.mul_smul, EE, EF, EH, EH', FE, FF, FH, FH']
    module

variable {e w : n → 𝕜}

/-- For orthonormal `e`, `w` and `|c|²+s²=1` the exponential of a traceless anti-Hermitian matrix in the plane of `e` and `w` takes `e` to `ce+sw`
and fixes everything orthogonal to the plane. -/
theorem exists_plane_rotation (he : star e ⬝ᵥ e = 1) (hw : star w ⬝ᵥ w = 1) (hew : star e ⬝ᵥ w = 0) {c : 𝕜} {s : ℝ} (hc : normSq c + s * s = 1) :
    ∃ A : Matrix n n 𝕜, Aᴴ = -A ∧ A.trace = 0 ∧ exp A *ᵥ e = c • e + s • w ∧
      ∀ x : n → 𝕜, star e ⬝ᵥ x = 0 → star w ⬝ᵥ x = 0 → A *ᵥ x = 0 ∧ exp A *ᵥ x = x := by
  have hwe : star w ⬝ᵥ e = 0 := by
    have := congrArg star hew
    rw [star_zero, ← Matrix.star_dotProduct_star, star_star] at this
    exact this
  obtain ⟨E, hE⟩ : ∃ E, E = vecMulVec e (star e) := ⟨_, rfl⟩
  obtain ⟨F, hF⟩ : ∃ F, F = vecMulVec w (star w) := ⟨_, rfl⟩
  obtain ⟨H, hH⟩ : ∃ H, H = vecMulVec w (star e) := ⟨_, rfl⟩
  obtain ⟨H', hH'⟩ : ∃ H', H' = vecMulVec e (star w) := ⟨_, rfl⟩
  -- the normalised generator
  obtain ⟨a, b, r, hab, hr, hra, hrb, hI⟩ : ∃ a b r : ℝ, a * a + b * b = 1 ∧ 0 ≤ r ∧ r * a = im c ∧ r * b = s ∧ ((a : 𝕜) * I) * ((a : 𝕜) * I) = -((a : 𝕜) * a) := by
    by_cases h0 : im c = 0 ∧ s = 0
    · exact ⟨0, 1, 0, by norm_num, le_rfl, by simp [h0.1], by simp [h0.2], by simp⟩
    · have hpos : 0 < im c * im c + s * s := by
        rcases not_and_or.1 h0 with h | h
        · have := mul_self_pos.2 h
          nlinarith [mul_self_nonneg s]
        · have := mul_self_pos.2 h
          nlinarith [mul_self_nonneg (im c)]
      have hr := Real.sqrt_pos.2 hpos
      have hrr := Real.mul_self_sqrt hpos.le
      refine ⟨im c / √(im c * im c + s * s), s / √(im c * im c + s * s), √(im c * im c + s * s), ?_, hr.le, ?_, ?_, ?_⟩
      · rw [div_mul_div_comm, div_mul_div_comm, hrr, ← add_div, div_self hpos.ne']
      · exact mul_div_cancel₀ _ hr.ne'
      · exact mul_div_cancel₀ _ hr.ne'
      · rcases I_mul_I (K := 𝕜) with h | h
        · rw [h, mul_zero, mul_zero]
          have : im c = 0 := by
            rw [← RCLike.re_add_im c, h]
            simp
          simp [this]
        · rw [mul_mul_mul_comm, h]
          ring
  obtain ⟨X, hX⟩ : ∃ X, X = ((a : 𝕜) * I) • (E - F) + (b : 𝕜) • (H - H') := ⟨_, rfl⟩
  obtain ⟨hXX, hPX⟩ := plane_sq (E := E) (F := F) (H := H) (H' := H') (by simp [hE, vecMulVec_mul_vecMulVec, he]) (by simp [hE, hF, vecMulVec_mul_vecMulVec, hew])
    (by simp [hE, hH, vecMulVec_mul_vecMulVec, hew]) (by simp [hE, hH', vecMulVec_mul_vecMulVec, he]) (by simp [hE, hF, vecMulVec_mul_vecMulVec, hwe])
    (by simp [hF, vecMulVec_mul_vecMulVec, hw]) (by simp [hF, hH, vecMulVec_mul_vecMulVec, hw]) (by simp [hF, hH', vecMulVec_mul_vecMulVec, hwe])
    (by simp [hE, hH, vecMulVec_mul_vecMulVec, he]) (by simp [hF, hH, vecMulVec_mul_vecMulVec, hew]) (by simp [hH, vecMulVec_mul_vecMulVec, hew])
    (by simp [hF, hH, hH', vecMulVec_mul_vecMulVec, he]) (by simp [hE, hH', vecMulVec_mul_vecMulVec, hwe]) (by simp [hF, hH', vecMulVec_mul_vecMulVec, hw])
    (by simp [hE, hH, hH', vecMulVec_mul_vecMulVec, hw]) (by simp [hH', vecMulVec_mul_vecMulVec, hwe]) ((a : 𝕜) * I) (b : 𝕜)
  rw [← hX] at hXX hPX
  have hab' : (a : 𝕜) * I * ((a : 𝕜) * I) - (b : 𝕜) * b = -1 := by
    rw [hI, ← neg_add', ← RCLike.ofReal_mul, ← RCLike.ofReal_mul, ← RCLike.ofReal_add, hab, RCLike.ofReal_one]
  rw [hab', neg_one_smul] at hXX
  have hX3 : X * X * X = -X := by rw [hXX, Matrix.neg_mul, hPX]
  have hn : normSq c = re c * re c + im c * im c := RCLike.normSq_apply c
  have hr2 : r * r = 1 - re c ^ 2 := by
    have : r * r = r * r * (a * a + b * b) := by rw [hab, mul_one]
    rw [this]
    have : r * r * (a * a + b * b) = (r * a) * (r * a) + (r * b) * (r * b) := by ring
    rw [this, hra, hrb]
    linarith [hn, hc]
  have hc1 : -1 ≤ re c ∧ re c ≤ 1 := by
    have : re c ^ 2 ≤ 1 := by nlinarith [mul_self_nonneg r]
    exact abs_le.1 ((sq_le_one_iff_abs_le_one _).1 this)
  have hcos : Real.cos (Real.arccos (re c)) = re c := Real.cos_arccos hc1.1 hc1.2
  have hsin : Real.sin (Real.arccos (re c)) = r := by
    rw [Real.sin_arccos, ← hr2, Real.sqrt_mul_self hr]
  have hexp := exp_rotation hX3 (Real.arccos (re c))
  rw [hcos, hsin, hXX] at hexp
  have hXH : Xᴴ = -X := by
    have h1 : Eᴴ = E := by rw [hE, conjTranspose_vecMulVec, star_star]
    have h2 : Fᴴ = F := by rw [hF, conjTranspose_vecMulVec, star_star]
    have h3 : Hᴴ = H' := by rw [hH, hH', conjTranspose_vecMulVec, star_star]
    have h4 : H'ᴴ = H := by rw [hH, hH', conjTranspose_vecMulVec, star_star]
    rw [hX]
    simp only [conjTranspose_add, conjTranspose_smul, conjTranspose_sub, h1, h2, h3, h4, star_mul', RCLike.star_def, conj_ofReal, conj_I]
    module
  have hXt : X.trace = 0 := by
    have h1 : E.trace = 1 := by rw [hE, trace_vecMulVec, dotProduct_comm, he]
    have h2 : F.trace = 1 := by rw [hF, trace_vecMulVec, dotProduct_comm, hw]
    have h3 : H.trace = 0 := by rw [hH, trace_vecMulVec, dotProduct_comm, hew]
    have h4 : H'.trace = 0 := by rw [hH', trace_vecMulVec, dotProduct_comm, hwe]
    rw [hX]
    simp [trace_add, trace_smul, trace_sub, h1, h2, h3, h4]
  have hv : ∀ u v x : n → 𝕜, vecMulVec u v *ᵥ x = (v ⬝ᵥ x) • u := fun u v x => by
    ext i
    simp [vecMulVec_mulVec, mul_comm]
  refine ⟨Real.arccos (re c) • X, ?_, ?_, ?_, ?_⟩
  · rw [conjTranspose_smul, hXH, star_trivial, smul_neg]
  · rw [trace_smul, hXt, smul_zero]
  · rw [hexp]
    have h1 : X *ᵥ e = ((a : 𝕜) * I) • e + (b : 𝕜) • w := by
      rw [hX, hE, hF, hH, hH']
      simp [add_mulVec, sub_mulVec, smul_mulVec, hv, he, hwe]
    have h2 : (-(E + F)) *ᵥ e = -e := by
      rw [hE, hF]
      simp [add_mulVec, neg_mulVec, hv, he, hwe]
    rw [add_mulVec, add_mulVec, one_mulVec, smul_mulVec, smul_mulVec, h1, h2]
    have hce : c = ((re c : ℝ) : 𝕜) + (r : 𝕜) * ((a : 𝕜) * I) := by
      rw [← mul_assoc, ← RCLike.ofReal_mul, hra, RCLike.re_add_im]
    have hs : (s : 𝕜) = (r : 𝕜) * b := by rw [← RCLike.ofReal_mul, hrb]
    ext i
    simp only [Pi.add_apply, Pi.smul_apply, Pi.neg_apply, smul_eq_mul, RCLike.real_smul_eq_coe_mul]
    rw [hs]
    nth_rw 2 [hce]
    push_cast
    ring
  · intro x hex hwx
    rw [hexp, hX, hE, hF, hH, hH']
    constructor <;> simp [add_mulVec, sub_mulVec, smul_mulVec, neg_mulVec, hv, hex, hwx]

/-- Splitting a unit vector along `e`. -/
theorem exists_split (he : star e ⬝ᵥ e = 1) {f v : n → 𝕜} (hf : star f ⬝ᵥ f = 1) (hef : star e ⬝ᵥ f = 0) (hv : star v ⬝ᵥ v = 1) :
    ∃ (c : 𝕜) (s : ℝ) (w : n → 𝕜), star w ⬝ᵥ w = 1 ∧ star e ⬝ᵥ w = 0 ∧ v = c • e + s • w ∧ normSq c + s * s = 1 ∧
      ∀ x, star x ⬝ᵥ e = 0 → star x ⬝ᵥ f = 0 → star x ⬝ᵥ v = 0 → star x ⬝ᵥ w = 0 := by
  obtain ⟨v', hv'⟩ : ∃ v', v' = v - (star e ⬝ᵥ v) • e := ⟨_, rfl⟩
  have hev' : star e ⬝ᵥ v' = 0 := by
    rw [hv', dotProduct_sub, dotProduct_smul, he, smul_eq_mul, mul_one, sub_self]
  have hxv' : ∀ x, star x ⬝ᵥ e = 0 → star x ⬝ᵥ v = 0 → star x ⬝ᵥ v' = 0 := fun x h1 h2 => by
    rw [hv', dotProduct_sub, dotProduct_smul, h1, h2, smul_zero, sub_zero]
  have hN : star v' ⬝ᵥ v' = ((∑ i, normSq (v' i) : ℝ) : 𝕜) := by
    rw [dotProduct]
    push_cast
    refine Finset.sum_congr rfl fun i _ => ?_
    rw [Pi.star_apply, RCLike.star_def, RCLike.conj_mul, RCLike.normSq_eq_def']
    push_cast
    rfl
  have hN0 : 0 ≤ ∑ i, normSq (v' i) := Finset.sum_nonneg fun i _ => RCLike.normSq_nonneg _
  have key : ∃ (s : ℝ) (w : n → 𝕜), star w ⬝ᵥ w = 1 ∧ star e ⬝ᵥ w = 0 ∧ v' = s • w ∧
      ∀ x, star x ⬝ᵥ e = 0 → star x ⬝ᵥ f = 0 → star x ⬝ᵥ v = 0 → star x ⬝ᵥ w = 0 := by
    rcases hN0.eq_or_lt with h0 | h0
    · have : v' = 0 := by
        funext i
        have := (Finset.sum_eq_zero_iff_of_nonneg (fun i _ => RCLike.normSq_nonneg (v' i))).1 h0.symm i (Finset.mem_univ i)
        exact RCLike.normSq_eq_zero.1 this
      exact ⟨0, f, hf, hef, by rw [this, zero_smul], fun x _ h _ => h⟩
    · have hs := Real.sqrt_pos.2 h0
      have hss := Real.mul_self_sqrt h0.le
      refine ⟨√(∑ i, normSq (v' i)), (√(∑ i, normSq (v' i)))⁻¹ • v', ?_, ?_, ?_, ?_⟩
      · rw [star_smul, star_trivial, smul_dotProduct, dotProduct_smul, hN, smul_smul, ← mul_inv, hss, RCLike.real_smul_eq_coe_mul, ← RCLike.ofReal_mul, inv_mul_cancel₀ h0.ne',
          RCLike.ofReal_one]
      · rw [dotProduct_smul, hev', smul_zero]
      · rw [smul_smul, mul_inv_cancel₀ hs.ne', one_smul]
      · intro x h1 _ h3
        rw [dotProduct_smul, hxv' x h1 h3, smul_zero]
  obtain ⟨s, w, hw, hew, hsw, hx⟩ := key
  have hvv : v = (star e ⬝ᵥ v) • e + s • w := by rw [← hsw, hv']; abel
  have hwe : star w ⬝ᵥ e = 0 := by
    have := congrArg star hew
    rw [star_zero, ← Matrix.star_dotProduct_star, star_star] at this
    exact this
  refine ⟨star e ⬝ᵥ v, s, w, hw, hew, hvv, ?_, hx⟩
  rw [hvv] at hv
  generalize star e ⬝ᵥ v = c at hv
  rw [star_add, star_smul, star_smul, add_dotProduct, dotProduct_add, dotProduct_add] at hv
  simp only [smul_dotProduct, dotProduct_smul, he, hw, hew, hwe, smul_zero, add_zero, zero_add, star_trivial, smul_eq_mul, mul_one, mul_zero] at hv
  rw [RCLike.star_def, RCLike.mul_conj, smul_smul, RCLike.real_smul_eq_coe_mul, mul_one] at hv
  rw [RCLike.normSq_eq_def']
  exact_mod_cast hv

end plane

/-- Generated by the exponentials of the traceless anti-Hermitian matrices that vanish on the first `k0` coordinates: all unitary matrices of
determinant one that fix these coordinates. -/
theorem specialUnitary_generated_fix {n : ℕ} {lie disc : List (Matrix (Fin n) (Fin n) 𝕜)} {k0 : ℕ} (hk0 : k0 ≤ n)
    (hL : ∀ A : Matrix (Fin n) (Fin n) 𝕜, Aᴴ = -A → A.trace = 0 → (∀ i : Fin n, i.val < k0 → A *ᵥ Pi.single i 1 = 0) → A ∈ Submodule.span ℝ {B | B ∈ lie})
    {h : Matrix (Fin n) (Fin n) 𝕜} (hu : hᴴ * h = 1) (hd : h.det = 1) (hfix0 : ∀ i : Fin n, i.val < k0 → h *ᵥ Pi.single i 1 = Pi.single i 1) :
    Generated lie disc h := by
  suffices H : ∀ j : ℕ, k0 + j ≤ n → ∀ h : Matrix (Fin n) (Fin n) 𝕜, hᴴ * h = 1 → h.det = 1 →
      (∀ i : Fin n, i.val + j < n → h *ᵥ Pi.single i 1 = Pi.single i 1) → Generated lie disc h from
    H (n - k0) (by omega) h hu hd fun i hi => hfix0 i (by omega)
  have hone : ∀ h : Matrix (Fin n) (Fin n) 𝕜, (∀ i : Fin n, h *ᵥ Pi.single i 1 = Pi.single i 1) → h = 1 := by
    intro h hi
    ext i j
    have := congrFun (hi j) i
    rw [mulVec_single_one] at this
    rw [Matrix.one_apply, ← Pi.single_apply]
    exact this
  have hsingle : ∀ i j : Fin n, star (Pi.single i 1 : Fin n → 𝕜) ⬝ᵥ Pi.single j 1 = if i = j then 1 else 0 := by
    intro i j
    rw [dotProduct_single_one, Pi.star_apply, Pi.single_apply]
    split_ifs <;> simp_all
  have hiso : ∀ h : Matrix (Fin n) (Fin n) 𝕜, hᴴ * h = 1 → ∀ x y : Fin n → 𝕜, star (h *ᵥ x) ⬝ᵥ (h *ᵥ y) = star x ⬝ᵥ y := by
    intro h hu x y
    rw [star_mulVec, ← dotProduct_mulVec, mulVec_mulVec, hu, one_mulVec]
  intro j
  induction j with
  | zero =>
    intro _ h _ _ hi
    rw [hone h fun i => hi i (by simp)]
    exact .one
  | succ j ih =>
    intro hj h hu hd hi
    obtain ⟨k, hk⟩ : ∃ k : Fin n, k.val + j + 1 = n := ⟨⟨n - (j + 1), by omega⟩, by simp only; omega⟩
    cases j with
    | zero =>
      -- all columns but the last are those of the identity
      have hlt : ∀ i : Fin n, i ≠ k → h *ᵥ Pi.single i 1 = Pi.single i 1 := fun i hne => hi i (by
        have := i.2
        have : i.val ≠ k.val := fun e => hne (Fin.ext e)
        omega)
      have hki : ∀ i : Fin n, i ≠ k → h i k = 0 := by
        intro i hne
        have := hiso h hu (Pi.single i 1) (Pi.single k 1)
        rw [hlt i hne, hsingle, if_neg hne, mulVec_single_one] at this
        rw [← this]
        simp [dotProduct, Pi.single_apply]
      have hdiag : h = diagonal fun i => if i = k then h k k else 1 := by
        ext i l
        by_cases hl : l = k
        · subst hl
          by_cases hil : i = l
          · subst hil
            simp
          · rw [hki i hil, diagonal_apply_ne _ hil]
        · have := congrFun (hlt l hl) i
          rw [mulVec_single_one, Pi.single_apply] at this
          rw [diagonal_apply, show h i l = if i = l then 1 else 0 from this]
          split_ifs with e1 e2
          · exact absurd (e1.symm.trans e2) hl
          · rfl
          · rfl
      have hkk : h k k = 1 := by
        rw [hdiag, det_diagonal, Finset.prod_ite_eq' Finset.univ k] at hd
        simpa using hd
      rw [show h = 1 by rw [hdiag, hkk]; simp]
      exact .one
    | succ j =>
      obtain ⟨l, hl⟩ : ∃ l : Fin n, l.val = k.val + 1 := ⟨⟨k.val + 1, by omega⟩, rfl⟩
      have hkl : k ≠ l := fun e => by rw [e] at hl; omega
      have hfix : ∀ i : Fin n, i.val < k.val → h *ᵥ Pi.single i 1 = Pi.single i 1 := fun i hi' => hi i (by omega)
      obtain ⟨c, s, w, hw, hew, hv, hcs, hx⟩ := exists_split (e := Pi.single k (1 : 𝕜)) (f := Pi.single l 1) (v := h *ᵥ Pi.single k 1) (by rw [hsingle, if_pos rfl])
        (by rw [hsingle, if_pos rfl]) (by rw [hsingle, if_neg hkl]) (by rw [hiso h hu, hsingle, if_pos rfl])
      obtain ⟨A, hA, hA0, hAe, hAx⟩ := exists_plane_rotation (by rw [hsingle, if_pos rfl]) hw hew hcs
      have hR : (exp A)ᴴ * exp A = 1 := by
        have := exp_form (1 : Matrix (Fin n) (Fin n) 𝕜) A (by rw [hA]; simp)
        simpa using this
      have hRd : (exp A).det = 1 := det_exp_of_trace_zero _ hA0
      have hRR : exp A * (exp A)ᴴ = 1 := mul_eq_one_comm.1 hR
      have hback : ∀ x y, exp A *ᵥ x = y → (exp A)ᴴ *ᵥ y = x := by
        rintro x y rfl
        rw [mulVec_mulVec, hR, one_mulVec]
      have hAx' : ∀ i : Fin n, i.val < k.val → A *ᵥ Pi.single i 1 = 0 ∧ exp A *ᵥ Pi.single i 1 = Pi.single i 1 := by
        intro i hlt
        have hik : i ≠ k := fun e => by rw [e] at hlt; omega
        have hwi : star w ⬝ᵥ Pi.single i 1 = 0 := by
          have h1 := hx (Pi.single i 1) (by rw [hsingle, if_neg hik]) (by rw [hsingle, if_neg fun e => by rw [e] at hlt; omega])
            (by rw [← hfix i hlt, hiso h hu, hsingle, if_neg hik])
          have := congrArg star h1
          rw [star_zero, ← Matrix.star_dotProduct_star, star_star] at this
          exact this
        exact hAx _ (by rw [hsingle, if_neg fun e => hik e.symm]) hwi
      have hg : Generated lie disc ((exp A)ᴴ * h) := by
        refine ih (by omega) _ ?_ ?_ ?_
        · rw [conjTranspose_mul, conjTranspose_conjTranspose, Matrix.mul_assoc, ← Matrix.mul_assoc (exp A), hRR, Matrix.one_mul, hu]
        · rw [det_mul, det_conjTranspose, hRd, hd]
          simp
        · intro i hi'
          rw [← mulVec_mulVec]
          by_cases hik : i = k
          · subst hik
            exact hback _ _ (hAe.trans hv.symm)
          · have hlt : i.val < k.val := by
              have : i.val ≠ k.val := fun e => hik (Fin.ext e)
              omega
            rw [hfix i hlt]
            exact hback _ _ (hAx' i hlt).2
      have e : h = exp A * ((exp A)ᴴ * h) := by rw [← Matrix.mul_assoc, hRR, Matrix.one_mul]
      rw [e]
      exact .mul (.exp (hL A hA hA0 fun i hi' => (hAx' i (by omega)).1)) hg

/-- Generated by the exponentials of the traceless anti-Hermitian matrices: all unitary matrices of determinant one. -/
theorem specialUnitary_generated {n : ℕ} {lie disc : List (Matrix (Fin n) (Fin n) 𝕜)}
    (hL : ∀ A : Matrix (Fin n) (Fin n) 𝕜, Aᴴ = -A → A.trace = 0 → A ∈ Submodule.span ℝ {B | B ∈ lie})
    {h : Matrix (Fin n) (Fin n) 𝕜} (hu : hᴴ * h = 1) (hd : h.det = 1) : Generated lie disc h :=
  specialUnitary_generated_fix (k0 := 0) (Nat.zero_le n) (fun A h1 h2 _ => hL A h1 h2) hu hd (fun i hi => absurd hi (Nat.not_lt_zero _))

end Verif
