import Verif.Model.Groups
import Verif.Spec.Group
import Verif.Lemmas.MatExp
import Mathlib.Data.List.GetD

/-! # Sampled group elements -/
namespace Verif
open Matrix List

variable {𝕜 : Type*} [RCLike 𝕜]

section
variable {d : ℕ}

theorem powLoop_eq (M : Matrix (Fin d) (Fin d) 𝕜) (n : ℕ) : powLoop M n = M ^ n := by
  unfold powLoop
  induction n with
  | zero => simp
  | succ n ih => rw [range_succ, foldl_append, ih, pow_succ']; rfl

theorem matrixPowerSimple_eq (M : Matrix (Fin d) (Fin d) 𝕜) (n : ℤ) : matrixPowerSimple M n = M ^ n := by
  unfold matrixPowerSimple
  rw [powLoop_eq, powLoop_eq]
  split
  · rename_i h
    obtain ⟨k, rfl⟩ : ∃ k : ℕ, n = -(k : ℤ) := ⟨(-n).toNat, by omega⟩
    rw [Matrix.zpow_neg_natCast, inv_pow']
    simp
  · rename_i h
    obtain ⟨k, rfl⟩ : ∃ k : ℕ, n = (k : ℤ) := ⟨n.toNat, by omega⟩
    simp

theorem lieComb_mem (z : List ℝ) (lie : List (Matrix (Fin d) (Fin d) 𝕜)) :
    lieComb z lie ∈ Submodule.span ℝ {B | B ∈ lie} := by
  unfold lieComb
  apply list_sum_mem
  intro A hA
  rw [List.mem_iff_getElem] at hA
  obtain ⟨k, hk, rfl⟩ := hA
  simp only [length_zipWith] at hk
  rw [getElem_zipWith, ← RCLike.real_smul_eq_coe_smul (K := 𝕜)]
  exact Submodule.smul_mem _ _ (Submodule.subset_span (getElem_mem _))

variable {lie disc : List (Matrix (Fin d) (Fin d) 𝕜)}

theorem Generated.pow {h : Matrix (Fin d) (Fin d) 𝕜} (hh : Generated lie disc h) (n : ℕ) : Generated lie disc (h ^ n) := by
  induction n with
  | zero => rw [pow_zero]; exact .one
  | succ n ih => rw [pow_succ]; exact ih.mul hh

/-- Every sample lies in the generated group. -/
theorem sample_generated (z : List ℝ) (ks : List (List ℤ)) (orders : List (List ℕ))
    (ho : ∀ o ∈ orders, ∀ i ∈ o, i < disc.length) : Generated lie disc (noise2sample z ks lie disc orders) := by
  unfold noise2sample
  have h0 : Generated lie disc (if lie.length = 0 then (1 : Matrix (Fin d) (Fin d) 𝕜) else 1 * NormedSpace.exp (lieComb z lie)) := by
    split
    · exact .one
    · exact .mul .one (.exp (lieComb_mem _ _))
  simp only
  split
  · exact h0
  · have hi : ∀ (k : ℕ) (o : List ℕ), (∀ i ∈ o, i < disc.length) → ∀ g, Generated lie disc g →
        Generated lie disc (o.foldl (fun g i => g * matrixPowerSimple (disc.getD i 1) ((ks.getD i []).getD k 0)) g) := by
      intro k o
      induction o with
      | nil => intro _ g hg; exact hg
      | cons i o ih =>
        intro ho g hg
        rw [foldl_cons]
        refine ih (fun j hj => ho j (mem_cons_of_mem _ hj)) _ (hg.mul ?_)
        have hm : disc.getD i 1 ∈ disc := by
          rw [getD_eq_getElem _ _ (ho i mem_cons_self)]; exact getElem_mem _
        unfold matrixPowerSimple
        rw [powLoop_eq, powLoop_eq]
        split
        · exact (Generated.inv hm).pow _
        · exact (Generated.gen hm).pow _
    have : ∀ (l : List (List ℕ × ℕ)), (∀ o ∈ l, ∀ i ∈ o.1, i < disc.length) → ∀ g, Generated lie disc g →
        Generated lie disc (l.foldl (fun g (ord, k) =>
          ord.foldl (fun g i => g * matrixPowerSimple (disc.getD i 1) ((ks.getD i []).getD k 0)) g) g) := by
      intro l
      induction l with
      | nil => intro _ g hg; exact hg
      | cons o l ih =>
        intro ho g hg
        rw [foldl_cons]
        exact ih (fun j hj => ho j (mem_cons_of_mem _ hj)) _ (hi _ _ (ho o mem_cons_self) g hg)
    refine this _ (fun o ho' => ho o.1 ?_) _ h0
    obtain ⟨a, k⟩ := o
    exact (mem_zipIdx' ho').2 ▸ getElem_mem _

end

section form
variable {n : Type*} [Fintype n] [DecidableEq n] {lie disc : List (Matrix n n 𝕜)}

theorem exp_form (B A : Matrix n n 𝕜) (h : Aᴴ * B = -(B * A)) :
    (NormedSpace.exp A)ᴴ * B * NormedSpace.exp A = B := by
  have h1 := exp_intertwine B A (-Aᴴ) (by rw [Matrix.neg_mul, h, neg_neg])
  rw [Matrix.mul_assoc, h1, ← Matrix.exp_conjTranspose, ← Matrix.mul_assoc,
    ← Matrix.exp_add_of_commute _ _ (Commute.neg_right (Commute.refl Aᴴ)), add_neg_cancel, NormedSpace.exp_zero, Matrix.one_mul]

theorem span_form (B : Matrix n n 𝕜) (hl : ∀ A ∈ lie, Aᴴ * B = -(B * A)) {A : Matrix n n 𝕜}
    (hA : A ∈ Submodule.span ℝ {B | B ∈ lie}) : Aᴴ * B = -(B * A) := by
  induction hA using Submodule.span_induction with
  | mem A h => exact hl A h
  | zero => simp
  | add A C _ _ hA hC => rw [Matrix.conjTranspose_add, Matrix.add_mul, hA, hC, Matrix.mul_add]; abel
  | smul c A _ hA =>
    rw [Matrix.conjTranspose_smul, star_trivial, Matrix.smul_mul, hA, Matrix.mul_smul, smul_neg]

/-- Every element of the generated group preserves a non-degenerate form preserved by the generators. -/
theorem Generated.form (B : Matrix n n 𝕜) (hB : IsUnit B.det) (hl : ∀ A ∈ lie, Aᴴ * B = -(B * A))
    (hd : ∀ h ∈ disc, hᴴ * B * h = B) {g : Matrix n n 𝕜} (hg : Generated lie disc g) : gᴴ * B * g = B := by
  induction hg with
  | one => simp
  | exp hA => exact exp_form B _ (span_form B hl hA)
  | gen h => exact hd _ h
  | @inv h hh =>
    have h1 := hd h hh
    have hu : IsUnit h.det := by
      have := congrArg Matrix.det h1
      rw [Matrix.det_mul] at this
      rw [isUnit_iff_ne_zero] at hB ⊢
      intro h0
      rw [h0, mul_zero] at this
      exact hB this.symm
    have hu2 : IsUnit hᴴ.det := by rw [Matrix.det_conjTranspose]; exact hu.star
    have h2 : hᴴ⁻¹ * (hᴴ * B * h) * h⁻¹ = hᴴ⁻¹ * B * h⁻¹ := by rw [h1]
    rw [Matrix.mul_assoc hᴴ B h, Matrix.nonsing_inv_mul_cancel_left _ _ hu2, Matrix.mul_nonsing_inv_cancel_right _ _ hu] at h2
    rw [Matrix.conjTranspose_nonsing_inv]
    exact h2.symm
  | @mul g h _ _ hg hh =>
    rw [Matrix.conjTranspose_mul]
    calc hᴴ * gᴴ * B * (g * h) = hᴴ * (gᴴ * B * g) * h := by simp only [Matrix.mul_assoc]
      _ = B := by rw [hg, hh]

theorem span_trace (hl : ∀ A ∈ lie, A.trace = 0) {A : Matrix n n 𝕜}
    (hA : A ∈ Submodule.span ℝ {B | B ∈ lie}) : A.trace = 0 := by
  induction hA using Submodule.span_induction with
  | mem A h => exact hl A h
  | zero => simp
  | add A C _ _ hA hC => rw [Matrix.trace_add, hA, hC, add_zero]
  | smul c A _ hA => rw [Matrix.trace_smul, hA, smul_zero]

/-- Traceless generators and discrete generators of determinant one generate matrices of determinant one. -/
theorem Generated.det_one (hl : ∀ A ∈ lie, A.trace = 0) (hd : ∀ h ∈ disc, h.det = 1) {g : Matrix n n 𝕜}
    (hg : Generated lie disc g) : g.det = 1 := by
  induction hg with
  | one => simp
  | exp hA => exact det_exp_of_trace_zero _ (span_trace hl hA)
  | gen h => exact hd _ h
  | inv h => rw [Matrix.det_nonsing_inv, hd _ h, Ring.inverse_one]
  | mul _ _ hg hh => rw [Matrix.det_mul, hg, hh, one_mul]

end form
end Verif
