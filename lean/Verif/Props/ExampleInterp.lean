import Verif.Props.ExampleWorld
import Verif.Model.DRho
import Verif.Lemmas.DRho
import Mathlib.Tactic.IntervalCases

/-! Concrete group and Lie algebra elements for the example environment. -/
namespace Verif
open List

/-- `!![a, b; c, d]` -/
def mat2 (a b c d : ℤ) : DMat ℤ := DMat.of 2 2 fun i j => if i = 0 then (if j = 0 then a else b) else (if j = 0 then c else d)

theorem mat2_dual (x : ℤ) : (mat2 1 0 (-x) 1).transpose.mul (mat2 1 x 0 1) = DMat.one 2 := by
  refine DMat.ext rfl rfl fun i j hi hj => ?_
  change i < 2 at hi
  change j < 2 at hj
  rw [DMat.mul_e hi hj]
  interval_cases i <;> interval_cases j <;>
    simp [mat2, DMat.of, DMat.transpose, DMat.one, Finset.sum_range_succ]

/-- The shear with slope `x` on group `1` (like `SL(2)`), the identity elsewhere. -/
def exI (x : ℤ) : Interp ℤ where
  vec k g := .lazy (if k = 0 ∧ g = some 1 then mat2 1 x 0 1 else DMat.one ((g.map (exW.asize k)).getD 0))
  dual k g := .lazy (if k = 0 ∧ g = some 1 then mat2 1 0 (-x) 1 else DMat.one ((g.map (exW.asize k)).getD 0))

theorem exI_dual (x : ℤ) : (exI x).Dual exW where
  vec k g := by
    by_cases h : k = 0 ∧ g = 1
    · obtain ⟨rfl, rfl⟩ := h; exact ⟨rfl, rfl⟩
    · have : ((exI x).vec k (some g)).sem = DMat.one (exW.asize k g) := by simp [exI, LinOp.sem, h]
      rw [this]; exact ⟨rfl, rfl⟩
  dual k g := by
    by_cases h : k = 0 ∧ g = 1
    · obtain ⟨rfl, rfl⟩ := h; exact ⟨rfl, rfl⟩
    · have : ((exI x).dual k (some g)).sem = DMat.one (exW.asize k g) := by simp [exI, LinOp.sem, h]
      rw [this]; exact ⟨rfl, rfl⟩
  inv k g := by
    by_cases h : k = 0 ∧ g = 1
    · obtain ⟨rfl, rfl⟩ := h; exact mat2_dual x
    · have h1 : ((exI x).vec k (some g)).sem = DMat.one (exW.asize k g) := by simp [exI, LinOp.sem, h]
      have h2 : ((exI x).dual k (some g)).sem = DMat.one (exW.asize k g) := by simp [exI, LinOp.sem, h]
      rw [h1, h2, DMat.transpose_one]; exact DMat.one_mul' (DMat.one _) rfl
  orth k g hg := by
    have h1 : ((exI x).vec k (some g)).sem = DMat.one (exW.asize k g) := by
      have : ¬ (k = 0 ∧ g = 1) := by rintro ⟨-, rfl⟩; simp [exW] at hg
      simp [exI, LinOp.sem, this]
    rw [h1, DMat.transpose_one]; exact DMat.one_mul' (DMat.one _) rfl

/-- `!![a, b; c, -a]` on group `1`, zero elsewhere. -/
def exD (a b c : ℤ) : Interp ℤ where
  vec k g := .lazy (if k = 0 ∧ g = some 1 then mat2 a b c (-a) else
    DMat.zero ((g.map (exW.asize k)).getD 0) ((g.map (exW.asize k)).getD 0))
  dual k g := .lazy (if k = 0 ∧ g = some 1 then (mat2 a b c (-a)).transpose.neg else
    DMat.zero ((g.map (exW.asize k)).getD 0) ((g.map (exW.asize k)).getD 0))

theorem zero_transpose_neg (n : ℕ) : (DMat.zero n n : DMat ℤ).transpose.neg = DMat.zero n n := by
  refine DMat.ext rfl rfl fun i j _ _ => ?_
  rw [DMat.neg_e, DMat.transpose_e, DMat.zero_e, DMat.zero_e, neg_zero]

theorem exD_dual (a b c : ℤ) : (exD a b c).DDual exW where
  sq k g := by
    by_cases h : k = 0 ∧ g = 1
    · obtain ⟨rfl, rfl⟩ := h; exact ⟨rfl, rfl⟩
    · have : ((exD a b c).vec k (some g)).sem = DMat.zero (exW.asize k g) (exW.asize k g) := by
        simp [exD, LinOp.sem, h]
      rw [this]; exact ⟨rfl, rfl⟩
  dual k g := by
    by_cases h : k = 0 ∧ g = 1
    · obtain ⟨rfl, rfl⟩ := h; rfl
    · have h1 : ((exD a b c).vec k (some g)).sem = DMat.zero (exW.asize k g) (exW.asize k g) := by
        simp [exD, LinOp.sem, h]
      have h2 : ((exD a b c).dual k (some g)).sem = DMat.zero (exW.asize k g) (exW.asize k g) := by
        simp [exD, LinOp.sem, h]
      rw [h1, h2, zero_transpose_neg]
  orth k g hg := by
    have h1 : ((exD a b c).vec k (some g)).sem = DMat.zero (exW.asize k g) (exW.asize k g) := by
      have : ¬ (k = 0 ∧ g = 1) := by rintro ⟨-, rfl⟩; simp [exW] at hg
      simp [exD, LinOp.sem, this]
    rw [h1, zero_transpose_neg]

end Verif
