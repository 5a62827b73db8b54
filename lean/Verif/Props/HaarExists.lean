import Verif.Props.Haar
import Verif.Props.Classical
import Mathlib.MeasureTheory.Measure.Haar.Basic
import Mathlib.Topology.Algebra.Star.Unitary
import Mathlib.Topology.Instances.Matrix
import Mathlib.LinearAlgebra.UnitaryGroup

/-! C139: closed groups of orthogonal matrices have a uniform distribution, in particular `SO(n)` and `O(n)`. -/
namespace Verif
open List MeasureTheory ProbabilityTheory

theorem orthogonal_entry_le {n : ℕ} {h : Matrix (Fin n) (Fin n) ℝ} (hh : h.transpose * h = 1) (i j : Fin n) : |h i j| ≤ 1 := by
  have e := congrFun (congrFun hh j) j
  rw [Matrix.mul_apply, Matrix.one_apply_eq] at e
  have := Finset.single_le_sum (f := fun k => h k j * h k j) (fun k _ => mul_self_nonneg _) (Finset.mem_univ i)
  simp only [Matrix.transpose_apply] at e
  rw [e] at this
  exact (sq_le_one_iff_abs_le_one _).1 (by rw [pow_two]; exact this)

theorem compact_orthogonal {n : ℕ} {S : Set (Matrix (Fin n) (Fin n) ℝ)} (hcl : IsClosed S) (ho : ∀ h ∈ S, h.transpose * h = 1) : IsCompact S := by
  have hbox : IsCompact (Set.univ.pi fun _ : Fin n => Set.univ.pi fun _ : Fin n => Set.Icc (-1 : ℝ) 1) :=
    isCompact_univ_pi fun _ => isCompact_univ_pi fun _ => isCompact_Icc
  exact IsCompact.of_isClosed_subset (X := Fin n → Fin n → ℝ) hbox hcl fun h hh i _ j _ => abs_le.1 (orthogonal_entry_le (ho h hh) i j)

/-- **C139.** Every closed group of orthogonal matrices has a uniform distribution: the finite ones, and all compact ones. -/
theorem C139_exists {n : ℕ} {lie disc : List (Matrix (Fin n) (Fin n) ℝ)} (ho : ∀ h, Generated lie disc h → h.transpose * h = 1)
    (hcl : IsClosed {h | Generated lie disc h}) :
    ∃ (Ω : Type) (_ : MeasurableSpace Ω) (μ : Measure Ω) (X : Ω → Matrix (Fin n) (Fin n) ℝ), UniformLaw μ lie disc X := by
  have hunit : ∀ h ∈ disc, IsUnit h.det := fun h hh => by
    have := congrArg Matrix.det (ho h (.gen hh))
    rw [Matrix.det_mul, Matrix.det_one] at this
    exact IsUnit.of_mul_eq_one _ ((mul_comm _ _).trans this)
  let H : Subgroup (Matrix.orthogonalGroup (Fin n) ℝ) :=
    { carrier := {u | Generated lie disc u.1}
      mul_mem' := fun ha hb => Generated.mul ha hb
      one_mem' := Generated.one
      inv_mem' := fun {u} hu => by
        have h1 : u.1⁻¹ = (u⁻¹).1 := Matrix.inv_eq_left_inv (congrArg Subtype.val (inv_mul_cancel u))
        show Generated lie disc (u⁻¹).1
        rw [← h1]
        exact Generated.inverse hunit hu }
  have hind : Topology.IsInducing fun u : H => (u.1.1 : Matrix (Fin n) (Fin n) ℝ) := Topology.IsInducing.subtypeVal.comp Topology.IsInducing.subtypeVal
  have himg : (fun u : H => (u.1.1 : Matrix (Fin n) (Fin n) ℝ)) '' Set.univ = {h | Generated lie disc h} := by
    ext h
    constructor
    · rintro ⟨u, -, rfl⟩
      exact u.2
    · intro hh
      have hm : h ∈ Matrix.orthogonalGroup (Fin n) ℝ := by
        rw [Matrix.mem_orthogonalGroup_iff']
        exact ho h hh
      exact ⟨⟨⟨h, hm⟩, hh⟩, trivial, rfl⟩
  haveI : CompactSpace H := ⟨by
    rw [hind.isCompact_iff, himg]
    exact compact_orthogonal hcl ho⟩
  letI : MeasurableSpace H := borel H
  haveI : BorelSpace H := ⟨rfl⟩
  have hmeas : Measurable fun (u : H) i j => u.1.1 i j := by
    refine measurable_pi_iff.2 fun i => measurable_pi_iff.2 fun j => Continuous.measurable ?_
    exact (continuous_apply_apply i j).comp hind.continuous
  refine ⟨H, inferInstance, Measure.haarMeasure ⊤, fun u => u.1.1, ⟨?_⟩, fun u => u.2, fun a ha => ?_⟩
  · exact Measure.haarMeasure_self
  · have hm : a ∈ Matrix.orthogonalGroup (Fin n) ℝ := by
      rw [Matrix.mem_orthogonalGroup_iff']
      exact ho a ha
    obtain ⟨A, hA⟩ : ∃ A : H, A.1.1 = a := ⟨⟨⟨a, hm⟩, ha⟩, rfl⟩
    have e : (fun (u : H) i j => (a * u.1.1) i j) = (fun (u : H) i j => u.1.1 i j) ∘ fun u => A * u := by
      rw [← hA]; rfl
    rw [e]
    have hc : Measurable fun u : H => A * u := (continuous_const_mul A).measurable
    refine ⟨(hmeas.comp hc).aemeasurable, hmeas.aemeasurable, ?_⟩
    rw [← Measure.map_map hmeas hc, map_mul_left_eq_self]

/-- **C139.** `SO(n)` and `O(n)` have a uniform distribution, for every `n`. -/
theorem C139_classical (n : ℕ) (hn : 0 < n) : ∃ a b : Arr3 ℝ, soLie n = .ok a ∧ oDisc n = .ok b ∧
    (∃ (Ω : Type) (_ : MeasurableSpace Ω) (μ : Measure Ω) (X : Ω → Matrix (Fin n) (Fin n) ℝ), UniformLaw μ (a.mats n) [] X) ∧
    ∃ (Ω : Type) (_ : MeasurableSpace Ω) (μ : Measure Ω) (X : Ω → Matrix (Fin n) (Fin n) ℝ), UniformLaw μ (a.mats n) (b.mats n) X := by
  obtain ⟨a, ha, h1⟩ := C115_so n
  obtain ⟨a', b, ha', hb, h2⟩ := C115_o n hn
  rw [ha] at ha'
  cases ha'
  have c1 : IsClosed {h : Matrix (Fin n) (Fin n) ℝ | h.transpose * h = 1} :=
    isClosed_eq (continuous_id.matrix_transpose.matrix_mul continuous_id) continuous_const
  have c2 : IsClosed {h : Matrix (Fin n) (Fin n) ℝ | h.det = 1} := isClosed_eq continuous_id.matrix_det continuous_const
  refine ⟨a, b, ha, hb, C139_exists (fun h hh => ((h1 h).1 hh).1) ?_, C139_exists (fun h hh => (h2 h).1 hh) ?_⟩
  · simp only [h1]
    exact c1.inter c2
  · simp only [h2]
    exact c1

end Verif
