import Verif.Props.Lorentz

/-!
# Lorentz groups: the generators span the Lorentz algebra; parity and time reversal
-/
namespace Verif
open Matrix List

/-- The lorentzBoost along axis 1, 2 or 3 (entries `(0,i)` and `(i,0)`). -/
def lorentzBoost (i : Fin 4) : Matrix (Fin 4) (Fin 4) ℝ := Matrix.single 0 i 1 + Matrix.single i 0 1

/-- The rotation in the plane of axes `i`, `j`. -/
def lorentzRot (i j : Fin 4) : Matrix (Fin 4) (Fin 4) ℝ := Matrix.single i j 1 - Matrix.single j i 1

theorem so13p_mats : ∃ a : Arr3 ℝ, so13pLie = .ok a ∧
    a.mats 4 = [lorentzBoost 1, lorentzBoost 2, lorentzBoost 3, lorentzRot 2 1, lorentzRot 3 1, lorentzRot 3 2] := by
  unfold so13pLie
  rw [soLie_eq, show lowPairs 3 = [(1, 0), (2, 0), (2, 1)] from rfl]
  refine ⟨_, rfl, ?_⟩
  simp only [Arr3.mats, show List.range 6 = [0, 1, 2, 3, 4, 5] from rfl, map_cons, map_nil]
  congr 1
  · ext i j
    fin_cases i <;> fin_cases j <;> simp [tab, soSl, upd, lorentzBoost, lorentzRot, Matrix.single]
  congr 1
  · ext i j
    fin_cases i <;> fin_cases j <;> simp [tab, soSl, upd, lorentzBoost, lorentzRot, Matrix.single]
  congr 1
  · ext i j
    fin_cases i <;> fin_cases j <;> simp [tab, soSl, upd, lorentzBoost, lorentzRot, Matrix.single]
  congr 1
  · ext i j
    fin_cases i <;> fin_cases j <;> simp [tab, soSl, upd, lorentzBoost, lorentzRot, Matrix.single]
  congr 1
  · ext i j
    fin_cases i <;> fin_cases j <;> simp [tab, soSl, upd, lorentzBoost, lorentzRot, Matrix.single]
  congr 1
  · ext i j
    fin_cases i <;> fin_cases j <;> simp [tab, soSl, upd, lorentzBoost, lorentzRot, Matrix.single]

/-- C51: the six generators of `SO13p` are linearly independent and span exactly the infinitesimal Lorentz transformations. -/
theorem C51_so13p_generators : ∃ a : Arr3 ℝ, so13pLie = .ok a ∧ (a.mats 4).length = 6 ∧ LinearIndependent ℝ (a.mats 4).get ∧
    ∀ A, A ∈ Submodule.span ℝ {B | B ∈ a.mats 4} ↔ Aᵀ * minkowski 4 + minkowski 4 * A = 0 := by
  obtain ⟨a, ha, hm⟩ := so13p_mats
  obtain ⟨a', ha', h6, hf⟩ := so13p_form
  rw [ha] at ha'
  cases ha'
  refine ⟨a, ha, by rw [hm]; rfl, ?_, fun A => ⟨fun h => ?_, fun h => ?_⟩⟩
  · rw [hm, Fintype.linearIndependent_iff]
    intro g hg
    have e : ∀ i j, g 0 * lorentzBoost 1 i j + g 1 * lorentzBoost 2 i j + g 2 * lorentzBoost 3 i j + g 3 * lorentzRot 2 1 i j + g 4 * lorentzRot 3 1 i j + g 5 * lorentzRot 3 2 i j = 0 := by
      intro i j
      have := congrFun (congrFun hg i) j
      rw [Matrix.sum_apply] at this
      simp only [length_cons, length_nil, Fin.sum_univ_succ, Fin.sum_univ_zero] at this
      simp only [Matrix.smul_apply, smul_eq_mul] at this
      simp only [← add_assoc, add_zero] at this
      exact this
    have e1 := e 0 1
    have e2 := e 0 2
    have e3 := e 0 3
    have e4 := e 2 1
    have e5 := e 3 1
    have e6 := e 3 2
    simp [lorentzBoost, lorentzRot, Matrix.single] at e1 e2 e3 e4 e5 e6
    intro i
    fin_cases i
    · exact e1
    · exact e2
    · exact e3
    · exact e4
    · exact e5
    · exact e6
  · refine Submodule.span_induction (p := fun A _ => Aᵀ * minkowski 4 + minkowski 4 * A = 0) ?_ ?_ ?_ ?_ h
    · intro B hB
      rw [hf B hB, neg_add_cancel]
    · simp
    · intro x y _ _ hx hy
      rw [transpose_add, Matrix.add_mul, Matrix.mul_add, add_add_add_comm, hx, hy, add_zero]
    · intro c x _ hx
      rw [transpose_smul, Matrix.smul_mul, Matrix.mul_smul, ← smul_add, hx, smul_zero]
  · have e : ∀ i j, A j i * (if j.val = 0 then 1 else -1) + (if i.val = 0 then 1 else -1) * A i j = 0 := by
      intro i j
      have := congrFun (congrFun h i) j
      simpa only [minkowski, Matrix.add_apply, Matrix.mul_diagonal, Matrix.diagonal_mul, Matrix.transpose_apply, Matrix.zero_apply] using this
    have hA : A = A 0 1 • lorentzBoost 1 + A 0 2 • lorentzBoost 2 + A 0 3 • lorentzBoost 3 + A 2 1 • lorentzRot 2 1 + A 3 1 • lorentzRot 3 1 + A 3 2 • lorentzRot 3 2 := by
      have h00 := e 0 0
      have h11 := e 1 1
      have h22 := e 2 2
      have h33 := e 3 3
      have h01 := e 0 1
      have h02 := e 0 2
      have h03 := e 0 3
      have h12 := e 1 2
      have h13 := e 1 3
      have h23 := e 2 3
      simp at h00 h11 h22 h33 h01 h02 h03 h12 h13 h23
      ext i j
      fin_cases i <;> fin_cases j <;> simp [lorentzBoost, lorentzRot, Matrix.single] <;> linarith
    have hs : ∀ B ∈ [lorentzBoost 1, lorentzBoost 2, lorentzBoost 3, lorentzRot 2 1, lorentzRot 3 1, lorentzRot 3 2], B ∈ Submodule.span ℝ {B | B ∈ a.mats 4} := fun B hB =>
      Submodule.subset_span (by rw [hm]; exact hB)
    rw [hA]
    refine Submodule.add_mem _ (Submodule.add_mem _ (Submodule.add_mem _ (Submodule.add_mem _ (Submodule.add_mem _ ?_ ?_) ?_) ?_) ?_) ?_ <;>
      exact Submodule.smul_mem _ _ (hs _ (by simp))

/-- C51: the generator of `SO11p` spans exactly the infinitesimal Lorentz transformations of the plane. -/
theorem C51_so11p_generators (A : Matrix (Fin 2) (Fin 2) ℝ) :
    A ∈ Submodule.span ℝ {B | B ∈ (so11pLie : Arr3 ℝ).mats 2} ↔ Aᵀ * minkowski 2 + minkowski 2 * A = 0 := by
  have hm : (so11pLie : Arr3 ℝ).mats 2 = [!![0, 1; 1, 0]] := by
    simp only [Arr3.mats, so11pLie, show List.range 1 = [0] from rfl, map_cons, map_nil]
    congr 1
    ext i j
    fin_cases i <;> fin_cases j <;> simp
  have hset : {B | B ∈ (so11pLie : Arr3 ℝ).mats 2} = {!![0, 1; 1, 0]} := by
    ext B
    rw [Set.mem_setOf_eq, hm, mem_singleton, Set.mem_singleton_iff]
  rw [hset, Submodule.mem_span_singleton]
  constructor
  · rintro ⟨c, rfl⟩
    ext i j
    simp only [minkowski, Matrix.add_apply, Matrix.mul_diagonal, Matrix.diagonal_mul, Matrix.transpose_apply]
    fin_cases i <;> fin_cases j <;> simp
  · intro h
    have e : ∀ i j, A j i * (if j.val = 0 then 1 else -1) + (if i.val = 0 then 1 else -1) * A i j = 0 := by
      intro i j
      have := congrFun (congrFun h i) j
      simpa only [minkowski, Matrix.add_apply, Matrix.mul_diagonal, Matrix.diagonal_mul, Matrix.transpose_apply, Matrix.zero_apply] using this
    refine ⟨A 0 1, ?_⟩
    have h00 := e 0 0
    have h11 := e 1 1
    have h01 := e 0 1
    simp at h00 h11 h01
    ext i j
    fin_cases i <;> fin_cases j <;> simp <;> linarith

/-- The reflection of space in 1+3 dimensions. -/
def spaceReflection : Matrix (Fin 4) (Fin 4) ℝ := Matrix.diagonal ![1, -1, -1, -1]

/-- The reversal of time in 1+3 dimensions. -/
def timeReversal : Matrix (Fin 4) (Fin 4) ℝ := Matrix.diagonal ![-1, 1, 1, 1]

private theorem two_element {M : Matrix (Fin 4) (Fin 4) ℝ} (hM : M * M = 1) {g} (hg : Generated [] [M] g) : g = 1 ∨ g = M := by
  have hi : M⁻¹ = M := Matrix.inv_eq_left_inv hM
  induction hg with
  | one => exact Or.inl rfl
  | exp h =>
    rw [show {B : Matrix (Fin 4) (Fin 4) ℝ | B ∈ ([] : List (Matrix (Fin 4) (Fin 4) ℝ))} = ∅ by simp, Submodule.span_empty,
      Submodule.mem_bot] at h
    exact Or.inl (by rw [h, NormedSpace.exp_zero])
  | gen h => exact Or.inr (mem_singleton.1 h)
  | inv h => exact Or.inr (by rw [mem_singleton.1 h, hi])
  | mul _ _ h1 h2 =>
    rcases h1 with rfl | rfl <;> rcases h2 with rfl | rfl <;> simp [hM]

/-- C51: `Parity` has the reflection of space as its only generator, and every sample is the identity or that reflection. -/
theorem C51_parity : ∃ b : Arr3 ℝ, parityDisc = .ok b ∧ b.mats 4 = [spaceReflection] ∧
    ∀ (ks : List (List ℤ)) (orders : List (List ℕ)), (∀ o ∈ orders, ∀ i ∈ o, i < (b.mats 4).length) →
      noise2sample [] ks [] (b.mats 4) orders = 1 ∨ noise2sample [] ks [] (b.mats 4) orders = spaceReflection := by
  have hm : ∃ b : Arr3 ℝ, parityDisc = .ok b ∧ b.mats 4 = [spaceReflection] := by
    refine ⟨_, by unfold parityDisc Arr3.set; rw [if_pos (by decide)], ?_⟩
    simp only [Arr3.mats, show List.range 1 = [0] from rfl, map_cons, map_nil]
    congr 1
    ext i j
    fin_cases i <;> fin_cases j <;> simp [spaceReflection]
  obtain ⟨b, hb, hm⟩ := hm
  refine ⟨b, hb, hm, fun ks orders ho => ?_⟩
  have := sample_generated (lie := []) (disc := b.mats 4) [] ks orders ho
  rw [hm] at this ⊢
  refine two_element ?_ this
  rw [spaceReflection, diagonal_mul_diagonal, ← diagonal_one]
  congr 1
  funext i
  fin_cases i <;> simp

/-- C51: `TimeReversal` has the reversal of time as its only generator, and every sample is the identity or that reversal. -/
theorem C51_time_reversal : ∃ b : Arr3 ℝ, timeReversalDisc = .ok b ∧ b.mats 4 = [timeReversal] ∧
    ∀ (ks : List (List ℤ)) (orders : List (List ℕ)), (∀ o ∈ orders, ∀ i ∈ o, i < (b.mats 4).length) →
      noise2sample [] ks [] (b.mats 4) orders = 1 ∨ noise2sample [] ks [] (b.mats 4) orders = timeReversal := by
  have hm : ∃ b : Arr3 ℝ, timeReversalDisc = .ok b ∧ b.mats 4 = [timeReversal] := by
    refine ⟨_, by unfold timeReversalDisc Arr3.set; rw [if_pos (by decide)], ?_⟩
    simp only [Arr3.mats, show List.range 1 = [0] from rfl, map_cons, map_nil]
    congr 1
    ext i j
    fin_cases i <;> fin_cases j <;> simp [timeReversal]
  obtain ⟨b, hb, hm⟩ := hm
  refine ⟨b, hb, hm, fun ks orders ho => ?_⟩
  have := sample_generated (lie := []) (disc := b.mats 4) [] ks orders ho
  rw [hm] at this ⊢
  refine two_element ?_ this
  rw [timeReversal, diagonal_mul_diagonal, ← diagonal_one]
  congr 1
  funext i
  fin_cases i <;> simp

/-- C51: the discrete generators of `O13` (`Lorentz`) are the total inversion and the reversal of time; their product is the
reflection of space. -/
theorem C51_o13_generators : ∃ b : Arr3 ℝ, o13Disc = .ok b ∧ b.mats 4 = [-1, timeReversal] ∧ -1 * timeReversal = spaceReflection := by
  refine ⟨_, by unfold o13Disc Arr3.set; rw [if_pos (by decide)], ?_, ?_⟩
  · simp only [Arr3.mats, show List.range 2 = [0, 1] from rfl, map_cons, map_nil]
    congr 1
    · ext i j
      fin_cases i <;> fin_cases j <;> simp
    · congr 1
      ext i j
      fin_cases i <;> fin_cases j <;> simp [timeReversal]
  · ext i j
    fin_cases i <;> fin_cases j <;> simp [timeReversal, spaceReflection]

/-- C51: the discrete generators of `O11`. -/
theorem C51_o11_generators : ∃ b : Arr3 ℝ, o11Disc = .ok b ∧ b.mats 2 = [-1, !![-1, 0; 0, 1]] := by
  refine ⟨_, by unfold o11Disc Arr3.set; rw [if_pos (by decide)], ?_⟩
  simp only [Arr3.mats, show List.range 2 = [0, 1] from rfl, map_cons, map_nil]
  congr 1
  · ext i j
    fin_cases i <;> fin_cases j <;> simp
  · congr 1
    ext i j
    fin_cases i <;> fin_cases j <;> simp

example : ∀ o ∈ [[0], [0], [0]], ∀ i ∈ o, i < [spaceReflection].length := by simp

end Verif
