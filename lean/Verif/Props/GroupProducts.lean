import Mathlib.LinearAlgebra.Matrix.NonsingularInverse
import Verif.Props.GroupObjects
import Verif.Lemmas.DRho

/-!
# Direct products and embeddings of groups
-/
namespace Verif
open Matrix List
open scoped Kronecker

section
variable {m n : Type*} [Fintype m] [DecidableEq m] [Fintype n] [DecidableEq n]

/-- Elements are carried along by a multiplicative map `φ` and a linear map `ψ` that correspond under the exponential. -/
theorem Generated.map {lie disc : List (Matrix m m ℝ)} {lie' disc' : List (Matrix n n ℝ)} {φ : Matrix m m ℝ → Matrix n n ℝ}
    {ψ : Matrix m m ℝ →ₗ[ℝ] Matrix n n ℝ} (h1 : φ 1 = 1) (hmul : ∀ A B, φ (A * B) = φ A * φ B)
    (hexp : ∀ A, NormedSpace.exp (ψ A) = φ (NormedSpace.exp A)) (hinv : ∀ h ∈ disc, (φ h)⁻¹ = φ h⁻¹)
    (hl : ∀ A ∈ lie, ψ A ∈ lie') (hd : ∀ h ∈ disc, φ h ∈ disc') {g : Matrix m m ℝ} (hg : Generated lie disc g) :
    Generated lie' disc' (φ g) := by
  induction hg with
  | one => rw [h1]; exact .one
  | exp hA =>
    rw [← hexp]
    refine .exp ?_
    have := Submodule.mem_map_of_mem (f := ψ) hA
    rw [Submodule.map_span] at this
    refine Submodule.span_mono ?_ this
    rintro _ ⟨B, hB, rfl⟩
    exact hl B hB
  | gen h => exact .gen (hd _ h)
  | inv h => rw [← hinv _ h]; exact .inv (hd _ h)
  | mul _ _ ih1 ih2 => rw [hmul]; exact .mul ih1 ih2

/-- If all generators are images, so are all elements. -/
theorem Generated.comap {lie disc : List (Matrix m m ℝ)} {lie' disc' : List (Matrix n n ℝ)} {φ : Matrix m m ℝ → Matrix n n ℝ}
    {ψ : Matrix m m ℝ →ₗ[ℝ] Matrix n n ℝ} (h1 : φ 1 = 1) (hmul : ∀ A B, φ (A * B) = φ A * φ B)
    (hexp : ∀ A, NormedSpace.exp (ψ A) = φ (NormedSpace.exp A)) (hinv : ∀ h ∈ disc, (φ h)⁻¹ = φ h⁻¹)
    (hl : ∀ A ∈ lie', ∃ B ∈ lie, A = ψ B) (hd : ∀ h ∈ disc', ∃ h' ∈ disc, h = φ h') {g : Matrix n n ℝ} (hg : Generated lie' disc' g) :
    ∃ g', Generated lie disc g' ∧ g = φ g' := by
  induction hg with
  | one => exact ⟨1, .one, h1.symm⟩
  | exp hA =>
    rename_i A
    have : ∃ B ∈ Submodule.span ℝ {B | B ∈ lie}, ψ B = A := by
      rw [← Submodule.mem_map, Submodule.map_span]
      refine Submodule.span_mono ?_ hA
      intro C hC
      obtain ⟨B, hB, rfl⟩ := hl C hC
      exact ⟨B, hB, rfl⟩
    obtain ⟨B, hB, rfl⟩ := this
    exact ⟨_, .exp hB, hexp B⟩
  | gen h =>
    obtain ⟨h', hh', rfl⟩ := hd _ h
    exact ⟨h', .gen hh', rfl⟩
  | inv h =>
    obtain ⟨h', hh', rfl⟩ := hd _ h
    exact ⟨h'⁻¹, .inv hh', hinv _ hh'⟩
  | mul _ _ ih1 ih2 =>
    obtain ⟨a, ha, rfl⟩ := ih1
    obtain ⟨b, hb, rfl⟩ := ih2
    exact ⟨a * b, .mul ha hb, (hmul a b).symm⟩
end

/-- Kronecker product with row-major indices. -/
def kronF {d1 d2 : ℕ} (A : Matrix (Fin d1) (Fin d1) ℝ) (B : Matrix (Fin d2) (Fin d2) ℝ) : Matrix (Fin (d1 * d2)) (Fin (d1 * d2)) ℝ :=
  Matrix.of fun i j => A i.divNat j.divNat * B i.modNat j.modNat

section
variable {d1 d2 : ℕ}

theorem kronF_eq (A : Matrix (Fin d1) (Fin d1) ℝ) (B : Matrix (Fin d2) (Fin d2) ℝ) :
    kronF A B = (A ⊗ₖ B).submatrix finProdFinEquiv.symm finProdFinEquiv.symm := rfl

theorem kronF_one : kronF (1 : Matrix (Fin d1) (Fin d1) ℝ) (1 : Matrix (Fin d2) (Fin d2) ℝ) = 1 := by
  rw [kronF_eq, Matrix.one_kronecker_one, submatrix_one_equiv]

theorem kronF_mul (A C : Matrix (Fin d1) (Fin d1) ℝ) (B D : Matrix (Fin d2) (Fin d2) ℝ) : kronF A B * kronF C D = kronF (A * C) (B * D) := by
  rw [kronF_eq, kronF_eq, submatrix_mul_equiv, ← mul_kronecker_mul, kronF_eq]

theorem kronF_inv (A : Matrix (Fin d1) (Fin d1) ℝ) (B : Matrix (Fin d2) (Fin d2) ℝ) : (kronF A B)⁻¹ = kronF A⁻¹ B⁻¹ := by
  rw [kronF_eq, inv_submatrix_equiv, inv_kronecker, kronF_eq]

theorem exp_kronF_left (A : Matrix (Fin d1) (Fin d1) ℝ) :
    NormedSpace.exp (kronF A (1 : Matrix (Fin d2) (Fin d2) ℝ)) = kronF (NormedSpace.exp A) 1 := by
  rw [kronF_eq, exp_submatrix, exp_kron_one, kronF_eq]

theorem exp_kronF_right (A : Matrix (Fin d2) (Fin d2) ℝ) :
    NormedSpace.exp (kronF (1 : Matrix (Fin d1) (Fin d1) ℝ) A) = kronF 1 (NormedSpace.exp A) := by
  rw [kronF_eq, exp_submatrix, exp_one_kron, kronF_eq]

/-- `A ↦ A ⊗ 1` -/
def kronLeft (d1 d2 : ℕ) : Matrix (Fin d1) (Fin d1) ℝ →ₗ[ℝ] Matrix (Fin (d1 * d2)) (Fin (d1 * d2)) ℝ where
  toFun A := kronF A 1
  map_add' A B := by ext i j; simp [kronF, add_mul]
  map_smul' c A := by ext i j; simp [kronF, mul_assoc]

/-- `A ↦ 1 ⊗ A` -/
def kronRight (d1 d2 : ℕ) : Matrix (Fin d2) (Fin d2) ℝ →ₗ[ℝ] Matrix (Fin (d1 * d2)) (Fin (d1 * d2)) ℝ where
  toFun A := kronF 1 A
  map_add' A B := by ext i j; simp [kronF, mul_add]
  map_smul' c A := by ext i j; simp [kronF, mul_left_comm]

theorem kronLeft_apply (A : Matrix (Fin d1) (Fin d1) ℝ) : kronLeft d1 d2 A = kronF A 1 := rfl
theorem kronRight_apply (A : Matrix (Fin d2) (Fin d2) ℝ) : kronRight d1 d2 A = kronF 1 A := rfl

theorem exists_kron_index (i : Fin (d1 * d2)) : ∃ a b, ∃ ha : a < d1, ∃ hb : b < d2, i.val = a * d2 + b ∧ i.divNat = ⟨a, ha⟩ ∧ i.modNat = ⟨b, hb⟩ := by
  refine ⟨i.divNat, i.modNat, i.divNat.2, i.modNat.2, ?_, rfl, rfl⟩
  simp only [Fin.coe_divNat, Fin.coe_modNat]
  exact (Nat.div_add_mod' i.val d2).symm

theorem dense_kron {A B : LinOp ℝ} (hA : A.sem.IsSq d1) (hB : B.sem.IsSq d2) :
    denseGen (d1 * d2) (.kron [A, B]) = kronF (denseGen d1 A) (denseGen d2 B) := by
  ext i j
  obtain ⟨a, b, ha, hb, hi, hi1, hi2⟩ := exists_kron_index i
  obtain ⟨c, d, hc, hd, hj, hj1, hj2⟩ := exists_kron_index j
  simp only [denseGen, kronF, of_apply, hi1, hi2, hj1, hj2, hi, hj, LinOp.sem, LinOp.semL, DMat.kronL, DMat.kron_one]
  have := DMat.kron_e (A := A.sem) (B := B.sem) (i := a) (j := c) (i' := b) (j' := d) (by rw [hA.1]; exact ha) (by rw [hA.2]; exact hc)
    (by rw [hB.1]; exact hb) (by rw [hB.2]; exact hd)
  rw [hB.1, hB.2] at this
  exact this

theorem dense_kronsum {A B : LinOp ℝ} (hA : A.sem.IsSq d1) (hB : B.sem.IsSq d2) :
    denseGen (d1 * d2) (.kronsum [A, B]) = kronF (denseGen d1 A) 1 + kronF 1 (denseGen d2 B) := by
  ext i j
  obtain ⟨a, b, ha, hb, hi, hi1, hi2⟩ := exists_kron_index i
  obtain ⟨c, d, hc, hd, hj, hj1, hj2⟩ := exists_kron_index j
  have hB' : (DMat.kronsum B.sem (DMat.zero 1 1)) = B.sem := by
    refine DMat.ext (by simp) (by simp) ?_
    intro x y hx hy
    simp only [DMat.kronsum_rows, DMat.kronsum_cols, DMat.zero_rows, mul_one] at hx hy
    have := DMat.kronsum_e (A := B.sem) (B := DMat.zero 1 1) (m := d2) (n := 1) hB ⟨rfl, rfl⟩ (a := x) (b := 0) (c := y) (d := 0)
      (by rw [← hB.1]; exact hx) (by simp) (by rw [← hB.2]; exact hy) (by simp)
    simpa [DMat.zero_e] using this
  simp only [denseGen, kronF, of_apply, Matrix.add_apply, hi1, hi2, hj1, hj2, hi, hj, LinOp.sem, LinOp.semL, DMat.kronsumL, hB']
  rw [DMat.kronsum_e hA hB ha hb hc hd, hi1, hi2, hj1, hj2, one_apply, one_apply]
  simp only [Fin.ext_iff]

theorem dense_eye (d : ℕ) : denseGen d (.eye d) = 1 := by
  ext i j
  simp only [denseGen, of_apply, LinOp.sem]
  rw [DMat.one_e i.2 j.2, one_apply]
  simp only [Fin.ext_iff]

theorem dense_zero_eye (d : ℕ) : denseGen d (.smul 0 (.eye d)) = 0 := by
  ext i j
  simp only [denseGen, of_apply, LinOp.sem]
  simp [DMat.smul, DMat.of]

end

/-- C60, direct products: for groups whose generators have the right shapes, the group generated by `G1*G2`
consists of exactly the Kronecker products of elements of the two groups; in particular every sample is such a
product. -/
theorem C60_direct_product (d1 d2 : ℕ) (G1 G2 : Grp) (h1 : ∀ A ∈ G1.lie ++ G1.disc, A.sem.IsSq d1)
    (h2 : ∀ A ∈ G2.lie ++ G2.disc, A.sem.IsSq d2) :
    ∃ G, directProductGroup d1 d2 G1 G2 = .ok G ∧
    (G1.lie ++ G1.disc ++ (G2.lie ++ G2.disc) ≠ [] → G.d = some (d1 * d2)) ∧
    (∀ g, Generated (G.lie.map (denseGen (d1 * d2))) (G.disc.map (denseGen (d1 * d2))) g ↔
      ∃ g1 g2, Generated (G1.lie.map (denseGen d1)) (G1.disc.map (denseGen d1)) g1 ∧
        Generated (G2.lie.map (denseGen d2)) (G2.disc.map (denseGen d2)) g2 ∧
        g = Matrix.of fun i j => g1 i.divNat j.divNat * g2 i.modNat j.modNat) ∧
    ∀ (z : List ℝ) (ks : List (List ℤ)) (orders : List (List ℕ)), (∀ o ∈ orders, ∀ i ∈ o, i < G.disc.length) →
      ∃ g1 g2, Generated (G1.lie.map (denseGen d1)) (G1.disc.map (denseGen d1)) g1 ∧
        Generated (G2.lie.map (denseGen d2)) (G2.disc.map (denseGen d2)) g2 ∧
        noise2sample z ks (G.lie.map (denseGen (d1 * d2))) (G.disc.map (denseGen (d1 * d2))) orders =
          Matrix.of fun i j => g1 i.divNat j.divNat * g2 i.modNat j.modNat := by
  have hI : ∀ d, (LinOp.eye (R := ℝ) d).sem.IsSq d := fun d => ⟨rfl, rfl⟩
  have hZ : ∀ d, (LinOp.smul (R := ℝ) 0 (.eye d)).sem.IsSq d := fun d => ⟨rfl, rfl⟩
  have kl : ∀ A ∈ G1.lie, denseGen (d1 * d2) (.kronsum [A, .smul 0 (.eye d2)]) = kronF (denseGen d1 A) 1 := fun A hA => by
    rw [dense_kronsum (h1 A (by simp [hA])) (hZ d2), dense_zero_eye]
    ext i j
    simp [kronF]
  have kr : ∀ A ∈ G2.lie, denseGen (d1 * d2) (.kronsum [.smul 0 (.eye d1), A]) = kronF 1 (denseGen d2 A) := fun A hA => by
    rw [dense_kronsum (hZ d1) (h2 A (by simp [hA])), dense_zero_eye]
    ext i j
    simp [kronF]
  have ml : ∀ A ∈ G1.disc, denseGen (d1 * d2) (.kron [A, .eye d2]) = kronF (denseGen d1 A) 1 := fun A hA => by
    rw [dense_kron (h1 A (by simp [hA])) (hI d2), dense_eye]
  have mr : ∀ A ∈ G2.disc, denseGen (d1 * d2) (.kron [.eye d1, A]) = kronF 1 (denseGen d2 A) := fun A hA => by
    rw [dense_kron (hI d1) (h2 A (by simp [hA])), dense_eye]
  rw [directProductGroup, groupInit_eq, if_neg (by simp)]
  refine ⟨_, rfl, ?_⟩
  simp only [Option.getD_some]
  have key : ∀ g, Generated ((G1.lie.map (fun A => LinOp.kronsum [A, .smul 0 (.eye d2)]) ++ G2.lie.map (fun A => LinOp.kronsum [.smul 0 (.eye d1), A])).map (denseGen (d1 * d2)))
      ((G1.disc.map (fun M => LinOp.kron [M, .eye d2]) ++ G2.disc.map (fun M => LinOp.kron [.eye d1, M])).map (denseGen (d1 * d2))) g ↔
      ∃ g1 g2, Generated (G1.lie.map (denseGen d1)) (G1.disc.map (denseGen d1)) g1 ∧
        Generated (G2.lie.map (denseGen d2)) (G2.disc.map (denseGen d2)) g2 ∧ g = kronF g1 g2 := by
    intro g
    constructor
    · intro hg
      induction hg with
      | one => exact ⟨1, 1, .one, .one, kronF_one.symm⟩
      | exp hA =>
        rename_i A
        have : ∃ B ∈ Submodule.span ℝ {B | B ∈ G1.lie.map (denseGen d1)}, ∃ C ∈ Submodule.span ℝ {B | B ∈ G2.lie.map (denseGen d2)},
            kronF B 1 + kronF 1 C = A := by
          have hsup : A ∈ Submodule.map (kronLeft d1 d2) (Submodule.span ℝ {B | B ∈ G1.lie.map (denseGen d1)}) ⊔
              Submodule.map (kronRight d1 d2) (Submodule.span ℝ {B | B ∈ G2.lie.map (denseGen d2)}) := by
            rw [Submodule.map_span, Submodule.map_span, ← Submodule.span_union]
            refine Submodule.span_mono ?_ hA
            intro X hX
            simp only [Set.mem_setOf_eq, mem_map, mem_append] at hX
            obtain ⟨Y, ⟨A, hA, rfl⟩ | ⟨A, hA, rfl⟩, rfl⟩ := hX
            · exact .inl ⟨_, mem_map_of_mem hA, (kl A hA).symm⟩
            · exact .inr ⟨_, mem_map_of_mem hA, (kr A hA).symm⟩
          obtain ⟨_, ⟨B, hB, rfl⟩, _, ⟨C, hC, rfl⟩, e⟩ := Submodule.mem_sup.1 hsup
          exact ⟨B, hB, C, hC, e⟩
        obtain ⟨B, hB, C, hC, rfl⟩ := this
        refine ⟨_, _, .exp hB, .exp hC, ?_⟩
        rw [kronF_eq, kronF_eq, kronF_eq, ← exp_kronsum, ← exp_submatrix]
        rfl
      | gen h =>
        obtain ⟨Y, hY, rfl⟩ := mem_map.1 h
        rcases mem_append.1 hY with hY | hY <;> obtain ⟨A, hA, rfl⟩ := mem_map.1 hY
        · exact ⟨_, 1, .gen (mem_map_of_mem hA), .one, ml A hA⟩
        · exact ⟨1, _, .one, .gen (mem_map_of_mem hA), mr A hA⟩
      | inv h =>
        obtain ⟨Y, hY, rfl⟩ := mem_map.1 h
        rcases mem_append.1 hY with hY | hY <;> obtain ⟨A, hA, rfl⟩ := mem_map.1 hY
        · exact ⟨_, 1, .inv (mem_map_of_mem hA), .one, by rw [ml A hA, kronF_inv, inv_one]⟩
        · exact ⟨1, _, .one, .inv (mem_map_of_mem hA), by rw [mr A hA, kronF_inv, inv_one]⟩
      | mul _ _ ih1 ih2 =>
        obtain ⟨a, b, ha, hb, rfl⟩ := ih1
        obtain ⟨c, d, hc, hd, rfl⟩ := ih2
        exact ⟨a * c, b * d, .mul ha hc, .mul hb hd, kronF_mul _ _ _ _⟩
    · rintro ⟨g1, g2, hg1, hg2, rfl⟩
      have e : kronF g1 g2 = kronF g1 1 * kronF 1 g2 := by rw [kronF_mul, mul_one, one_mul]
      rw [e]
      refine .mul (Generated.map (φ := fun A => kronF A 1) (ψ := kronLeft d1 d2) kronF_one (fun A B => by rw [kronF_mul, mul_one])
        (fun A => exp_kronF_left A) (fun h _ => by rw [kronF_inv, inv_one]) ?_ ?_ hg1)
        (Generated.map (φ := fun A => kronF 1 A) (ψ := kronRight d1 d2) kronF_one (fun A B => by rw [kronF_mul, mul_one])
        (fun A => exp_kronF_right A) (fun h _ => by rw [kronF_inv, inv_one]) ?_ ?_ hg2)
      · intro A hA
        obtain ⟨B, hB, rfl⟩ := mem_map.1 hA
        exact mem_map.2 ⟨_, mem_append_left _ (mem_map_of_mem hB), kl B hB⟩
      · intro A hA
        obtain ⟨B, hB, rfl⟩ := mem_map.1 hA
        exact mem_map.2 ⟨_, mem_append_left _ (mem_map_of_mem hB), ml B hB⟩
      · intro A hA
        obtain ⟨B, hB, rfl⟩ := mem_map.1 hA
        exact mem_map.2 ⟨_, mem_append_right _ (mem_map_of_mem hB), kr B hB⟩
      · intro A hA
        obtain ⟨B, hB, rfl⟩ := mem_map.1 hA
        exact mem_map.2 ⟨_, mem_append_right _ (mem_map_of_mem hB), mr B hB⟩
  refine ⟨?_, key, fun z ks orders ho => (key _).1 (sample_generated z ks orders fun o ho' i hi => by rw [length_map]; exact ho o ho' i hi)⟩
  intro hne
  have hcol : ∀ X, (∃ A ∈ G1.lie, X = LinOp.kronsum [A, .smul 0 (.eye d2)]) ∨ (∃ A ∈ G2.lie, X = .kronsum [.smul 0 (.eye d1), A]) ∨
      (∃ A ∈ G1.disc, X = .kron [A, .eye d2]) ∨ (∃ A ∈ G2.disc, X = .kron [.eye d1, A]) → X.sem.cols = d1 * d2 := by
    rintro X (⟨A, hA, rfl⟩ | ⟨A, hA, rfl⟩ | ⟨A, hA, rfl⟩ | ⟨A, hA, rfl⟩)
    · simp [LinOp.sem, LinOp.semL, DMat.kronsumL, (h1 A (by simp [hA])).2, DMat.smul]
    · simp [LinOp.sem, LinOp.semL, DMat.kronsumL, (h2 A (by simp [hA])).1, DMat.smul]
    · simp [LinOp.sem, LinOp.semL, DMat.kronL, (h1 A (by simp [hA])).2]
    · simp [LinOp.sem, LinOp.semL, DMat.kronL, (h2 A (by simp [hA])).2]
  cases hd1 : G1.disc with
  | cons M t => simp only [map_cons, cons_append, groupDim]; exact congrArg some (hcol _ (.inr (.inr (.inl ⟨M, by simp [hd1], rfl⟩))))
  | nil =>
    cases hd2 : G2.disc with
    | cons M t => simp only [map_cons, map_nil, nil_append, groupDim]; exact congrArg some (hcol _ (.inr (.inr (.inr ⟨M, by simp [hd2], rfl⟩))))
    | nil =>
      cases hl1 : G1.lie with
      | cons M t => simp only [map_cons, map_nil, nil_append, cons_append, groupDim]; exact congrArg some (hcol _ (.inl ⟨M, by simp [hl1], rfl⟩))
      | nil =>
        cases hl2 : G2.lie with
        | cons M t => simp only [map_cons, map_nil, nil_append, groupDim]; exact congrArg some (hcol _ (.inr (.inl ⟨M, by simp [hl2], rfl⟩)))
        | nil => simp [hd1, hd2, hl1, hl2] at hne

/-- Non-vacuity: the rotations of the plane times the shifts of three points. -/
example : ∃ G1 G2 : Grp, G1.lie ≠ [] ∧ G2.disc ≠ [] ∧ (∀ A ∈ G1.lie ++ G1.disc, A.sem.IsSq 2) ∧ (∀ A ∈ G2.lie ++ G2.disc, A.sem.IsSq 3) :=
  ⟨⟨some 2, [ofMatrix !![0, 1; -1, 0]], [], true, some false⟩, ⟨some 3, [], [.shift 3 1], true, some true⟩, by simp, by simp,
    by simp [ofMatrix, LinOp.sem, DMat.IsSq], by simp [LinOp.sem, DMat.IsSq, DMat.shiftMat]⟩

/-- `blockAt` with zeros elsewhere is linear. -/
noncomputable def blockLin {d1 d : ℕ} (f : Fin d1 → Fin d) (hf : Function.Injective f) : Matrix (Fin d1) (Fin d1) ℝ →ₗ[ℝ] Matrix (Fin d) (Fin d) ℝ where
  toFun A := blockAt f 0 A
  map_add' A B := (blockAt_ext hf (fun a b => by simp [blockAt_in hf]) (fun i hi j => by simp [blockAt_off (0 : ℝ) _ hi])
    (fun j hj i => by simp [blockAt_off' (0 : ℝ) _ hj])).symm
  map_smul' c A := (blockAt_ext hf (fun a b => by simp [blockAt_in hf]) (fun i hi j => by simp [blockAt_off (0 : ℝ) _ hi])
    (fun j hj i => by simp [blockAt_off' (0 : ℝ) _ hj])).symm

theorem dense_embed {d1 d : ℕ} {idx : List ℕ} (hl : idx.length = d1) (hlt : ∀ i ∈ idx, i < d) (hn : idx.Nodup) (B : ℕ → ℕ → ℝ) (c : ℝ)
    (hB : ∀ i j, B i j = if i = j then c else 0) (A : LinOp ℝ) :
    denseGen d (.lazy (embedMat d idx B A.sem)) =
      blockAt (fun a : Fin d1 => (⟨idx[a.val]'(by rw [hl]; exact a.2), hlt _ (getElem_mem _)⟩ : Fin d)) c (denseGen d1 A) := by
  have hout : ∀ i : Fin d, (∀ a : Fin d1, (⟨idx[a.val]'(by rw [hl]; exact a.2), hlt _ (getElem_mem _)⟩ : Fin d) ≠ i) → i.val ∉ idx := by
    intro i hi hmem
    obtain ⟨k, hk, e⟩ := getElem_of_mem hmem
    exact hi ⟨k, by rw [← hl]; exact hk⟩ (Fin.ext e)
  refine blockAt_ext ?_ ?_ ?_ ?_
  · intro a b h
    rw [Fin.ext_iff] at h
    exact Fin.ext (hn.getElem_inj_iff.1 h)
  · intro a b
    simp only [denseGen, of_apply, LinOp.sem, embedMat]
    rw [DMat.of_e (hlt _ (getElem_mem _)) (hlt _ (getElem_mem _)), if_pos ⟨getElem_mem _, getElem_mem _⟩, hn.idxOf_getElem, hn.idxOf_getElem]
  · intro i hi j
    simp only [denseGen, of_apply, LinOp.sem, embedMat]
    rw [DMat.of_e i.2 j.2, if_neg (fun h => hout i hi h.1), hB]
    simp only [Fin.ext_iff]
  · intro j hj i
    simp only [denseGen, of_apply, LinOp.sem, embedMat]
    rw [DMat.of_e i.2 j.2, if_neg (fun h => hout j hj h.2), hB]
    simp only [Fin.ext_iff]

/-- C60, embeddings: for a group of dimension `d1` with invertible discrete generators and a slice selecting `d1`
distinct coordinates `idx` below `d`, the group generated by `Embed(G,d,slice)` consists of exactly the matrices acting
as an element of `G` on the selected coordinates and as the identity on the others; so does every sample. -/
theorem C60_embed (d1 d : ℕ) (G0 : Grp) (idx : List ℕ) (hl : idx.length = d1) (hlt : ∀ i ∈ idx, i < d) (hn : idx.Nodup)
    (hinv : ∀ h ∈ G0.disc, IsUnit (denseGen d1 h).det) :
    ∃ G, embedGroup d1 G0 d idx = .ok G ∧ (G0.lie ++ G0.disc ≠ [] → G.d = some d) ∧
    (∀ g, Generated (G.lie.map (denseGen d)) (G.disc.map (denseGen d)) g ↔
      ∃ g0, Generated (G0.lie.map (denseGen d1)) (G0.disc.map (denseGen d1)) g0 ∧
        (∀ a b : Fin d1, g ⟨idx[a.val]'(by rw [hl]; exact a.2), hlt _ (getElem_mem _)⟩ ⟨idx[b.val]'(by rw [hl]; exact b.2), hlt _ (getElem_mem _)⟩ = g0 a b) ∧
        ∀ i j : Fin d, i.val ∉ idx ∨ j.val ∉ idx → g i j = if i = j then 1 else 0) ∧
    ∀ (z : List ℝ) (ks : List (List ℤ)) (orders : List (List ℕ)), (∀ o ∈ orders, ∀ i ∈ o, i < G.disc.length) →
      Generated (G.lie.map (denseGen d)) (G.disc.map (denseGen d))
        (noise2sample z ks (G.lie.map (denseGen d)) (G.disc.map (denseGen d)) orders) := by
  obtain ⟨f, hfe⟩ : ∃ f : Fin d1 → Fin d, f = fun a : Fin d1 => (⟨idx[a.val]'(by rw [hl]; exact a.2), hlt _ (getElem_mem _)⟩ : Fin d) := ⟨_, rfl⟩
  have hfi : Function.Injective f := by
    intro a b h
    rw [hfe, Fin.ext_iff] at h
    exact Fin.ext (hn.getElem_inj_iff.1 h)
  have hin : ∀ i : Fin d, i.val ∈ idx ↔ ∃ a, f a = i := by
    intro i
    constructor
    · intro h
      obtain ⟨k, hk, e⟩ := getElem_of_mem h
      exact ⟨⟨k, by rw [← hl]; exact hk⟩, by rw [hfe]; exact Fin.ext e⟩
    · rintro ⟨a, rfl⟩
      rw [hfe]
      exact getElem_mem _
  have e1 : ∀ A : LinOp ℝ, denseGen d (.lazy (embedMat d idx (fun _ _ => 0) A.sem)) = blockAt f 0 (denseGen d1 A) := fun A => by
    rw [hfe]
    exact dense_embed hl hlt hn _ 0 (by simp) A
  have e2 : ∀ A : LinOp ℝ, denseGen d (.lazy (embedMat d idx (fun i j => if i = j then 1 else 0) A.sem)) = blockAt f 1 (denseGen d1 A) := fun A => by
    rw [hfe]
    exact dense_embed hl hlt hn _ 1 (fun i j => rfl) A
  rw [embedGroup, if_neg (by simpa using hl)]
  refine ⟨_, (groupInit_eq _ _ _).trans (if_neg (by simp)), ?_, ?_, ?_⟩
  · intro hne
    simp only [groupDim]
    cases hd : G0.disc with
    | cons h t => rfl
    | nil =>
      cases hl : G0.lie with
      | cons h t => rfl
      | nil => simp [hd, hl] at hne
  · simp only [Option.getD_some, List.map_map]
    have hi : ∀ h ∈ G0.disc.map (denseGen d1), (blockAt f 1 h)⁻¹ = blockAt f 1 h⁻¹ := by
      intro h hh
      obtain ⟨X, hX, rfl⟩ := mem_map.1 hh
      refine inv_eq_left_inv ?_
      rw [blockAt_mul hfi, Matrix.nonsing_inv_mul _ (hinv X hX), mul_one, ← blockAt_one hfi]
    have hmul : ∀ A B, blockAt f 1 (A * B) = blockAt f 1 A * blockAt f (1 : ℝ) B := fun A B => by rw [blockAt_mul hfi, mul_one]
    intro g
    have hchar : ∀ g0, ((∀ a b : Fin d1, g (f a) (f b) = g0 a b) ∧ ∀ i j : Fin d, i.val ∉ idx ∨ j.val ∉ idx → g i j = if i = j then 1 else 0) ↔
        g = blockAt f 1 g0 := by
      intro g0
      constructor
      · rintro ⟨h1, h2⟩
        exact blockAt_ext hfi h1 (fun i hi j => h2 i j (.inl fun h => by obtain ⟨a, ha⟩ := (hin i).1 h; exact hi a ha))
          (fun j hj i => h2 i j (.inr fun h => by obtain ⟨a, ha⟩ := (hin j).1 h; exact hj a ha))
      · rintro rfl
        refine ⟨fun a b => blockAt_in hfi _ _ _ _, ?_⟩
        rintro i j (h | h)
        · exact blockAt_off _ _ (fun a ha => h ((hin i).2 ⟨a, ha⟩)) j
        · exact blockAt_off' _ _ (fun a ha => h ((hin j).2 ⟨a, ha⟩)) i
    have : ∀ g0, ((∀ a b : Fin d1, g ⟨idx[a.val]'(by rw [hl]; exact a.2), hlt _ (getElem_mem _)⟩ ⟨idx[b.val]'(by rw [hl]; exact b.2), hlt _ (getElem_mem _)⟩ = g0 a b) ∧
        ∀ i j : Fin d, i.val ∉ idx ∨ j.val ∉ idx → g i j = if i = j then 1 else 0) ↔ g = blockAt f 1 g0 := fun g0 => by
      rw [← hchar g0, hfe]
    simp only [this]
    constructor
    · intro hg
      refine Generated.comap (ψ := blockLin f hfi) (blockAt_one hfi).symm hmul (fun A => exp_blockAt hfi A) hi ?_ ?_ hg
      · intro A hA
        obtain ⟨B, hB, rfl⟩ := mem_map.1 hA
        exact ⟨_, mem_map_of_mem hB, e1 B⟩
      · intro A hA
        obtain ⟨B, hB, rfl⟩ := mem_map.1 hA
        exact ⟨_, mem_map_of_mem hB, e2 B⟩
    · rintro ⟨g0, hg0, rfl⟩
      refine Generated.map (ψ := blockLin f hfi) (blockAt_one hfi).symm hmul (fun A => exp_blockAt hfi A) hi ?_ ?_ hg0
      · intro A hA
        obtain ⟨B, hB, rfl⟩ := mem_map.1 hA
        exact mem_map.2 ⟨B, hB, e1 B⟩
      · intro A hA
        obtain ⟨B, hB, rfl⟩ := mem_map.1 hA
        exact mem_map.2 ⟨B, hB, e2 B⟩
  · intro z ks orders ho
    exact sample_generated z ks orders fun o ho' i hi => by rw [length_map]; exact ho o ho' i hi

/-- Non-vacuity: `O2eR3()`. -/
example : ∃ G0 : Grp, G0.lie ≠ [] ∧ G0.disc ≠ [] ∧ ∀ h ∈ G0.disc, IsUnit (denseGen 2 h).det :=
  ⟨⟨some 2, [ofMatrix !![0, -1; 1, 0]], [ofMatrix !![-1, 0; 0, 1]], true, some false⟩, by simp, by simp, by
    simp only [mem_singleton, forall_eq, dense_ofMatrix, det_fin_two_of]
    norm_num⟩

end Verif
