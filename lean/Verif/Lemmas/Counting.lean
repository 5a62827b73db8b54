import Verif.Lemmas.OrthoDim
import Verif.Lemmas.MulVec
import Verif.Lemmas.Kron
import Mathlib.LinearAlgebra.Matrix.ToLin

/-! # Counting the elements of a basis -/
namespace Verif
open List
variable {K : Type} [Field K] [StarRing K]

/-- `equivariant_basis()` has as many columns as the space it spans has dimensions. -/
theorem OrthoBasis.cols_finrank {E : Type} [AddCommGroup E] [Module K E] [FiniteDimensional K E] {n : ℕ} {Q : DMat K} {F : List K → Prop} (h : OrthoBasis n Q F)
    (L : E →ₗ[K] (Fin n → K)) (hL : Function.Injective L) (hF : ∀ v : Fin n → K, F (List.ofFn v) ↔ ∃ b, L b = v) : Q.cols = Module.finrank K E := by
  have e : (Fin (Module.finrank K E) → K) ≃ₗ[K] E := LinearEquiv.ofFinrankEq _ _ (by rw [Module.finrank_fin_fun])
  refine h.cols_eq (L.comp e.toLinearMap) (hL.comp e.injective) fun v => ?_
  rw [hF]
  constructor
  · rintro ⟨b, rfl⟩
    exact ⟨e.symm b, by simp⟩
  · rintro ⟨b, rfl⟩
    exact ⟨e b, rfl⟩

/-- The linear combinations of the columns. -/
theorem OrthoBasis.exists_map {n : ℕ} {Q : DMat K} {F : List K → Prop} (h : OrthoBasis n Q F) : ∃ L : (Fin Q.cols → K) →ₗ[K] (Fin n → K),
    Function.Injective L ∧ ∀ v : Fin n → K, F (List.ofFn v) ↔ ∃ b, L b = v := by
  obtain rfl := h.rows
  refine ⟨Q.lin', ?_, fun v => ?_⟩
  · intro a b hab
    have h1 : ∀ a : Fin Q.cols → K, Q.conjTranspose.mulVec (Q.mulVec (List.ofFn a)) = List.ofFn a := fun a => by
      rw [← DMat.mulVec_mul _ _ _ rfl, h.orth, DMat.mulVec_one _ (by simp)]
    have h2 := h1 a
    rw [DMat.lin'_ofFn, hab, ← DMat.lin'_ofFn, h1 b] at h2
    exact (List.ofFn_injective h2).symm
  · rw [h.span _ (by simp)]
    constructor
    · rintro ⟨a, ha, hv⟩
      refine ⟨fun j => a.getD j 0, List.ofFn_injective ?_⟩
      rw [← Q.lin'_ofFn, ← hv]
      congr 1
      exact List.ext_getElem (by simp [ha]) fun i h1 h2 => by simp [h2]
    · rintro ⟨a, rfl⟩
      exact ⟨List.ofFn a, by simp, Q.lin'_ofFn a⟩

/-- The number of elements is at most the dimension. -/
theorem OrthoBasis.cols_le {n : ℕ} {Q : DMat K} {F : List K → Prop} (h : OrthoBasis n Q F) : Q.cols ≤ n := by
  obtain ⟨L, hL, -⟩ := h.exists_map
  simpa using LinearMap.finrank_le_finrank_of_injective hL

/-- Fewer vectors, fewer elements of the basis. -/
theorem OrthoBasis.cols_mono {n : ℕ} {Q Q' : DMat K} {F F' : List K → Prop} (h : OrthoBasis n Q F) (h' : OrthoBasis n Q' F')
    (hF : ∀ v : Fin n → K, F (List.ofFn v) → F' (List.ofFn v)) : Q.cols ≤ Q'.cols := by
  obtain ⟨L, hL, hv⟩ := h.exists_map
  obtain ⟨L', hL', hv'⟩ := h'.exists_map
  have h1 : LinearMap.range L ≤ LinearMap.range L' := by
    rintro v ⟨b, rfl⟩
    exact (hv' _).1 (hF _ ((hv _).2 ⟨b, rfl⟩))
  have h2 := Submodule.finrank_mono h1
  rw [LinearMap.finrank_range_of_inj hL, LinearMap.finrank_range_of_inj hL'] at h2
  simpa using h2

/-- A one-to-one correspondence keeps the number of elements. -/
theorem OrthoBasis.cols_equiv {n n' : ℕ} {Q Q' : DMat K} {F F' : List K → Prop} (h : OrthoBasis n Q F) (h' : OrthoBasis n' Q' F')
    (T : (Fin n → K) ≃ₗ[K] (Fin n' → K)) (hF : ∀ v : Fin n → K, F (List.ofFn v) ↔ F' (List.ofFn (T v))) : Q.cols = Q'.cols := by
  obtain ⟨L', hL', hv'⟩ := h'.exists_map
  refine h.cols_eq (T.symm.toLinearMap.comp L') (T.symm.injective.comp hL') fun v => ?_
  rw [hF, hv']
  constructor
  · rintro ⟨b, hb⟩
    exact ⟨b, by rw [LinearMap.comp_apply, hb]; simp⟩
  · rintro ⟨b, rfl⟩
    exact ⟨b, by simp⟩

/-- Pairs of vectors of two spaces: the numbers of elements add up. -/
theorem OrthoBasis.cols_prod {n n1 n2 : ℕ} {Q Q1 Q2 : DMat K} {F F1 F2 : List K → Prop} (h : OrthoBasis n Q F) (h1 : OrthoBasis n1 Q1 F1) (h2 : OrthoBasis n2 Q2 F2)
    (T : (Fin n → K) ≃ₗ[K] (Fin n1 → K) × (Fin n2 → K)) (hF : ∀ v : Fin n → K, F (List.ofFn v) ↔ F1 (List.ofFn (T v).1) ∧ F2 (List.ofFn (T v).2)) :
    Q.cols = Q1.cols + Q2.cols := by
  obtain ⟨L1, i1, e1⟩ := h1.exists_map
  obtain ⟨L2, i2, e2⟩ := h2.exists_map
  have := h.cols_finrank (T.symm.toLinearMap.comp (L1.prodMap L2)) (T.symm.injective.comp (Prod.map_injective.2 ⟨i1, i2⟩)) fun v => ?_
  · simpa using this
  rw [hF, e1, e2]
  constructor
  · rintro ⟨⟨b, hb⟩, c, hc⟩
    refine ⟨(b, c), ?_⟩
    rw [LinearMap.comp_apply, LinearMap.prodMap_apply, hb, hc]
    simp
  · rintro ⟨b, rfl⟩
    exact ⟨⟨b.1, by simp⟩, b.2, by simp⟩

/-- Splitting a vector. -/
def splitFin (m n : ℕ) : (Fin (m + n) → K) ≃ₗ[K] (Fin m → K) × (Fin n → K) :=
  (LinearEquiv.funCongrLeft K K finSumFinEquiv).trans (LinearEquiv.sumArrowLequivProdArrow _ _ K K)

theorem ofFn_splitFin {m n : ℕ} (v : Fin (m + n) → K) : List.ofFn v = List.ofFn (splitFin m n v).1 ++ List.ofFn (splitFin m n v).2 := by
  rw [List.ofFn_add]
  rfl

/-- Transposing a matrix in flat form. -/
def swapFin (m n : ℕ) : (Fin (m * n) → K) ≃ₗ[K] (Fin (n * m) → K) :=
  LinearEquiv.funCongrLeft K K ((finProdFinEquiv.symm.trans (Equiv.prodComm (Fin n) (Fin m))).trans finProdFinEquiv)

/-- The matrix with the given entries. -/
def matFin (m n : ℕ) (v : Fin (m * n) → K) : DMat K := DMat.of m n fun i j => (List.ofFn v).getD (i * n + j) 0

theorem matFin_flat {m n : ℕ} (v : Fin (m * n) → K) : (matFin m n v).flat = List.ofFn v := by
  refine DMat.vec_ext (by rw [DMat.length_flat]; simp [matFin, DMat.of]) fun i hi => ?_
  rw [DMat.length_flat] at hi
  obtain ⟨a, b, ha, hb, rfl⟩ := exists_mul_add hi
  rw [DMat.getD_flat _ ha hb]
  exact DMat.of_e ha hb

theorem matFin_swap {m n : ℕ} (v : Fin (m * n) → K) : matFin n m (swapFin m n v) = (matFin m n v).transpose := by
  refine DMat.ext rfl rfl fun i j hi hj => ?_
  have hi : i < n := hi
  have hj : j < m := hj
  rw [DMat.transpose_e, matFin, matFin, DMat.of_e hi hj, DMat.of_e hj hi, getD_eq_getElem _ _ (by simpa using mul_add_lt hi hj),
    getD_eq_getElem _ _ (by simpa using mul_add_lt hj hi), List.getElem_ofFn, List.getElem_ofFn]
  show v _ = v _
  congr 1
  have : (⟨i * m + j, mul_add_lt hi hj⟩ : Fin (n * m)) = finProdFinEquiv (⟨i, hi⟩, ⟨j, hj⟩) := by
    ext; simp [finProdFinEquiv]; ring
  simp only [Equiv.trans_apply]
  rw [this, Equiv.symm_apply_apply]
  ext; simp [finProdFinEquiv]; ring

theorem DMat.kron_bdiag2 (X Y Z : DMat K) : DMat.kron (DMat.bdiag2 X Y) Z = DMat.bdiag2 (DMat.kron X Z) (DMat.kron Y Z) := by
  refine DMat.ext (by simp [add_mul]) (by simp [add_mul]) fun i j hi hj => ?_
  simp only [DMat.kron_rows, DMat.kron_cols, DMat.bdiag2_rows, DMat.bdiag2_cols] at hi hj
  obtain ⟨a, b, ha, hb, rfl⟩ := exists_mul_add hi
  obtain ⟨c, d, hc, hd, rfl⟩ := exists_mul_add hj
  rw [DMat.kron_e (by simpa) (by simpa) hb hd]
  have ge : ∀ {x y n m : ℕ}, n ≤ x → n * m ≤ x * m + y := fun h => (Nat.mul_le_mul_right _ h).trans (Nat.le_add_right _ _)
  by_cases h1 : a < X.rows
  · have h1' := mul_add_lt h1 hb
    by_cases h2 : c < X.cols
    · rw [DMat.bdiag2_e11 h1 h2, DMat.bdiag2_e11 (by simpa using h1') (by simpa using mul_add_lt h2 hd), DMat.kron_e h1 h2 hb hd]
    · rw [DMat.bdiag2_e12 h1 (not_lt.1 h2), DMat.bdiag2_e12 (by simpa using h1') (by simpa using ge (not_lt.1 h2)), zero_mul]
  · by_cases h2 : c < X.cols
    · rw [DMat.bdiag2_e21 (not_lt.1 h1) h2, DMat.bdiag2_e21 (by simpa using ge (not_lt.1 h1)) (by simpa using mul_add_lt h2 hd), zero_mul]
    · rw [DMat.bdiag2_e22 (not_lt.1 h1) (not_lt.1 h2), DMat.bdiag2_e22 (by simpa using ge (not_lt.1 h1)) (by simpa using ge (not_lt.1 h2))]
      obtain ⟨a', rfl⟩ := Nat.exists_eq_add_of_le (not_lt.1 h1)
      obtain ⟨c', rfl⟩ := Nat.exists_eq_add_of_le (not_lt.1 h2)
      rw [DMat.kron_rows, DMat.kron_cols, show (X.rows + a') * Z.rows + b - X.rows * Z.rows = a' * Z.rows + b by rw [add_mul]; omega,
        show (X.cols + c') * Z.cols + d - X.cols * Z.cols = c' * Z.cols + d by rw [add_mul]; omega, DMat.kron_e (by omega) (by omega) hb hd]
      congr 2 <;> omega

end Verif
