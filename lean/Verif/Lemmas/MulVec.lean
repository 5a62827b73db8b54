import Verif.Lemmas.DenseRing
import Verif.Lemmas.Conj
import Verif.Spec.Flat
import Mathlib.Data.List.GetD

/-! Matrices acting on vectors. -/
namespace Verif
open List

namespace DMat
variable {R : Type} [CommRing R]

@[simp] theorem length_mulVec (A : DMat R) (v : List R) : (A.mulVec v).length = A.rows := by simp [mulVec]

theorem getD_mulVec {A : DMat R} {v : List R} {i : ℕ} (hi : i < A.rows) :
    (A.mulVec v).getD i 0 = ∑ j ∈ Finset.range A.cols, A.e i j * v.getD j 0 := by
  unfold mulVec
  rw [getD_eq_getElem _ _ (by simpa)]; simp

theorem vec_ext {v w : List R} (hl : v.length = w.length) (h : ∀ i < v.length, v.getD i 0 = w.getD i 0) : v = w := by
  apply ext_getElem hl
  intro i h1 h2
  have := h i h1
  rwa [getD_eq_getElem _ _ h1, getD_eq_getElem _ _ h2] at this

theorem mulVec_mul (A B : DMat R) (v : List R) (h : A.cols = B.rows) : (A.mul B).mulVec v = A.mulVec (B.mulVec v) := by
  apply vec_ext (by simp)
  intro i hi
  simp only [length_mulVec, mul_rows] at hi
  rw [getD_mulVec (by simpa), getD_mulVec hi, mul_cols]
  rw [Finset.sum_congr rfl fun j hj => by rw [mul_e hi (Finset.mem_range.1 hj), Finset.sum_mul]]
  rw [Finset.sum_comm, h]
  refine Finset.sum_congr rfl fun k hk => ?_
  rw [getD_mulVec (Finset.mem_range.1 hk), Finset.mul_sum]
  exact Finset.sum_congr rfl fun j _ => by ring

theorem mulVec_one {n : ℕ} (v : List R) (h : v.length = n) : (one n : DMat R).mulVec v = v := by
  apply vec_ext (by simpa using h.symm)
  intro i hi
  simp only [length_mulVec, one_rows] at hi
  rw [getD_mulVec (by simpa), one_cols]
  rw [Finset.sum_congr rfl fun j hj => by rw [one_e hi (Finset.mem_range.1 hj)]]
  simp [hi]

theorem mulVec_bdiag2 (A B : DMat R) (v w : List R) (hv : v.length = A.cols) :
    (bdiag2 A B).mulVec (v ++ w) = A.mulVec v ++ B.mulVec w := by
  apply vec_ext (by simp)
  intro i hi
  simp only [length_mulVec, bdiag2_rows] at hi
  rw [getD_mulVec (by simpa), bdiag2_cols, Finset.sum_range_add]
  have e1 : ∀ j ∈ Finset.range A.cols, (v ++ w).getD j 0 = v.getD j 0 := fun j hj => by
    rw [getD_append]; rw [hv]; exact Finset.mem_range.1 hj
  have e2 : ∀ j, (v ++ w).getD (A.cols + j) 0 = w.getD j 0 := fun j => by
    rw [getD_append_right _ _ _ _ (by omega), hv]; congr 1; omega
  rw [Finset.sum_congr rfl fun j hj => by rw [e1 j hj]]
  simp only [e2]
  rcases lt_or_ge i A.rows with h | h
  · rw [getD_append _ _ _ _ (by simpa), getD_mulVec h]
    rw [Finset.sum_congr rfl fun j hj => by rw [bdiag2_e11 h (Finset.mem_range.1 hj)]]
    rw [Finset.sum_congr (s₁ := Finset.range B.cols) rfl fun j _ => by rw [bdiag2_e12 (j := A.cols + j) h (by omega), zero_mul]]
    simp
  · rw [getD_append_right _ _ _ _ (by simpa), length_mulVec, getD_mulVec (by omega)]
    rw [Finset.sum_congr rfl fun j hj => by rw [bdiag2_e21 h (Finset.mem_range.1 hj), zero_mul]]
    rw [Finset.sum_congr (s₁ := Finset.range B.cols) rfl fun j _ => by
      rw [bdiag2_e22 (j := A.cols + j) h (by omega), show A.cols + j - A.cols = j by omega]]
    simp

/-- A block-diagonal matrix acts on concatenated vectors blockwise. -/
theorem mulVec_bdiag {ι : Type} (l : List ι) (A : ι → DMat R) (v : ι → List R) (h : ∀ x ∈ l, (v x).length = (A x).cols) :
    (bdiag (l.map A)).mulVec (l.flatMap v) = l.flatMap fun x => (A x).mulVec (v x) := by
  induction l with
  | nil => rfl
  | cons a t ih =>
    simp only [map_cons, bdiag, flatMap_cons]
    rw [mulVec_bdiag2 _ _ _ _ (h a (by simp)), ih fun x hx => h x (by simp [hx])]

theorem length_flat (M : DMat R) : M.flat.length = M.rows * M.cols := by simp [flat, length_flatMap]

theorem getD_flat (M : DMat R) {i j : ℕ} (hi : i < M.rows) (hj : j < M.cols) : M.flat.getD (i * M.cols + j) 0 = M.e i j := by
  have gen : ∀ (l : List ℕ) (i : ℕ) (hi : i < l.length),
      (l.flatMap fun i => (range M.cols).map fun j => M.e i j).getD (i * M.cols + j) 0 = M.e l[i] j := by
    intro l
    induction l with
    | nil => intro i hi; simp at hi
    | cons a t ih =>
      intro i hi
      rw [flatMap_cons]
      cases i with
      | zero =>
        rw [getD_append _ _ _ _ (by simpa), getD_eq_getElem _ _ (by simpa)]
        simp
      | succ i =>
        have e : (i + 1) * M.cols + j = M.cols + (i * M.cols + j) := by ring
        rw [getD_append_right _ _ _ _ (by simp; omega), e]
        simp only [length_map, length_range]
        rw [show M.cols + (i * M.cols + j) - M.cols = i * M.cols + j by omega, ih i (by simpa using hi)]
        simp
  have := gen (range M.rows) i (by simpa)
  simpa [flat] using this

/-- `(B ⊗ A) vec(M) = vec(B M Aᵀ)` for row-major flattening. -/
theorem kron_mulVec_flat (A B M : DMat R) (h1 : B.cols = M.rows) (h2 : A.cols = M.cols) :
    (kron B A).mulVec M.flat = ((B.mul M).mul A.transpose).flat := by
  have hl : ((kron B A).mulVec M.flat).length = B.rows * A.rows := by simp
  apply vec_ext (by rw [hl, length_flat]; simp)
  intro i hi
  rw [hl] at hi
  obtain ⟨a, b, ha, hb, rfl⟩ := exists_mul_add hi
  have hf := getD_flat ((B.mul M).mul A.transpose) (i := a) (j := b) (by simpa) (by simpa)
  simp only [mul_cols, transpose_cols] at hf
  rw [hf, getD_mulVec (by simpa using mul_add_lt ha hb), mul_e (by simpa) (by simpa), kron_cols, mul_cols, h1, h2]
  have hs : ∀ (m n : ℕ) (f : ℕ → R), ∑ j ∈ Finset.range (m * n), f j = ∑ p ∈ Finset.range m, ∑ q ∈ Finset.range n, f (p * n + q) := by
    intro m n f
    induction m with
    | zero => simp
    | succ m ih => rw [Finset.sum_range_succ, ← ih, Nat.succ_mul, Finset.sum_range_add]
  rw [hs]
  have e1 : ∀ p ∈ Finset.range M.rows, ∀ q ∈ Finset.range M.cols,
      (kron B A).e (a * A.rows + b) (p * M.cols + q) * M.flat.getD (p * M.cols + q) 0 = B.e a p * A.e b q * M.e p q := by
    intro p hp q hq
    have hp := Finset.mem_range.1 hp
    have hq := Finset.mem_range.1 hq
    rw [getD_flat M hp hq]
    have := kron_e (A := B) (B := A) (i := a) (j := p) (i' := b) (j' := q) ha (by omega) hb (by omega)
    rw [h2] at this
    rw [this]
  rw [Finset.sum_congr rfl fun p hp => Finset.sum_congr rfl fun q hq => e1 p hp q hq, Finset.sum_comm]
  refine Finset.sum_congr rfl fun q hq => ?_
  rw [mul_e ha (Finset.mem_range.1 hq), transpose_e, Finset.sum_mul, h1]
  exact Finset.sum_congr rfl fun p _ => by ring

theorem flat_inj {M N : DMat R} (hr : M.rows = N.rows) (hc : M.cols = N.cols) (h : M.flat = N.flat) : M = N := by
  refine ext hr hc fun i j hi hj => ?_
  rw [← getD_flat M hi hj, h, hc, getD_flat N (by omega) (by omega)]

end DMat
end Verif
