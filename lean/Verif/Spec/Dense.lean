import Mathlib.Algebra.BigOperators.Group.Finset.Basic
import Mathlib.Algebra.BigOperators.Ring.Finset
import Mathlib.Algebra.Star.Basic
import Mathlib.Algebra.Order.BigOperators.Group.Finset
import Mathlib.Algebra.BigOperators.Intervals
import Mathlib.Tactic.Ring

/-!
# Dense matrices (specification)

Mathematical matrices with natural-number dimensions and entries `e i j` (zero outside).  All
representation-level properties are stated as equalities between such matrices.
-/
namespace Verif

/-- A `rows × cols` matrix over `R`; entries outside are `0` so that equality is entrywise. -/
structure DMat (R : Type*) [Zero R] where
  rows : ℕ
  cols : ℕ
  e : ℕ → ℕ → R
  out : ∀ i j, ¬ (i < rows ∧ j < cols) → e i j = 0

namespace DMat
section zero
variable {R : Type*} [Zero R]

/-- The `m × n` matrix with entries `f i j`. -/
def of (m n : ℕ) (f : ℕ → ℕ → R) : DMat R where
  rows := m
  cols := n
  e i j := if i < m ∧ j < n then f i j else 0
  out _ _ h := if_neg h

@[simp] theorem of_rows (m n : ℕ) (f : ℕ → ℕ → R) : (of m n f).rows = m := rfl
@[simp] theorem of_cols (m n : ℕ) (f : ℕ → ℕ → R) : (of m n f).cols = n := rfl

theorem of_e {m n : ℕ} {f : ℕ → ℕ → R} {i j : ℕ} (hi : i < m) (hj : j < n) : (of m n f).e i j = f i j :=
  if_pos ⟨hi, hj⟩

theorem ext {A B : DMat R} (hr : A.rows = B.rows) (hc : A.cols = B.cols)
    (h : ∀ i j, i < A.rows → j < A.cols → A.e i j = B.e i j) : A = B := by
  obtain ⟨r, c, e, o⟩ := A
  obtain ⟨r', c', e', o'⟩ := B
  simp only at hr hc h
  subst hr hc
  congr
  funext i j
  by_cases hij : i < r ∧ j < c
  · exact h i j hij.1 hij.2
  · rw [o i j hij, o' i j hij]

theorem of_congr {m n : ℕ} {f g : ℕ → ℕ → R} (h : ∀ i j, i < m → j < n → f i j = g i j) :
    of m n f = of m n g :=
  ext rfl rfl fun i j hi hj => by
    simp only [of_rows, of_cols] at hi hj
    rw [of_e hi hj, of_e hi hj]; exact h i j hi hj

theorem of_self (A : DMat R) : of A.rows A.cols A.e = A :=
  ext rfl rfl fun _ _ hi hj => of_e hi hj

/-- zero matrix -/
def zero (m n : ℕ) : DMat R := of m n fun _ _ => 0

/-- transpose -/
def transpose (A : DMat R) : DMat R := of A.cols A.rows fun i j => A.e j i

/-- square -/
def IsSq (A : DMat R) (n : ℕ) : Prop := A.rows = n ∧ A.cols = n

/-- The matrix `A[p][:,q]` (rows picked by `p`, columns by `q`). -/
def pick (A : DMat R) (p q : List ℕ) : DMat R :=
  of p.length q.length fun i j => A.e (p.getD i 0) (q.getD j 0)

/-- Block-diagonal matrix of two blocks. -/
def bdiag2 (A B : DMat R) : DMat R :=
  of (A.rows + B.rows) (A.cols + B.cols) fun i j =>
    if i < A.rows then (if j < A.cols then A.e i j else 0)
    else (if j < A.cols then 0 else B.e (i - A.rows) (j - A.cols))

/-- Block-diagonal matrix of a list of blocks (`jax.scipy.linalg.block_diag`). -/
def bdiag : List (DMat R) → DMat R
  | [] => zero 0 0
  | A :: As => bdiag2 A (bdiag As)

end zero

section ring
variable {R : Type*} [CommRing R]

/-- identity matrix -/
def one (n : ℕ) : DMat R := of n n fun i j => if i = j then 1 else 0

/-- matrix product -/
def mul (A B : DMat R) : DMat R :=
  of A.rows B.cols fun i j => ∑ k ∈ Finset.range A.cols, A.e i k * B.e k j

/-- sum -/
def add (A B : DMat R) : DMat R := of A.rows A.cols fun i j => A.e i j + B.e i j

/-- scalar multiple -/
def smul (c : R) (A : DMat R) : DMat R := of A.rows A.cols fun i j => c * A.e i j

/-- negation -/
def neg (A : DMat R) : DMat R := of A.rows A.cols fun i j => - A.e i j

/-- Kronecker product (row-major, as `jnp.kron`). -/
def kron (A B : DMat R) : DMat R :=
  of (A.rows * B.rows) (A.cols * B.cols) fun i j =>
    A.e (i / B.rows) (j / B.cols) * B.e (i % B.rows) (j % B.cols)

/-- Kronecker product of a list of matrices. -/
def kronL : List (DMat R) → DMat R
  | [] => one 1
  | A :: As => kron A (kronL As)

/-- Kronecker sum `A ⊗ 1 + 1 ⊗ B` (square matrices). -/
def kronsum (A B : DMat R) : DMat R := add (kron A (one B.rows)) (kron (one A.rows) B)

/-- Kronecker sum of a list of matrices. -/
def kronsumL : List (DMat R) → DMat R
  | [] => zero 1 1
  | A :: As => kronsum A (kronsumL As)

/-- matrix of the reindexing `v ↦ v[p]` -/
def permMat (p : List ℕ) : DMat R := of p.length p.length fun i j => if p.getD i 0 = j then 1 else 0

/-- matrix times vector, vectors being lists -/
def mulVec (A : DMat R) (v : List R) : List R :=
  (List.range A.rows).map fun i => ∑ j ∈ Finset.range A.cols, A.e i j * v.getD j 0

/-- conjugate transpose -/
def conjTranspose [StarRing R] (A : DMat R) : DMat R := of A.cols A.rows fun i j => star (A.e j i)

end ring
end DMat
end Verif
