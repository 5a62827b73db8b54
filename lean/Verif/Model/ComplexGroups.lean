import Verif.Model.Groups
import Verif.Model.LinOp

/-!
# The complex groups `U(n)` and `SU(n)` as group objects

`Group.__init__` (groups.py:22-56) for a class that sets nothing but an array of complex infinitesimal generators.  Arithmetic is exact.
-/
namespace Verif

/-- A constructed complex group without discrete generators. -/
structure CGrp where
  d : ℕ
  lie : List (DMat ℂ)
  isOrth : Bool
  isPerm : Option Bool

/-- `Ai@jnp.eye(d)`, groups.py:44, 71. -/
def denseC (d : ℕ) (A : DMat ℂ) : Matrix (Fin d) (Fin d) ℂ := Matrix.of fun i j => A.e i j

/-- `jnp.mean(jnp.abs(A))` of a complex array of shape `(k,d,d)`, groups.py:11. -/
noncomputable def meanAbsC {d : ℕ} (As : List (Matrix (Fin d) (Fin d) ℂ)) : ℝ :=
  (As.map fun A => ∑ i, ∑ j, ‖A i j‖).sum / (As.length * d * d)

/-- `rel_err(-A_dense.transpose((0,2,1)),A_dense)`, groups.py:10-11, 45; the transpose does not conjugate. -/
noncomputable def relErrLieC {d : ℕ} (As : List (Matrix (Fin d) (Fin d) ℂ)) : ℝ :=
  meanAbsC (As.map fun A => -A.transpose - A) / (meanAbsC (As.map fun A => -A.transpose) + meanAbsC As + 1e-6)

open Classical in
/-- `Group.__init__`, groups.py:22-56, if the class sets `lie_algebra` only.  The dimension is the last extent of the first generator;
without generators it stays `NotImplemented`, and `np.zeros((0,self.d,self.d))` raises `TypeError`. -/
noncomputable def groupInitC (lie : List (DMat ℂ)) : Py CGrp :=
  match lie with
  | [] => .error .type
  | A :: L =>
    let o := decide (relErrLieC ((A :: L).map (denseC A.cols)) < 1e-6)
    .ok ⟨A.cols, A :: L, o, if o then some false else none⟩

/-- `lie_algebra_real + lie_algebra_imag*1j` as a list of arrays, groups.py:324, 352. -/
noncomputable def cplxGens (re im : Arr3 ℝ) (n : ℕ) : List (DMat ℂ) :=
  (cplxMats re im n).map fun A => DMat.of n n fun i j => if h : i < n ∧ j < n then A ⟨i, h.1⟩ ⟨j, h.2⟩ else 0

/-- `U(n)`, groups.py:304-325. -/
noncomputable def uGroup (n : ℕ) : Py CGrp := do
  let t ← (uLie n : Py (Arr3 ℝ × Arr3 ℝ))
  groupInitC (cplxGens t.1 t.2 n)

/-- `SU(n)`, groups.py:328-353. -/
noncomputable def suGroup (n : ℕ) : Py CGrp := do
  let t ← (suLie n : Py (Arr3 ℝ × Arr3 ℝ))
  groupInitC (cplxGens t.1 t.2 n)

end Verif
