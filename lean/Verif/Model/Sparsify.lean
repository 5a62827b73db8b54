import Verif.Model.NullSpace

/-!
# `sparsify_basis`

representation.py:381-414.  The losses seen by the Adam steps and the matrix `W` they end with are parameters (one for each
attempt); the entries of `Q@W.T` are exact reals.  The final `logging.error` has no effect on the result and is left out.
-/
namespace Verif
open List

open Classical in
/-- One entry through `Q[np.abs(Q)<1e-2]=0` and `Q[np.abs(Q)>1e-2] /= np.abs(...)`, representation.py:407-408. -/
noncomputable def sparsifyEntry (x : ℝ) : ℝ :=
  let x := if |x| < 1e-2 then 0 else x
  if |x| > 1e-2 then x / |x| else x

/-- The end of `sparsify_basis`, representation.py:406-408 and 414. -/
noncomputable def sparsifyFinish (Q W : DMat ℝ) : DMat ℝ :=
  let P := Q.mul W.transpose
  DMat.of P.rows P.cols fun i j => sparsifyEntry (P.e i j)

open Classical in
/-- The loop `for i in range(3000)`, representation.py:398-405, from step `i` with `k` steps left: `true` if no loss exceeded
the bound.  Comparisons with NaN are false. -/
noncomputable def sparsifyLoop (loss : ℕ → Fl) : ℕ → ℕ → Bool
  | 0, _ => true
  | k + 1, i =>
    match loss i with
    | none => sparsifyLoop loss k (i + 1)
    | some l => if l > 1e2 ∧ i > 100 then false else sparsifyLoop loss k (i + 1)

/-- `sparsify_basis(Q)`, representation.py:381-414, on a Python that allows `depth` nested calls.  `loss a` are the losses of
attempt `a`, which runs with learning rate `0.01/3^a`, and `W a` the matrix it ends with. -/
noncomputable def sparsifyBasis (loss : ℕ → ℕ → Fl) (W : ℕ → DMat ℝ) (Q : DMat ℝ) : ℕ → ℕ → Py (DMat ℝ)
  | 0, _ => .error .recursion
  | depth + 1, a => if sparsifyLoop (loss a) 3000 0 then .ok (sparsifyFinish Q (W a)) else sparsifyBasis loss W Q depth (a + 1)

end Verif
