import Verif.Model.Solver
import Verif.Model.Trainer
import Mathlib.Analysis.RCLike.Basic

/-!
# Numerical null space routines

`orthogonal_complement`, `krylov_constraint_solve`, `krylov_constraint_solve_upto_r` (representation.py:304-377).
Arithmetic is exact.  The singular value decomposition (`jnp.linalg.svd`, `np.linalg.svd`) and the losses seen during
gradient descent are parameters here; `Model/Descent.lean` models the descent itself.
-/
namespace Verif
open List

/-- The three arrays returned by `svd(C,full_matrices=True)`. -/
structure SVD (𝕜 : Type) [RCLike 𝕜] where
  U : DMat 𝕜
  S : List ℝ
  VH : DMat 𝕜

open Classical in
/-- `orthogonal_complement`, representation.py:304-308, given the singular value decomposition of `proj`. -/
noncomputable def orthogonalComplement {𝕜 : Type} [RCLike 𝕜] (d : SVD 𝕜) : DMat 𝕜 :=
  let rank := d.S.countP fun s => decide (s > 1e-5)
  (DMat.of (d.VH.rows - rank) d.VH.cols fun i j => d.VH.e (rank + i) j).conjTranspose

/-- The routine called by `equivariant_basis`, representation.py:109-113: the iterative solver if the matrix has more
than `3e7` entries, otherwise the dense one. -/
noncomputable def nullSpace {𝕜 : Type} [RCLike 𝕜] (svd : DMat 𝕜 → SVD 𝕜) (krylov : ℕ → LinOp 𝕜 → Py (DMat 𝕜)) (n : ℕ)
    (C : LinOp 𝕜) : Py (DMat 𝕜) :=
  if C.sem.rows * C.sem.cols > 30000000 then krylov n C else .ok (orthogonalComplement (svd C.sem))

section
variable {R : Type} [CommRing R]

/-- Reading the variable `Q` after the loop. -/
def readQ : Option (DMat R) → Py (DMat R)
  | none => .error .unbound
  | some Q => .ok Q

/-- The `while` loop of `krylov_constraint_solve`, representation.py:316-323, run for at most `fuel` rounds (`none`: still
running).  `rows` is `C.shape[0]`, `upto r` the outcome of `krylov_constraint_solve_upto_r(C,r,tol)`; `Q` is unset before
the first round. -/
def krylovLoop (rows : ℕ) (upto : ℕ → Py (DMat R)) : ℕ → ℕ → ℕ → Option (DMat R) → Option (Py (DMat R))
  | 0, _, _, _ => none
  | fuel + 1, r, found, Q =>
    if found = r then
      let r := r * 2
      if rows * r > 2000000000 then some (readQ Q)
      else
        match upto r with
        | .error e => some (.error e)
        | .ok Q => krylovLoop rows upto fuel r Q.cols (some Q)
    else some (readQ Q)

/-- `krylov_constraint_solve`, representation.py:310-323. -/
def krylovSolve (rows : ℕ) (upto : ℕ → Py (DMat R)) (fuel : ℕ) : Option (Py (DMat R)) :=
  let r := 5
  if rows * r * 2 > 2000000000 then some (.error .exception) else krylovLoop rows upto fuel r 5 none

/-- How a run of gradient descent ends: representation.py:344-366. -/
inductive Descent
  | converged | diverged | exhausted

open Classical in
/-- The loop `for i in range(20000)`, representation.py:344-366, from iteration `i` with `k` iterations left.  `loss i` is
`lossval` in iteration `i`; comparisons with NaN are false. -/
noncomputable def descentFrom (tol : ℝ) (loss : ℕ → Fl) : ℕ → ℕ → Descent
  | 0, _ => .exhausted
  | k + 1, i =>
    match loss i with
    | none => descentFrom tol loss k (i + 1)
    | some l =>
      if Real.sqrt l < tol then .converged
      else if l > 2e3 ∧ i > 100 then .diverged
      else descentFrom tol loss k (i + 1)

open Classical in
/-- `krylov_constraint_solve_upto_r`, representation.py:325-377, run for at most `fuel` nested calls (`none`: still
running).  `loss a` are the losses seen in attempt `a`, `finish a` is what the code after the loop (`krylovFinish`) does
with the final `W` of attempt `a`. -/
noncomputable def krylovUptoR (tol : ℝ) (loss : ℕ → ℕ → Fl) (finish : ℕ → Py (DMat R)) : ℕ → ℕ → ℝ → Option (Py (DMat R))
  | 0, _, _ => none
  | fuel + 1, a, lr =>
    match descentFrom tol (loss a) 20000 0 with
    | .converged => some (finish a)
    | .diverged => if lr < 1e-4 then some (.error .convergence) else krylovUptoR tol loss finish fuel (a + 1) (lr / 3)
    | .exhausted => some (.error .convergence)

open Classical in
/-- The end of `krylov_constraint_solve_upto_r`, representation.py:367-377: `U`, `S` come from the economy singular value
decomposition of `W` (shape `(n,r)`), so `S` has `min n r` entries. -/
noncomputable def krylovFinish (tol : ℝ) (r : ℕ) (U : DMat R) (S : List ℝ) : Py (DMat R) := do
  let rank := S.countP fun s => decide (s > 10 * tol)
  let Q := U.pick (range U.rows) (range rank)
  let scutoff ← if r > rank then (match S[rank]? with | some s => .ok s | none => .error .index) else .ok 0
  if rank = 0 ∨ scutoff < S.getD (rank - 1) 0 / 100 then .ok Q else .error .assertion

end
end Verif
