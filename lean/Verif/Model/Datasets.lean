import Mathlib.Analysis.SpecialFunctions.Trigonometric.Basic
import Mathlib.Data.Matrix.Mul
import Mathlib.Algebra.BigOperators.Fin
import Verif.Model.Rep

/-!
# Labels of the synthetic datasets, and the Hamiltonian systems

A row of the data matrix is a function from coordinate numbers to reals (only coordinates below the row length are
read); batches are mapped over, so one row is modelled.  Real arithmetic is exact.
-/
namespace Verif
open Finset

/-- The `i`-th block of `d` coordinates after the first `off`: `X[:,off:].reshape(-1,k,d)[:,i]`. -/
def block (off d i : ℕ) (X : ℕ → ℝ) : Fin d → ℝ := fun a => X (off + i * d + a)

/-- `(v*w).sum(-1)` -/
def dot {d : ℕ} (v w : Fin d → ℝ) : ℝ := ∑ a, v a * w a

/-- `Inertia`, datasets.py:17-23, one row: `(mi*(r2*I - ri riᵀ)).sum`, as a 3×3 array. -/
def inertiaMat (k : ℕ) (X : ℕ → ℝ) : Matrix (Fin 3) (Fin 3) ℝ := fun a b =>
  ∑ i : Fin k, X i * (dot (block k 3 i X) (block k 3 i X) * (if a = b then 1 else 0) - block k 3 i X a * block k 3 i X b)

/-- `inertia.reshape(-1,9)`, datasets.py:24. -/
def inertiaLabel (k : ℕ) (X : ℕ → ℝ) (n : ℕ) : ℝ := inertiaMat k X (Fin.ofNat 3 (n / 3)) (Fin.ofNat 3 n)

/-- `O5Synthetic`, datasets.py:54-56, one row. -/
noncomputable def o5Label (X : ℕ → ℝ) : ℝ :=
  let r1 := block 0 5 0 X
  let r2 := block 0 5 1 X
  Real.sin (Real.sqrt (dot r1 r1)) - 1 / 2 * Real.sqrt (dot r2 r2) ^ 3
    + dot r1 r2 / (Real.sqrt (dot r1 r1) * Real.sqrt (dot r2 r2))

/-- `𝜂 = np.diag([1,-1,-1,-1])`, datasets.py:86. -/
def etaMat : Matrix (Fin 4) (Fin 4) ℝ := Matrix.diagonal ![1, -1, -1, -1]

/-- `dot = lambda v1,v2: ((v1@𝜂)*v2).sum(-1)`, datasets.py:87. -/
def etaDot (v w : Fin 4 → ℝ) : ℝ := dot (Matrix.vecMul v etaMat) w

/-- `ParticleInteraction`, datasets.py:84-91, one row. -/
def particleLabel (X : ℕ → ℝ) : ℝ :=
  let p1 := block 0 4 0 X
  let p2 := block 0 4 1 X
  let p3 := block 0 4 2 X
  let p4 := block 0 4 3 X
  let Le : Matrix (Fin 4) (Fin 4) ℝ := fun a b => p1 a * p3 b - (etaDot p1 p3 - etaDot p1 p1) * etaMat a b
  let Lm : Matrix (Fin 4) (Fin 4) ℝ := fun a b =>
    Matrix.vecMul p2 etaMat a * Matrix.vecMul p4 etaMat b - (etaDot p2 p4 - etaDot p2 p2) * etaMat a b
  4 * ∑ a, ∑ b, Le a b * Lm a b

/-- `unpack(z)`, hamiltonian_dynamics.py:29-34. -/
def unpack {α : Type*} (z : List α) : Py (List α × List α) :=
  if z.length % 2 ≠ 0 then .error .assertion else .ok (z.take (z.length / 2), z.drop (z.length / 2))

/-- `pack(q,p)`, hamiltonian_dynamics.py:36-37. -/
def pack {α : Type*} (q p : List α) : List α := q ++ p

/-- `symplectic_form(z)`, hamiltonian_dynamics.py:39-42. -/
def symplecticForm {α : Type*} [Neg α] (z : List α) : Py (List α) := do
  let (q, p) ← unpack z
  pure (pack p (q.map fun x => -x))

/-- `hamiltonian_dynamics(H,z,t)`, hamiltonian_dynamics.py:44-49; `grad` is `jax.grad(H)`. -/
def hamiltonianDynamics (grad : List ℝ → List ℝ) (z : List ℝ) : Py (List ℝ) := symplecticForm (grad z)

/-- `(x**2).sum(-1)` -/
def sqSum (x : List ℝ) : ℝ := (x.map (· ^ 2)).sum

/-- `SHO.H`, hamiltonian_dynamics.py:160-163. -/
noncomputable def shoH (z : List ℝ) : ℝ := z.getD 1 0 ^ 2 / 2 + z.getD 0 0 ^ 2 / 2

/-- `DoubleSpringPendulum.H`, hamiltonian_dynamics.py:175-185, for one state of twelve coordinates. -/
noncomputable def pendulumH (z : List ℝ) : Py ℝ := do
  let (x, p) ← unpack z
  let (p1, p2) ← unpack p
  let (x1, x2) ← unpack x
  let ke := 1 / 2 * sqSum p1 / 1 + 1 / 2 * sqSum p2 / 1
  let pe := 1 / 2 * 1 * (Real.sqrt (sqSum x1) - 1) ^ 2
  let pe := pe + 1 * (Real.sqrt (sqSum (List.zipWith (· - ·) x1 x2)) - 1) ^ 2
  if x1.length ≤ 2 then throw .index
  let pe := pe + (1 * 1 * x1.getD 2 0 + 1 * 1 * x2.getD 2 0)
  pure (ke + pe)

/-- The number of points of `jnp.arange(0, stop, dt)` (hamiltonian_dynamics.py:103-104 and 120), `⌈stop/dt⌉` in exact arithmetic. -/
noncomputable def arangeLen (stop dt : ℝ) : ℕ := ⌈stop / dt⌉₊

/-- `jnp.split(zs,n,axis=1)` on one row, as used in `chunk_training_data`: `ValueError` unless the length is divisible. -/
def splitEq {α : Type*} (n : ℕ) (row : List α) : Py (List (List α)) :=
  if n = 0 ∨ row.length % n ≠ 0 then .error .value
  else .ok ((List.range n).map fun i => (row.drop (i * (row.length / n))).take (row.length / n))

/-- `chunk_training_data(zs,chunk_len)`, hamiltonian_dynamics.py:127-133.  `idx` are the draws of `np.random.randint(0,n_chunks)`,
one per trajectory; all trajectories have length `len`. -/
def chunkTrainingData {α : Type*} (zs : List (List α)) (len chunkLen : ℕ) (idx : List ℕ) : Py (List (List α)) := do
  if chunkLen = 0 then throw .value
  let nChunks := len / chunkLen
  if nChunks = 0 then throw .value
  let parts ← zs.mapM (splitEq nChunks)
  pure (List.zipWith (fun p i => p.getD i []) parts idx)

/-- The `while n_gen < n_systems` loop of `generate_trajectory_data`, hamiltonian_dynamics.py:114-125; `gen` makes one batch of `bs`
trajectories, `b` numbers the batches. -/
def genLoop {α : Type*} (gen : ℕ → Py (List α)) (n bs : ℕ) (hbs : 0 < bs) (b nGen : ℕ) (acc : List α) : Py (List α) :=
  if nGen < n then
    match gen b with
    | .error e => .error e
    | .ok new => genLoop gen n bs hbs (b + 1) (nGen + bs) (acc ++ new)
  else .ok acc
termination_by n - nGen
decreasing_by omega

/-- `generate_trajectory_data(n_systems,...)`, hamiltonian_dynamics.py:114-125.  Without systems `jnp.concatenate([])` is a `ValueError`. -/
def generateData {α : Type*} (gen : ℕ → Py (List α)) (n : ℕ) : Py (List α) :=
  if h : n = 0 then .error .value
  else (genLoop gen n (min 100 n) (by omega) 0 0 []).map (·.take n)

end Verif
