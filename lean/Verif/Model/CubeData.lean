import Mathlib.Data.Real.Basic
import Mathlib.Data.Matrix.Mul
import Verif.Model.CubePerms
import Verif.Model.Rep

/-!
# The cube datasets

A state is a `6 × n` array (one row per colour, one column per sticker); items are the flattened states.  The samples of the
group and the random permutation are parameters.
-/
namespace Verif
open List

/-- The arrays `X` and `Y` of a cube dataset. -/
structure CubeSet where
  X : List (List ℝ)
  Y : List ℝ

/-- `state.reshape(-1)`, datasets.py:133-134, 204-208: row-major. -/
def flatState {n : ℕ} [NeZero n] (S : Matrix (Fin 6) (Fin n) ℝ) : List ℝ :=
  (range (6 * n)).map fun t => S (Fin.ofNat 6 (t / n)) (Fin.ofNat n t)

/-- `np.repeat(l,r,axis=0)` -/
def npRepeat {α : Type} (r : ℕ) (l : List α) : List α := l.flatMap (replicate r)

/-- datasets.py:140-146 and 213-219: `np.repeat(X,r,axis=0).reshape(...)@gs`, the labels repeated alike, both indexed by the
random permutation `p`.  `@` needs as many samples as states. -/
def scramble {n : ℕ} [NeZero n] (r : ℕ) (X : List (Matrix (Fin 6) (Fin n) ℝ)) (Y : List ℝ) (gs : List (Matrix (Fin n) (Fin n) ℝ))
    (p : List ℕ) : Py CubeSet :=
  if (npRepeat r X).length ≠ gs.length then .error .value
  else .ok ⟨p.map fun i => flatState ((zipWith (· * ·) (npRepeat r X) gs).getD i 0), p.map fun i => (npRepeat r Y).getD i 0⟩

/-- `solved_state = np.eye(6)`, datasets.py:126. -/
def solved6 : Matrix (Fin 6) (Fin 6) ℝ := fun k f => if k = f then 1 else 0
/-- `parity_state = solved_state[:,parity_perm]`, datasets.py:127-128. -/
def parity6 : Matrix (Fin 6) (Fin 6) ℝ := fun k f => solved6 k (Fin.ofNat 6 (cubeParity.getD f 0))

/-- `InvertedCube`, datasets.py:123-148. -/
def invertedCube (train : Bool) (gs : List (Matrix (Fin 6) (Fin 6) ℝ)) (p : List ℕ) : Py CubeSet :=
  if train then .ok ⟨[flatState solved6, flatState parity6], [1, 0]⟩ else scramble 50 [solved6, parity6] [1, 0] gs p

/-- `solved_state[i,8*i:8*(i+1)] = 1`, datasets.py:192-194. -/
def solved48 : Matrix (Fin 6) (Fin 48) ℝ := fun k s => if 8 * k.val ≤ s ∧ s < 8 * (k.val + 1) then 1 else 0
/-- `solved_state.reshape(6,6,8)[:,parity_perm].reshape(-1)`, datasets.py:207-208. -/
def parity48 : Matrix (Fin 6) (Fin 48) ℝ := fun k s => solved48 k (Fin.ofNat 48 (8 * [5, 3, 4, 1, 2, 0].getD (s / 8) 0 + s % 8))

/-- `BrokenRubiksCube`, datasets.py:188-221. -/
def brokenRubiks (train : Bool) (gs : List (Matrix (Fin 48) (Fin 48) ℝ)) (p : List ℕ) : Py CubeSet :=
  let X := replicate 11 solved48 ++ replicate 11 parity48
  let Y := replicate 11 1 ++ replicate 11 0
  if train then .ok ⟨X.map flatState, Y⟩ else scramble 20 X Y gs p

end Verif
