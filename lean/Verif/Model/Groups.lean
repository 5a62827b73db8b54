import Mathlib.Analysis.Normed.Algebra.MatrixExponential
import Mathlib.Analysis.RCLike.Basic
import Verif.Model.Rep

/-!
# Groups: generator tables, sampling, flags

`emlp/groups.py`.  Generator arrays are built by the same loops over preallocated zero arrays, with
numpy's bounds checks; a `(k,n,n)` array is read as the list of its slices.  Floating point is
replaced by exact arithmetic.  `scipy.linalg.expm` is the matrix exponential; the random draws
(`z`, `k`, the order of the generators in each round) are parameters.
-/
namespace Verif

/-- A numpy array of shape `(n0,n1,n2)`. -/
structure Arr3 (R : Type) [Zero R] where
  n0 : ℕ
  n1 : ℕ
  n2 : ℕ
  e : ℕ → ℕ → ℕ → R

namespace Arr3
variable {R : Type} [Zero R]

/-- `np.zeros((n0,n1,n2))` -/
def zeros (n0 n1 n2 : ℕ) : Arr3 R := ⟨n0, n1, n2, fun _ _ _ => 0⟩

/-- `a[k,i,j] = x` for non-negative indices; numpy raises `IndexError` out of bounds. -/
def set (a : Arr3 R) (k i j : ℕ) (x : R) : Py (Arr3 R) :=
  if k < a.n0 ∧ i < a.n1 ∧ j < a.n2 then
    .ok { a with e := fun k' i' j' => if k' = k ∧ i' = i ∧ j' = j then x else a.e k' i' j' }
  else .error .index

/-- The slices `a[0],...,a[n0-1]` of an array of shape `(n0,n,n)`. -/
def mats (a : Arr3 R) (n : ℕ) : List (Matrix (Fin n) (Fin n) R) :=
  (List.range a.n0).map fun k => Matrix.of fun i j => a.e k i j

end Arr3

section tables
variable {R : Type} [Field R]

/-- The generator table of `SO(n)`, groups.py:144-151. -/
def soLie (n : ℕ) : Py (Arr3 R) := do
  let (a, _) ← (List.range n).foldlM (fun s i =>
    (List.range i).foldlM (fun (a, k) j => do
      let a ← a.set k i j 1
      let a ← a.set k j i (-1)
      pure (a, k + 1)) s) ((Arr3.zeros (n * (n - 1) / 2) n n : Arr3 R), 0)
  pure a

/-- The discrete generator of `O(n)`, groups.py:158-159: `np.eye(n)[None]` with entry `[0,0,0]` set to
`-1` (`IndexError` for `n = 0`). -/
def oDisc (n : ℕ) : Py (Arr3 R) :=
  Arr3.set ⟨1, n, n, fun _ i j => if i = j then 1 else 0⟩ 0 0 0 (-1)

/-- The generator of `Scaling(n)`, groups.py:180. -/
def scalingLie (n : ℕ) : Arr3 R := ⟨1, n, n, fun _ i j => if i = j then 1 else 0⟩

/-- The generator table of `SO13p`, groups.py:194-197: rotations in the slices from 3 on (the
assignment `lie_algebra[3:,1:,1:] = SO(3).lie_algebra`, shape `(3,3,3)` on both sides), then the
three boosts (the chained assignment writes the same value to both entries). -/
def so13pLie : Py (Arr3 R) := do
  let so3 ← soLie 3
  let a : Arr3 R := ⟨6, 4, 4, fun k i j =>
    if 3 ≤ k ∧ 1 ≤ i ∧ 1 ≤ j then so3.e (k - 3) (i - 1) (j - 1) else 0⟩
  (List.range 3).foldlM (fun a i => do
    let a ← a.set i (1 + i) 0 1
    a.set i 0 (1 + i) 1) a

/-- `SO13.discrete_generators`, groups.py:205. -/
def so13Disc : Arr3 R := ⟨1, 4, 4, fun _ i j => if i = j then -1 else 0⟩

/-- `O13.discrete_generators`, groups.py:210-212 (two copies of the identity, the first multiplied by
`-1`, entry `[1,0,0]` of the second set to `-1`). -/
def o13Disc : Py (Arr3 R) :=
  Arr3.set ⟨2, 4, 4, fun k i j => if i = j then (if k = 0 then -1 else 1) else 0⟩ 1 0 0 (-1)

/-- `Parity.discrete_generators`, groups.py:184-185. -/
def parityDisc : Py (Arr3 R) :=
  Arr3.set ⟨1, 4, 4, fun _ i j => if i = j then -1 else 0⟩ 0 0 0 1

/-- `TimeReversal.discrete_generators`, groups.py:188-189. -/
def timeReversalDisc : Py (Arr3 R) :=
  Arr3.set ⟨1, 4, 4, fun _ i j => if i = j then 1 else 0⟩ 0 0 0 (-1)

/-- `SO11p.lie_algebra`, groups.py:219. -/
def so11pLie : Arr3 R := ⟨1, 2, 2, fun _ i j => if i = j then 0 else 1⟩

/-- `O11.discrete_generators`, groups.py:224-226. -/
def o11Disc : Py (Arr3 R) :=
  Arr3.set ⟨2, 2, 2, fun k i j => if i = j then (if k = 0 then -1 else 1) else 0⟩ 1 0 0 (-1)

/-- The generator table of `Sp(m)`, groups.py:233-247. -/
def spLie (m : ℕ) : Py (Arr3 R) := do
  let s ← (List.range m).foldlM (fun s i =>
    (List.range m).foldlM (fun (a, k) j => do
      let a ← a.set k i j 1
      let a ← a.set k (m + j) (m + i) (-1)
      pure (a, k + 1)) s) ((Arr3.zeros (m * (2 * m + 1)) (2 * m) (2 * m) : Arr3 R), 0)
  let (a, _) ← (List.range m).foldlM (fun s i =>
    (List.range (i + 1)).foldlM (fun (a, k) j => do
      let a ← a.set k (m + i) j 1
      let a ← a.set k (m + j) i 1
      let k := k + 1
      let a ← a.set k i (m + j) 1
      let a ← a.set k j (m + i) 1
      pure (a, k + 1)) s) s
  pure a

/-- The generator table of `SL(n)`, groups.py:278-288, for `n ≥ 1` (`np.zeros` of a negative size is a
`ValueError`).  The index `-1` is `n-1`. -/
def slLie (n : ℕ) : Py (Arr3 R) := do
  if n = 0 then throw .value
  let s ← (List.range n).foldlM (fun s i =>
    (List.range n).foldlM (fun (a, k) j => do
      if i = j then pure (a, k) else
      let a ← a.set k i j 1
      pure (a, k + 1)) s) ((Arr3.zeros (n * n - 1) n n : Arr3 R), 0)
  let (a, _) ← (List.range (n - 1)).foldlM (fun (a, k) l => do
    let a ← a.set k l l 1
    let a ← a.set k (n - 1) (n - 1) (-1)
    pure (a, k + 1)) s
  pure a

/-- The generator table of `GL(n)`, groups.py:295-300. -/
def glLie (n : ℕ) : Py (Arr3 R) := do
  let (a, _) ← (List.range n).foldlM (fun s i =>
    (List.range n).foldlM (fun (a, k) j => do
      let a ← a.set k i j 1
      pure (a, k + 1)) s) ((Arr3.zeros (n * n) n n : Arr3 R), 0)
  pure a

/-- The loop over `i`, `j<i` shared by `U(n)` and `SU(n)`, groups.py:311-320 and 335-344: the real and
imaginary tables and the running index. -/
def uLoop (n : ℕ) (s : Arr3 R × Arr3 R × ℕ) : Py (Arr3 R × Arr3 R × ℕ) :=
  (List.range n).foldlM (fun s i =>
    (List.range i).foldlM (fun (re, im, k) j => do
      let re ← re.set k i j 1
      let re ← re.set k j i (-1)
      let k := k + 1
      let im ← im.set k i j 1
      let im ← im.set k j i 1
      pure (re, im, k + 1)) s) s

/-- The real and imaginary generator tables of `U(n)`, groups.py:307-323. -/
def uLie (n : ℕ) : Py (Arr3 R × Arr3 R) := do
  let s ← uLoop n (Arr3.zeros (n ^ 2) n n, Arr3.zeros (n ^ 2) n n, 0)
  let (re, im, _) ← (List.range n).foldlM (fun (re, im, k) i => do
    let im ← im.set k i i 1
    pure (re, im, k + 1)) s
  pure (re, im)

/-- The real and imaginary generator tables of `SU(n)`, groups.py:330-351, for `n ≥ 1`.  For `n = 1`
the constructor returns a value from `__init__`, a `TypeError`. -/
def suLie (n : ℕ) : Py (Arr3 R × Arr3 R) := do
  if n = 0 then throw .value
  if n = 1 then throw .type
  let s ← uLoop n (Arr3.zeros (n ^ 2 - 1) n n, Arr3.zeros (n ^ 2 - 1) n n, 0)
  let (re, im, _) ← (List.range (n - 1)).foldlM (fun (re, im, k) i => do
    let im ← im.set k i i 1
    let im ← (List.range n).foldlM (fun im j => do
      if i = j then pure im else
      im.set k j j (-1 / ((n : R) - 1))) im
    pure (re, im, k + 1)) s
  pure (re, im)

end tables

/-- `lie_algebra_real + lie_algebra_imag*1j`, groups.py:324, 351. -/
noncomputable def cplxMats (re im : Arr3 ℝ) (n : ℕ) : List (Matrix (Fin n) (Fin n) ℂ) :=
  (List.range re.n0).map fun k => Matrix.of fun i j => (re.e k i j : ℂ) + (im.e k i j : ℂ) * Complex.I

section sampling
variable {𝕜 : Type*} [RCLike 𝕜] {d : ℕ}

/-- `fori_loop(0,n,lambda i,g: M@g,eye)`, groups.py:107-108. -/
def powLoop (M : Matrix (Fin d) (Fin d) 𝕜) (n : ℕ) : Matrix (Fin d) (Fin d) 𝕜 :=
  (List.range n).foldl (fun g _ => M * g) 1

/-- `matrix_power_simple(M,n)`, groups.py:105-110. -/
noncomputable def matrixPowerSimple (M : Matrix (Fin d) (Fin d) 𝕜) (n : ℤ) : Matrix (Fin d) (Fin d) 𝕜 :=
  if n < 0 then powLoop M⁻¹ (-n).toNat else powLoop M n.toNat

/-- `A = (z[:,None,None]*lie_algebra).sum(0)`, groups.py:118. -/
noncomputable def lieComb (z : List ℝ) (lie : List (Matrix (Fin d) (Fin d) 𝕜)) : Matrix (Fin d) (Fin d) 𝕜 :=
  (List.zipWith (fun (c : ℝ) A => (c : 𝕜) • A) z lie).sum

/-- `noise2sample(z,ks,lie_algebra,discrete_generators,seed)`, groups.py:112-127.  `orders` is the list
of generator orders drawn by `jax.random.permutation`, one per round `k`; `ks[i][k]` is the integer
power drawn for generator `i` in round `k`. -/
noncomputable def noise2sample (z : List ℝ) (ks : List (List ℤ)) (lie disc : List (Matrix (Fin d) (Fin d) 𝕜))
    (orders : List (List ℕ)) : Matrix (Fin d) (Fin d) 𝕜 :=
  let g := if lie.length = 0 then 1 else 1 * NormedSpace.exp (lieComb z lie)
  if disc.length = 0 then g else
  (orders.zipIdx).foldl (fun g (ord, k) =>
    ord.foldl (fun g i => g * matrixPowerSimple (disc.getD i 1) ((ks.getD i []).getD k 0)) g) g

end sampling
end Verif
