import Mathlib.Data.List.Sort
import Mathlib.Algebra.BigOperators.Group.List.Basic

/-!
# numpy arrays, as far as `emlp/reps` uses them

Integer index arrays (`perm`, `order`, ...) are lists / row-major n-dimensional arrays of
naturals.  These definitions model the numpy calls made by
`emlp/reps/product_sum_reps.py` (`np.arange`, `reshape`, `np.moveaxis`, `np.swapaxes`,
`np.transpose`, fancy indexing, `np.argsort`, `np.concatenate`).
-/
namespace Verif

/-- Row-major enumeration of the multi-indices of an array of shape `s`
(the order in which numpy's `reshape(-1)` visits entries). -/
def indices : List ℕ → List (List ℕ)
  | [] => [[]]
  | n :: s => (List.range n).flatMap fun i => (indices s).map (i :: ·)

/-- Row-major flat position of a multi-index in an array of shape `s`. -/
def ravel : List ℕ → List ℕ → ℕ
  | _ :: s, i :: is => i * s.prod + ravel s is
  | _, _ => 0

/-- A numpy (or jax) array with entries in `α`: shape and row-major data. -/
structure NdArr (α : Type*) where
  shape : List ℕ
  data : List α
deriving Repr, DecidableEq

namespace NdArr

variable {α : Type*} [Zero α]

/-- The entry `a[idx]`. -/
def get (a : NdArr α) (idx : List ℕ) : α := a.data.getD (ravel a.shape idx) 0

/-- The array of shape `s` with entries `f idx`. -/
def ofFn (s : List ℕ) (f : List ℕ → α) : NdArr α := ⟨s, (indices s).map f⟩

/-- `a.reshape(s)`: numpy keeps the row-major data.
(Used only where the number of entries agrees, as numpy checks.) -/
def reshape (a : NdArr α) (s : List ℕ) : NdArr α := ⟨s, a.data⟩

/-- `np.arange(n)` as a 1-d array. -/
def arange (n : ℕ) : NdArr ℕ := ⟨[n], List.range n⟩

/-- The source index of `np.transpose(a,axes)[idx]`: axis `axes[k]` of `a` gets `idx[k]`. -/
def unperm (axes idx : List ℕ) : List ℕ :=
  (List.range axes.length).map fun j => idx.getD (axes.idxOf j) 0

/-- `np.transpose(a, axes)`. -/
def transpose (a : NdArr α) (axes : List ℕ) : NdArr α :=
  ofFn (axes.map fun j => a.shape.getD j 0) fun idx => a.get (unperm axes idx)

/-- The axis order used by `np.moveaxis(a, src, dst)`: all axes but `src` in order, with `src`
inserted at position `dst`. -/
def moveaxisOrder (ndim src dst : ℕ) : List ℕ :=
  ((List.range ndim).eraseIdx src).insertIdx dst src

/-- `np.moveaxis(a, src, dst)`. -/
def moveaxis (a : NdArr α) (src dst : ℕ) : NdArr α :=
  a.transpose (moveaxisOrder a.shape.length src dst)

/-- `np.swapaxes(a, i, j)`: transpose with the axis list in which `i` and `j` are exchanged. -/
def swapaxes (a : NdArr α) (i j : ℕ) : NdArr α :=
  a.transpose ((List.range a.shape.length).map fun k => if k = i then j else if k = j then i else k)

/-- Fancy indexing of the leading axis: `a[perm,...]`. -/
def takeFirst (a : NdArr α) (perm : List ℕ) : NdArr α :=
  ofFn (perm.length :: a.shape.tail) fun idx => a.get (perm.getD (idx.headD 0) 0 :: idx.tail)

end NdArr

/-- Fancy indexing of a 1-d index array by an index array: `p[q]`. -/
def gather (p q : List ℕ) : List ℕ := q.map fun i => p.getD i 0

/-- `np.argsort(p)`: the positions of `p` ordered by value.  (A stable sort; `np.argsort`'s
default is not stable, but the arrays sorted in the library have distinct entries.) -/
def argsort (p : List ℕ) : List ℕ :=
  (List.range p.length).insertionSort fun i j => p.getD i 0 ≤ p.getD j 0

end Verif
