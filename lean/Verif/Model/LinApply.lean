import Verif.Model.LinOp
import Verif.Model.Rep
import Verif.Spec.Flat
import Mathlib.Algebra.Star.Basic

/-!
# Applying lazy operators to arrays

The algorithms of `emlp/reps/linear_operators.py` and `emlp/reps/linear_operator_base.py` that apply an operator to a vector
or to the columns of a matrix, its transpose and adjoint, its dense form and `invT`.  Arrays are `NdArr` (shape and row-major
data), so reshapes, axis moves and slices are the ones the code performs.

An operator object is modelled by the methods its class defines (`Act`): its shape, `_matvec` and `_matmat`; `matvec`,
`matmat` and `dot` of the base class are functions of these.  `Op` is the syntax of operator objects (the constructor calls
that made them); it refines `LinOp` by telling plain arrays from `Lazy` objects and by adding the transposed and adjoint
objects and the closures returned by `SumRep.equivariant_basis` and `equivariant_projector`.

Floating point arithmetic is modelled by an exact commutative ring with an involution (complex conjugation).
`SwapMatrix`, `MatrixLinearOperator`, `IdentityOperator` and operators made from functions are in `Model/CustomOp.lean`.  Not modelled: dtypes and
devices.
-/
namespace Verif
open List

namespace NdArr
variable {R : Type} [CommRing R]

/-- `a.reshape(*s)`; raises if the number of entries differs (`TypeError` in jax, `ValueError` in numpy). -/
def reshape? (a : NdArr R) (s : List ℕ) : Py (NdArr R) :=
  if a.data.length = s.prod then .ok (a.reshape s) else .error .type

/-- `a.reshape(*s,-1)`; numpy and jax cannot infer the last dimension if the others multiply to 0. -/
def reshapeTail (a : NdArr R) (s : List ℕ) : Py (NdArr R) :=
  if s.prod = 0 ∨ a.data.length % s.prod ≠ 0 then .error .type else .ok (a.reshape (s ++ [a.data.length / s.prod]))

/-- `A@x` for a matrix `A` and a 1-d or 2-d array `x`.  (Batched products of arrays with more axes are never formed.) -/
def matmul (A : DMat R) (x : NdArr R) : Py (NdArr R) :=
  match x.shape with
  | [n] => if n = A.cols then .ok ⟨[A.rows], A.mulVec x.data⟩ else .error .type
  | [n, k] => if n = A.cols then
      .ok (ofFn [A.rows, k] fun idx => ∑ j ∈ Finset.range A.cols, A.e (idx.getD 0 0) j * x.get [j, idx.getD 1 0])
    else .error .type
  | _ => .error .type

/-- `x+y` for arrays of the same shape.  (Broadcasting is not modelled: a mismatch raises.) -/
def add? (x y : NdArr R) : Py (NdArr R) :=
  if x.shape = y.shape then .ok ⟨x.shape, zipWith (· + ·) x.data y.data⟩ else .error .type

/-- `c*x` for a scalar `c`. -/
def scale (c : R) (x : NdArr R) : NdArr R := ⟨x.shape, x.data.map (c * ·)⟩

/-- `np.conj(x)`. -/
def conj [StarRing R] (x : NdArr R) : NdArr R := ⟨x.shape, x.data.map star⟩

/-- `x.T`: the axes in reverse order. -/
def T (x : NdArr R) : NdArr R := x.transpose (range x.shape.length).reverse

/-- `x[a:b]` (along the leading axis; slices are clipped to the array). -/
def rows (x : NdArr R) (a b : ℕ) : NdArr R :=
  ofFn ((min b (x.shape.headD 0) - min a (x.shape.headD 0)) :: x.shape.tail) fun idx =>
    x.get ((min a (x.shape.headD 0) + idx.headD 0) :: idx.tail)

/-- `jnp.concatenate(xs,axis=0)`: all arrays must agree in the other axes; row-major data are appended. -/
def concat0 : List (NdArr R) → Py (NdArr R)
  | [] => .error .value
  | x :: xs => if ∀ y ∈ xs, y.shape.length = x.shape.length ∧ y.shape.tail = x.shape.tail then
      .ok ⟨((x :: xs).map fun y => y.shape.headD 0).sum :: x.shape.tail, (x :: xs).flatMap NdArr.data⟩
    else .error .type

/-- `jnp.split(x,m)`: `m` equal pieces along the leading axis. -/
def split (x : NdArr R) (m : ℕ) : Py (List (NdArr R)) :=
  if m = 0 ∨ x.shape.headD 0 % m ≠ 0 then .error .value
  else .ok ((range m).map fun i => x.rows (i * (x.shape.headD 0 / m)) ((i + 1) * (x.shape.headD 0 / m)))

/-- `array[perm]`, or `array` if there is no `perm`. -/
def takePre (x : NdArr R) : Option (List ℕ) → NdArr R
  | none => x
  | some p => x.takeFirst p

/-- `jnp.roll(x,k,axis=0)`. -/
def roll (x : NdArr R) (k : ℤ) : NdArr R :=
  ofFn x.shape fun idx => x.get ((((idx.headD 0 : ℤ) - k) % (x.shape.headD 0 : ℤ)).toNat :: idx.tail)

/-- `jnp.flip(x,1)` -/
def flip1 (x : NdArr R) : NdArr R :=
  ofFn x.shape fun idx => x.get (idx.set 1 (x.shape.getD 1 0 - 1 - idx.getD 1 0))

/-- `jnp.flip(x,0)` -/
def flip0 (x : NdArr R) : NdArr R :=
  ofFn x.shape fun idx => x.get (idx.set 0 (x.shape.getD 0 0 - 1 - idx.getD 0 0))

/-- `jnp.rot90(x,k)` of a 3-d array: `k` is reduced modulo 4; one turn flips axis 1 and then swaps the first two axes, three
turns swap and then flip, two turns flip both. -/
def rot90 (x : NdArr R) (k : ℤ) : NdArr R :=
  if k % 4 = 0 then x
  else if k % 4 = 1 then x.flip1.swapaxes 0 1
  else if k % 4 = 2 then x.flip0.flip1
  else (x.swapaxes 0 1).flip1

end NdArr

namespace DMat
variable {R : Type} [CommRing R]

/-- A matrix as a 2-d array. -/
def toArr (A : DMat R) : NdArr R := ⟨[A.rows, A.cols], A.flat⟩

/-- A 2-d array as a matrix. -/
def ofArr (x : NdArr R) : Py (DMat R) :=
  match x.shape with
  | [m, n] => .ok (of m n fun i j => x.get [i, j])
  | _ => .error .type

end DMat

/-- An operator object: `shape`, `_matvec` and `_matmat`. -/
structure Act (R : Type) where
  rows : ℕ
  cols : ℕ
  mv : NdArr R → Py (NdArr R)
  mm : NdArr R → Py (NdArr R)

namespace Act
variable {R : Type} [CommRing R]

/-- `LinearOperator.matvec`, linear_operator_base.py:173-205 (and `rmatvec`, 207-239, on the swapped shape). -/
def matvec (a : Act R) (x : NdArr R) : Py (NdArr R) :=
  if x.shape ≠ [a.cols] ∧ x.shape ≠ [a.cols, 1] then .error .value
  else do
    let y ← a.mv x
    if x.shape.length = 1 then y.reshape? [a.rows] else y.reshape? [a.rows, 1]

/-- `LinearOperator.matmat`, linear_operator_base.py:249-277 (and `rmatmat`, 279-306, on the swapped shape). -/
def matmat (a : Act R) (X : NdArr R) : Py (NdArr R) :=
  if X.shape.length ≠ 2 then .error .value
  else if X.shape.headD 0 ≠ a.cols then .error .value
  else a.mm X

/-- `LinearOperator.dot` (also `@` and `*`) on an array, linear_operator_base.py:321-344. -/
def dot (a : Act R) (x : NdArr R) : Py (NdArr R) :=
  if x.shape.length = 1 ∨ (x.shape.length = 2 ∧ x.shape.getD 1 0 = 1) then a.matvec x
  else if x.shape.length = 2 then a.matmat x
  else .error .value

/-- A plain array as the left operand of `@`, and `Lazy(A)`, linear_operator_base.py:720-730.  (On mismatched shapes a plain
array raises `TypeError`, here `ValueError` as for `Lazy`.) -/
def ofMat (A : DMat R) : Act R := ⟨A.rows, A.cols, NdArr.matmul A, NdArr.matmul A⟩

/-- `I(n)`, linear_operators.py:20-27. -/
def eye (n : ℕ) : Act R := ⟨n, n, .ok, .ok⟩

/-- One pass of the loop of `LazyKron._matmat` and of `LazyKronsum._matmat`, linear_operators.py:46-48, 81-83: apply `M`
along axis `i`. -/
def kronStep (M : Act R) (i : ℕ) (ev : NdArr R) : Py (NdArr R) := do
  let front := ev.moveaxis i 0
  let x ← front.reshapeTail [M.cols]
  let y ← M.dot x
  let z ← y.reshape? (M.rows :: front.shape.tail)
  .ok (z.moveaxis 0 i)

/-- The loop of `LazyKron._matmat`, linear_operators.py:45-48. -/
def kronLoop : List (Act R) → ℕ → NdArr R → Py (NdArr R)
  | [], _, ev => .ok ev
  | M :: Ms, i, ev => do
    let ev ← kronStep M i ev
    kronLoop Ms (i + 1) ev

/-- `LazyKron._matmat`, linear_operators.py:43-49. -/
def kronMM (Ms : List (Act R)) (v : NdArr R) : Py (NdArr R) := do
  let ev ← v.reshapeTail (Ms.map cols)
  let ev ← kronLoop Ms 0 ev
  ev.reshape? [(Ms.map rows).prod, ev.shape.getLastD 0]

/-- `LazyKron`, linear_operators.py:33-49. -/
def kron (Ms : List (Act R)) : Act R :=
  ⟨(Ms.map rows).prod, (Ms.map cols).prod, fun v => (kronMM Ms v).map fun y => y.reshape [y.data.length], kronMM Ms⟩

/-- The loop of `LazyKronsum._matmat`, linear_operators.py:80-83. -/
def kronsumLoop (ev : NdArr R) : List (Act R) → ℕ → NdArr R → Py (NdArr R)
  | [], _, out => .ok out
  | M :: Ms, i, out => do
    let y ← kronStep M i ev
    let out ← out.add? y
    kronsumLoop ev Ms (i + 1) out

/-- `LazyKronsum._matmat`, linear_operators.py:77-84. -/
def kronsumMM (Ms : List (Act R)) (v : NdArr R) : Py (NdArr R) := do
  let ev ← v.reshapeTail (Ms.map cols)
  let out ← kronsumLoop ev Ms 0 (ev.scale 0)
  out.reshape? [(Ms.map rows).prod, ev.shape.getLastD 0]

/-- `LazyKronsum`, linear_operators.py:66-84. -/
def kronsum (Ms : List (Act R)) : Act R :=
  ⟨(Ms.map rows).prod, (Ms.map cols).prod, fun v => (kronsumMM Ms v).map fun y => y.reshape [y.data.length], kronsumMM Ms⟩

/-- `ConcatLazy._matmat`, linear_operators.py:127-128. -/
def concatMM (Ms : List (Act R)) (V : NdArr R) : Py (NdArr R) := do
  let ys ← Ms.mapM fun M => M.dot V
  NdArr.concat0 ys

/-- `ConcatLazy`, linear_operators.py:117-128; `_matvec` is the default of the base class (linear_operator_base.py:163-171),
`self.matmat(x.reshape(-1,1))`. -/
def concat (Ms : List (Act R)) : Act R where
  rows := (Ms.map rows).sum
  cols := (Ms.map cols).headD 0
  mv x := matmat ⟨0, (Ms.map cols).headD 0, .ok, concatMM Ms⟩ (x.reshape [x.data.length, 1])
  mm := concatMM Ms

/-- Adding up a list of arrays with Python's `sum`. -/
def sumArr : List (NdArr R) → Py (NdArr R)
  | [] => .error .attribute
  | x :: xs => xs.foldlM NdArr.add? x

/-- Applying each operator to the array at the same position. -/
def dotEach : List (Act R) → List (NdArr R) → Py (List (NdArr R))
  | M :: Ms, x :: xs => do
    let y ← M.dot x
    let ys ← dotEach Ms xs
    .ok (y :: ys)
  | _, _ => .ok []

/-- `ConcatLazy._rmatmat`, linear_operators.py:129-131; `MTs` are the transposes `M.T`. -/
def concatRMM (MTs : List (Act R)) (V : NdArr R) : Py (NdArr R) := do
  let Vs ← V.split MTs.length
  let ys ← dotEach MTs Vs
  sumArr ys

/-- The adjoint side of `ConcatLazy`: `_rmatvec` is the default, which raises because `_adjoint` is not defined
(linear_operator_base.py:241-245). -/
def concatR (MTs : List (Act R)) : Act R where
  rows := (MTs.map rows).headD 0
  cols := (MTs.map cols).sum
  mv _ := .error .notImplemented
  mm := concatRMM MTs

/-- One pass of the loop of `lazy_direct_matmat`, linear_operators.py:168-173: the slice that belongs to `c` copies of `M`. -/
def dsumStep (M : Act R) (c k : ℕ) (x : NdArr R) : Py (NdArr R) := do
  let z ← x.T.reshape? [k * c, M.cols]
  let elems ← M.dot z.T
  let w ← elems.T.reshape? [k, c * M.rows]
  .ok w.T

/-- The loop of `lazy_direct_matmat`, linear_operators.py:168-173. -/
def dsumLoop (v : NdArr R) (k : ℕ) : List (Act R × ℕ) → ℕ → Py (List (NdArr R))
  | [], _ => .ok []
  | (M, c) :: Ms, i => do
    let y ← dsumStep M c k (v.rows i (i + c * M.cols))
    let ys ← dsumLoop v k Ms (i + c * M.cols)
    .ok (y :: ys)

/-- `lazy_direct_matmat`, linear_operators.py:163-175. -/
def directMM (Ms : List (Act R × ℕ)) (v : NdArr R) : Py (NdArr R) := do
  let k := if 1 < v.shape.length then v.shape.getD 1 0 else 1
  let ys ← dsumLoop v k Ms 0
  NdArr.concat0 ys

/-- `LazyDirectSum`, linear_operators.py:136-150; both sides of its shape are computed from `shape[0]` of the blocks. -/
def dsum (Ms : List (Act R × ℕ)) : Act R :=
  ⟨(Ms.map fun M => M.1.rows * M.2).sum, (Ms.map fun M => M.1.rows * M.2).sum, directMM Ms, directMM Ms⟩

/-- `LazyPerm(p)`, linear_operators.py:177-186. -/
def perm (p : List ℕ) : Act R := ⟨p.length, p.length, fun V => .ok (V.takeFirst p), fun V => .ok (V.takeFirst p)⟩

/-- `LazyShift(n,k)`, linear_operators.py:192-201. -/
def shift (n : ℕ) (k : ℤ) : Act R := ⟨n, n, fun V => .ok (V.roll k), fun V => .ok (V.roll k)⟩

/-- `Rot90(n,k)`, linear_operators.py:222-231. -/
def rot90 (n : ℕ) (k : ℤ) : Act R :=
  let f : NdArr R → Py (NdArr R) := fun V => do
    let x ← V.reshapeTail [n, n]
    (x.rot90 k).reshape? V.shape
  ⟨n * n, n * n, f, f⟩

/-- The closures `lazy_Q` of `SumRep.equivariant_basis`, product_sum_reps.py:82-84, and `lazy_P` of
`SumRep.equivariant_projector`, 91-93 (there with `pre = some perm`). -/
def closure (Ms : List (Act R × ℕ)) (pre : Option (List ℕ)) (post : List ℕ) (rows cols : ℕ) : Act R :=
  let f : NdArr R → Py (NdArr R) := fun v => do
    let y ← directMM Ms (v.takePre pre)
    .ok (y.takeFirst post)
  ⟨rows, cols, f, f⟩

/-- `_SumLinearOperator`, linear_operator_base.py:530-549. -/
def add (a b : Act R) : Act R where
  rows := a.rows
  cols := a.cols
  mv x := do (← a.matvec x).add? (← b.matvec x)
  mm x := do (← a.matmat x).add? (← b.matmat x)

/-- `_ProductLinearOperator`, linear_operator_base.py:561-583. -/
def mul (a b : Act R) : Act R where
  rows := a.rows
  cols := b.cols
  mv x := do a.matvec (← b.matvec x)
  mm x := do a.matmat (← b.matmat x)

/-- `_ScaledLinearOperator`, linear_operator_base.py:599-617. -/
def smul (c : R) (a : Act R) : Act R where
  rows := a.rows
  cols := a.cols
  mv x := do .ok ((← a.matvec x).scale c)
  mm x := do .ok ((← a.matmat x).scale c)

/-- `_PowerLinearOperator._power`, linear_operator_base.py:644-648. -/
def iter (f : NdArr R → Py (NdArr R)) : ℕ → NdArr R → Py (NdArr R)
  | 0, x => .ok x
  | n + 1, x => do iter f n (← f x)

/-- `_PowerLinearOperator`, linear_operator_base.py:632-660. -/
def pow (a : Act R) (p : ℕ) : Act R := ⟨a.rows, a.cols, iter a.matvec p, iter a.matmat p⟩

/-- Defaults `_rmatvec` and `_rmatmat` of a class that defines `_adjoint`, linear_operator_base.py:241-247, 308-313:
`self.H.matvec(x)` and `self.H.matmat(x)`; `h` is `self.H`. -/
def viaH (h : Act R) : Act R := ⟨h.rows, h.cols, h.matvec, h.matmat⟩

/-- Methods that always raise.  `e` is raised by `_matvec`; the default `_matmat` (linear_operator_base.py:155-161, 308-311)
calls it for every column, and without columns `np.hstack([])` raises `ValueError`. -/
def fails (m n : ℕ) (e e' : PyErr) : Act R :=
  ⟨m, n, fun _ => .error e, fun x => if x.shape.getD 1 0 = 0 then .error .value else .error e'⟩

variable [StarRing R]

/-- `_TransposedLinearOperator`, linear_operator_base.py:499-519; `a` is the adjoint side of its operand. -/
def conj (a : Act R) : Act R where
  rows := a.rows
  cols := a.cols
  mv x := do .ok (← a.mv x.conj).conj
  mm x := do .ok (← a.mm x.conj).conj

end Act

/-- Operator objects and arrays, by the constructor calls that make them. -/
inductive Op (R : Type) [Zero R]
  /-- a plain jax or numpy array -/
  | arr (A : DMat R)
  /-- `Lazy(A)`, linear_operator_base.py:720-736 -/
  | lazy (A : DMat R)
  /-- `I(n)`, linear_operators.py:20-31 -/
  | eye (n : ℕ)
  /-- a `LazyKron` object, linear_operators.py:33-59 -/
  | kron (Ms : List (Op R))
  /-- a `LazyKronsum` object, linear_operators.py:66-94 -/
  | kronsum (Ms : List (Op R))
  /-- a `ConcatLazy` object, linear_operators.py:117-134 -/
  | concat (Ms : List (Op R))
  /-- `LazyDirectSum(Ms,multiplicities)`, linear_operators.py:136-158 -/
  | dsum (Ms : List (Op R × ℕ))
  /-- `LazyPerm(perm)`, linear_operators.py:177-190 -/
  | perm (p : List ℕ)
  /-- `LazyShift(n,k)`, linear_operators.py:192-205 -/
  | shift (n : ℕ) (k : ℤ)
  /-- `Rot90(n,k)`, linear_operators.py:222-233 -/
  | rot90 (n : ℕ) (k : ℤ)
  /-- a `LazyJVP` object, linear_operators.py:103-115; `D` is the derivative of its function, see `Model/Jvp.lean` -/
  | jvp (D : DMat R)
  /-- `LinearOperator(shape=(m,n),matvec=f,matmat=f)` with `f` the closure `lazy_Q` or `lazy_P`, product_sum_reps.py:75-93 -/
  | closure (Ms : List (Op R × ℕ)) (pre : Option (List ℕ)) (post : List ℕ) (m n : ℕ)
  /-- the adjoint of such an object: `_CustomLinearOperator` without `matvec`, linear_operator_base.py:469-476 -/
  | noMatvec (m n : ℕ)
  /-- a `LazyKron` or `LazyKronsum` object whose only operand is itself, see `mkKron` -/
  | selfRef (m n : ℕ)
  /-- `_SumLinearOperator`, linear_operator_base.py:530-559 -/
  | add (A B : Op R)
  /-- `_ProductLinearOperator`, linear_operator_base.py:561-596 -/
  | mul (A B : Op R)
  /-- `_ScaledLinearOperator`, linear_operator_base.py:599-629 -/
  | smul (c : R) (A : Op R)
  /-- `_PowerLinearOperator`, linear_operator_base.py:632-667 -/
  | pow (A : Op R) (n : ℕ)
  /-- `_AdjointLinearOperator`, linear_operator_base.py:479-497 -/
  | adj (A : Op R)
  /-- `_TransposedLinearOperator`, linear_operator_base.py:499-519 -/
  | tr (A : Op R)

namespace Op
variable {R : Type} [CommRing R] [StarRing R]

/-- The array, if the object is one. -/
def asArr : Op R → Option (DMat R)
  | .arr A => some A
  | _ => none

mutual
/-- `shape`, `_matvec`, `_matmat` of an object. -/
def fwd : Op R → Act R
  | .arr A => .ofMat A
  | .lazy A => .ofMat A
  | .eye n => .eye n
  | .kron Ms => .kron (fwdL Ms)
  | .kronsum Ms => .kronsum (fwdL Ms)
  | .concat Ms => .concat (fwdL Ms)
  | .dsum Ms => .dsum (fwdM Ms)
  | .perm p => .perm p
  | .shift n k => .shift n k
  | .rot90 n k => .rot90 n k
  | .jvp D => .ofMat D
  | .closure Ms pre post m n => .closure (fwdM Ms) pre post m n
  | .noMatvec m n => .fails m n .type .type
  | .selfRef m n => ⟨m, n, fun _ => .error .recursion, fun _ => .error .recursion⟩
  | .add A B => .add A.fwd B.fwd
  | .mul A B => .mul A.fwd B.fwd
  | .smul c A => .smul c A.fwd
  | .pow A n => .pow A.fwd n
  | .adj A => A.bwd
  | .tr A => A.bwd.conj
/-- The swapped shape, `_rmatvec`, `_rmatmat` of an object.  (A plain array has no such methods; its entry is not used.) -/
def bwd : Op R → Act R
  | .arr A => .ofMat A.transpose
  | .lazy A => .ofMat A.transpose
  | .eye n => .viaH (.eye n)
  | .kron Ms => .viaH (.kron (tL Ms))
  | .kronsum Ms => .viaH (.kronsum (tL Ms))
  | .concat Ms => .concatR (tL Ms)
  | .dsum Ms => ⟨(Act.dsum (fwdM Ms)).cols, (Act.dsum (fwdM Ms)).rows, fun _ => .error .type, fun _ => .error .type⟩
  | .perm p => .viaH (.perm (argsort p))
  | .shift n k => .viaH (.shift n (-k))
  | .rot90 n _ => .fails (n * n) (n * n) .notImplemented .notImplemented
  | .jvp D => ⟨D.cols, D.rows, fun _ => .error .notImplemented, NdArr.matmul D.transpose⟩
  | .closure _ _ _ m n => .fails n m .notImplemented .type
  | .noMatvec m n => .fails n m .notImplemented .type
  | .selfRef m n => ⟨n, m, fun _ => .error .recursion, fun _ => .error .recursion⟩
  | .add A B => .add A.bwd B.bwd
  | .mul A B => .mul B.bwd A.bwd
  | .smul c A => .smul (star c) A.bwd
  | .pow A n => .pow A.bwd n
  | .adj A => A.fwd
  | .tr A => A.fwd.conj
/-- `fwd` of each operator of a list. -/
def fwdL : List (Op R) → List (Act R)
  | [] => []
  | M :: Ms => M.fwd :: fwdL Ms
/-- The methods of `M.T` for each `M` of a list: the transposed array, or a `_TransposedLinearOperator`. -/
def tL : List (Op R) → List (Act R)
  | [] => []
  | M :: Ms => (match M.asArr with | some A => .ofMat A.transpose | none => M.bwd.conj) :: tL Ms
/-- `fwd` of each operator of a list with multiplicities. -/
def fwdM : List (Op R × ℕ) → List (Act R × ℕ)
  | [] => []
  | (M, c) :: Ms => (M.fwd, c) :: fwdM Ms
end

/-- `op@x` on an array. -/
def dot (M : Op R) (x : NdArr R) : Py (NdArr R) := M.fwd.dot x

/-- `op.shape` -/
def shape (M : Op R) : ℕ × ℕ := (M.fwd.rows, M.fwd.cols)

/-- `op.T`: for arrays the array, otherwise linear_operator_base.py:415-424. -/
def T : Op R → Op R
  | .arr A => .arr A.transpose
  | M => .tr M

/-- `LazyKron(Ms)`, linear_operators.py:35-39, 57-59: `__new__` returns a single operand as it is.  If that operand is itself a
`LazyKron`, Python then runs `__init__` on it, which makes it its own only operand.  (That the operand is overwritten also for
its other users is not modelled.)  `reduce` of an empty list raises. -/
def mkKron : List (Op R) → Py (Op R)
  | [] => .error .type
  | [.kron Ms] => .ok (.selfRef (Act.kron (fwdL Ms)).rows (Act.kron (fwdL Ms)).cols)
  | [M] => .ok M
  | Ms => .ok (.kron Ms)

/-- `LazyKronsum(Ms)`, linear_operators.py:68-73, 92-94, see `mkKron`. -/
def mkKronsum : List (Op R) → Py (Op R)
  | [] => .error .type
  | [.kronsum Ms] => .ok (.selfRef (Act.kronsum (fwdL Ms)).rows (Act.kronsum (fwdL Ms)).cols)
  | [M] => .ok M
  | Ms => .ok (.kronsum Ms)

/-- `A+B`: `_SumLinearOperator.__init__`, linear_operator_base.py:531-538. -/
def mkAdd (A B : Op R) : Py (Op R) :=
  if A.asArr.isSome ∨ B.asArr.isSome then .error .value else if A.shape = B.shape then .ok (.add A B) else .error .value

/-- `A*B`, `A@B`: `_ProductLinearOperator.__init__`, linear_operator_base.py:562-570. -/
def mkMul (A B : Op R) : Py (Op R) :=
  if A.asArr.isSome ∨ B.asArr.isSome then .error .value else if A.shape.2 = B.shape.1 then .ok (.mul A B) else .error .value

/-- `A**p`: `_PowerLinearOperator.__init__`, linear_operator_base.py:633-642. -/
def mkPow (A : Op R) (p : ℤ) : Py (Op R) :=
  if A.asArr.isSome then .error .value else if A.shape.1 ≠ A.shape.2 then .error .value else if p < 0 then .error .value else .ok (.pow A p.toNat)

/-- `c*A`: `_ScaledLinearOperator.__init__`, linear_operator_base.py:600-607. -/
def mkScale (c : R) (A : Op R) : Py (Op R) := if A.asArr.isSome then .error .value else .ok (.smul c A)

/-- `ConcatLazy(Ms)`: `__init__`, linear_operators.py:120-125. -/
def mkConcat (Ms : List (Op R)) : Py (Op R) :=
  match Ms with
  | [] => .error .index
  | M :: _ => if ∀ N ∈ Ms, N.shape.1 = M.shape.1 then .ok (.concat Ms) else .error .assertion

/-- `op.H`: `_adjoint` of each class; the default is `_AdjointLinearOperator(self)`, linear_operator_base.py:415-417.
`LazyDirectSum([...])` is called without multiplicities, and its `__init__` zips them with the blocks: `TypeError`
(linear_operators.py:137-141, 151-152).  Plain arrays have no `.H`. -/
def H : Op R → Py (Op R)
  | .arr _ => .error .attribute
  | .eye n => .ok (.eye n)
  | .kron Ms => mkKron (Ms.map T)
  | .kronsum Ms => mkKronsum (Ms.map T)
  | .dsum _ => .error .type
  | .perm p => .ok (.perm (argsort p))
  | .shift n k => .ok (.shift n (-k))
  | .closure _ _ _ m n => .ok (.noMatvec n m)
  | .noMatvec m n => .ok (.noMatvec n m)
  | .selfRef _ _ => .error .recursion
  | .add A B => do mkAdd (← A.H) (← B.H)
  | .mul A B => do mkMul (← B.H) (← A.H)
  | .smul c A => do mkScale (star c) (← A.H)
  | .pow A n => do mkPow (← A.H) n
  | M => .ok (.adj M)

/-- `reduce(f,xs)` of functools. -/
def reduce {α : Type} (f : α → α → α) : List α → Py α
  | [] => .error .type
  | x :: xs => .ok (xs.foldl f x)

/-- `kronsum(A,B)`, linear_operators.py:62-63. -/
def kronsum2 (A B : DMat R) : DMat R := DMat.add (DMat.kron A (DMat.one B.cols)) (DMat.kron (DMat.one A.cols) B)

/-- `jnp.concatenate` of 2-d arrays along axis 0. -/
def vstack? : List (DMat R) → Py (DMat R)
  | [] => .error .value
  | A :: As => if ∀ B ∈ As, B.cols = A.cols then .ok (DMat.vstack (A :: As)) else .error .type

/-- `jax.scipy.linalg.block_diag(*Ms)`; without blocks it returns an array of shape `(1,0)`. -/
def blockDiag : List (DMat R) → DMat R
  | [] => DMat.zero 1 0
  | As => DMat.bdiag As

/-- The default `to_dense`, linear_operator_base.py:426-430: `self@np.eye(self.shape[-1])`. -/
def defaultDense (a : Act R) : Py (DMat R) := do DMat.ofArr (← a.dot (DMat.one a.cols : DMat R).toArr)

mutual
/-- `op.to_dense()`, or the array itself for a plain array.  `jnp.kron`, `block_diag`, `@` and `*` of dense arrays are the
matrix operations of `Verif.Spec.Dense` (`@` checks the shapes). -/
def toDense : Op R → Py (DMat R)
  | .arr A => .ok A
  | .lazy A => .ok A
  | .kron Ms => do reduce DMat.kron (← toDenseL Ms)
  | .kronsum Ms => do reduce kronsum2 (← toDenseL Ms)
  | .concat Ms => do vstack? (← toDenseL Ms)
  | .dsum Ms => do .ok (blockDiag (← toDenseM Ms))
  | .mul A B => do
    let a ← A.toDense
    let b ← B.toDense
    if a.cols = b.rows then .ok (a.mul b) else .error .type
  | .smul c A => do .ok (DMat.smul c (← A.toDense))
  | .eye n => defaultDense (.eye n)
  | .perm p => defaultDense (.perm p)
  | .shift n k => defaultDense (.shift n k)
  | .rot90 n k => defaultDense (.rot90 n k)
  | .jvp D => defaultDense (.ofMat D)
  | .closure Ms pre post m n => defaultDense (.closure (fwdM Ms) pre post m n)
  | .noMatvec m n => defaultDense (.fails m n .type .type)
  | .selfRef _ _ => .error .recursion
  | .add A B => defaultDense (.add A.fwd B.fwd)
  | .pow A n => defaultDense (.pow A.fwd n)
  | .adj A => defaultDense A.bwd
  | .tr A => defaultDense A.bwd.conj
/-- `to_dense()` of each operator of a list. -/
def toDenseL : List (Op R) → Py (List (DMat R))
  | [] => .ok []
  | M :: Ms => do
    let d ← M.toDense
    let ds ← toDenseL Ms
    .ok (d :: ds)
/-- `to_dense()` of each operator of a list with multiplicities, repeated (an operator taken 0 times is not evaluated). -/
def toDenseM : List (Op R × ℕ) → Py (List (DMat R))
  | [] => .ok []
  | (M, c) :: Ms => do
    let d ← if c = 0 then .ok (DMat.zero 0 0) else M.toDense
    let ds ← toDenseM Ms
    .ok (replicate c d ++ ds)
end

end Op

namespace Op
variable {R : Type} [Field R] [StarRing R] [DecidableEq R]

mutual
/-- `op.invT()`; `inv` is `np.linalg.inv` (it raises on singular and non-square arrays).  Classes without the method raise
`AttributeError`, and so do plain arrays.  linear_operators.py:30-31, 52-53, 153-154, 189-190, 204-205, 232-233,
linear_operator_base.py:556-558, 588-590, 623-625, 664-666, 735-736.  `LazyDirectSum([...])` is called without
multiplicities and raises as in `H`; `1/alpha` raises `ZeroDivisionError` for 0 (here `exception`). -/
def invT (inv : DMat R → Py (DMat R)) : Op R → Py (Op R)
  | .lazy A => do .ok (.lazy (← inv A).transpose)
  | .eye n => .ok (.eye n)
  | .perm p => .ok (.perm p)
  | .shift n k => .ok (.shift n k)
  | .rot90 n k => .ok (.rot90 n k)
  | .kron Ms => do mkKron (← invTL inv Ms)
  | .dsum Ms => do
    let _ ← invTM inv Ms
    .error .type
  | .selfRef _ _ => .error .recursion
  | .add A B => do mkAdd (← invT inv A) (← invT inv B)
  | .mul A B => do mkMul (← invT inv A) (← invT inv B)
  | .smul c A => if c = 0 then .error .exception else mkScale (1 / c) A.T
  | .pow A n => do mkPow (← invT inv A) n
  | _ => .error .attribute
/-- `M.invT()` for each operator of a list. -/
def invTL (inv : DMat R → Py (DMat R)) : List (Op R) → Py (List (Op R))
  | [] => .ok []
  | M :: Ms => do
    let N ← invT inv M
    let Ns ← invTL inv Ms
    .ok (N :: Ns)
/-- `M.invT()` for each block of a direct sum. -/
def invTM (inv : DMat R → Py (DMat R)) : List (Op R × ℕ) → Py (List (Op R))
  | [] => .ok []
  | (M, _) :: Ms => do
    let N ← invT inv M
    let Ns ← invTM inv Ms
    .ok (N :: Ns)
end

end Op
end Verif
