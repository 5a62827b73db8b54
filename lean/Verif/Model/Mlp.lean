import Verif.Model.FrontEnds

/-!
# The baseline networks `MLP`, `MLPode`, `MLPH`

The baselines use the layers of the frameworks themselves (`objax.nn.Linear`, `torch.nn.Linear`, `flax.linen.Dense`, `hk.Linear`), which are
modelled after their documentation: `x@w+b` with `w` of shape `(nin,nout)`, for torch `x@w.T+b` with `w` of shape `(nout,nin)`.
Initial values of the parameters are not modelled: parameters are arguments.
-/
namespace Verif
open List

/-- A baseline `MLP`: the width of its input, where the constructor fixes it, the widths of the hidden layers, the width of its output. -/
structure Mlp where
  cin : Option ℕ
  hidden : List ℕ
  cout : ℕ
deriving DecidableEq

/-- `MLP(rep_in,rep_out,group,ch,num_layers)`: objax.py:213-224, pytorch.py:179-190, flax.py:139-150, haiku.py:125-132; the constructors of
`MLPode`, objax.py:259-271, and `MLPH`, objax.py:302-314, are line for line that of `MLP`.  In flax and haiku `rep_in` is not used: the width
of the input is that of the first input seen.  (flax evaluates `rep_out(group)` in `setup`, when the network is first used.)  A negative
`num_layers` gives no hidden layers in all front ends, like 0.  (The variable `cout` of the comprehension does not overwrite the outer one.) -/
def FrontEnd.mlp (W : World) (F : FrontEnd) (repIn repOut : Rep) (g : Gid) (ch numLayers : ℕ) : RepM Mlp :=
  let call (r : Rep) : RepM Rep := fun sg => Rep.call (W.setG sg) (some g) sg r
  match F with
  | .objax | .torch => do
    let rin ← call repIn
    let rout ← call repOut
    pure ⟨some (rin.size W), replicate numLayers ch, rout.size W⟩
  | .flax | .haiku => do
    let rout ← call repOut
    pure ⟨none, replicate numLayers ch, rout.size W⟩

/-- The parameters of a dense layer. -/
structure DenseP (R : Type) [CommRing R] where
  w : DMat R
  b : List R

/-- The layers `(cin,cout)` that are created, for a first input of width `n`: `zip(chs,chs[1:])` and `(chs[-1],cout)`. -/
def Mlp.layers (M : Mlp) (n : ℕ) : List (ℕ × ℕ) := ((M.cin.getD n) :: M.hidden).zip (M.hidden ++ [M.cout])

section
variable {R : Type} [CommRing R]

/-- A dense layer on a batch.  The exception for a wrong width of the input differs between the frameworks. -/
def FrontEnd.dense (F : FrontEnd) (p : DenseP R) (X : DMat R) : Py (DMat R) :=
  match F with
  | .torch => if X.cols = p.w.cols ∧ p.b.length = p.w.rows then .ok ((X.mul p.w.transpose).addRow p.b) else .error .exception
  | .objax | .flax | .haiku => if X.cols = p.w.rows ∧ p.b.length = p.w.cols then .ok ((X.mul p.w).addRow p.b) else .error .type

/-- `swish(x)`, objax.py:204-205, pytorch.py:170-171, flax.py:123-124, `jax.nn.swish` in haiku; `act` is the sigmoid. -/
def swish (act : R → R) (x : R) : R := act x * x

/-- `swish` of an array. -/
def DMat.mapE (f : R → R) (A : DMat R) : DMat R := DMat.of A.rows A.cols fun i j => f (A.e i j)

/-- Calling the network on a batch: `Sequential(*[MLPBlock(cin,cout) …],Linear(chs[-1],cout))`, objax.py:207-208, 221-227, pytorch.py:173-174,
187-194, flax.py:136-137, 147-154, haiku.py:128-131; also `MLPode.__call__`, objax.py:272-273.  There is always a last layer. -/
def FrontEnd.mlpApply (F : FrontEnd) (act : R → R) : List (DenseP R) → DMat R → Py (DMat R)
  | [], X => .ok X
  | [p], X => F.dense p X
  | p :: q :: ps, X => do
    let Y ← F.dense p X
    F.mlpApply act (q :: ps) (Y.mapE (swish act))

/-- A dense layer of objax on one vector. -/
def denseVec (p : DenseP R) (x : List R) : Py (List R) :=
  if x.length = p.w.rows ∧ p.b.length = p.w.cols then .ok (zipWith (· + ·) (p.w.transpose.mulVec x) p.b) else .error .type

/-- `MLP.__call__`, `MLPode.__call__` and `MLPH.net` (objax.py:225-227, 272-273, 316) on one vector; `MLPH.H` is `hamiltonianNet` of it. -/
def mlpVec (act : R → R) : List (DenseP R) → List R → Py (List R)
  | [], x => .ok x
  | [p], x => denseVec p x
  | p :: q :: ps, x => do
    let y ← denseVec p x
    mlpVec act (q :: ps) (y.map (swish act))

end
end Verif
