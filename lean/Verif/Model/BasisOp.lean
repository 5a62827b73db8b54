import Verif.Model.RhoOp
import Verif.Model.Solver

/-!
# `equivariant_basis` and `equivariant_projector` as operator objects

The same methods as in `Verif.Model.Solver`, returning the arrays and operator objects they really build: arrays, `LazyKron`s,
products with `LazyPerm`, and the `LinearOperator`s around the closures `lazy_Q` and `lazy_P`.  The conversion to `float32` and
`device_put` (product_sum_reps.py:79) is not modelled.
-/
namespace Verif
variable {R : Type} [CommRing R] [StarRing R]

/-- Continue with a computation that does not use the cache and may raise. -/
def solveThen {α β : Type} (f : α → Py β) (m : SolveM R α) : SolveM R β := fun σ =>
  match m σ with
  | (.error e, σ) => (.error e, σ)
  | (.ok a, σ) => (f a, σ)

/-- `Q_lazy@Q_lazy.H`, representation.py:119-122. -/
def Op.outer (Q : DMat R) : Py (Op R) := do
  let H ← (Op.lazy Q).H
  Op.at (.lazy Q) H

section
variable (W : World) (gens : Gid → GenSet R) (solve : ℕ → LinOp R → Py (DMat R))

/-- `equivariant_basis` of a key: arrays (representation.py:98-115), and `LazyPerm(invperm)@LazyKron([...])` for a `DirectProduct`
(product_sum_reps.py:374-376). -/
def Key.basisOp : Key → SolveM R (Op R)
  | .scalar => fun σ => (.ok (.arr (DMat.one 1)), σ)
  | .fac f => solveMap .arr (f.basis W gens solve)
  | .dprod d => solveThen (fun Qs => do
      let K ← Op.mkKron (Qs.map .arr)
      Op.at (.perm (argsort d.perm)) K) (solveList (Fac.basis W gens solve) d.c.keys)

/-- `SumRep.equivariant_basis`, product_sum_reps.py:75-84; the number of columns is
`sum([self.reps[rep]*Qs[rep].shape[-1] for rep in Qs.keys()])`. -/
def SRep.basisOp (s : SRep) : SolveM R (Op R) :=
  solveMap (fun Qs => .closure (Qs.zip (s.c.map (·.2))) none (argsort s.perm) (s.size W)
      ((Qs.zip (s.c.map (·.2))).map fun M => M.2 * M.1.shape.2).sum)
    (solveList (Key.basisOp W gens solve) s.c.keys)

/-- `rep.equivariant_basis()` -/
def Rep.basisOp : Rep → SolveM R (Op R)
  | .key k => k.basisOp W gens solve
  | .sum s => s.basisOp W gens solve
  | _ => fun σ => (.error .notImplemented, σ)

/-- `Rep.equivariant_projector` for representations of one group, representation.py:117-122. -/
def Fac.projectorOp (f : Fac) : SolveM R (Op R) := solveThen Op.outer (f.basis W gens solve)

/-- `equivariant_projector` of a key; `DirectProduct`, product_sum_reps.py:378-380. -/
def Key.projectorOp : Key → SolveM R (Op R)
  | .scalar => fun σ => (Op.outer (DMat.one 1), σ)
  | .fac f => f.projectorOp W gens solve
  | .dprod d => solveThen (fun Ps => do
      let K ← Op.mkKron Ps
      Op.conjPerm d.perm K) (solveList (Fac.projectorOp W gens solve) d.c.keys)

/-- `SumRep.equivariant_projector`, product_sum_reps.py:86-93. -/
def SRep.projectorOp (s : SRep) : SolveM R (Op R) :=
  solveMap (fun Ps => .closure (Ps.zip (s.c.map (·.2))) (some s.perm) (argsort s.perm) (s.size W) (s.size W))
    (solveList (Key.projectorOp W gens solve) s.c.keys)

/-- `rep.equivariant_projector()` -/
def Rep.projectorOp : Rep → SolveM R (Op R)
  | .key k => k.projectorOp W gens solve
  | .sum s => s.projectorOp W gens solve
  | _ => fun σ => (.error .notImplemented, σ)

end
end Verif
