import Verif.Model.DRho

/-!
# The equivariance solver

`constraint_matrix`, `equivariant_basis` and `equivariant_projector` of the representation classes.

The numerical null space routine (`orthogonal_complement` on the dense matrix, or `krylov_constraint_solve`) is a
parameter `solve`: it receives the constraint operator and the number of solver calls made before, so that the
randomly initialised Krylov solver is covered (two calls on the same operator may return different matrices).
`orthogonal_complement` and the Krylov driver are modelled in `Verif.Model.NullSpace`.  Conversions to
`float32`/device arrays (product_sum_reps.py:79) and log messages are not modelled.
-/
namespace Verif
variable {R : Type} [CommRing R]

/-- The generators of a group, each given by its matrices on the atoms: `G.discrete_generators` and
`G.lie_algebra` (groups.py:14-40). -/
structure GenSet (R : Type) [CommRing R] where
  disc : List (Interp R)
  lie : List (Interp R)

/-- The class attribute `Rep.solcache` (representation.py:97) and the number of solver calls so far.  Only
`Base`, `Dual`, user-defined representations and `ProductRep`s reach the cache: `Scalar` returns first (101) and
`SumRep` and `DirectProduct` override `equivariant_basis`. -/
structure SolveSt (R : Type) [CommRing R] where
  cache : List (Fac × DMat R)
  calls : ℕ

/-- `canon_rep in self.solcache`, `self.solcache[canon_rep]`, representation.py:104 and 115. -/
def SolveSt.get (σ : SolveSt R) (f : Fac) : Option (DMat R) := (σ.cache.find? fun e => e.1 == f).map (·.2)

/-- A method that uses the cache: its outcome and the new state. -/
abbrev SolveM (R : Type) [CommRing R] (α : Type) := SolveSt R → Py α × SolveSt R

/-- A comprehension `[f(x) for x in l]` of a method that uses the cache. -/
def solveList {α β : Type} (f : α → SolveM R β) : List α → SolveM R (List β)
  | [], σ => (.ok [], σ)
  | a :: t, σ =>
    match f a σ with
    | (.error e, σ) => (.error e, σ)
    | (.ok b, σ) =>
      match solveList f t σ with
      | (.error e, σ) => (.error e, σ)
      | (.ok bs, σ) => (.ok (b :: bs), σ)

/-- Continue with a computation that does not use the cache. -/
def solveMap {α β : Type} (f : α → β) (m : SolveM R α) : SolveM R β := fun σ =>
  match m σ with
  | (.error e, σ) => (.error e, σ)
  | (.ok a, σ) => (.ok (f a), σ)

section
variable (W : World) (gens : Gid → GenSet R)

/-- `Rep.constraint_matrix`, representation.py:87-95.  `lazify(x)` is the operator `x` itself. -/
def Fac.constraintMatrix (f : Fac) : Py (LinOp R) :=
  match f.G with
  | none => .error .attribute
  | some g =>
    let n := f.size W
    let constraints :=
      ((gens g).disc.map fun h => LinOp.add (f.rho h) (.smul (-1) (.eye n))) ++ (gens g).lie.map fun A => f.drho A
    .ok (if constraints.isEmpty then .lazy (DMat.zero 1 n) else .concat constraints)

/-- `rep.constraint_matrix()`.  `SumRep` and `DirectProduct` have no attribute `G`; `Scalar.G` is the group it was
last called with; the deferred representations have no size. -/
def Rep.constraintMatrix : Rep → Py (LinOp R)
  | .key (.fac f) => f.constraintMatrix W gens
  | .key .scalar =>
    match W.scalarG with
    | none => .error .attribute
    | some g =>
      let constraints := ((gens g).disc.map fun _ => LinOp.add (.lazy (DMat.one 1)) (.smul (-1) (.eye 1))) ++
        (gens g).lie.map fun _ => LinOp.lazy (DMat.zero 1 1)
      .ok (if constraints.isEmpty then .lazy (DMat.zero 1 1) else .concat constraints)
  | .key (.dprod _) => .error .attribute
  | .sum _ => .error .attribute
  | _ => .error .notImplemented

variable (solve : ℕ → LinOp R → Py (DMat R))

/-- `Rep.equivariant_basis` for representations of one group, representation.py:98-115.  `Q[invperm]` selects rows. -/
def Fac.basis (f : Fac) : SolveM R (DMat R) := fun σ =>
  match f.canon W with
  | .error e => (.error e, σ)
  | .ok (canonRep, perm) =>
    let invperm := argsort perm
    match σ.get canonRep with
    | some Q => (.ok (Q.pick invperm (List.range Q.cols)), σ)
    | none =>
      match canonRep.constraintMatrix W gens with
      | .error e => (.error e, σ)
      | .ok C =>
        match solve σ.calls C with
        | .error e => (.error e, { σ with calls := σ.calls + 1 })
        | .ok Q => (.ok (Q.pick invperm (List.range Q.cols)), { cache := (canonRep, Q) :: σ.cache, calls := σ.calls + 1 })

/-- `equivariant_basis` of a key: `Scalar` (representation.py:101), `DirectProduct` (product_sum_reps.py:374-376). -/
def Key.basis : Key → SolveM R (LinOp R)
  | .scalar => fun σ => (.ok (.lazy (DMat.one 1)), σ)
  | .fac f => solveMap .lazy (f.basis W gens solve)
  | .dprod d => solveMap (fun Qs => .mul (.perm (argsort d.perm)) (.kron (Qs.map .lazy)))
      (solveList (Fac.basis W gens solve) d.c.keys)

/-- `SumRep.equivariant_basis`, product_sum_reps.py:75-84.  The closure `lazy_Q` computes
`lazy_direct_matmat(array,Qs,multiplicities)[invperm]`, the product of `LazyPerm(invperm)` and the direct sum (as in the
commented-out version at 96-101). -/
def SRep.basis (s : SRep) : SolveM R (LinOp R) :=
  solveMap (fun Qs => .mul (.perm (argsort s.perm)) (.dsum (Qs.zip (s.c.map (·.2)))))
    (solveList (Key.basis W gens solve) s.c.keys)

/-- `rep.equivariant_basis()`; the deferred representations have no size. -/
def Rep.equivariantBasis : Rep → SolveM R (LinOp R)
  | .key k => k.basis W gens solve
  | .sum s => s.basis W gens solve
  | _ => fun σ => (.error .notImplemented, σ)

/-- `Q_lazy@Q_lazy.H`, representation.py:119-122.  `Lazy` inherits `.H` from `LinearOperator`
(`_AdjointLinearOperator`, linear_operator_base.py:479-497), which applies `Lazy._rmatvec`/`_rmatmat` (724-730): these
multiply by `A.T`, without conjugation. -/
def outerH (Q : DMat R) : LinOp R := .mul (.lazy Q) (.lazy Q.transpose)

/-- `Rep.equivariant_projector` for representations of one group, representation.py:117-122. -/
def Fac.projector (f : Fac) : SolveM R (LinOp R) := solveMap outerH (f.basis W gens solve)

/-- `equivariant_projector` of a key; `DirectProduct`, product_sum_reps.py:378-380. -/
def Key.projector : Key → SolveM R (LinOp R)
  | .scalar => fun σ => (.ok (outerH (DMat.one 1)), σ)
  | .fac f => f.projector W gens solve
  | .dprod d => solveMap (fun Ps => conjPerm d.perm (.kron Ps)) (solveList (Fac.projector W gens solve) d.c.keys)

/-- `SumRep.equivariant_projector`, product_sum_reps.py:86-93: the closure `lazy_P` computes
`lazy_direct_matmat(array[perm],Ps,multiplicities)[invperm]`. -/
def SRep.projector (s : SRep) : SolveM R (LinOp R) :=
  solveMap (fun Ps => conjPerm s.perm (.dsum (Ps.zip (s.c.map (·.2))))) (solveList (Key.projector W gens solve) s.c.keys)

/-- `rep.equivariant_projector()`. -/
def Rep.equivariantProjector : Rep → SolveM R (LinOp R)
  | .key k => k.projector W gens solve
  | .sum s => s.projector W gens solve
  | _ => fun σ => (.error .notImplemented, σ)

/-- A call a program makes: `rep.equivariant_basis()` or `rep.equivariant_projector()`. -/
inductive SolveCall
  | basis (r : Rep)
  | projector (r : Rep)

/-- The call and its effect on the process state. -/
def SolveCall.run : SolveCall → SolveM R (LinOp R)
  | .basis r => r.equivariantBasis W gens solve
  | .projector r => r.equivariantProjector W gens solve

/-- The process state after a history of calls; a call that raises leaves its effects behind and the program goes on. -/
def session : List SolveCall → SolveSt R → SolveSt R
  | [], σ => σ
  | c :: t, σ => session t (c.run W gens solve σ).2

/-- The state of a fresh process. -/
def freshSt : SolveSt R := ⟨[], 0⟩

end
end Verif
