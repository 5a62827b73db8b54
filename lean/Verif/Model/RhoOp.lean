import Verif.Model.LinApply
import Verif.Model.DRho

/-!
# `rho` and `drho` as operator objects

`rep.rho(M)` and `rep.drho(A)` with the operator objects and arrays they really build (`Op`), so that `rho(M)@v`, `rho_dense`
and `drho_dense` run the array algorithms of `Verif.Model.LinApply`.  `Verif.Model.Rep` and `Verif.Model.DRho` give the same
methods as matrices.
-/
namespace Verif
variable {R : Type} [CommRing R] [StarRing R]

/-- What `rho(M)` (or `drho(A)`) of `V(G)` and of the user-defined representations returns for the argument at hand: an array or an
operator (`Base.rho`, `Base.drho`, representation.py:242-247, return the argument itself, picked by group from a dict). -/
structure OpInterp (R : Type) [CommRing R] where
  vec : ℕ → Option Gid → Op R

/-- `A@B` for operators and arrays: linear_operator_base.py:321-357.  An array times an operator: neither jax nor
`LinearOperator.__rmatmul__` accepts the other operand (`NotImplemented` twice: `TypeError`). -/
def Op.at (A B : Op R) : Py (Op R) :=
  match A.asArr, B.asArr with
  | none, none => Op.mkMul A B
  | none, some X => do
    let y ← A.dot X.toArr
    let Y ← DMat.ofArr y
    .ok (.arr Y)
  | some X, some Y => if X.cols = Y.rows then .ok (.arr (X.mul Y)) else .error .type
  | some _, none => .error .type

/-- `LazyPerm(self.invperm)@X@LazyPerm(self.perm)`. -/
def Op.conjPerm (perm : List ℕ) (X : Op R) : Py (Op R) := do
  let Y ← Op.at (.perm (argsort perm)) X
  Op.at Y (.perm perm)

/-- `Dual.drho`, representation.py:277-278: `-self.rep.drho(A).T`. -/
def Op.dualDrho (X : Op R) : Py (Op R) :=
  match X.asArr with
  | some A => .ok (.arr A.transpose.neg)
  | none => Op.mkScale (-1) X.T

/-- `densify(x)`, linear_operators.py:15-18. -/
def Op.densify (X : Op R) : Py (DMat R) := X.toDense

/-- `lazify(x)`, linear_operators.py:10-13. -/
def Op.lazify (X : Op R) : Op R :=
  match X.asArr with
  | some A => .lazy A
  | none => X

section drho
variable (I : OpInterp R)

/-- `drho(A)` of an atom. -/
def Atom.drhoOp : Atom → Py (Op R)
  | .vec k g => .ok (I.vec k g)
  | .dual k g => Op.dualDrho (I.vec k g)

/-- `ProductRep.drho`, product_sum_reps.py:274-277. -/
def PRep.drhoOp (p : PRep) : Py (Op R) := do
  let Ms ← p.c.expand.mapM (Atom.drhoOp I)
  let X ← Op.mkKronsum Ms
  Op.conjPerm p.perm X

/-- `drho(A)` of a factor. -/
def Fac.drhoOp : Fac → Py (Op R)
  | .atom a => a.drhoOp I
  | .prod p => p.drhoOp I

/-- `DirectProduct.drho`, product_sum_reps.py:386-388. -/
def DRep.drhoOp (d : DRep) : Py (Op R) := do
  let Ms ← d.c.expand.mapM (Fac.drhoOp I)
  let X ← Op.mkKronsum Ms
  Op.conjPerm d.perm X

/-- `drho(A)` of a key; `ScalarRep.drho`, representation.py:219-220, is an array. -/
def Key.drhoOp : Key → Py (Op R)
  | .scalar => .ok (.arr (DMat.zero 1 1))
  | .fac f => f.drhoOp I
  | .dprod d => d.drhoOp I

/-- `SumRep.drho`, product_sum_reps.py:38-41. -/
def SRep.drhoOp (s : SRep) : Py (Op R) := do
  let Ms ← s.c.keys.mapM (Key.drhoOp I)
  Op.conjPerm s.perm (.dsum (Ms.zip (s.c.map (·.2))))

/-- `rep.drho(A)`; the deferred representations fall back on `Rep.drho`, whose `rho` raises. -/
def Rep.drhoOp : Rep → Py (Op R)
  | .key k => k.drhoOp I
  | .sum s => s.drhoOp I
  | _ => .error .notImplemented

/-- `rep.drho_dense(A)`, representation.py:83-85. -/
def Rep.drhoDense (r : Rep) : Py (DMat R) := do
  let X ← r.drhoOp I
  X.densify

end drho

section rho
variable {F : Type} [Field F] [StarRing F] [DecidableEq F] (inv : DMat F → Py (DMat F)) (I : OpInterp F)

/-- `Dual.rho`, representation.py:273-276; `inv` is `jnp.linalg.inv`. -/
def Op.dualRho (X : Op F) : Py (Op F) :=
  match X.asArr with
  | some A => do
    let B ← inv A
    .ok (.arr B.transpose)
  | none => X.invT inv

/-- `rho(M)` of an atom. -/
def Atom.rhoOp : Atom → Py (Op F)
  | .vec k g => .ok (I.vec k g)
  | .dual k g => Op.dualRho inv (I.vec k g)

/-- `ProductRep.rho`, product_sum_reps.py:269-272. -/
def PRep.rhoOp (p : PRep) : Py (Op F) := do
  let Ms ← p.c.expand.mapM (Atom.rhoOp inv I)
  let X ← Op.mkKron Ms
  Op.conjPerm p.perm X

/-- `rho(M)` of a factor. -/
def Fac.rhoOp : Fac → Py (Op F)
  | .atom a => a.rhoOp inv I
  | .prod p => p.rhoOp inv I

/-- `DirectProduct.rho`, product_sum_reps.py:382-384. -/
def DRep.rhoOp (d : DRep) : Py (Op F) := do
  let Ms ← d.c.expand.mapM (Fac.rhoOp inv I)
  let X ← Op.mkKron Ms
  Op.conjPerm d.perm X

/-- `rho(M)` of a key; `ScalarRep.rho`, representation.py:217-218, is an array. -/
def Key.rhoOp : Key → Py (Op F)
  | .scalar => .ok (.arr (DMat.one 1))
  | .fac f => f.rhoOp inv I
  | .dprod d => d.rhoOp inv I

/-- `SumRep.rho`, product_sum_reps.py:33-36. -/
def SRep.rhoOp (s : SRep) : Py (Op F) := do
  let Ms ← s.c.keys.mapM (Key.rhoOp inv I)
  Op.conjPerm s.perm (.dsum (Ms.zip (s.c.map (·.2))))

/-- `rep.rho(M)`; the deferred representations inherit `Rep.rho`, which raises. -/
def Rep.rhoOp : Rep → Py (Op F)
  | .key k => k.rhoOp inv I
  | .sum s => s.rhoOp inv I
  | _ => .error .notImplemented

/-- `rep.rho_dense(M)`, representation.py:80-82. -/
def Rep.rhoDense (r : Rep) : Py (DMat F) := do
  let X ← r.rhoOp inv I
  X.densify

/-- `Rep.constraint_matrix` for representations of one group, representation.py:87-95, as the operator object it builds.  `disc` and
`lie` are the generators of the group.  `x-y` is `x+(-y)`, linear_operator_base.py:378-382. -/
def Fac.constraintOp (W : World) (disc lie : List (OpInterp F)) (f : Fac) : Py (Op F) := do
  let n := f.size W
  let cs ← disc.mapM fun h => do
    let X ← f.rhoOp inv h
    let J ← Op.mkScale (-1) (.eye n)
    Op.mkAdd X.lazify J
  let ds ← lie.mapM fun A => do
    let X ← f.drhoOp A
    .ok X.lazify
  if cs ++ ds = [] then .ok (.lazy (DMat.zero 1 n)) else Op.mkConcat (cs ++ ds)

end rho
end Verif
