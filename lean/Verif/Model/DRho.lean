import Verif.Model.Rep

/-!
# `drho`: the Lie algebra representation

Models `drho` of the representation classes.  The argument `A` of `drho(A)` enters through what it yields on the
atoms (`Interp`): `vec k G` is the matrix of `rep.drho(A)` and `dual k G` that of `Dual(rep).drho(A)`, i.e.
`-rep.drho(A).T` (representation.py:277-278).  `Rep.drho`'s default for user-defined representations, a
Jacobian-vector product computed by jax (representation.py:40-43), is likewise supplied by the `Interp` and computed in `Model/Jvp.lean`.
-/
namespace Verif
variable {R : Type} [CommRing R] (I : Interp R)

/-- `drho(A)` of an atom, representation.py:245-247 and 277-278. -/
def Atom.drho (a : Atom) : LinOp R := a.rho I

/-- `ProductRep.drho`, product_sum_reps.py:274-277. -/
def PRep.drho (p : PRep) : LinOp R := conjPerm p.perm (.kronsum (p.c.expand.map (Atom.drho I)))

/-- `drho(A)` of a factor. -/
def Fac.drho : Fac → LinOp R
  | .atom a => a.drho I
  | .prod p => p.drho I

/-- `DirectProduct.drho`, product_sum_reps.py:386-388. -/
def DRep.drho (d : DRep) : LinOp R := conjPerm d.perm (.kronsum (d.c.expand.map (Fac.drho I)))

/-- `drho(A)` of a key; `ScalarRep.drho`, representation.py:219-220. -/
def Key.drho : Key → LinOp R
  | .scalar => .lazy (DMat.zero 1 1)
  | .fac f => f.drho I
  | .dprod d => d.drho I

/-- `SumRep.drho`, product_sum_reps.py:38-41. -/
def SRep.drho (s : SRep) : LinOp R :=
  conjPerm s.perm (.dsum (s.c.map fun kc => (kc.1.drho I, kc.2)))

/-- `rep.drho(A)`; the deferred representations fall back on `Rep.drho`, whose `rho` raises. -/
def Rep.drho : Rep → Py (LinOp R)
  | .key k => .ok (k.drho I)
  | .sum s => .ok (s.drho I)
  | _ => .error .notImplemented

/-- The matrix `rep.drho(A)` denotes (a `0 × 0` matrix for deferred representations, where `drho` raises). -/
def Rep.dmat : Rep → DMat R
  | .key k => (k.drho I).sem
  | .sum s => (s.drho I).sem
  | _ => DMat.zero 0 0

/-- On each atom the dual matrix is minus the transpose, and for orthogonal groups (`is_orthogonal`) the
matrix is antisymmetric. -/
structure Interp.DDual (W : World) {R : Type} [CommRing R] (I : Interp R) : Prop where
  sq : ∀ k g, (I.vec k (some g)).sem.IsSq (W.asize k g)
  dual : ∀ k g, (I.dual k (some g)).sem = (I.vec k (some g)).sem.transpose.neg
  orth : ∀ k g, W.orth g = true → (I.vec k (some g)).sem.transpose.neg = (I.vec k (some g)).sem

end Verif
