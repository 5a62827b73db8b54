import Verif.Model.CustomOp

/-!
# What functions given to `LinearOperator` should compute (specification)
-/
namespace Verif
open List

namespace CustomOp
variable {R : Type} [CommRing R]

/-- The function multiplies vectors by `A`, given with shape `(N,)` or `(N,1)` (as the documentation asks); the result may have
any shape. -/
def ComputesVec (f : NdArr R → Py (NdArr R)) (A : DMat R) : Prop :=
  ∀ v : List R, v.length = A.cols → ∀ s, s = [A.cols] ∨ s = [A.cols, 1] → ∃ t, f ⟨s, v⟩ = .ok ⟨t, A.mulVec v⟩

/-- The function multiplies matrices by `A`. -/
def ComputesMat (g : NdArr R → Py (NdArr R)) (A : DMat R) : Prop :=
  ∀ X : DMat R, X.rows = A.cols → g X.toArr = .ok (A.mul X).toArr

/-- The operator was given the shape of `A`, a `matvec` that multiplies by `A` and, if any, a `matmat` that does. -/
structure For (c : CustomOp R) (A : DMat R) : Prop where
  rows : c.rows = A.rows
  cols : c.cols = A.cols
  mv : ∃ f, c.mv = some f ∧ ComputesVec f A
  mm : ∀ g, c.mm = some g → ComputesMat g A

/-- It was also given an `rmatvec` and, if any, an `rmatmat` that multiply by the conjugate transpose. -/
structure ForAdj [StarRing R] (c : CustomOp R) (A : DMat R) : Prop where
  rmv : ∃ f, c.rmv = some f ∧ ComputesVec f A.conjTranspose
  rmm : ∀ g, c.rmm = some g → ComputesMat g A.conjTranspose

end CustomOp
end Verif
