import Verif.Model.LinApply

/-!
# What operator objects should denote (specification)

`Op.den` is the matrix an operator object stands for, `Op.WF` says that its parts fit together, and `Op.Rev` that its class and
those of its parts define the adjoint side at all.
-/
namespace Verif
open List

namespace Op
variable {R : Type} [CommRing R] [StarRing R]

/-- The matrix of an optional reordering of a vector of length `n`. -/
def preMat (n : ℕ) : Option (List ℕ) → DMat R
  | none => DMat.one n
  | some p => DMat.permMat p

mutual
/-- The matrix an operator object stands for. -/
def den : Op R → DMat R
  | .arr A => A
  | .lazy A => A
  | .eye n => DMat.one n
  | .kron Ms => DMat.kronL (denL Ms)
  | .kronsum Ms => DMat.kronsumL (denL Ms)
  | .concat Ms => DMat.vstack (denL Ms)
  | .dsum Ms => DMat.bdiag (denM Ms)
  | .perm p => DMat.permMat p
  | .shift n k => DMat.shiftMat n (k % n).toNat
  | .rot90 n k => DMat.rotMat n (k % 4).toNat
  | .jvp D => D
  | .closure Ms pre post _ n => (DMat.permMat post).mul
      ((DMat.bdiag (denM Ms)).mul (preMat n pre))
  | .noMatvec m n => DMat.zero m n
  | .selfRef m n => DMat.zero m n
  | .add A B => A.den.add B.den
  | .mul A B => A.den.mul B.den
  | .smul c A => DMat.smul c A.den
  | .pow A n => A.den.pow n
  | .adj A => A.den.conjTranspose
  | .tr A => A.den.transpose
/-- `den` of each operator of a list. -/
def denL : List (Op R) → List (DMat R)
  | [] => []
  | M :: Ms => M.den :: denL Ms
/-- `den` of each operator of a list with multiplicities, repeated. -/
def denM : List (Op R × ℕ) → List (DMat R)
  | [] => []
  | (M, c) :: Ms => replicate c M.den ++ denM Ms
end

mutual
/-- The object's adjoint side is defined and its arrays are real: classes without an adjoint are direct sums, quarter turns,
the closures of sums, and concatenations and `LazyJVP` (for which only products with matrices are defined); `Lazy` and the Kronecker classes
transpose without conjugating. -/
def Rev : Op R → Prop
  | .arr A | .lazy A => A.conjTranspose = A.transpose
  | .eye _ | .perm _ | .shift _ _ => True
  | .kron Ms => RevL Ms ∧ ∀ A ∈ denL Ms, A.rows ≠ 0 ∧ A.conjTranspose = A.transpose
  | .kronsum Ms => RevL Ms ∧ ∀ A ∈ denL Ms, A.conjTranspose = A.transpose
  | .concat _ | .dsum _ | .rot90 _ _ | .jvp _ | .closure _ _ _ _ _ | .noMatvec _ _ | .selfRef _ _ => False
  | .add A B => A.Rev ∧ B.Rev
  | .mul A B => A.Rev ∧ B.Rev
  | .smul _ A => A.Rev
  | .pow A _ => A.Rev
  | .adj _ => True
  | .tr _ => True
/-- `Rev` for each operator of a list. -/
def RevL : List (Op R) → Prop
  | [] => True
  | M :: Ms => M.Rev ∧ RevL Ms
end

mutual
/-- The parts of the object fit together. -/
def WF : Op R → Prop
  | .arr _ | .lazy _ | .eye _ => True
  | .kron Ms => WFL Ms ∧ 2 ≤ Ms.length ∧ ∀ A ∈ denL Ms, A.cols ≠ 0
  | .kronsum Ms => WFL Ms ∧ 2 ≤ Ms.length ∧ ∀ A ∈ denL Ms, A.cols ≠ 0 ∧ A.rows = A.cols
  | .concat Ms => WFL Ms ∧ Ms ≠ [] ∧ ∀ A ∈ denL Ms, ∀ B ∈ denL Ms, A.rows = B.rows ∧ A.cols = B.cols
  | .dsum Ms => WFM Ms ∧ denM Ms ≠ [] ∧ ∀ M ∈ Ms, M.1.den.rows = M.1.den.cols
  | .perm p => p ~ range p.length
  | .shift _ _ => True
  | .rot90 n _ => n ≠ 0
  | .jvp _ => True
  | .closure Ms pre post m n => WFM Ms ∧ Ms ≠ [] ∧ post ~ range m ∧ (∀ p ∈ pre, p ~ range n) ∧
      (DMat.bdiag (denM Ms)).rows = m ∧ (DMat.bdiag (denM Ms)).cols = n
  | .noMatvec _ _ | .selfRef _ _ => False
  | .add A B => A.WF ∧ B.WF ∧ A.den.rows = B.den.rows ∧ A.den.cols = B.den.cols ∧ A.asArr = none ∧ B.asArr = none
  | .mul A B => A.WF ∧ B.WF ∧ A.den.cols = B.den.rows ∧ A.asArr = none ∧ B.asArr = none
  | .smul _ A => A.WF ∧ A.asArr = none
  | .pow A _ => A.WF ∧ A.den.rows = A.den.cols ∧ A.asArr = none
  | .adj A => A.WF ∧ A.Rev ∧ A.asArr = none
  | .tr A => A.WF ∧ A.Rev ∧ A.asArr = none
/-- `WF` for each operator of a list. -/
def WFL : List (Op R) → Prop
  | [] => True
  | M :: Ms => M.WF ∧ WFL Ms
/-- `WF` for each operator of a list with multiplicities. -/
def WFM : List (Op R × ℕ) → Prop
  | [] => True
  | (M, _) :: Ms => M.WF ∧ WFM Ms
end

mutual
/-- Built from invertible arrays, identities, permutations, shifts and quarter turns by Kronecker products, products and
powers. -/
def Inv : Op R → Prop
  | .lazy A => ∃ (n : ℕ) (B : DMat R), A.IsSq n ∧ B.IsSq n ∧ B.mul A = DMat.one n
  | .eye _ | .perm _ | .shift _ _ | .rot90 _ _ => True
  | .kron Ms => InvL Ms
  | .mul A B => A.Inv ∧ B.Inv
  | .pow A _ => A.Inv
  | .arr _ | .kronsum _ | .concat _ | .dsum _ | .jvp _ | .closure _ _ _ _ _ | .noMatvec _ _ | .selfRef _ _ => False
  | .add _ _ | .smul _ _ | .adj _ | .tr _ => False
/-- `Inv` for each operator of a list. -/
def InvL : List (Op R) → Prop
  | [] => True
  | M :: Ms => M.Inv ∧ InvL Ms
end

/-- What is assumed of `np.linalg.inv`: it inverts every invertible square array. -/
def InvSpec {F : Type} [Field F] (inv : DMat F → Py (DMat F)) : Prop :=
  ∀ A n, A.IsSq n → (∃ B : DMat F, B.IsSq n ∧ B.mul A = DMat.one n) → ∃ B, inv A = .ok B ∧ B.IsSq n ∧ B.mul A = DMat.one n

end Op
end Verif
