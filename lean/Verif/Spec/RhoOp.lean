import Verif.Model.RhoOp
import Verif.Spec.LinApply
import Verif.Spec.RepWF

/-!
# Operators for the matrices of a group element (specification)
-/
namespace Verif

/-- The operators `I` on the atoms are well formed and stand for the matrices `J` of the element. -/
structure OpInterp.Of {R : Type} [CommRing R] [StarRing R] (I : OpInterp R) (J : Interp R) : Prop where
  wf : ∀ k g, (I.vec k (some g)).WF
  den : ∀ k g, (I.vec k (some g)).den = (J.vec k (some g)).sem

/-- For groups not flagged orthogonal (only there do duals occur) the operators can be inverted: they are arrays, or built from
arrays, identities, permutations, shifts and quarter turns by products, powers and Kronecker products. -/
def OpInterp.Inv {R : Type} [Field R] [StarRing R] (W : World) (I : OpInterp R) : Prop :=
  ∀ k g, W.orth g = false → (I.vec k (some g)).asArr.isSome ∨ (I.vec k (some g)).Inv

/-- For groups not flagged orthogonal the operators can be transposed (`Op.Rev`). -/
def OpInterp.Rev {R : Type} [CommRing R] [StarRing R] (W : World) (I : OpInterp R) : Prop :=
  ∀ k g, W.orth g = false → (I.vec k (some g)).asArr.isSome ∨ (I.vec k (some g)).Rev

/-- What a caller observes of an operator or array `X` that should be the matrix `A`: `X.shape`, `densify(X)`, `X@v` and `X@V`. -/
structure Op.Computes {R : Type} [CommRing R] [StarRing R] (X : Op R) (A : DMat R) : Prop where
  shape : X.shape = (A.rows, A.cols)
  dense : X.densify = .ok A
  vec : ∀ v : List R, v.length = A.cols → X.dot ⟨[A.cols], v⟩ = .ok ⟨[A.rows], A.mulVec v⟩
  mat : ∀ V : DMat R, V.rows = A.cols → X.dot V.toArr = .ok (A.mul V).toArr

variable (W : World)

/-- An atom of non-zero size; a dual only of a group not flagged orthogonal. -/
def Atom.Deep : Atom → Prop
  | .vec k (some g) => W.asize k g ≠ 0
  | .dual k (some g) => W.asize k g ≠ 0 ∧ W.orth g = false
  | _ => False

/-- Products have at least two factors. -/
def Fac.Deep : Fac → Prop
  | .atom a => a.Deep W
  | .prod p => 2 ≤ p.c.expand.length ∧ ∀ a ∈ p.c.keys, a.Deep W

/-- Products have at least two factors. -/
def Key.Deep : Key → Prop
  | .scalar => True
  | .fac f => f.Deep W
  | .dprod d => 2 ≤ d.c.expand.length ∧ ∀ f ∈ d.c.keys, f.Deep W

end Verif
