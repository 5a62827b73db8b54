import Verif.Model.NullSpace
import Verif.Spec.Solver

/-! # Singular value decompositions (specification) -/
namespace Verif
open List
variable {𝕜 : Type} [RCLike 𝕜]

/-- The rectangular diagonal matrix of the singular values. -/
noncomputable def sigmaMat (m n : ℕ) (S : List ℝ) : DMat 𝕜 := DMat.of m n fun i j => if i = j then ((S.getD i 0 : ℝ) : 𝕜) else 0

/-- `d` is a singular value decomposition of `C`: `C = U Σ Vᴴ` with unitary `U`, `Vᴴ` and non-negative decreasing
singular values (the contract of `svd(C,full_matrices=True)`). -/
structure IsSVD (C : DMat 𝕜) (d : SVD 𝕜) : Prop where
  Usq : d.U.IsSq C.rows
  Vsq : d.VH.IsSq C.cols
  U : d.U.conjTranspose.mul d.U = DMat.one C.rows
  V : d.VH.conjTranspose.mul d.VH = DMat.one C.cols
  len : d.S.length = min C.rows C.cols
  nonneg : ∀ s ∈ d.S, 0 ≤ s
  sorted : d.S.Pairwise (· ≥ ·)
  eq : C = (d.U.mul (sigmaMat C.rows C.cols d.S)).mul d.VH

/-- `U`, `S`, `VT` are an economy singular value decomposition of `W`, the contract of `svd(W,full_matrices=False)`. -/
structure IsEconSVD (W U : DMat 𝕜) (S : List ℝ) (VT : DMat 𝕜) : Prop where
  Ur : U.rows = W.rows
  Uc : U.cols = S.length
  Vr : VT.rows = S.length
  Vc : VT.cols = W.cols
  Uorth : U.conjTranspose.mul U = DMat.one S.length
  Vorth : VT.mul VT.conjTranspose = DMat.one S.length
  len : S.length = min W.rows W.cols
  nonneg : ∀ s ∈ S, 0 ≤ s
  sorted : S.Pairwise (· ≥ ·)
  eq : W = (U.mul (sigmaMat S.length S.length S)).mul VT

/-- squared Euclidean norm -/
noncomputable def nrm2 (v : List 𝕜) : ℝ := ∑ i ∈ Finset.range v.length, ‖v.getD i 0‖ ^ 2

/-- Annihilated by `C`. -/
def Null (C : DMat 𝕜) (v : List 𝕜) : Prop := C.mulVec v = replicate C.rows 0

end Verif
