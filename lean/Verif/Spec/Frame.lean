import Verif.Spec.Elements
import Verif.Spec.Solver

/-! # Changes of coordinates (specification) -/
namespace Verif
open List

/-- The change of coordinates that multiplies the vectors of the group `g` by `T 0` and the vectors of the user-defined representation number `k` of `g`
by `T k`, and changes nothing for the other groups. -/
noncomputable def Interp.frame (W : World) (g : Gid) (T : ∀ k, Matrix (Fin (W.asize k g)) (Fin (W.asize k g)) ℝ) : Interp ℝ where
  vec k g' := match g' with
    | some g' => .lazy (if g' = g then DMat.ofMatrix (T k) else DMat.one (W.asize k g'))
    | none => .eye 0
  dual k g' := match g' with
    | some g' => .lazy (if g' = g then DMat.ofMatrix (T k)⁻¹.transpose else DMat.one (W.asize k g'))
    | none => .eye 0

/-- In the coordinates given by `T`, the first group (with its user-defined representations) is the second one: the matrices of the second group are the
`P h P⁻¹` for `h` in the first, where `P = T 0`, and what the user's classes answer for `P h P⁻¹` is likewise what they answer for `h`, in other coordinates.
The generators of the two groups need not be related.  Coordinates are orthonormal, or a renumbering, where the flag of the group says so. -/
structure FrameOK (W : World) (g : Gid) (custom custom' : ∀ k g, AtomRep ℝ (W.d g) (W.usize k g))
    (lie disc lie' disc' : ∀ g, List (Matrix (Fin (W.d g)) (Fin (W.d g)) ℝ)) (P : Matrix (Fin (W.d g)) (Fin (W.d g)) ℝ)
    (T : ∀ k, Matrix (Fin (W.asize k g)) (Fin (W.asize k g)) ℝ) : Prop where
  zero : T 0 = P
  unit : ∀ k, IsUnit (T k).det
  conj : ∀ h, Generated (lie g) (disc g) h ↔ Generated (lie' g) (disc' g) (P * h * P⁻¹)
  user : ∀ k h, Generated (lie g) (disc g) h →
    (stdAtoms W custom' (k + 1) g).rho (P * h * P⁻¹) = T (k + 1) * (stdAtoms W custom (k + 1) g).rho h * (T (k + 1))⁻¹
  orth : W.orth g = true → ∀ k, (T k).transpose * T k = 1
  perm : W.isPerm g = true → ∃ σ : Equiv.Perm (Fin (W.d g)), P = σ.permMatrix ℝ

/-- The parameters of a layer from a representation with coordinates changed by `U` to one with coordinates changed by `V`: `w ↦ V w Uᵀ`, `b ↦ V b`. -/
def BlockParams.move (V U : DMat ℝ) (p : BlockParams ℝ) : BlockParams ℝ := ⟨(V.mul p.w).mul U.transpose, V.mulVec p.b, p.bw⟩

/-- The parameters of the blocks of a network with the given hidden representations, in the changed coordinates.  A block computes the coordinates of
`r` and gates for them, which do not change. -/
noncomputable def moveParams (W : World) (J : Interp ℝ) : Rep → List Rep → List (BlockParams ℝ) → List (BlockParams ℝ)
  | a, r :: t, p :: ps => p.move (DMat.bdiag2 (r.mat J) (DMat.one (r.gates W))) (a.mat J) :: moveParams W J r t ps
  | _, _, _ => []

end Verif
