import Verif.Spec.Sampled
import Verif.Spec.Layers
import Mathlib.LinearAlgebra.Matrix.Permutation

/-!
# Real groups and their elements (specification)
-/
namespace Verif
open List

/-- What the flags of the groups promise about their generators (established for the library's groups by C55 and C56): discrete
generators are invertible; user-defined representations are multiplicative; a group flagged `is_orthogonal` has antisymmetric Lie algebra generators and orthogonal discrete
ones, and its user-defined representations are orthogonal; a group flagged `is_permutation` has only permutation matrices as generators. -/
structure GroupsOK (W : World) (custom : ∀ k g, AtomRep ℝ (W.d g) (W.usize k g))
    (lie disc : ∀ g, List (Matrix (Fin (W.d g)) (Fin (W.d g)) ℝ)) : Prop where
  unit : ∀ g, ∀ h ∈ disc g, IsUnit h.det
  orth : ∀ g, W.orth g = true → (∀ A ∈ lie g, A.transpose = -A) ∧ ∀ h ∈ disc g, h.transpose * h = 1
  hom : ∀ k g, (custom k g).Hom (lie g) (disc g)
  user : ∀ k g, W.orth g = true → ∀ M, Generated (lie g) (disc g) M → ((custom k g).rho M).transpose * (custom k g).rho M = 1
  perm : ∀ g, W.isPerm g = true → lie g = [] ∧ ∀ h ∈ disc g, ∃ σ : Equiv.Perm (Fin (W.d g)), h = σ.permMatrix ℝ

/-- How the element `h` of the group `g` acts on the atoms. -/
noncomputable def Interp.elem (W : World) (custom : ∀ k g, AtomRep ℝ (W.d g) (W.usize k g)) (g : Gid)
    (h : Matrix (Fin (W.d g)) (Fin (W.d g)) ℝ) : Interp ℝ := Interp.at W (stdAtoms W custom) (oneAt W g h)

section
variable {R : Type} [CommRing R]

/-- The states of a process after any history of solving for representations (of whatever groups, successfully or not), of
random draws, and of changes of `Scalar.G`; building layers and networks consists of such steps. -/
inductive NetReach (W : World) (g : Gid) (gens : Gid → GenSet R) (solve : ℕ → LinOp R → Py (DMat R)) : NetSt R → Prop
  | start (sg : Option Gid) (n : ℕ) : SgOK W g sg → NetReach W g gens solve ⟨freshSt, sg, n⟩
  | call (c : SolveCall) (σ : NetSt R) : NetReach W g gens solve σ →
      NetReach W g gens solve { σ with solve := (c.run (W.setG σ.sg) gens solve σ.solve).2 }
  | scalar (sg : Option Gid) (σ : NetSt R) : SgOK W g sg → NetReach W g gens solve σ → NetReach W g gens solve { σ with sg := sg }
  | draw (n : ℕ) (σ : NetSt R) : NetReach W g gens solve σ → NetReach W g gens solve { σ with draws := n }

end
end Verif
