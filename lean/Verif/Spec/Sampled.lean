import Verif.Spec.Solver
import Verif.Spec.Group

/-!
# Group elements acting on the atoms (specification)
-/
namespace Verif
open NormedSpace
variable {𝕜 : Type} [RCLike 𝕜]

/-- An `n × n` Mathlib matrix as a `DMat`. -/
def DMat.ofMatrix {n : ℕ} (A : Matrix (Fin n) (Fin n) 𝕜) : DMat 𝕜 :=
  DMat.of n n fun i j => if h : i < n ∧ j < n then A ⟨i, h.1⟩ ⟨j, h.2⟩ else 0

/-- A user-defined representation: `rho` and its derivative `drho`, which is linear. -/
structure AtomRep (𝕜 : Type) [RCLike 𝕜] (n m : ℕ) where
  rho : Matrix (Fin n) (Fin n) 𝕜 → Matrix (Fin m) (Fin m) 𝕜
  drho : Matrix (Fin n) (Fin n) 𝕜 →ₗ[ℝ] Matrix (Fin m) (Fin m) 𝕜
  one : rho 1 = 1

/-- What is asked of it: on the group with these generators `rho` is multiplicative, and on its Lie algebra `drho` is the derivative of
`rho` in the sense that `rho(exp A) = exp(drho(A))`.  C103 derives the latter for the `drho` that the library computes. -/
structure AtomRep.Hom {n m : ℕ} (a : AtomRep 𝕜 n m) (lie disc : List (Matrix (Fin n) (Fin n) 𝕜)) : Prop where
  mul : ∀ g h, Generated lie disc g → Generated lie disc h → a.rho (g * h) = a.rho g * a.rho h
  exp : ∀ A ∈ Submodule.span ℝ {A | A ∈ lie}, a.rho (exp A) = exp (a.drho A)

/-- The representation `V`: `rho(M) = M`, `drho(A) = A`. -/
noncomputable def AtomRep.std (n : ℕ) : AtomRep 𝕜 n n := ⟨id, LinearMap.id, rfl⟩

/-- The atoms: `V` (kind 0) and user-defined representations. -/
noncomputable def stdAtoms (W : World) (custom : ∀ k g, AtomRep 𝕜 (W.d g) (W.usize k g)) : ∀ k g, AtomRep 𝕜 (W.d g) (W.asize k g)
  | 0, g => (AtomRep.std (W.d g) : AtomRep 𝕜 (W.d g) (W.d g))
  | k + 1, g => custom (k + 1) g

/-- What `rho({G: M[G]})` yields on the atoms: `rho(M)` and its transposed inverse. -/
noncomputable def Interp.at (W : World) (a : ∀ k g, AtomRep 𝕜 (W.d g) (W.asize k g))
    (M : ∀ g, Matrix (Fin (W.d g)) (Fin (W.d g)) 𝕜) : Interp 𝕜 where
  vec k g := match g with
    | some g => .lazy (DMat.ofMatrix ((a k g).rho (M g)))
    | none => .eye 0
  dual k g := match g with
    | some g => .lazy (DMat.ofMatrix ((a k g).rho (M g))⁻¹.transpose)
    | none => .eye 0

/-- What `drho({G: A[G]})` yields on the atoms: `drho(A)` and minus its transpose. -/
noncomputable def Interp.dat (W : World) (a : ∀ k g, AtomRep 𝕜 (W.d g) (W.asize k g))
    (A : ∀ g, Matrix (Fin (W.d g)) (Fin (W.d g)) 𝕜) : Interp 𝕜 where
  vec k g := match g with
    | some g => .lazy (DMat.ofMatrix ((a k g).drho (A g)))
    | none => .eye 0
  dual k g := match g with
    | some g => .lazy (DMat.ofMatrix (-((a k g).drho (A g)).transpose))
    | none => .eye 0

/-- `h` on group `g`, the identity on the other groups. -/
def oneAt (W : World) (g : Gid) (h : Matrix (Fin (W.d g)) (Fin (W.d g)) 𝕜) : ∀ g, Matrix (Fin (W.d g)) (Fin (W.d g)) 𝕜 :=
  Function.update (fun _ => 1) g h

/-- `A` on group `g`, zero on the other groups. -/
def zeroAt (W : World) (g : Gid) (A : Matrix (Fin (W.d g)) (Fin (W.d g)) 𝕜) : ∀ g, Matrix (Fin (W.d g)) (Fin (W.d g)) 𝕜 :=
  Function.update (fun _ => 0) g A

/-- The generators of the groups: matrices `G.discrete_generators` and `G.lie_algebra`. -/
noncomputable def gensOf (W : World) (a : ∀ k g, AtomRep 𝕜 (W.d g) (W.asize k g))
    (lie disc : ∀ g, List (Matrix (Fin (W.d g)) (Fin (W.d g)) 𝕜)) (g : Gid) : GenSet 𝕜 where
  disc := (disc g).map fun h => Interp.at W a (oneAt W g h)
  lie := (lie g).map fun A => Interp.dat W a (zeroAt W g A)

end Verif
