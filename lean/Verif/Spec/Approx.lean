import Verif.Spec.NullSpace
import Verif.Spec.Sampled

/-!
# Approximately invariant vectors (specification)
-/
namespace Verif
open List NormedSpace
variable {𝕜 : Type} [RCLike 𝕜]

/-- squared Euclidean distance -/
noncomputable def dist2 (x y : List 𝕜) : ℝ := ∑ i ∈ Finset.range x.length, ‖x.getD i 0 - y.getD i 0‖ ^ 2

/-- Euclidean distance -/
noncomputable def dst (x y : List 𝕜) : ℝ := √(dist2 x y)

/-- Euclidean length -/
noncomputable def nrm (x : List 𝕜) : ℝ := √(nrm2 x)

/-- Every discrete generator moves `v` by at most `ε‖v‖` and every Lie algebra generator maps it to something of length at most
`ε‖v‖`, when an element acts by `M` and a Lie algebra element by `D`. -/
def NearFixedBy (W : World) (gens : Gid → GenSet 𝕜) (ε : ℝ) (M D : Interp 𝕜 → DMat 𝕜) (v : List 𝕜) : Prop :=
  ∀ g, (∀ h ∈ (gens g).disc, dist2 ((M (h.only W g)).mulVec v) v ≤ ε ^ 2 * nrm2 v) ∧
    ∀ A ∈ (gens g).lie, nrm2 ((D (A.onlyD W g)).mulVec v) ≤ ε ^ 2 * nrm2 v

/-- `v` is an approximately invariant vector of `r`. -/
def Rep.NearFixed (W : World) (gens : Gid → GenSet 𝕜) (ε : ℝ) (r : Rep) (v : List 𝕜) : Prop :=
  NearFixedBy W gens ε (fun I => r.mat I) (fun A => r.dmat A) v

/-- The columns of `Q` are orthonormal, everything that satisfies `F` is a combination of them, and all their combinations satisfy
`N`. -/
structure NearBasis (n : ℕ) (Q : DMat 𝕜) (F N : List 𝕜 → Prop) : Prop where
  rows : Q.rows = n
  orth : Q.conjTranspose.mul Q = DMat.one Q.cols
  complete : ∀ v : List 𝕜, v.length = n → F v → ∃ a : List 𝕜, a.length = Q.cols ∧ Q.mulVec a = v
  near : ∀ a : List 𝕜, a.length = Q.cols → N (Q.mulVec a)

/-- What a numerical routine with threshold `ε` achieves on the constraint matrices that occur: if it returns, it returns
orthonormal columns that span at least the null space and on whose span the constraint matrix has norm at most `ε`. -/
def SolverNear (W : World) (gens : Gid → GenSet 𝕜) (ε : ℝ) (solve : ℕ → LinOp 𝕜 → Py (DMat 𝕜)) : Prop :=
  ∀ n (f : Fac) C Q, f.constraintMatrix W gens = .ok C → solve n C = .ok Q →
    NearBasis C.sem.cols Q (Null C.sem) fun v => nrm2 (C.sem.mulVec v) ≤ ε ^ 2 * nrm2 v

/-- The same of the iterative routine, on the matrices it is used for: those of more than `3e7` entries. -/
def KrylovNear (W : World) (gens : Gid → GenSet 𝕜) (ε : ℝ) (krylov : ℕ → LinOp 𝕜 → Py (DMat 𝕜)) : Prop :=
  ∀ n (f : Fac) C Q, f.constraintMatrix W gens = .ok C → C.sem.rows * C.sem.cols > 30000000 → krylov n C = .ok Q →
    NearBasis C.sem.cols Q (Null C.sem) fun v => nrm2 (C.sem.mulVec v) ≤ ε ^ 2 * nrm2 v

/-- A product of `k` factors, of which each is a discrete generator, the inverse of one, or an exponential of a combination of the Lie
algebra: the number of discrete factors plus the sizes `∑|zₖ|` of the combinations is `κ`. -/
inductive Word {n : Type} [Fintype n] [DecidableEq n] (lie disc : List (Matrix n n 𝕜)) : ℝ → Matrix n n 𝕜 → Prop
  | one : Word lie disc 0 1
  | exp (z : List ℝ) : z.length = lie.length →
      Word lie disc (z.map abs).sum (NormedSpace.exp (zipWith (fun (c : ℝ) (A : Matrix n n 𝕜) => c • A) z lie).sum)
  | gen {h : Matrix n n 𝕜} : h ∈ disc → Word lie disc 1 h
  | inv {h : Matrix n n 𝕜} : h ∈ disc → Word lie disc 1 h⁻¹
  | mul {κ κ' : ℝ} {g h : Matrix n n 𝕜} : Word lie disc κ g → Word lie disc κ' h → Word lie disc (κ + κ') (g * h)

/-- The size of a sample: the normal variates `z` in absolute value, plus the powers `ks[i][k]` in absolute value of the generators
`i` in the order drawn for round `k`. -/
def sampleSize (z : List ℝ) (ks : List (List ℤ)) (orders : List (List ℕ)) : ℝ :=
  (z.map abs).sum + (orders.zipIdx.map fun p => (p.1.map fun i => |(((ks.getD i []).getD p.2 0 : ℤ) : ℝ)|).sum).sum

end Verif
