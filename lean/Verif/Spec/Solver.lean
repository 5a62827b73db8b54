import Verif.Model.Solver
import Verif.Spec.RepWF

/-!
# Equivariant vectors and orthonormal bases (specification)
-/
namespace Verif
variable {R : Type} [CommRing R]

/-- The element `(1,…,1,h,1,…,1)` of the product of all groups: `h` on the atoms of group `g`, the identity on the
atoms of the other groups. -/
def Interp.only (W : World) (g : Gid) (h : Interp R) : Interp R where
  vec k g' := match g' with
    | some g' => if g' = g then h.vec k (some g') else .eye (W.asize k g')
    | none => .eye 0
  dual k g' := match g' with
    | some g' => if g' = g then h.dual k (some g') else .eye (W.asize k g')
    | none => .eye 0

/-- The Lie algebra element `(0,…,0,A,0,…,0)` of the product of all groups. -/
def Interp.onlyD (W : World) (g : Gid) (A : Interp R) : Interp R where
  vec k g' := match g' with
    | some g' => if g' = g then A.vec k (some g') else .lazy (DMat.zero (W.asize k g') (W.asize k g'))
    | none => .eye 0
  dual k g' := match g' with
    | some g' => if g' = g then A.dual k (some g') else .lazy (DMat.zero (W.asize k g') (W.asize k g'))
    | none => .eye 0

/-- `v` is fixed by every discrete generator and annihilated by every Lie algebra generator, when an element acts by
`M` and a Lie algebra element by `D`. -/
def FixedBy (W : World) (gens : Gid → GenSet R) (M D : Interp R → DMat R) (v : List R) : Prop :=
  ∀ g, (∀ h ∈ (gens g).disc, (M (h.only W g)).mulVec v = v) ∧
    ∀ A ∈ (gens g).lie, (D (A.onlyD W g)).mulVec v = List.replicate v.length 0

/-- `v` is an invariant vector of `r` for the generators of the groups. -/
def Rep.Fixed (W : World) (gens : Gid → GenSet R) (r : Rep) (v : List R) : Prop :=
  FixedBy W gens (fun I => r.mat I) (fun A => r.dmat A) v

/-- The matrices of all generators have the sizes the library believes. -/
def GenSet.Sized (W : World) (gens : Gid → GenSet R) : Prop :=
  ∀ g, (∀ h ∈ (gens g).disc, h.Sized W) ∧ ∀ A ∈ (gens g).lie, A.Sized W

/-- The matrices of the generators are invertible, respectively dual to each other. -/
def GenSet.Dual (W : World) (gens : Gid → GenSet R) : Prop :=
  ∀ g, (∀ h ∈ (gens g).disc, h.Dual W) ∧ ∀ A ∈ (gens g).lie, A.DDual W

/-- Entrywise real matrices. -/
def DMat.IsReal [StarRing R] (A : DMat R) : Prop := ∀ i j, star (A.e i j) = A.e i j

/-- The columns of `Q` are an orthonormal basis of the vectors of length `n` that satisfy `F`. -/
structure OrthoBasis [StarRing R] (n : ℕ) (Q : DMat R) (F : List R → Prop) : Prop where
  rows : Q.rows = n
  orth : Q.conjTranspose.mul Q = DMat.one Q.cols
  span : ∀ v : List R, v.length = n → (F v ↔ ∃ a : List R, a.length = Q.cols ∧ Q.mulVec a = v)

/-- What it means for `P` to be the orthogonal projector onto the vectors that satisfy `F`. -/
structure IsProjector [StarRing R] (n : ℕ) (P : DMat R) (F : List R → Prop) : Prop where
  sq : P.IsSq n
  idem : P.mul P = P
  herm : P.conjTranspose = P
  fix : ∀ v : List R, v.length = n → (F v ↔ P.mulVec v = v)
  range : ∀ w : List R, w.length = n → F (P.mulVec w)

/-- What the numerical routine is trusted to do: on the constraint matrices that occur, if it
returns, it returns an orthonormal basis of the null space. -/
def SolverOK [StarRing R] (W : World) (gens : Gid → GenSet R) (solve : ℕ → LinOp R → Py (DMat R)) : Prop :=
  ∀ n (f : Fac) C Q, f.constraintMatrix W gens = .ok C → solve n C = .ok Q →
    OrthoBasis C.sem.cols Q fun v => C.sem.mulVec v = List.replicate C.sem.rows 0

/-- The numerical routine does not raise on the constraint matrices that occur. -/
def SolverRuns (W : World) (gens : Gid → GenSet R) (solve : ℕ → LinOp R → Py (DMat R)) : Prop :=
  ∀ n (f : Fac) C, f.constraintMatrix W gens = .ok C → ∃ Q, solve n C = .ok Q

/-- A direct product has at most one factor per group. -/
def Key.OnePerGroup : Key → Prop
  | .dprod d => (d.c.keys.map Fac.G).Nodup
  | _ => True

/-- Every direct product among the summands has at most one factor per group. -/
def Rep.OnePerGroup : Rep → Prop
  | .key k => k.OnePerGroup
  | .sum s => ∀ k ∈ s.c.keys, k.OnePerGroup
  | _ => True

end Verif
