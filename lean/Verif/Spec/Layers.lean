import Verif.Model.Layers
import Verif.Spec.Single
import Verif.Spec.Solver

/-!
# Equivariance of functions between representation spaces (specification)
-/
namespace Verif
open List

/-- An instantiated, well-formed representation of the group `g` whose summands have size at most `N`. -/
structure Rep.Over (W : World) (g : Gid) (N : ℕ) (r : Rep) : Prop where
  wf : r.WF W
  key : ∀ k ∈ r.keys W, W.Single g N k

/-- `Scalar.G` is unset, or `g` itself, or hashes before it. -/
def SgOK (W : World) (g : Gid) (x : Option Gid) : Prop := ∀ h, x = some h → W.ghash h ≤ W.ghash g

/-- The atoms a summand is a product of. -/
def Key.letters : Key → List Atom
  | .scalar => []
  | .fac f => f.letters
  | .dprod d => d.c.expand.flatMap Fac.letters

/-- `V(G)` or its dual, for a group whose elements are permutation matrices. -/
def Atom.ofPerm (W : World) (a : Atom) : Prop := ∃ h, (a = .vec 0 (some h) ∨ a = .dual 0 (some h)) ∧ W.isPerm h = true

/-- A summand whose nonlinearity needs a gate: neither `Scalar` nor a product of representations by permutation matrices. -/
def Key.Gated (W : World) (k : Key) : Prop := k ≠ .scalar ∧ ∃ a ∈ k.letters, ¬ a.ofPerm W

open Classical in
/-- The number of gates a list of summands needs. -/
noncomputable def gatesOf (W : World) (l : List Key) : ℕ := l.countP fun k => decide (k.Gated W)

/-- The number of gates a representation needs. -/
noncomputable def Rep.gates (W : World) (r : Rep) : ℕ := gatesOf W (r.summands W)

/-- The random choices that `np.random.choice` can make. -/
def ChoiceOK (W : World) (s : SRep) (choose : Key → List ℕ) : Prop :=
  ∀ k, (choose k).length = min (Counter.get s.c k) (k.size W) ∧ ∀ i ∈ choose k, i < Counter.get s.c k

/-- What NumPy guarantees about its random numbers. -/
structure RngOK (rng : Rng) : Prop where
  choose : ∀ i k m c, c ≤ m → (rng.choose i k m c).length = c ∧ ∀ j ∈ rng.choose i k m c, j < m
  binomial : ∀ i rank c, (rng.binomial i rank c).length = c ∧ ∀ p ∈ rng.binomial i rank c, p ≤ rank

/-- The copies of the summand `k` in the vector `v`: `rep.as_dict(v)[k]`. -/
def rowsAt {α : Type} [Zero α] (W : World) (s : SRep) (k : Key) (v : List α) : List (List α) := ((s.asDict W v).lookup k).getD []

section
variable {R : Type} [CommRing R]

/-- The batch with the single row `v`. -/
def rowMat (v : List R) : DMat R := DMat.of 1 v.length fun _ j => v.getD j 0

/-- The function `f`, from vectors of length `n` to vectors of length `m`, returns on every input and satisfies
`f(Ax) = Bf(x)`. -/
def Commutes (n m : ℕ) (f : List R → Py (List R)) (A B : DMat R) : Prop :=
  ∀ x : List R, x.length = n → ∃ y, f x = .ok y ∧ y.length = m ∧ f (A.mulVec x) = .ok (B.mulVec y)

/-- On a batch of vectors of length `n`, `f` returns one vector of length `m` per row: the one `h` returns for that row. -/
def Rowwise (n m : ℕ) (f : DMat R → Py (DMat R)) (h : List R → Py (List R)) : Prop :=
  ∀ X : DMat R, X.cols = n → ∃ Y, f X = .ok Y ∧ Y.rows = X.rows ∧ Y.cols = m ∧ ∀ b < X.rows, h (X.row b) = .ok (Y.row b)

/-- The parameters have the shapes they are created with: `Linear` creates a weight of shape `(nout,nin)` and a bias of length
`nout` (objax.py:33-34), `BiLinear` as many weights as `bilinear_weights` reports (57). -/
structure BlockParams.Shaped (B : Block R) (p : BlockParams R) : Prop where
  rows : p.w.rows = B.lin.nout
  cols : p.w.cols = B.lin.nin
  b : p.b.length = B.lin.nout
  bw : p.bw.length = B.bil.dims

/-- The parameters of a whole network. -/
structure Emlp.Shaped (E : Emlp R) (ps : List (BlockParams R)) (w : DMat R) (b : List R) : Prop where
  blocks : Forall₂ BlockParams.Shaped E.blocks ps
  rows : w.rows = E.last.nout
  cols : w.cols = E.last.nin
  b : b.length = E.last.nout

/-- A direct sum written in the order in which its summands are sorted. -/
def Rep.CanonicalSum (W : World) (r : Rep) : Prop := ∃ s : SRep, r = .sum s ∧ s.perm = range (s.size W)

/-- The element `I` of the group fixes every vector that the generators fix: what C25 proves of every product of
exponentials of Lie algebra elements and discrete generators. -/
def Fixes (W : World) (gens : Gid → GenSet R) (I : Interp R) : Prop :=
  ∀ r : Rep, r.WF W → ∀ v : List R, v.length = r.size W → r.Fixed W gens v → (r.mat I).mulVec v = v

/-- `A` is the matrix of a permutation of `n` coordinates. -/
def IsPermMat (n : ℕ) (A : DMat R) : Prop := ∃ p, p ~ range n ∧ A = DMat.permMat p

end
end Verif
