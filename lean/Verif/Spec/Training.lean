import Verif.Model.Layers
import Verif.Spec.Elements
import Verif.Spec.Expr
import Verif.Spec.Dense
import Mathlib.Data.Real.Basic

/-!
# Specification for training runs: moved data
-/
namespace Verif

/-- Row `i` multiplied by the matrix `A i`. -/
def moveRows (A : ℕ → DMat ℝ) (X : DMat ℝ) : DMat ℝ := DMat.of X.rows X.cols fun i j => ((A i).mulVec (X.row i)).getD j 0

/-- The rows of labels that a function computes from the rows of inputs. -/
def labelRows (n : ℕ) (label : List ℝ → List ℝ) (X : DMat ℝ) : DMat ℝ := DMat.of X.rows n fun i j => (label (X.row i)).getD j 0

/-- The minibatch `mb'` is `mb` with every input and its label moved by an element of the group, another one for each row: row `i` of the
inputs by `rep_in(h i)` and of the labels by `rep_out(h i)`.  Inputs and labels have the sizes of the representations. -/
def MovedBatch (W : World) (custom : ∀ k g, AtomRep ℝ (W.d g) (W.usize k g)) (lie disc : ∀ g, List (Matrix (Fin (W.d g)) (Fin (W.d g)) ℝ)) (g : Gid)
    (ein eout : Expr) (mb mb' : DMat ℝ × DMat ℝ) : Prop :=
  mb.1.cols = ein.dim W g ∧ mb.2.cols = eout.dim W g ∧ mb.2.rows = mb.1.rows ∧
  ∃ h : ℕ → Matrix (Fin (W.d g)) (Fin (W.d g)) ℝ, (∀ i, Generated (lie g) (disc g) (h i)) ∧
    mb' = (moveRows (fun i => (ein.den g (Interp.elem W custom g (h i))).1) mb.1, moveRows (fun i => (eout.den g (Interp.elem W custom g (h i))).1) mb.2)

/-- The minibatch `mb'` is `mb` with every input moved by an element of the group and the same classes. -/
def MovedInputs (W : World) (custom : ∀ k g, AtomRep ℝ (W.d g) (W.usize k g)) (lie disc : ∀ g, List (Matrix (Fin (W.d g)) (Fin (W.d g)) ℝ)) (g : Gid)
    (ein : Expr) (mb mb' : DMat ℝ × List ℤ) : Prop :=
  mb.1.cols = ein.dim W g ∧ ∃ h : ℕ → Matrix (Fin (W.d g)) (Fin (W.d g)) ℝ, (∀ i, Generated (lie g) (disc g) (h i)) ∧
    mb' = (moveRows (fun i => (ein.den g (Interp.elem W custom g (h i))).1) mb.1, mb.2)

/-- Loaders with the same names and batch sizes whose minibatches correspond. -/
def MovedLoaders {β : Type} (R : β → β → Prop) : List (String × Option ℕ × List β) → List (String × Option ℕ × List β) → Prop :=
  List.Forall₂ fun a a' => a'.1 = a.1 ∧ a'.2.1 = a.2.1 ∧ List.Forall₂ R a.2.2 a'.2.2

/-- `rep` is orthogonal on the group: `rep(h)ᵀ rep(h) = 1` for all its elements. -/
def OrthogonalRep (W : World) (custom : ∀ k g, AtomRep ℝ (W.d g) (W.usize k g)) (lie disc : ∀ g, List (Matrix (Fin (W.d g)) (Fin (W.d g)) ℝ)) (g : Gid)
    (e : Expr) : Prop :=
  ∀ h, Generated (lie g) (disc g) h →
    (e.den g (Interp.elem W custom g h)).1.transpose.mul (e.den g (Interp.elem W custom g h)).1 = DMat.one (e.dim W g)

end Verif
