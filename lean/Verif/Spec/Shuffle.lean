import Verif.Model.Layers
import Verif.Spec.Dense
import Mathlib.Data.Real.Basic
import Mathlib.Logic.Equiv.Basic

/-!
# Specification for shuffled minibatches
-/
namespace Verif

/-- The rows of `X` in another order: row `i` is row `π i` of `X`. -/
def pickRows (π : Equiv.Perm ℕ) (X : DMat ℝ) : DMat ℝ := DMat.of X.rows X.cols fun i j => X.e (π i) j

/-- The minibatch `mb'` has the rows of `mb` (inputs with `n` entries, labels with `m`) in another order. -/
def ShuffledBatch (n m : ℕ) (mb mb' : DMat ℝ × DMat ℝ) : Prop :=
  mb.1.cols = n ∧ mb.2.cols = m ∧ mb.2.rows = mb.1.rows ∧
    ∃ π : Equiv.Perm ℕ, (∀ i, π i < mb.1.rows ↔ i < mb.1.rows) ∧ mb' = (pickRows π mb.1, pickRows π mb.2)

/-- The same for classes as labels. -/
def ShuffledClasses (n : ℕ) (mb mb' : DMat ℝ × List ℤ) : Prop :=
  mb.1.cols = n ∧ mb.2.length = mb.1.rows ∧
    ∃ π : Equiv.Perm ℕ, (∀ i, π i < mb.1.rows ↔ i < mb.1.rows) ∧ mb' = (pickRows π mb.1, (List.range mb.2.length).map fun i => mb.2.getD (π i) 0)

/-- Loaders with the same names and batch sizes that give the same minibatches in another order, each with its rows in another order. -/
def ShuffledLoaders {β : Type} (R : β → β → Prop) : List (String × Option ℕ × List β) → List (String × Option ℕ × List β) → Prop :=
  List.Forall₂ fun a a' => a'.1 = a.1 ∧ a'.2.1 = a.2.1 ∧ ∃ l, a.2.2.Perm l ∧ List.Forall₂ R l a'.2.2

/-- The model computes each row of its output from the same row of its input, for all batches of rows of length `n`. -/
def RowWise {Θ : Type} {E : Type} (model : Θ → DMat ℝ → Except E (DMat ℝ)) (n m : ℕ) : Prop :=
  ∃ f : Θ → List ℝ → List ℝ, ∀ t X, X.cols = n → ∃ P, model t X = .ok P ∧ P.rows = X.rows ∧ P.cols = m ∧ ∀ i < X.rows, P.row i = f t (X.row i)

end Verif
