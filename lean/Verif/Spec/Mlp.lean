import Verif.Model.Mlp
import Verif.Spec.Dense

/-!
# Parameters of the baseline networks (specification)
-/
namespace Verif
open List

section
variable {R : Type} [CommRing R]

/-- The parameters have the shapes of the layers: weights `(nin,nout)`, in torch `(nout,nin)`. -/
def FrontEnd.DenseShaped (F : FrontEnd) (p : DenseP R) (s : ℕ × ℕ) : Prop :=
  p.b.length = s.2 ∧ if F = .torch then p.w.rows = s.2 ∧ p.w.cols = s.1 else p.w.rows = s.1 ∧ p.w.cols = s.2

/-- The layers of widths `n`, the hidden widths, and `m`. -/
def layerWidths (n : ℕ) (hidden : List ℕ) (m : ℕ) : List (ℕ × ℕ) := match hidden with
  | [] => [(n, m)]
  | h :: t => (n, h) :: layerWidths h t m

/-- The same parameters in the layout of torch or of the others. -/
def FrontEnd.store (F : FrontEnd) (p : DenseP R) : DenseP R := if F = .torch then ⟨p.w.transpose, p.b⟩ else p

end
end Verif
