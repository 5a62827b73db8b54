import Verif.Model.Training
import Verif.Spec.Dynamics

/-!
# Specification for training by gradients
-/
namespace Verif

/-- Two values of the weight and the bias of a `Linear` layer that differ by what the layer's projectors remove. -/
structure SameLayer (L : LinearL ℝ) (w : DMat ℝ) (b : List ℝ) (w' : DMat ℝ) (b' : List ℝ) : Prop where
  rows : w'.rows = w.rows
  cols : w'.cols = w.cols
  len : b'.length = b.length
  weight : L.Pw.sem.mulVec w'.flat = L.Pw.sem.mulVec w.flat
  bias : L.Pb.sem.mulVec b' = L.Pb.sem.mulVec b

/-- The same for all linear layers of a network, with equal parameters of the bilinear layers. -/
structure SameNet (E : Emlp ℝ) (ps : List (BlockParams ℝ)) (w : DMat ℝ) (b : List ℝ) (ps' : List (BlockParams ℝ)) (w' : DMat ℝ) (b' : List ℝ) : Prop where
  len : ps'.length = ps.length
  blocks : ∀ i (h : i < E.blocks.length) (h1 : i < ps.length) (h2 : i < ps'.length),
    SameLayer E.blocks[i].lin ps[i].w ps[i].b ps'[i].w ps'[i].b ∧ ps'[i].bw = ps[i].bw
  last : SameLayer E.last w b w' b'

/-- What is used of differentiation and of the optimizer.  The gradient, and the value, of a loss that a translation by `n` of the parameters does not change is the
same at translated parameters.  The optimizer adds to the parameters something that it computes from the gradients, its state and the learning rate, without looking at the
parameters: gradient descent, momentum and Adam do, weight decay does not. -/
structure Learner.Translates {Θ σ γ : Type} [Add Θ] (l : Learner Θ σ γ) (n : Θ) : Prop where
  grad : ∀ f t, (∀ s, f (s + n) = f s) → l.gradvals f (t + n) = l.gradvals f t
  update : ∀ lr g s t, l.update lr g (s, t + n) = ((l.update lr g (s, t)).1, (l.update lr g (s, t)).2 + n)

/-- The loss depends on the weights and the bias of a layer only through the function the layer computes. -/
def LossOf (L : LinearL ℝ) (J : DMat ℝ → List ℝ → ℝ) : Prop :=
  ∀ w b w' b', w.rows = L.nout → w.cols = L.nin → b.length = L.nout → w'.rows = L.nout → w'.cols = L.nin → b'.length = L.nout →
    (∀ x : List ℝ, x.length = L.nin → L.apply w b x = L.apply w' b' x) → J w b = J w' b'

/-- `gw` is the gradient of `J` with respect to the weights at `(w,b)` (an array of their shape), and `gb` that with respect to the bias. -/
def LayerGrad (J : DMat ℝ → List ℝ → ℝ) (w : DMat ℝ) (b : List ℝ) (gw : DMat ℝ) (gb : List ℝ) : Prop :=
  gw.rows = w.rows ∧ gw.cols = w.cols ∧
  IsGradAt (w.rows * w.cols) (fun v => J (DMat.unflat w.rows w.cols v) b) (fun _ => gw.flat) w.flat ∧
  IsGradAt b.length (fun v => J w v) (fun _ => gb) b

/-- The squared error of the outputs of a layer on the inputs and targets `D`. -/
noncomputable def layerError (L : LinearL ℝ) (D : List (List ℝ × List ℝ)) (w : DMat ℝ) (b : List ℝ) : ℝ :=
  (D.map fun xy => match L.apply w b xy.1 with
    | .ok y => ∑ i ∈ Finset.range L.nout, (y.getD i 0 - xy.2.getD i 0) ^ 2
    | .error _ => 0).sum

end Verif
