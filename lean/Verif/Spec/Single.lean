import Verif.Spec.RepWF

/-!
# Representations of a single group

The class of canonical summands built from `Scalar`, `V(G)`, its dual, and (for groups flagged orthogonal)
user-defined representations of `G`, by products.
-/
namespace Verif
open List

/-- The letters: `V(G)` and `V(G).T`; for an orthogonal group also user-defined representations (there `.T` is
the identity, so no duals occur).  All of size at least two. -/
def World.Letter (W : World) (g : Gid) (a : Atom) : Prop :=
  ((W.orth g = true ∧ ∃ k, a = .vec k (some g)) ∨
    (W.orth g = false ∧ (a = .vec 0 (some g) ∨ a = .dual 0 (some g)))) ∧ 2 ≤ a.size W

/-- Canonical summands over one group, of size at most `N`. -/
def World.Single (W : World) (g : Gid) (N : ℕ) (k : Key) : Prop :=
  k.size W ≤ N ∧
  match k with
  | .scalar => True
  | .fac (.atom a) => W.Letter g a
  | .fac (.prod p) => p.WF W ∧ p.perm = range (p.size W) ∧ (∀ a ∈ p.c.keys, W.Letter g a) ∧
      2 ≤ p.size W ∧ (W.orth g = false → W.d g < p.size W) ∧ 2 ≤ p.c.expand.length
  | .dprod _ => False

/-- What the environment must satisfy for representations of `g` up to size `N`: no hash collisions among the
finitely many canonical summands of size at most `N`, and `Scalar.G` is unset, or `g` itself, or hashes before it. -/
structure World.SingleOK (W : World) (g : Gid) (N : ℕ) : Prop where
  pos : 1 ≤ N
  inj : ∀ a b, W.Single g N a → W.Single g N b → W.hash a = W.hash b → a = b
  sG : ∀ h, W.scalarG = some h → W.ghash h ≤ W.ghash g

end Verif
