import Verif.Spec.Expr
import Verif.Spec.Layers

/-!
# The arguments of `EMLP` (specification)
-/
namespace Verif
open List

/-- Whether a summand is a scalar, an atom or a dual (not a product). -/
def Key.Simple : Key → Prop
  | .scalar => True
  | .fac (.atom _) => True
  | _ => False

/-- What a user may pass for a representation: the value `r` of the expression `e`, written without a group, or
written with `g` and without tensor products among its summands (those that have any raise, C13). -/
structure RepArg (W : World) (g : Gid) (N : ℕ) (e : Expr) (r : Rep) : Prop where
  ok : e.OK W g
  bound : e.bound W g ≤ N
  val : e.evalFree W = .ok r ∨ e.eval W g = .ok r ∧ ∀ k ∈ r.keys W, k.Simple

/-- The width, at most `b`, that one item of `ch` asks for. -/
inductive ChItem.Width (W : World) (g : Gid) (N b : ℕ) : ChItem → ℕ → Prop
  | int (n : ℕ) (h : 1 ≤ n) (hb : n ≤ b) : ChItem.Width W g N b (.int n) n
  | rep (e : Expr) (r : Rep) (h : RepArg W g N e r) (hb : e.dim W g ≤ b) : ChItem.Width W g N b (.rep r) (e.dim W g)

/-- The widths of the hidden layers that `ch` and `num_layers` ask for: an integer or a representation is used for all
`num_layers` layers, a list says it for each layer (and `num_layers` is ignored). -/
inductive Ch.Widths (W : World) (g : Gid) (N b L : ℕ) : Ch → List ℕ → Prop
  | one (c : ChItem) (n : ℕ) (h : c.Width W g N b n) : Ch.Widths W g N b L (.one c) (replicate L n)
  | list (l : List ChItem) (ns : List ℕ) (h : Forall₂ (ChItem.Width W g N b) l ns) : Ch.Widths W g N b L (.list l) ns

/-- `ch` is an integer or a list of integers, all at least 2. -/
inductive Ch.Ints : Ch → Prop
  | one (n : ℤ) (h : 2 ≤ n) : Ch.Ints (.one (.int n))
  | list (l : List ChItem) (h : ∀ c ∈ l, ∃ n : ℤ, 2 ≤ n ∧ c = .int n) : Ch.Ints (.list l)

end Verif
