import Verif.Spec.Single

/-!
# Representation expressions

What a user writes (`2*V*(V+1).T**2 >> V`), its meaning in textbook terms, and its evaluation by the library.
-/
namespace Verif
open List

/-- Expressions over the representations of one group: `Scalar`, `V(G)` (kind `0`) or user-defined
representations, the operators `+ * ** .T >> <<` and integers. -/
inductive Expr
  | scalar
  | rep (kind : ℕ)
  | add (a b : Expr)
  | mul (a b : Expr)
  | dual (a : Expr)
  | nsmul (n : ℕ) (a : Expr)
  | addNat (a : Expr) (n : ℕ)
  | natAdd (n : ℕ) (a : Expr)
  | pow (a : Expr) (n : ℕ)
  | rshift (a b : Expr)
  | lshift (a b : Expr)

namespace Expr

/-- Evaluation by the library, with `V = V(g)`. -/
def eval (W : World) (g : Gid) : Expr → Py Rep
  | scalar => .ok (.key .scalar)
  | rep k => .ok (.key (.atom (.vec k (some g))))
  | add a b => do
    let x ← eval W g a
    let y ← eval W g b
    Rep.add W x y
  | mul a b => do
    let x ← eval W g a
    let y ← eval W g b
    Rep.mul W x y
  | dual a => do
    let x ← eval W g a
    Rep.T W x
  | nsmul n a => do
    let x ← eval W g a
    let v ← Rep.mulInt W x n
    match v with
    | .rep r => .ok r
    | .int _ => .error .attribute
  | addNat a n => do
    let x ← eval W g a
    Rep.addInt W x n false
  | natAdd n a => do
    let x ← eval W g a
    Rep.addInt W x n true
  | pow a n => do
    let x ← eval W g a
    Rep.pow W x n
  | rshift a b => do
    let x ← eval W g a
    let y ← eval W g b
    Rep.rshift W x y
  | lshift a b => do
    let x ← eval W g a
    let y ← eval W g b
    Rep.lshift W x y

/-- Evaluation by the library of the same expression written with the group-less `V` (`V*V+Scalar`), giving a
representation that can be called on a group later. -/
def evalFree (W : World) : Expr → Py Rep
  | scalar => .ok (.key .scalar)
  | rep k => .ok (.key (.atom (.vec k none)))
  | add a b => do
    let x ← evalFree W a
    let y ← evalFree W b
    Rep.add W x y
  | mul a b => do
    let x ← evalFree W a
    let y ← evalFree W b
    Rep.mul W x y
  | dual a => do
    let x ← evalFree W a
    Rep.T W x
  | nsmul n a => do
    let x ← evalFree W a
    let v ← Rep.mulInt W x n
    match v with
    | .rep r => .ok r
    | .int _ => .error .attribute
  | addNat a n => do
    let x ← evalFree W a
    Rep.addInt W x n false
  | natAdd n a => do
    let x ← evalFree W a
    Rep.addInt W x n true
  | pow a n => do
    let x ← evalFree W a
    Rep.pow W x n
  | rshift a b => do
    let x ← evalFree W a
    let y ← evalFree W b
    Rep.rshift W x y
  | lshift a b => do
    let x ← evalFree W a
    let y ← evalFree W b
    Rep.lshift W x y

/-- The expressions considered: integer factors are positive (`0*rep` is the integer `0`), representations have
dimension at least two, and user-defined ones occur only for groups flagged orthogonal. -/
def OK (W : World) (g : Gid) : Expr → Prop
  | scalar => True
  | rep k => 2 ≤ W.asize k g ∧ (k = 0 ∨ W.orth g = true)
  | add a b => a.OK W g ∧ b.OK W g
  | mul a b => a.OK W g ∧ b.OK W g
  | dual a => a.OK W g
  | nsmul n a => 0 < n ∧ a.OK W g
  | addNat a _ => a.OK W g
  | natAdd _ a => a.OK W g
  | pow a _ => a.OK W g
  | rshift a b => a.OK W g ∧ b.OK W g
  | lshift a b => a.OK W g ∧ b.OK W g

/-- Dimension. -/
def dim (W : World) (g : Gid) : Expr → ℕ
  | scalar => 1
  | rep k => W.asize k g
  | add a b => a.dim W g + b.dim W g
  | mul a b => a.dim W g * b.dim W g
  | dual a => a.dim W g
  | nsmul n a => n * a.dim W g
  | addNat a n => a.dim W g + n
  | natAdd n a => a.dim W g + n
  | pow a n => a.dim W g ^ n
  | rshift a b => b.dim W g * a.dim W g
  | lshift a b => a.dim W g * b.dim W g

/-- The largest dimension of a subexpression. -/
def bound (W : World) (g : Gid) : Expr → ℕ
  | scalar => 1
  | rep k => W.asize k g
  | add a b => max (a.bound W g) (b.bound W g)
  | mul a b => max (a.dim W g * b.dim W g) (max (a.bound W g) (b.bound W g))
  | dual a => a.bound W g
  | nsmul _ a => a.bound W g
  | addNat a _ => a.bound W g
  | natAdd _ a => a.bound W g
  | pow a n => max (a.dim W g ^ n) (a.bound W g)
  | rshift a b => max (b.dim W g * a.dim W g) (max (a.bound W g) (b.bound W g))
  | lshift a b => max (a.dim W g * b.dim W g) (max (a.bound W g) (b.bound W g))

variable {R : Type} [CommRing R]

/-- **Meaning**: the pair of the matrix of the representation and the matrix of its dual, for the matrices `I` of
the group element on the atoms.  `+` is the direct sum, `*` the Kronecker product, `.T` exchanges the two,
`a >> b` is `b * a.T`, `a << b` is `a * b.T`, an integer `n` stands for the trivial representation of dimension `n`. -/
def den (g : Gid) (I : Interp R) : Expr → DMat R × DMat R
  | scalar => (DMat.one 1, DMat.one 1)
  | rep k => ((I.vec k (some g)).sem, (I.dual k (some g)).sem)
  | add a b => (DMat.bdiag [(a.den g I).1, (b.den g I).1], DMat.bdiag [(a.den g I).2, (b.den g I).2])
  | mul a b => (DMat.kron (a.den g I).1 (b.den g I).1, DMat.kron (a.den g I).2 (b.den g I).2)
  | dual a => ((a.den g I).2, (a.den g I).1)
  | nsmul n a => (DMat.bdiag (replicate n (a.den g I).1), DMat.bdiag (replicate n (a.den g I).2))
  | addNat a n => (DMat.bdiag [(a.den g I).1, DMat.one n], DMat.bdiag [(a.den g I).2, DMat.one n])
  | natAdd n a => (DMat.bdiag [DMat.one n, (a.den g I).1], DMat.bdiag [DMat.one n, (a.den g I).2])
  | pow a n => (DMat.kronL (replicate n (a.den g I).1), DMat.kronL (replicate n (a.den g I).2))
  | rshift a b => (DMat.kron (b.den g I).1 (a.den g I).2, DMat.kron (b.den g I).2 (a.den g I).1)
  | lshift a b => (DMat.kron (a.den g I).1 (b.den g I).2, DMat.kron (a.den g I).2 (b.den g I).1)

/-- **Infinitesimal meaning**: the pair of the Lie algebra action on the representation and on its dual, for the
matrices `I` of the Lie algebra element on the atoms (`X` and `-Xᵀ`).  `+` is the direct sum, `*` the Kronecker sum
`A ⊗ 1 + 1 ⊗ B`, scalars are annihilated. -/
def dden (g : Gid) (I : Interp R) : Expr → DMat R × DMat R
  | scalar => (DMat.zero 1 1, DMat.zero 1 1)
  | rep k => ((I.vec k (some g)).sem, (I.dual k (some g)).sem)
  | add a b => (DMat.bdiag [(a.dden g I).1, (b.dden g I).1], DMat.bdiag [(a.dden g I).2, (b.dden g I).2])
  | mul a b => (DMat.kronsum (a.dden g I).1 (b.dden g I).1, DMat.kronsum (a.dden g I).2 (b.dden g I).2)
  | dual a => ((a.dden g I).2, (a.dden g I).1)
  | nsmul n a => (DMat.bdiag (replicate n (a.dden g I).1), DMat.bdiag (replicate n (a.dden g I).2))
  | addNat a n => (DMat.bdiag [(a.dden g I).1, DMat.zero n n], DMat.bdiag [(a.dden g I).2, DMat.zero n n])
  | natAdd n a => (DMat.bdiag [DMat.zero n n, (a.dden g I).1], DMat.bdiag [DMat.zero n n, (a.dden g I).2])
  | pow a n => (DMat.kronsumL (replicate n (a.dden g I).1), DMat.kronsumL (replicate n (a.dden g I).2))
  | rshift a b => (DMat.kronsum (b.dden g I).1 (a.dden g I).2, DMat.kronsum (b.dden g I).2 (a.dden g I).1)
  | lshift a b => (DMat.kronsum (a.dden g I).1 (b.dden g I).2, DMat.kronsum (a.dden g I).2 (b.dden g I).1)

end Expr
end Verif
