import Verif.Spec.RepWF

/-!
# Representations of several groups

The class of canonical summands built from one representation per group by products.
-/
namespace Verif
open List

/-- One representation `L g` for each group `g` of a collection `Γ`: it is a representation of `g` of dimension at
least two, no two of the groups have the same hash, and `__lt__` between representations of different groups follows the
hashes (the overrides of `V` and its dual break this only between `V(g)` and the dual of another group). -/
structure World.Letters (W : World) (Γ : Gid → Prop) (L : Gid → Atom) : Prop where
  G : ∀ g, Γ g → (L g).G = some g
  two : ∀ g, Γ g → 2 ≤ (L g).size W
  inj : ∀ g h, Γ g → Γ h → W.ghash g = W.ghash h → g = h
  ord : ∀ g h, Γ g → Γ h → g ≠ h → Atom.lt W (L g) (L h) = decide (W.ghash g < W.ghash h)

/-- `rep**n` for `n ≥ 1`: the representation itself, or a `ProductRep` in canonical order. -/
def Fac.power (W : World) (a : Atom) (n : ℕ) : Fac :=
  if n = 1 then .atom a else .prod ⟨[(a, n)], range (a.size W ^ n)⟩

/-- Canonical products of the letters: `Scalar`, a power of one letter, or powers of letters of different groups in
increasing order of the hashes of the groups (at least two). -/
def World.Multi (W : World) (Γ : Gid → Prop) (L : Gid → Atom) : Key → Prop
  | .scalar => True
  | .fac f => ∃ g n, Γ g ∧ n ≠ 0 ∧ f = Fac.power W (L g) n
  | .dprod d => ∃ l : List (Gid × ℕ), 2 ≤ l.length ∧ (∀ x ∈ l, Γ x.1 ∧ x.2 ≠ 0) ∧
      (l.Pairwise fun x y => W.ghash x.1 < W.ghash y.1) ∧ d.c = l.map (fun x => (Fac.power W (L x.1) x.2, 1)) ∧
      d.perm = range (d.size W)

/-- The choice of one representation per group used below: `V(g)` (kind `0`) or a user-defined representation. -/
def letter (κ : Gid → ℕ) (g : Gid) : Atom := .vec (κ g) (some g)

/-- Products of representations of several groups, e.g. `V(G)*V(H)**2*V(G)`. -/
inductive Mono
  | scalar
  | rep (g : Gid)
  | mul (a b : Mono)

namespace Mono

/-- Evaluation by the library. -/
def eval (W : World) (κ : Gid → ℕ) : Mono → Py Rep
  | scalar => .ok (.key .scalar)
  | rep g => .ok (.key (.atom (letter κ g)))
  | mul a b => do
    let x ← eval W κ a
    let y ← eval W κ b
    Rep.mul W x y

/-- The groups that occur. -/
def groups : Mono → List Gid
  | scalar => []
  | rep g => [g]
  | mul a b => a.groups ++ b.groups

/-- Dimension. -/
def dim (W : World) (κ : Gid → ℕ) : Mono → ℕ
  | scalar => 1
  | rep g => W.asize (κ g) g
  | mul a b => a.dim W κ * b.dim W κ

/-- **Meaning**: the matrix and that of the dual; products are Kronecker products. -/
def den {R : Type} [CommRing R] (κ : Gid → ℕ) (I : Interp R) : Mono → DMat R × DMat R
  | scalar => (DMat.one 1, DMat.one 1)
  | rep g => ((I.vec (κ g) (some g)).sem, (I.dual (κ g) (some g)).sem)
  | mul a b => (DMat.kron (a.den κ I).1 (b.den κ I).1, DMat.kron (a.den κ I).2 (b.den κ I).2)

/-- **Infinitesimal meaning**, and that of the dual: products are Kronecker sums. -/
def dden {R : Type} [CommRing R] (κ : Gid → ℕ) (I : Interp R) : Mono → DMat R × DMat R
  | scalar => (DMat.zero 1 1, DMat.zero 1 1)
  | rep g => ((I.vec (κ g) (some g)).sem, (I.dual (κ g) (some g)).sem)
  | mul a b => (DMat.kronsum (a.dden κ I).1 (b.dden κ I).1, DMat.kronsum (a.dden κ I).2 (b.dden κ I).2)

end Mono

/-- Expressions over several groups: sums, products, duals and multiples of products. -/
inductive MExpr
  | of (m : Mono)
  | add (a b : MExpr)
  | mul (a b : MExpr)
  | dual (a : MExpr)
  | nsmul (n : ℕ) (a : MExpr)
  | rshift (a b : MExpr)

namespace MExpr

/-- Evaluation by the library. -/
def eval (W : World) (κ : Gid → ℕ) : MExpr → Py Rep
  | of m => m.eval W κ
  | add a b => do
    let x ← eval W κ a
    let y ← eval W κ b
    Rep.add W x y
  | mul a b => do
    let x ← eval W κ a
    let y ← eval W κ b
    Rep.mul W x y
  | dual a => do
    let x ← eval W κ a
    Rep.T W x
  | nsmul n a => do
    let x ← eval W κ a
    let v ← Rep.mulInt W x n
    match v with
    | .rep r => .ok r
    | .int _ => .error .attribute
  | rshift a b => do
    let x ← eval W κ a
    let y ← eval W κ b
    Rep.rshift W x y

/-- Dimension. -/
def dim (W : World) (κ : Gid → ℕ) : MExpr → ℕ
  | of m => m.dim W κ
  | add a b => a.dim W κ + b.dim W κ
  | mul a b => a.dim W κ * b.dim W κ
  | dual a => a.dim W κ
  | nsmul n a => n * a.dim W κ
  | rshift a b => b.dim W κ * a.dim W κ

/-- The largest dimension of a subexpression. -/
def bound (W : World) (κ : Gid → ℕ) : MExpr → ℕ
  | of m => m.dim W κ
  | add a b => max (a.bound W κ) (b.bound W κ)
  | mul a b => max (a.dim W κ * b.dim W κ) (max (a.bound W κ) (b.bound W κ))
  | dual a => a.bound W κ
  | nsmul _ a => a.bound W κ
  | rshift a b => max (b.dim W κ * a.dim W κ) (max (a.bound W κ) (b.bound W κ))

/-- The expressions considered: the groups belong to `Γ`; summands that involve a single group involve the group `g0`;
duals are only taken when all groups are flagged orthogonal; multiples are positive. -/
def OK (W : World) (Γ : Gid → Prop) (g0 : Gid) : MExpr → Prop
  | of m => (∀ g ∈ m.groups, Γ g) ∧ ∀ g, g ∈ m.groups → (∀ h ∈ m.groups, h = g) → g = g0
  | add a b => a.OK W Γ g0 ∧ b.OK W Γ g0
  | mul a b => a.OK W Γ g0 ∧ b.OK W Γ g0
  | dual a => (∀ g, Γ g → W.orth g = true) ∧ a.OK W Γ g0
  | nsmul n a => 0 < n ∧ a.OK W Γ g0
  | rshift a b => (∀ g, Γ g → W.orth g = true) ∧ a.OK W Γ g0 ∧ b.OK W Γ g0

/-- **Meaning**: the matrix and that of the dual. -/
def den {R : Type} [CommRing R] (κ : Gid → ℕ) (I : Interp R) : MExpr → DMat R × DMat R
  | of m => m.den κ I
  | add a b => (DMat.bdiag [(a.den κ I).1, (b.den κ I).1], DMat.bdiag [(a.den κ I).2, (b.den κ I).2])
  | mul a b => (DMat.kron (a.den κ I).1 (b.den κ I).1, DMat.kron (a.den κ I).2 (b.den κ I).2)
  | dual a => ((a.den κ I).2, (a.den κ I).1)
  | nsmul n a => (DMat.bdiag (replicate n (a.den κ I).1), DMat.bdiag (replicate n (a.den κ I).2))
  | rshift a b => (DMat.kron (b.den κ I).1 (a.den κ I).2, DMat.kron (b.den κ I).2 (a.den κ I).1)

/-- **Infinitesimal meaning**, and that of the dual. -/
def dden {R : Type} [CommRing R] (κ : Gid → ℕ) (I : Interp R) : MExpr → DMat R × DMat R
  | of m => m.dden κ I
  | add a b => (DMat.bdiag [(a.dden κ I).1, (b.dden κ I).1], DMat.bdiag [(a.dden κ I).2, (b.dden κ I).2])
  | mul a b => (DMat.kronsum (a.dden κ I).1 (b.dden κ I).1, DMat.kronsum (a.dden κ I).2 (b.dden κ I).2)
  | dual a => ((a.dden κ I).2, (a.dden κ I).1)
  | nsmul n a => (DMat.bdiag (replicate n (a.dden κ I).1), DMat.bdiag (replicate n (a.dden κ I).2))
  | rshift a b => (DMat.kronsum (b.dden κ I).1 (a.dden κ I).2, DMat.kronsum (b.dden κ I).2 (a.dden κ I).1)

end MExpr

/-- Canonical summands of size at most `N` in which only `g0` occurs alone. -/
def World.MultiAt (W : World) (Γ : Gid → Prop) (κ : Gid → ℕ) (g0 : Gid) (N : ℕ) (k : Key) : Prop :=
  k.size W ≤ N ∧ W.Multi Γ (letter κ) k ∧ ∀ f, k = .fac f → f.G = some g0

/-- What is needed of the groups: their representations have dimension at least two, and different groups have different
hashes. -/
structure World.GroupsOK (W : World) (Γ : Gid → Prop) (κ : Gid → ℕ) : Prop where
  two : ∀ g, Γ g → 2 ≤ W.asize (κ g) g
  inj : ∀ g h, Γ g → Γ h → W.ghash g = W.ghash h → g = h

/-- For sums in addition: no hash collisions among the finitely many canonical summands of size at most `N`, and
`Scalar.G` is unset, or hashes at most as high as the group that may occur alone. -/
structure World.MultiOK (W : World) (Γ : Gid → Prop) (κ : Gid → ℕ) (g0 : Gid) (N : ℕ) : Prop extends W.GroupsOK Γ κ where
  pos : 1 ≤ N
  hinj : ∀ a b, W.MultiAt Γ κ g0 N a → W.MultiAt Γ κ g0 N b → W.hash a = W.hash b → a = b
  sG : ∀ h, W.scalarG = some h → W.ghash h ≤ W.ghash g0

end Verif
