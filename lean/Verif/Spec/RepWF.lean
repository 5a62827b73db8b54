import Verif.Model.Rep

/-!
# Well-formed representation objects

The invariants of the objects that the constructors produce: the keys of a counter are listed in
increasing order, and `perm` is a permutation.  They are proved to hold of everything the operators return;
theorems about arbitrary operands assume them.
-/
namespace Verif
open List

/-- The matrices supplied on atoms have the sizes the library believes. -/
structure Interp.Sized (W : World) {R : Type} [CommRing R] (I : Interp R) : Prop where
  vec : ∀ k g, (I.vec k (some g)).sem.IsSq (W.asize k g)
  dual : ∀ k g, (I.dual k (some g)).sem.IsSq (W.asize k g)

/-- On each atom the dual matrix is the transposed inverse, and for orthogonal groups
(`is_orthogonal`) the matrix is its own transposed inverse. -/
structure Interp.Dual (W : World) {R : Type} [CommRing R] (I : Interp R) : Prop extends I.Sized W where
  inv : ∀ k g, (I.dual k (some g)).sem.transpose.mul (I.vec k (some g)).sem = DMat.one (W.asize k g)
  orth : ∀ k g, W.orth g = true → (I.vec k (some g)).sem.transpose.mul (I.vec k (some g)).sem = DMat.one (W.asize k g)

variable (W : World)

/-- A counter listed in increasing order, with positive multiplicities. -/
structure SortedCounter {K : Type} (lt : K → K → Bool) (c : Counter K) : Prop where
  ne : c ≠ []
  st : StrictTotalOn lt c.keys
  sorted : c.keys.Pairwise fun a b => lt a b = true
  pos : ∀ kc ∈ c, kc.2 ≠ 0

/-- Invariants of a `ProductRep`. -/
structure PRep.WF (p : PRep) : Prop where
  cnt : SortedCounter (Atom.lt W) p.c
  grp : ∃ g, ∀ a ∈ p.c.keys, a.G = some g
  perm : p.perm ~ range (p.size W)

/-- Invariants of an atom or `ProductRep`. -/
def Fac.WF : Fac → Prop
  | .atom a => a.G.isSome
  | .prod p => p.WF W

/-- The representation in canonical order (what `canonicalize()` returns first). -/
def Fac.base : Fac → Fac
  | .atom a => .atom a
  | .prod p => .prod ⟨p.c, range (p.size W)⟩

/-- The ordering `canonicalize()` returns second. -/
def Fac.permOf : Fac → List ℕ
  | .atom a => range (a.size W)
  | .prod p => p.perm

/-- Invariants of a `DirectProduct`. -/
structure DRep.WF (d : DRep) : Prop where
  cnt : SortedCounter (Fac.lt W) d.c
  one : ∀ kc ∈ d.c, kc.2 = 1
  key : ∀ f ∈ d.c.keys, f.WF W
  hash : ∀ f ∈ d.c.keys, f.hashable = true
  perm : d.perm ~ range (d.size W)

/-- Invariants of a key. -/
def Key.WF : Key → Prop
  | .scalar => True
  | .fac f => f.WF W
  | .dprod d => d.WF W

/-- The key in canonical order. -/
def Key.base : Key → Key
  | .scalar => .scalar
  | .fac f => .fac (f.base W)
  | .dprod d => .dprod ⟨d.c, range (d.size W)⟩

/-- The ordering `canonicalize()` returns second. -/
def Key.permOf : Key → List ℕ
  | .scalar => range 1
  | .fac f => f.permOf W
  | .dprod d => d.perm

/-- Invariants of a `SumRep`. -/
structure SRep.WF (s : SRep) : Prop where
  cnt : SortedCounter (Key.lt W) s.c
  key : ∀ k ∈ s.c.keys, k.WF W ∧ k.base W = k
  perm : s.perm ~ range (s.size W)

/-- Invariants of an instantiated representation. -/
def Rep.WF : Rep → Prop
  | .key k => k.WF W
  | .sum s => s.WF W
  | _ => False

/-- The canonically ordered summands (distinct) of a representation. -/
def Rep.keys : Rep → List Key
  | .key k => [k.base W]
  | .sum s => s.c.keys
  | _ => []

/-- `rep.size()` -/
def Rep.size : Rep → ℕ
  | .key k => k.size W
  | .sum s => s.size W
  | _ => 0

/-- The attribute `rep.perm`, for the classes that have one. -/
def Rep.perm? : Rep → Option (List ℕ)
  | .key (.fac (.prod p)) => some p.perm
  | .key (.dprod d) => some d.perm
  | .sum s => some s.perm
  | _ => none

/-- The summands of a representation, in canonical order, with multiplicity. -/
def Rep.summands : Rep → List Key
  | .key k => [k.base W]
  | .sum s => s.c.expand
  | _ => []

/-- The factors of an atom or `ProductRep`, with multiplicity. -/
def Fac.letters : Fac → List Atom
  | .atom a => [a]
  | .prod p => p.c.expand

section
variable {R : Type} [CommRing R] (I : Interp R)

/-- The matrix `rep.rho(M)` denotes (a `0 × 0` matrix for deferred representations, where `rho` raises). -/
def Rep.mat : Rep → DMat R
  | .key k => (k.rho I).sem
  | .sum s => (s.rho I).sem
  | _ => DMat.zero 0 0

end
end Verif
