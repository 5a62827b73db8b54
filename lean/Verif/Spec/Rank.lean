import Verif.Spec.Elements
import Verif.Spec.RepWF
import Verif.Model.Groups

/-!
# Tensor ranks (specification)

The rank of a representation: how many vector indices its largest summand has.  `T(p,q)` has rank `p+q`, a direct sum the largest rank
of its summands.  `rk k` is the rank of the user-defined representation `k`; `rk 0` is that of `V`.
-/
namespace Verif
open List

/-- The rank of an atom. -/
def Atom.rank (rk : ℕ → ℕ) : Atom → ℕ
  | .vec k _ => rk k
  | .dual k _ => rk k

/-- The rank of a product: the sum over its factors. -/
def PRep.rank (rk : ℕ → ℕ) (p : PRep) : ℕ := (p.c.expand.map (Atom.rank rk)).sum

/-- The rank of a factor. -/
def Fac.rank (rk : ℕ → ℕ) : Fac → ℕ
  | .atom a => a.rank rk
  | .prod p => p.rank rk

/-- The rank of a product over several groups. -/
def DRep.rank (rk : ℕ → ℕ) (d : DRep) : ℕ := (d.c.expand.map (Fac.rank rk)).sum

/-- The rank of a summand; `Scalar` has rank 0. -/
def Key.rank (rk : ℕ → ℕ) : Key → ℕ
  | .scalar => 0
  | .fac f => f.rank rk
  | .dprod d => d.rank rk

/-- The rank of a representation: the largest rank of its summands. -/
def Rep.rank (rk : ℕ → ℕ) : Rep → ℕ
  | .key k => k.rank rk
  | .sum s => (s.c.expand.map (Key.rank rk)).foldr max 0
  | _ => 0

/-- The diagonal matrix with these signs. -/
def signMat {n : ℕ} (ε : Fin n → ℤˣ) : Matrix (Fin n) (Fin n) ℝ := Matrix.diagonal fun a => ((ε a : ℤ) : ℝ)

/-- A user-defined representation has rank at most `k`: on diagonal matrices of signs it is diagonal, and every entry is a product of
at most `k` of the signs (as for tensors with `k` indices). -/
def AtomRep.RankLE {n m : ℕ} (a : AtomRep ℝ n m) (k : ℕ) : Prop :=
  ∃ c : Fin m → Fin n → ℕ, (∀ i, ∑ j, c i j ≤ k) ∧ ∀ ε, a.rho (signMat ε) = Matrix.diagonal fun i => ∏ j, ((ε j : ℤ) : ℝ) ^ c i j

/-- The hypotheses on the group: `lie`, `disc` are the generators of `SO(n)` at `g`; together with the reflection `u` those of `O(n)`, for
which the flags and the user-defined representations are right; and these have the ranks `rk`. -/
structure RotationsIn (W : World) (g : Gid) (custom : ∀ k g, AtomRep ℝ (W.d g) (W.usize k g)) (rk : ℕ → ℕ)
    (lie disc : ∀ g, List (Matrix (Fin (W.d g)) (Fin (W.d g)) ℝ)) (t u : Arr3 ℝ) : Prop where
  so : soLie (W.d g) = .ok t
  o : oDisc (W.d g) = .ok u
  lies : lie g = t.mats (W.d g)
  discs : disc g = []
  ok : GroupsOK W custom lie (Function.update disc g (u.mats (W.d g)))
  rk0 : 1 ≤ rk 0
  rank : ∀ k, (custom k g).RankLE (rk k)

end Verif
