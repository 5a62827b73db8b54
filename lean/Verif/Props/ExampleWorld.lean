import Verif.Lemmas.PySort
import Verif.Spec.Single
import Mathlib.Tactic.DeriveEncodable
import Mathlib.Logic.Encodable.Basic
import Mathlib.Logic.Equiv.List

/-!
# A concrete environment

Used to show that the hypotheses of the property theorems are satisfiable: groups `0` (like `SO(3)`), `1` (like
`SL(2)`, not orthogonal), `2` (like `S(3)`), `3` (like `O(2)`), and an injective hash.
-/
namespace Verif

deriving instance Encodable for Atom
deriving instance Encodable for PRep
deriving instance Encodable for Fac
deriving instance Encodable for DRep
deriving instance Encodable for Key

/-- The example environment. -/
def exW : World where
  d g := if g = 0 then 3 else if g = 2 then 3 else 2
  orth g := g ≠ 1
  isPerm g := g = 2
  ghash g := g
  usize k g := k + g + 2
  hash k := Encodable.encode k
  scalarG := none
  setOrder l := l
  setOrder_perm _ := List.Perm.refl _
  sorted := pySort
  sorted_perm _ l := pySort_perm l
  sorted_ord _ _ hn h := pySort_sorted hn h

theorem exW_hash_inj {a b : Key} (h : exW.hash a = exW.hash b) : a = b := by
  have : (Encodable.encode a : ℤ) = Encodable.encode b := h
  exact Encodable.encode_injective (by exact_mod_cast this)

theorem exW_single (g : Gid) (N : ℕ) (hN : 1 ≤ N) : exW.SingleOK g N where
  pos := hN
  inj _ _ _ _ h := exW_hash_inj h
  sG h hs := by simp [exW] at hs

end Verif
