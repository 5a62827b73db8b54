import Verif.Model.Np

/-! # Permutation groups (specification) -/
namespace Verif

/-- The permutations of `0..n-1` (as index lists) generated by `gens`: all finite products of generators
and inverses of generators. -/
inductive InPermGroup (n : ℕ) (gens : List (List ℕ)) : List ℕ → Prop
  | one : InPermGroup n gens (List.range n)
  | mul {p q : List ℕ} : p ∈ gens → InPermGroup n gens q → InPermGroup n gens (gather p q)
  | inv {p q : List ℕ} : p ∈ gens → InPermGroup n gens q → InPermGroup n gens (gather (argsort p) q)

/-- A corner sticker of its face. -/
def isCorner (s : ℕ) : Bool := [0, 2, 5, 7].contains (s % 8)

/-- The corner stickers of the 3x3 cube. -/
abbrev CornerSticker := {s : Fin 48 // isCorner s = true}

/-- The edge stickers of the 3x3 cube. -/
abbrev EdgeSticker := {s : Fin 48 // isCorner s = false}

/-- How many corner stickers show colour `k`. -/
def cornerCount (c : List ℕ) (k : ℕ) : ℕ := ((List.range 48).filter fun s => isCorner s && c.getD s 0 == k).length

/-- How many edge stickers show colour `k`. -/
def edgeCount (c : List ℕ) (k : ℕ) : ℕ := ((List.range 48).filter fun s => !isCorner s && c.getD s 0 == k).length

end Verif
