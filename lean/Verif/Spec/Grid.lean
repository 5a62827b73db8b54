import Mathlib.Data.ZMod.Basic
import Mathlib.Data.Matrix.Mul
import Mathlib.Data.Real.Basic

/-!
# Motions of a square grid with orientation channels (specification for C63)

A signal of `ZksZnxZn(k,n)` has one value for every orientation `a` (modulo `k`) and pixel `(i,j)` (modulo `n`).
-/
namespace Verif

/-- Pixels of the periodic `n × n` grid. -/
abbrev Pixel (n : ℕ) := ZMod n × ZMod n

/-- Orientation and pixel. -/
abbrev Site (k n : ℕ) := ZMod k × Pixel n

/-- The position of a site in the flattened array of shape `(k,n,n)`. -/
def sitePos {k n : ℕ} (p : Site k n) : ℕ := p.1.val * (n * n) + (p.2.1.val * n + p.2.2.val)

/-- A quarter turn about the origin. -/
def turn0 {n : ℕ} (x : Pixel n) : Pixel n := (-x.2, x.1)

/-- A quarter turn about the centre of the image: the last row goes to the last column and so on. -/
def turn {n : ℕ} (x : Pixel n) : Pixel n := (-1 - x.2, x.1)

/-- Turn by `s` steps of `4/k` quarters each and the orientation with it, then translate by `t`. -/
def motion {k n : ℕ} (s : ZMod k) (t : Pixel n) (p : Site k n) : Site k n := (p.1 + s, turn^[4 / k * s.val] p.2 + t)

/-- The matrix `M` moves the value at every site `p` to the site `f p`. -/
def Moves {k n : ℕ} (M : Matrix (Fin (k * (n * n))) (Fin (k * (n * n))) ℝ) (f : Site k n → Site k n) : Prop :=
  ∀ (p q : Site k n) (hp : sitePos p < k * (n * n)) (hq : sitePos q < k * (n * n)), M ⟨sitePos q, hq⟩ ⟨sitePos p, hp⟩ = if q = f p then 1 else 0

end Verif
